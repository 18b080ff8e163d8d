import Verif.Curv.Model
import Verif.Curv.Geo3
import Verif.Tensor.Props

/-!
# The curvature loops compute the textbook formulas
-/

set_option linter.unusedSectionVars false

namespace Einpy
open Classical

/-! ## loops -/

theorem foldl_cells {R : Type*} (body : Cells R → Nat → Cells R) (c : List Nat) (W : Nat → Prop)
    (v : R) (l : List Nat) (h1 : ∀ tmp t, t ∈ l → W t → body tmp t c = v)
    (h2 : ∀ tmp t, t ∈ l → ¬ W t → body tmp t c = tmp c) :
    ∀ init : Cells R, (init c = v ∨ ∃ t ∈ l, W t) → (l.foldl body init) c = v := by
  induction l with
  | nil => intro init h; rcases h with h | ⟨t, ht, _⟩; exacts [h, by simp at ht]
  | cons a l ih =>
    intro init h
    rw [List.foldl_cons]
    refine ih (fun tmp t ht => h1 tmp t (List.mem_cons_of_mem _ ht))
      (fun tmp t ht => h2 tmp t (List.mem_cons_of_mem _ ht)) _ ?_
    by_cases ha : W a
    · left; exact h1 _ _ List.mem_cons_self ha
    · rcases h with h | ⟨t, ht, hW⟩
      · left; rw [h2 _ _ List.mem_cons_self ha]; exact h
      · rcases List.mem_cons.mp ht with rfl | ht
        · exact absurd hW ha
        · right; exact ⟨t, ht, hW⟩

theorem digits3 {n : Nat} (i j k : Nat) (hi : i < n) (hj : j < n) (hk : k < n) :
    let t := i * n ^ 2 + j * n + k
    t < n ^ 3 ∧ t % n = k ∧ (t / n) % n = j ∧ (t / n ^ 2) % n = i := by
  have hn : 0 < n := by omega
  have e1 : i * n ^ 2 + j * n + k = (i * n + j) * n + k := by ring
  have d1 : (i * n ^ 2 + j * n + k) / n = i * n + j := by
    rw [e1, Nat.add_comm, Nat.add_mul_div_right _ _ hn, Nat.div_eq_of_lt hk, Nat.zero_add]
  have d2 : (i * n ^ 2 + j * n + k) / n ^ 2 = i := by
    rw [pow_two, ← Nat.div_div_eq_div_mul, ← pow_two, d1, Nat.add_comm,
      Nat.add_mul_div_right _ _ hn, Nat.div_eq_of_lt hj, Nat.zero_add]
  refine ⟨?_, ?_, ?_, ?_⟩
  · have h1 : i * n + j < n * n := by nlinarith
    have h2 : (i * n + j + 1) * n ≤ n * n * n := Nat.mul_le_mul_right _ h1
    calc i * n ^ 2 + j * n + k = (i * n + j) * n + k := e1
      _ < (i * n + j + 1) * n := by nlinarith
      _ ≤ n * n * n := h2
      _ = n ^ 3 := by ring
  · rw [e1, Nat.add_comm, Nat.add_mul_mod_self_right, Nat.mod_eq_of_lt hk]
  · rw [d1, Nat.add_comm, Nat.add_mul_mod_self_right, Nat.mod_eq_of_lt hj]
  · rw [d2, Nat.mod_eq_of_lt hi]

theorem digits4 {n : Nat} (h i j k : Nat) (hh : h < n) (hi : i < n) (hj : j < n) (hk : k < n) :
    let t := h * n ^ 3 + i * n ^ 2 + j * n + k
    t < n ^ 4 ∧ t % n = k ∧ (t / n) % n = j ∧ (t / n ^ 2) % n = i ∧ (t / n ^ 3) % n = h := by
  have hn : 0 < n := by omega
  have e1 : h * n ^ 3 + i * n ^ 2 + j * n + k = (h * n ^ 2 + i * n + j) * n + k := by ring
  have d1 : (h * n ^ 3 + i * n ^ 2 + j * n + k) / n = h * n ^ 2 + i * n + j := by
    rw [e1, Nat.add_comm, Nat.add_mul_div_right _ _ hn, Nat.div_eq_of_lt hk, Nat.zero_add]
  obtain ⟨f1, f2, f3, f4⟩ := digits3 h i j hh hi hj
  refine ⟨?_, ?_, ?_, ?_, ?_⟩
  · have h2 : (h * n ^ 2 + i * n + j + 1) * n ≤ n ^ 3 * n := Nat.mul_le_mul_right _ f1
    calc h * n ^ 3 + i * n ^ 2 + j * n + k = (h * n ^ 2 + i * n + j) * n + k := e1
      _ < (h * n ^ 2 + i * n + j + 1) * n := by nlinarith
      _ ≤ n ^ 3 * n := h2
      _ = n ^ 4 := by ring
  · rw [e1, Nat.add_comm, Nat.add_mul_mod_self_right, Nat.mod_eq_of_lt hk]
  · rw [d1]; exact f2
  · rw [show n ^ 2 = n * n from pow_two n, ← Nat.div_div_eq_div_mul, ← pow_two, d1]; exact f3
  · rw [show n ^ 3 = n * n ^ 2 by ring, ← Nat.div_div_eq_div_mul, ← show n ^ 3 = n * n ^ 2 by ring, d1]
    exact f4

section
variable {R : Type*} [CommRing R] [Algebra ℚ R] (D : String → Derivation ℚ R R)

theorem foldl_add_acc (l : List Nat) (f : Nat → R) : ∀ acc : R,
    l.foldl (fun acc n => acc + f n) acc = acc + (l.map f).sum := by
  induction l with
  | nil => intro acc; simp
  | cons a l ih => intro acc; rw [List.foldl_cons, ih]; simp [add_assoc]

theorem sumLoop_eq (dims : Nat) (acc : R) (f : Nat → R) :
    sumLoop dims acc f = acc + ∑ n : Fin dims, f n := by
  unfold sumLoop
  rw [foldl_add_acc, ← Finset.sum_range (fun n => f n)]
  congr 1

/-- the coordinate derivations -/
def coordD (syms : List String) (n : Nat) : Fin n → Derivation ℚ R R := fun k => D (syms.getD k "")

theorem coordD_apply (syms : List String) (n : Nat) (k : Fin n) (x : R) :
    coordD D syms n k x = diffAt D syms k x := rfl

theorem christoffelCells_eq {n : Nat} (syms : List String) (mat matinv : NDArr R)
    (g : Matrix (Fin n) (Fin n) R) (hg : mat.toMatrix n = g) (hgi : matinv.toMatrix n = g⁻¹)
    (hs : g.transpose = g) (i j k : Fin n) :
    christoffelCells D syms n mat matinv [(i : Nat), j, k]
      = Geo.christoffel (coordD D syms n) g i j k := by
  have hgc : ∀ a b : Fin n, mat.get [(a : Nat), b] = g a b := fun a b => by rw [← hg]; rfl
  have hgic : ∀ a b : Fin n, matinv.get [(a : Nat), b] = g⁻¹ a b := fun a b => by rw [← hgi]; rfl
  have hval : ∀ (a b c : Fin n), (sumLoop n 0 fun n =>
        ((2 : ℚ)⁻¹ • matinv.get [(a : Nat), n]) *
          (diffAt D syms c (mat.get [n, b]) + diffAt D syms b (mat.get [n, c])
            - diffAt D syms n (mat.get [b, c]))) = Geo.christoffel (coordD D syms n) g a b c := by
    intro a b c
    rw [sumLoop_eq, zero_add]
    unfold Geo.christoffel Geo.half
    rw [Finset.smul_sum]
    refine Finset.sum_congr rfl fun m _ => ?_
    rw [hgic, hgc, hgc, hgc, smul_mul_assoc]
    rfl
  unfold christoffelCells
  set W : Nat → Prop := fun t => t % n ≤ (t / n) % n ∧ (t / n ^ 2) % n = i ∧
    (((t / n) % n = j ∧ t % n = k) ∨ ((t / n) % n = k ∧ t % n = j)) with hW
  have hn : 0 < n := by have := i.2; omega
  refine foldl_cells _ _ W _ _ ?_ ?_ _ (Or.inr ?_)
  · rintro tmp t - ⟨h1, h2, h3⟩
    simp only [if_pos h1, h2]
    have key : ∀ (a b : Fin n), (t / n) % n = a → t % n = b →
        (((tmp.set [(i : Nat), b, a] (sumLoop n 0 fun n =>
        ((2 : ℚ)⁻¹ • matinv.get [(i : Nat), n]) *
          (diffAt D syms b (mat.get [n, a]) + diffAt D syms a (mat.get [n, b])
            - diffAt D syms n (mat.get [a, b])))).set [(i : Nat), a, b] (sumLoop n 0 fun n =>
        ((2 : ℚ)⁻¹ • matinv.get [(i : Nat), n]) *
          (diffAt D syms b (mat.get [n, a]) + diffAt D syms a (mat.get [n, b])
            - diffAt D syms n (mat.get [a, b])))) [(i : Nat), a, b]
          = Geo.christoffel (coordD D syms n) g i a b) ∧
        (((tmp.set [(i : Nat), b, a] (sumLoop n 0 fun n =>
        ((2 : ℚ)⁻¹ • matinv.get [(i : Nat), n]) *
          (diffAt D syms b (mat.get [n, a]) + diffAt D syms a (mat.get [n, b])
            - diffAt D syms n (mat.get [a, b])))).set [(i : Nat), a, b] (sumLoop n 0 fun n =>
        ((2 : ℚ)⁻¹ • matinv.get [(i : Nat), n]) *
          (diffAt D syms b (mat.get [n, a]) + diffAt D syms a (mat.get [n, b])
            - diffAt D syms n (mat.get [a, b])))) [(i : Nat), b, a]
          = Geo.christoffel (coordD D syms n) g i b a) := by
      intro a b _ _
      constructor
      · unfold Cells.set; rw [if_pos rfl, hval]
      · unfold Cells.set
        split_ifs
        · rw [hval, Geo.christoffel_symm _ g hs]
        · rw [hval, Geo.christoffel_symm _ g hs]
        · contradiction
    rcases h3 with ⟨h3, h4⟩ | ⟨h3, h4⟩
    · rw [h3, h4]; exact (key j k h3 h4).1
    · rw [h3, h4]; exact (key k j h3 h4).2
  · intro tmp t _ hnW
    simp only
    split_ifs with h1
    · have e1 : ¬ ([(i : Nat), j, k] = [(t / n ^ 2) % n, (t / n) % n, t % n]) := by
        intro h
        simp only [List.cons.injEq, and_true] at h
        exact hnW ⟨h1, h.1.symm, Or.inl ⟨h.2.1.symm, h.2.2.symm⟩⟩
      have e2 : ¬ ([(i : Nat), j, k] = [(t / n ^ 2) % n, t % n, (t / n) % n]) := by
        intro h
        simp only [List.cons.injEq, and_true] at h
        exact hnW ⟨h1, h.1.symm, Or.inr ⟨h.2.2.symm, h.2.1.symm⟩⟩
      unfold Cells.set
      rw [if_neg e1, if_neg e2]
    · rfl
  · by_cases hkj : (k : Nat) ≤ j
    · obtain ⟨f1, f2, f3, f4⟩ := digits3 (i : Nat) j k i.2 j.2 k.2
      exact ⟨_, List.mem_range.mpr f1, by rw [f2, f3]; exact hkj, f4, Or.inl ⟨f3, f2⟩⟩
    · obtain ⟨f1, f2, f3, f4⟩ := digits3 (i : Nat) k j i.2 k.2 j.2
      exact ⟨_, List.mem_range.mpr f1, by rw [f2, f3]; omega, f4, Or.inr ⟨f3, f2⟩⟩

theorem riemannCells_eq {n : Nat} (syms : List String) (arr : NDArr R)
    (g : Matrix (Fin n) (Fin n) R)
    (h : ∀ i j k : Fin n, arr.get [(i : Nat), j, k] = Geo.christoffel (coordD D syms n) g i j k)
    (t s r m : Fin n) :
    riemannCells D syms n arr [(t : Nat), s, r, m] = Geo.riemann (coordD D syms n) g t s r m := by
  unfold riemannCells
  refine foldl_cells _ _ (fun i => i % n = m ∧ (i / n) % n = r ∧ (i / n ^ 2) % n = s ∧
    (i / n ^ 3) % n = t) _ _ ?_ ?_ _ (Or.inr ?_)
  · rintro tmp i - ⟨h1, h2, h3, h4⟩
    simp only [h1, h2, h3, h4]
    unfold Cells.set
    rw [if_pos rfl, sumLoop_eq]
    unfold Geo.riemann
    simp only [h]
    rfl
  · intro tmp i _ hnW
    show Cells.set _ _ _ _ = _
    unfold Cells.set
    rw [if_neg]
    intro hh
    simp only [List.cons.injEq, and_true] at hh
    exact hnW ⟨hh.2.2.2.symm, hh.2.2.1.symm, hh.2.1.symm, hh.1.symm⟩
  · obtain ⟨f1, f2, f3, f4, f5⟩ := digits4 (t : Nat) s r m t.2 s.2 r.2 m.2
    exact ⟨_, List.mem_range.mpr f1, f2, f3, f4, f5⟩

end
end Einpy
