import Verif.Tensor.Spec
import Mathlib.Algebra.BigOperators.Ring.Finset
import Mathlib.Data.Fintype.BigOperators
import Mathlib.Algebra.BigOperators.Fin
import Mathlib.Tactic.Ring

namespace Einpy
open Classical

section Slots
variable {R : Type*} [CommRing R] {r n : Nat}

theorem applySlots_one (T : Tns R r n) : applySlots (fun _ => 1) T = T := by
  funext i
  unfold applySlots
  rw [Finset.sum_eq_single i]
  · simp
  · intro j _ hj
    obtain ⟨s, hs⟩ := Function.ne_iff.mp hj
    rw [Finset.prod_eq_zero (Finset.mem_univ s), zero_mul]
    exact Matrix.one_apply_ne (Ne.symm hs)
  · simp

theorem applySlots_comp (F G : Fin r → Matrix (Fin n) (Fin n) R) (T : Tns R r n) :
    applySlots F (applySlots G T) = applySlots (fun s => F s * G s) T := by
  funext i
  unfold applySlots
  simp only [Finset.mul_sum]
  rw [Finset.sum_comm]
  refine Finset.sum_congr rfl fun j _ => ?_
  have h : (∏ s, (F s * G s) (i s) (j s)) = ∑ k : Fin r → Fin n, ∏ s, F s (i s) (k s) * G s (k s) (j s) := by
    simp only [Matrix.mul_apply]
    rw [Finset.prod_univ_sum]
    simp
  rw [h, Finset.sum_mul]
  refine Finset.sum_congr rfl fun k _ => ?_
  rw [Finset.prod_mul_distrib]
  ring

theorem applySlots_single (m : Fin r) (A : Matrix (Fin n) (Fin n) R) (T : Tns R r n) :
    applySlots (Function.update (fun _ => 1) m A) T
      = fun i => ∑ k, A (i m) k * T (Function.update i m k) := by
  funext i
  unfold applySlots
  symm
  apply Finset.sum_of_injOn (fun k : Fin n => Function.update i m k)
  · intro a _ b _ h
    have := congrFun h m
    simpa using this
  · intro a _; simp
  · intro j _ hj
    have hj' : j ≠ Function.update i m (j m) := by
      intro h; apply hj; exact ⟨j m, by simp, h.symm⟩
    obtain ⟨s, hs⟩ := Function.ne_iff.mp hj'
    have hsm : s ≠ m := by rintro rfl; simp at hs
    rw [Finset.prod_eq_zero (Finset.mem_univ s), zero_mul]
    rw [Function.update_of_ne hsm]
    rw [Function.update_of_ne hsm] at hs
    exact Matrix.one_apply_ne (Ne.symm hs)
  · intro k _
    rw [Finset.prod_eq_single m]
    · simp
    · intro s _ hs
      simp [Function.update_of_ne hs]
    · simp
end Slots

/-! ### the axis permutation -/

theorem destPerm_eq (r i : Nat) (hi : i < r) :
    destPerm r i = ((List.range' 1 (r - 1)).insertIdx i 0) := by
  unfold destPerm
  have : List.range r = 0 :: List.range' 1 (r - 1) := by
    rw [List.range_eq_range']
    conv_lhs => rw [show r = (r - 1) + 1 by omega]
    rw [List.range'_succ]
  rw [this]; simp

theorem destPerm_length (r i : Nat) (hi : i < r) : (destPerm r i).length = r := by
  rw [destPerm_eq r i hi, List.length_insertIdx]
  simp only [List.length_range']; split_ifs <;> omega

theorem destPerm_getElem (r i k : Nat) (hi : i < r) (hk : k < (destPerm r i).length) :
    (destPerm r i)[k] = if k < i then k + 1 else if k = i then 0 else k := by
  have hk' : k < r := by rwa [destPerm_length r i hi] at hk
  simp only [destPerm_eq r i hi, List.getElem_insertIdx]
  split
  · simp; omega
  · split
    · rfl
    · simp; omega

theorem destPerm_nodup (r i : Nat) (hi : i < r) : (destPerm r i).Nodup := by
  rw [List.nodup_iff_injective_get]
  intro a b h
  simp only [List.get_eq_getElem, destPerm_getElem r i _ hi] at h
  apply Fin.ext
  split_ifs at h <;> omega

theorem destPerm_idxOf (r i m : Nat) (hi : i < r) (hm : m < r) :
    (destPerm r i).idxOf m = if m = 0 then i else if m ≤ i then m - 1 else m := by
  set k := if m = 0 then i else if m ≤ i then m - 1 else m with hk
  have hkr : k < (destPerm r i).length := by
    rw [destPerm_length r i hi, hk]; split_ifs <;> omega
  have : (destPerm r i)[k] = m := by
    rw [destPerm_getElem r i k hi hkr, hk]; split_ifs <;> omega
  conv_lhs => rw [← this]
  exact List.Nodup.idxOf_getElem (destPerm_nodup r i hi) k hkr

theorem perm_index (r i : Nat) (idx : List Nat) (hi : i < r) (hl : idx.length = r) :
    ((List.range r).map fun m => idx.getD ((destPerm r i).idxOf m) 0)
      = idx.getD i 0 :: idx.eraseIdx i := by
  apply List.ext_getElem
  · simp [List.length_eraseIdx, hl, hi]; omega
  · intro m h1 h2
    have hm : m < r := by simpa using h1
    simp only [List.getElem_map, List.getElem_range, destPerm_idxOf r i m hi hm]
    rcases m with _ | m
    · simp
    · simp only [Nat.add_one_ne_zero, if_false, List.getElem_cons_succ, List.getElem_eraseIdx]
      split_ifs <;> first | omega | (simp [List.getD_eq_getElem?_getD]; rw [List.getElem?_eq_getElem (by omega)]; simp)

/-- One pass of the loop of `_change_config` / `lorentz_transform` on an in-range slot. -/
theorem contractSlot_ok {R : Type*} [CommRing R] {r n : Nat} (m t : NDArr R) (p i : Nat)
    (hp : p < 2) (hm : m.shape = [n, n]) (ht : t.shape = List.replicate r n) (hi : i < r) :
    ∃ t', contractSlot m p t i = .ok t' ∧ t'.shape = List.replicate r n ∧
      ∀ idx : List Nat, idx.length = r → t'.get idx = ∑ k ∈ Finset.range n,
        m.get (if p = 1 then [idx.getD i 0, k] else [k, idx.getD i 0]) * t.get (idx.set i k) := by
  have hsh : (m.tensorproduct t).shape = List.replicate (r + 2) n := by
    simp [NDArr.tensorproduct, hm, ht, List.replicate_succ]
  have h1 : (m.tensorproduct t).shape[p]? = some n := by
    rw [hsh, List.getElem?_replicate]; simp; omega
  have h2 : (m.tensorproduct t).shape[2 + i]? = some n := by
    rw [hsh, List.getElem?_replicate]; simp; omega
  have hcsh : ((m.tensorproduct t).shape.eraseIdx (2 + i)).eraseIdx p = List.replicate r n := by
    rw [hsh]
    apply List.ext_getElem
    · rw [List.length_eraseIdx, List.length_eraseIdx]
      simp only [List.length_replicate]
      split_ifs <;> omega
    · intro k _ _
      simp [List.getElem_eraseIdx]
  refine ⟨_, by
    unfold contractSlot NDArr.tensorcontraction
    rw [h1, h2]
    simp only [if_true]
    rfl, ?_, ?_⟩
  · simp only [NDArr.permutedims, hcsh, List.length_replicate]
    apply List.ext_getElem
    · simp [destPerm_length r i hi]
    · intro k h1 h2
      have hk : k < (destPerm r i).length := by simpa using h1
      have hkr : k < r := by simpa using h2
      simp only [List.getElem_map, destPerm_getElem r i k hi hk, List.getElem_replicate]
      rw [List.getD_eq_getElem?_getD, List.getElem?_replicate]
      rw [if_pos (by split_ifs <;> omega)]; rfl
  · intro idx hl
    simp only [NDArr.permutedims, NDArr.rank, hcsh, List.length_replicate]
    rw [perm_index r i idx hi hl]
    refine Finset.sum_congr rfl fun k _ => ?_
    have hset : (idx.eraseIdx i).insertIdx i k = idx.set i k := by
      apply List.ext_getElem
      · rw [List.length_insertIdx]; simp [List.length_eraseIdx, hl, hi]; split_ifs <;> omega
      · intro a h1 h2
        simp only [List.getElem_insertIdx, List.getElem_eraseIdx, List.getElem_set]
        split_ifs <;> first | rfl | omega | (congr 1; omega)
    have hrank : m.rank = 2 := by simp [NDArr.rank, hm]
    have hp' : p = 0 ∨ p = 1 := by omega
    rcases hp' with rfl | rfl
    · simp [NDArr.tensorproduct, hrank, Nat.add_comm 2 i, hset, List.insertIdx_succ_cons]
    · simp [NDArr.tensorproduct, hrank, Nat.add_comm 2 i, hset, List.insertIdx_succ_cons]

theorem multiIx_length {r n : Nat} (i : Fin r → Fin n) : (multiIx i).length = r := by
  simp [multiIx]

theorem multiIx_getD {r n : Nat} (i : Fin r → Fin n) (s : Fin r) :
    (multiIx i).getD s 0 = i s := by
  simp [multiIx, List.getD_eq_getElem?_getD]

theorem multiIx_set {r n : Nat} (i : Fin r → Fin n) (s : Fin r) (k : Fin n) :
    (multiIx i).set s k = multiIx (Function.update i s k) := by
  apply List.ext_getElem
  · simp [multiIx]
  · intro a h1 h2
    simp only [multiIx, List.getElem_set, List.getElem_ofFn, Function.update_apply]
    by_cases h : (s : Nat) = a
    · subst h; simp
    · have h2 : ¬ (⟨a, by simpa [multiIx] using h1⟩ : Fin r) = s := by
        intro e; apply h; rw [← e]
      simp [h, h2]

/-- The 2-index array as the matrix contracted by `contractSlot`. -/
def slotOf {R : Type*} (m : NDArr R) (p n : Nat) : Matrix (Fin n) (Fin n) R :=
  if p = 1 then m.toMatrix n else (m.toMatrix n).transpose

theorem contractSlot_comp {R : Type*} [CommRing R] {r n : Nat} (m t : NDArr R) (p : Nat)
    (s : Fin r) (hp : p < 2) (hm : m.shape = [n, n]) (ht : t.IsCube r n) :
    ∃ t', contractSlot m p t s = .ok t' ∧ t'.IsCube r n ∧
      t'.comp r n = applySlots (Function.update (fun _ => 1) s (slotOf m p n)) (t.comp r n) := by
  obtain ⟨t', h1, h2, h3⟩ := contractSlot_ok m t p s hp hm ht s.2
  refine ⟨t', h1, h2, ?_⟩
  rw [applySlots_single]
  funext i
  have := h3 (multiIx i) (multiIx_length i)
  rw [NDArr.comp, this, Finset.sum_range]
  refine Finset.sum_congr rfl fun k _ => ?_
  rw [multiIx_set, multiIx_getD]
  have hp' : p = 0 ∨ p = 1 := by omega
  rcases hp' with rfl | rfl <;> simp [slotOf, NDArr.toMatrix, NDArr.comp]

end Einpy
