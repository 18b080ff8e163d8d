import Verif.Predef.Ernst

/-!
# C94: the Davidson metric is a radiation-filled perfect fluid
-/

set_option linter.unusedSectionVars false

namespace Einpy.Predef
open Geo (Along)

section
variable {K : Type} [Field K] [Algebra ℚ K] {D : String → Derivation ℚ K K} {F : Fns K}

/-- x ** y for a constant exponent y: its derivatives, and it does not vanish. -/
structure PowAt (D : String → Derivation ℚ K K) (F : Fns K) (cs : List String) (x y : K) : Prop where
  ne : F.pow x y ≠ 0
  d : ∀ s ∈ cs, D s (F.pow x y) = y * F.pow x y / x * D s x

/-- The coordinates of `Davidson()`. -/
abbrev cyl : List String := ["t", "r", "z", "phi"]

theorem pF_davidson {d : Fin 4 → Derivation ℚ K K} {t r E T S : K} (hr : Along d 1 r 1)
    (hE : Along d 1 E (4 * r / (5 * (1 + r ^ 2)) * E)) (hT : Along d 0 T (4 / (3 * t) * T)) (hS : Along d 0 S (-2 / (3 * t) * S))
    (E0 : E ≠ 0) (T0 : T ≠ 0) (S0 : S ≠ 0) (t0 : t ≠ 0) (r0 : r ≠ 0) (hr2 : 1 + r ^ 2 ≠ 0) (i j : Fin 4) :
    Geo.pF d ![-(E ^ 3), T * E, S / E, T * r ^ 2 / E] i j =
      ![![0, 2 / (3 * t), -1 / (3 * t), 2 / (3 * t)],
        ![3 * (2 * r / (5 * (1 + r ^ 2))), 2 * r / (5 * (1 + r ^ 2)), -(2 * r / (5 * (1 + r ^ 2))), 1 / r - 2 * r / (5 * (1 + r ^ 2))],
        ![0, 0, 0, 0], ![0, 0, 0, 0]] i j := by
  have : CharZero K := algebraRat.charZero K
  unfold Geo.pF
  fin_cases j
  · show d i (-(E ^ 3)) / (2 * (-(E ^ 3))) = _
    rw [map_neg, Derivation.leibniz_pow, hE i]
    fin_cases i <;> simp <;> field_simp <;> ring1
  · show d i (T * E) / (2 * (T * E)) = _
    rw [Derivation.leibniz, hE i, hT i]
    fin_cases i <;> simp <;> field_simp <;> ring1
  · show d i (S / E) / (2 * (S / E)) = _
    rw [Derivation.leibniz_div, hE i, hS i]
    fin_cases i <;> simp <;> field_simp <;> ring1
  · show d i (T * r ^ 2 / E) / (2 * (T * r ^ 2 / E)) = _
    rw [Derivation.leibniz_div, Derivation.leibniz, Derivation.leibniz_pow, hE i, hT i, hr i]
    fin_cases i <;> simp <;> field_simp <;> ring1

theorem ricci_davidson {d : Fin 4 → Derivation ℚ K K} {t r E T S : K} (ht : Along d 0 t 1) (hr : Along d 1 r 1)
    (hE : Along d 1 E (4 * r / (5 * (1 + r ^ 2)) * E)) (hT : Along d 0 T (4 / (3 * t) * T)) (hS : Along d 0 S (-2 / (3 * t) * S))
    (E0 : E ≠ 0) (T0 : T ≠ 0) (S0 : S ≠ 0) (t0 : t ≠ 0) (r0 : r ≠ 0) (hr2 : 1 + r ^ 2 ≠ 0)
    (hh : ∀ i, ![-(E ^ 3), T * E, S / E, T * r ^ 2 / E] i ≠ 0) (i j : Fin 4) :
    Geo.ricci d (Matrix.diagonal ![-(E ^ 3), T * E, S / E, T * r ^ 2 / E]) i j =
      (if i = 0 then -3 else 1) * (4 / (5 * (1 + r ^ 2) ^ 2 * T * E)) *
        Matrix.diagonal ![-(E ^ 3), T * E, S / E, T * r ^ 2 / E] i j := by
  have : CharZero K := algebraRat.charZero K
  have P := pF_davidson hr hE hT hS E0 T0 S0 t0 r0 hr2
  have d3 : ∀ i, d i (3:K) = 0 := fun i => by
    have := Derivation.map_natCast (d i) 3
    rwa [Nat.cast_ofNat] at this
  have d5 : ∀ i, d i (5:K) = 0 := fun i => by
    have := Derivation.map_natCast (d i) 5
    rwa [Nat.cast_ofNat] at this
  have a1 : ∀ i, d i (2 / (3 * t)) = if i = 0 then -2 / (3 * t ^ 2) else 0 := by
    intro i
    rw [Derivation.leibniz_div, Derivation.leibniz, d_two, d3, ht i]
    fin_cases i <;> simp <;> field_simp
  have a2 : ∀ i, d i (-1 / (3 * t)) = if i = 0 then 1 / (3 * t ^ 2) else 0 := by
    intro i
    rw [Derivation.leibniz_div, Derivation.leibniz, map_neg, Derivation.map_one_eq_zero, d3, ht i]
    fin_cases i <;> simp <;> field_simp
  have a3 : ∀ i, d i (2 * r / (5 * (1 + r ^ 2))) = if i = 1 then 2 * (1 - r ^ 2) / (5 * (1 + r ^ 2) ^ 2) else 0 := by
    intro i
    rw [Derivation.leibniz_div, Derivation.leibniz, Derivation.leibniz, map_add, Derivation.leibniz_pow, d_two, d5,
      Derivation.map_one_eq_zero, hr i]
    fin_cases i <;> simp <;> field_simp <;> ring
  have a4 : ∀ i, d i (1 / r) = if i = 1 then -1 / r ^ 2 else 0 := by
    intro i
    rw [Derivation.leibniz_div, Derivation.map_one_eq_zero, hr i]
    fin_cases i <;> simp <;> field_simp
  by_cases hij : i = j
  · subst hij
    rw [Geo.ricci_diag_on d hh, Matrix.diagonal_apply_eq]
    simp only [P, Fin.sum_univ_four]
    clear P hh
    fin_cases i <;> simp <;> simp only [Derivation.leibniz, d3, ← one_div, a1, a2, a3, a4] <;> simp <;> field_simp <;> ring1
  · rw [Geo.ricci_diag_off d hh _ _ hij, Matrix.diagonal_apply_ne _ hij, mul_zero]
    simp only [P, Fin.sum_univ_four]
    clear P hh
    fin_cases i <;> fin_cases j <;>
    first
    | exact absurd rfl hij
    | (simp; done)
    | (simp; simp only [Derivation.leibniz, d3, ← one_div, a1, a2, a3, a4]; simp; done)
    | (simp; simp only [Derivation.leibniz, d3, ← one_div, a1, a2, a3, a4]; simp; field_simp; ring1)

/-- The laws used for the Davidson metric. -/
structure DavidsonLaws (D : String → Derivation ℚ K K) (F : Fns K) : Prop where
  coords : IsCoords D F cyl
  p1 : PowAt D F cyl (1 + F.var "r" ^ 2) (2 / 5)
  p2 : PowAt D F cyl (F.var "t") (4 / 3)
  p3 : PowAt D F cyl (F.var "t") (-2 / 3)

theorem davidson_facts (h : DavidsonLaws D F) : ∃ t r E T S : K, t = F.var "t" ∧ r = F.var "r" ∧
    E = F.pow (1 + F.var "r" ^ 2) (2 / 5) ∧ T = F.pow (F.var "t") (4 / 3) ∧
    (∀ i, ![-(E ^ 3), T * E, S / E, T * r ^ 2 / E] i ≠ 0) ∧
    Returns (davidson F) cyl (Matrix.diagonal ![-(E ^ 3), T * E, S / E, T * r ^ 2 / E]) ∧ ∀ i j,
    Geo.ricci (coordD D cyl 4) (Matrix.diagonal ![-(E ^ 3), T * E, S / E, T * r ^ 2 / E]) i j =
      (if i = 0 then -3 else 1) * (4 / (5 * (1 + r ^ 2) ^ 2 * T * E)) *
        Matrix.diagonal ![-(E ^ 3), T * E, S / E, T * r ^ 2 / E] i j := by
  have : CharZero K := algebraRat.charZero K
  obtain ⟨hco, h1, h2, h3⟩ := h
  have hn : cyl.Nodup := by decide
  have ht : Along (coordD D cyl 4) 0 (F.var "t") 1 := along_of (t := "t") rfl hn hco fun s _ => (one_mul _).symm
  have hr : Along (coordD D cyl 4) 1 (F.var "r") 1 := along_of (t := "r") rfl hn hco fun s _ => (one_mul _).symm
  have t0 : F.var "t" ≠ 0 := var_ne hco (by decide) const_zero
  have r0 : F.var "r" ≠ 0 := var_ne hco (by decide) const_zero
  have hr2 : 1 + F.var "r" ^ 2 ≠ 0 := by
    intro e
    have := congrArg (coordD D cyl 4 1) e
    rw [map_add, Derivation.leibniz_pow, hr 1, map_zero, Derivation.map_one_eq_zero] at this
    simp [r0] at this
  have hE : Along (coordD D cyl 4) 1 (F.pow (1 + F.var "r" ^ 2) (2 / 5))
      (4 * F.var "r" / (5 * (1 + F.var "r" ^ 2)) * F.pow (1 + F.var "r" ^ 2) (2 / 5)) := by
    refine along_of (t := "r") rfl hn hco fun s hs => ?_
    rw [h1.d s hs, map_add, Derivation.leibniz_pow, Derivation.map_one_eq_zero]
    simp
    field_simp
    ring
  have hT : Along (coordD D cyl 4) 0 (F.pow (F.var "t") (4 / 3)) (4 / (3 * F.var "t") * F.pow (F.var "t") (4 / 3)) := by
    refine along_of (t := "t") rfl hn hco fun s hs => ?_
    rw [h2.d s hs]
    field_simp
  have hS : Along (coordD D cyl 4) 0 (F.pow (F.var "t") (-2 / 3)) (-2 / (3 * F.var "t") * F.pow (F.var "t") (-2 / 3)) := by
    refine along_of (t := "t") rfl hn hco fun s hs => ?_
    rw [h3.d s hs]
    field_simp
  have hh : ∀ i, ![-(F.pow (1 + F.var "r" ^ 2) (2 / 5) ^ 3), F.pow (F.var "t") (4 / 3) * F.pow (1 + F.var "r" ^ 2) (2 / 5),
      F.pow (F.var "t") (-2 / 3) / F.pow (1 + F.var "r" ^ 2) (2 / 5),
      F.pow (F.var "t") (4 / 3) * F.var "r" ^ 2 / F.pow (1 + F.var "r" ^ 2) (2 / 5)] i ≠ 0 := by
    intro i
    fin_cases i
    · exact neg_ne_zero.2 (pow_ne_zero 3 h1.ne)
    · exact mul_ne_zero h2.ne h1.ne
    · exact div_ne_zero h3.ne h1.ne
    · exact div_ne_zero (mul_ne_zero h2.ne (pow_ne_zero 2 r0)) h1.ne
  exact ⟨_, _, _, _, _, rfl, rfl, rfl, rfl, hh, returns_diag _ _ _ _ cyl "DavidsonMetric" rfl,
    ricci_davidson ht hr hE hT hS h1.ne h2.ne h3.ne t0 r0 hr2 hh⟩

/-- C94: `Davidson()` is a radiation-filled perfect fluid: the mixed Ricci tensor is κ diag(−3, 1, 1, 1) with
κ = 4 / (5 (1+r²)² t^(4/3) (1+r²)^(2/5)). -/
theorem C94_davidson_ricci (h : DavidsonLaws D F) {g : Matrix (Fin 4) (Fin 4) K} (hg : Returns (davidson F) cyl g) :
    RicciIs D (davidson F) fun i j => (if i = 0 then -3 else 1) *
      (4 / (5 * (1 + F.var "r" ^ 2) ^ 2 * F.pow (F.var "t") (4 / 3) * F.pow (1 + F.var "r" ^ 2) (2 / 5))) * g i j := by
  obtain ⟨t, r, E, T, S, ht, hr, hE, hT, hh, hR, hric⟩ := davidson_facts h
  have hgg := (hg.inj hR).2
  rw [← hE, ← hT, ← hr, hgg]
  exact (ricciIs_of hR rfl (diag_unit hh) (Matrix.diagonal_transpose _)).congr hric

/-- C94: so its Ricci scalar vanishes. -/
theorem C94_davidson_scalar (h : DavidsonLaws D F) : ScalarIs D (davidson F) 0 := by
  obtain ⟨t, r, E, T, S, ht, hr, hE, hT, hh, hR, hric⟩ := davidson_facts h
  have h1 := scalarIs_of (D := D) hR rfl (diag_unit hh) (Matrix.diagonal_transpose _)
  have h0 := hh 0
  have h1' := hh 1
  have h2 := hh 2
  have h3 := hh 3
  rw [Geo.scalar_diag _ hh, Fin.sum_univ_four] at h1
  simp only [hric, Matrix.diagonal_apply_eq] at h1
  rw [mul_div_cancel_right₀ _ h0, mul_div_cancel_right₀ _ h1', mul_div_cancel_right₀ _ h2, mul_div_cancel_right₀ _ h3] at h1
  convert h1 using 1
  simp
  ring

end
end Einpy.Predef
