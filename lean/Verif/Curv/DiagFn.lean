import Mathlib.Tactic.FieldSimp
import Mathlib.Tactic.Ring
import Mathlib.Tactic.LinearCombination
import Mathlib.Tactic.FinCases
import Verif.Curv.Spec
import Mathlib.Algebra.BigOperators.Fin
import Mathlib.LinearAlgebra.Matrix.NonsingularInverse
import Mathlib.RingTheory.Derivation.Basic

/-!
# Curvature of diagonal metrics over a differential ring (helper lemmas for C152)

As in `Predef/Diag`, but over a commutative ring, with values in a field.
-/

set_option linter.unusedSectionVars false
set_option linter.unusedSimpArgs false

namespace Einpy.Geo

section
variable {ι R : Type*} [Fintype ι] [DecidableEq ι] [CommRing R] [Algebra ℚ R]
variable (d : ι → Derivation ℚ R R) {h u : ι → R} {P : ι → ι → R}

theorem half_two (x : R) : half (2 * x) = x := by
  rw [half, two_mul, ← two_smul ℚ x, smul_smul]; norm_num

theorem dg_inv (hu : ∀ i, h i * u i = 1) : (Matrix.diagonal h)⁻¹ = Matrix.diagonal u := by
  refine Matrix.inv_eq_right_inv ?_
  rw [Matrix.diagonal_mul_diagonal, ← Matrix.diagonal_one]
  congr 1
  funext i
  exact hu i

variable (hu : ∀ i, h i * u i = 1) (hP : ∀ i j, d i (h j) = 2 * h j * P i j)
include hu hP

theorem dg_christoffel (i j k : ι) :
    christoffel d (Matrix.diagonal h) i j k =
      (if i = j then P k i else 0) + (if i = k then P j i else 0) - (if j = k then h j * u i * P i j else 0) := by
  have hi := hu i
  rw [christoffel, dg_inv hu, Finset.sum_eq_single i]
  · refine Eq.trans (congrArg half ?_) (half_two _)
    rw [Matrix.diagonal_apply_eq]
    simp only [Matrix.diagonal_apply]
    by_cases e1 : i = j
    · subst e1
      by_cases e2 : i = k
      · subst e2; simp only [if_true, hP]; linear_combination (4 * P i i) * hi
      · simp only [if_true, if_neg e2, hP, map_zero]; linear_combination (2 * P k i) * hi
    · by_cases e2 : i = k
      · subst e2; simp only [if_true, if_neg e1, if_neg (Ne.symm e1), hP, map_zero]; linear_combination (2 * P j i) * hi
      · by_cases e3 : j = k
        · subst e3
          simp only [if_true, if_neg e1, hP, map_zero]; ring
        · simp only [if_neg e1, if_neg e2, if_neg e3, map_zero]; simp
  · intro n _ hn
    rw [Matrix.diagonal_apply_ne _ (Ne.symm hn), zero_mul]
  · intro hn; exact absurd (Finset.mem_univ i) hn

theorem dg_du (l i : ι) : d l (u i) = - (2 * u i * P l i) := by
  have e : d l (h i * u i) = 0 := by rw [hu i]; exact (d l).map_one_eq_zero
  rw [Derivation.leibniz, hP, smul_eq_mul, smul_eq_mul] at e
  linear_combination u i * e - (d l (u i) + 2 * u i * P l i) * hu i

theorem dg_q (l i j : ι) (x : R) : d l (h j * u i * x) = h j * u i * (2 * (P l j - P l i) * x + d l x) := by
  rw [Derivation.leibniz, Derivation.leibniz, dg_du d hu hP, hP]
  simp only [smul_eq_mul]
  ring
end

section
variable {R K : Type*} [CommRing R] [Algebra ℚ R] [Field K] (φ : R →+* K)
variable (d : Fin 4 → Derivation ℚ R R) {h u : Fin 4 → R} {P : Fin 4 → Fin 4 → R}
variable (hu : ∀ i, h i * u i = 1) (hP : ∀ i j, d i (h j) = 2 * h j * P i j)
include hu hP

theorem dg_ne (i : Fin 4) : φ (h i) ≠ 0 := fun e => by
  have := congrArg φ (hu i)
  rw [map_mul, e, zero_mul, map_one] at this
  exact zero_ne_one this

theorem dg_u (i : Fin 4) : φ (u i) = (φ (h i))⁻¹ := by
  have := congrArg φ (hu i)
  rw [map_mul, map_one] at this
  exact eq_inv_of_mul_eq_one_right this

/-- The Ricci tensor of a diagonal metric, off the diagonal. -/
theorem dg_ricci_off (a b : Fin 4) (hab : a ≠ b) :
    φ (ricci d (Matrix.diagonal h) a b) = ∑ k, (if k = a ∨ k = b then 0 else
      (φ (P b a) * φ (P a k) + φ (P a b) * φ (P b k) - φ (P a k) * φ (P b k) - φ (d b (P a k)))) +
      (φ (d a (P b a)) - φ (d b (P a a))) := by
  have h0 := dg_ne φ d hu hP 0
  have h1 := dg_ne φ d hu hP 1
  have h2 := dg_ne φ d hu hP 2
  have h3 := dg_ne φ d hu hP 3
  unfold ricci riemann
  simp only [dg_christoffel d hu hP]
  simp only [map_add, map_sub]
  fin_cases a <;> fin_cases b <;>
  first
  | exact absurd rfl hab
  | (simp [Fin.sum_univ_four, dg_q d hu hP, dg_u φ d hu hP]
     field_simp
     ring)

/-- The Ricci tensor of a diagonal metric, on the diagonal. -/
theorem dg_ricci_on (a : Fin 4) :
    φ (ricci d (Matrix.diagonal h) a a) = ∑ k, (if k = a then 0 else
      (φ (P a a) * φ (P a k) - φ (P a k) ^ 2 - φ (d a (P a k)) -
        φ (h a) / φ (h k) * (φ (d k (P k a)) + φ (P k a) ^ 2 - φ (P k a) * φ (P k k) +
          φ (P k a) * ∑ l, (if l = a ∨ l = k then 0 else φ (P k l))))) := by
  have h0 := dg_ne φ d hu hP 0
  have h1 := dg_ne φ d hu hP 1
  have h2 := dg_ne φ d hu hP 2
  have h3 := dg_ne φ d hu hP 3
  have e2 : φ 2 = 2 := map_ofNat φ 2
  unfold ricci riemann
  simp only [dg_christoffel d hu hP]
  simp only [map_add, map_sub]
  fin_cases a <;>
  · simp [Fin.sum_univ_four, dg_q d hu hP, dg_u φ d hu hP, e2]
    field_simp
    ring
end
section
variable {R K : Type*} [CommRing R] [Algebra ℚ R] [Field K] (φ : R →+* K)
variable {d : Fin 4 → Derivation ℚ R R} {h u : Fin 4 → R} {P : Fin 4 → Fin 4 → R}

theorem dg_comm (hd : ∀ i j x, d i (d j x) = d j (d i x)) (hu : ∀ i, h i * u i = 1) (hP : ∀ i j, d i (h j) = 2 * h j * P i j) (a b k : Fin 4) :
    d a (P b k) = d b (P a k) := by
  have e := hd a b (h k)
  have h2 : ∀ i, d i (2:R) = 0 := fun i => by
    rw [show (2:R) = ((2:ℕ):R) by norm_num]; exact Derivation.map_natCast _ _
  rw [hP, hP] at e
  simp only [Derivation.leibniz, hP, h2, smul_eq_mul] at e
  have e2 : 2 * (d a (P b k) - d b (P a k)) = 2 * 0 := by
    linear_combination u k * e - 2 * (d a (P b k) - d b (P a k)) * hu k
  have := congrArg half e2
  rw [half_two, half_two] at this
  exact sub_eq_zero.mp this

/-- the logarithmic derivatives of `diag(A(t,r), B(t,r), r², r² sin²θ)` -/
structure RoundDerivs (d : Fin 4 → Derivation ℚ R R) (P : Fin 4 → Fin 4 → R) (c q : R) : Prop where
  z20 : P 2 0 = 0
  z30 : P 3 0 = 0
  z21 : P 2 1 = 0
  z31 : P 3 1 = 0
  z02 : P 0 2 = 0
  z22 : P 2 2 = 0
  z32 : P 3 2 = 0
  z03 : P 0 3 = 0
  z33 : P 3 3 = 0
  p12 : P 1 2 = c
  p13 : P 1 3 = c
  p23 : P 2 3 = q
  dc : d 1 c = - c ^ 2
  dq : d 2 q = - (1 + q ^ 2)

variable {c q : R} (hd : ∀ i j x, d i (d j x) = d j (d i x)) (hu : ∀ i, h i * u i = 1) (hP : ∀ i j, d i (h j) = 2 * h j * P i j) (hR : RoundDerivs d P c q)
include hd hu hP hR

/-- the Ricci tensor off the diagonal -/
theorem round_off (a b : Fin 4) (hab : a ≠ b) :
    φ (ricci d (Matrix.diagonal h) a b) = if (a = 0 ∧ b = 1) ∨ (a = 1 ∧ b = 0) then 2 * φ (P 0 1) * φ c else 0 := by
  obtain ⟨z20, z30, z21, z31, z02, z22, z32, z03, z33, p12, p13, p23, dc, dq⟩ := hR
  have cm := dg_comm (d := d) (h := h) (u := u) (P := P) hd hu hP
  have d0c : d 0 c = 0 := by rw [← p12, cm, z02, map_zero]
  have d2c : d 2 c = 0 := by rw [← p12, cm, z22, map_zero]
  have d3c : d 3 c = 0 := by rw [← p12, cm, z32, map_zero]
  have d0q : d 0 q = 0 := by rw [← p23, cm, z03, map_zero]
  have d1q : d 1 q = 0 := by rw [← p23, cm, p13, d2c]
  have d3q : d 3 q = 0 := by rw [← p23, cm, z33, map_zero]
  have e01 := cm 1 0 0
  have e11 := cm 1 0 1
  have a1 : d 2 (P 0 0) = 0 := by rw [cm, z20, map_zero]
  have a2 : d 3 (P 0 0) = 0 := by rw [cm, z30, map_zero]
  have a3 : d 2 (P 1 0) = 0 := by rw [cm, z20, map_zero]
  have a4 : d 3 (P 1 0) = 0 := by rw [cm, z30, map_zero]
  have a5 : d 2 (P 0 1) = 0 := by rw [cm, z21, map_zero]
  have a6 : d 3 (P 0 1) = 0 := by rw [cm, z31, map_zero]
  have a7 : d 2 (P 1 1) = 0 := by rw [cm, z21, map_zero]
  have a8 : d 3 (P 1 1) = 0 := by rw [cm, z31, map_zero]
  rw [dg_ricci_off φ d hu hP a b hab]
  fin_cases a <;> fin_cases b <;>
  first
  | exact absurd rfl hab
  | (simp [Fin.sum_univ_four, z20, z30, z21, z31, z02, z22, z32, z03, z33, p12, p13, p23, d0c, d2c, d3c, d0q, d1q, d3q, e01, e11, a1, a2, a3, a4, a5, a6, a7, a8]; done)
  | (simp [Fin.sum_univ_four, z20, z30, z21, z31, z02, z22, z32, z03, z33, p12, p13, p23, d0c, d2c, d3c, d0q, d1q, d3q, e01, e11, a1, a2, a3, a4, a5, a6, a7, a8]; ring)

/-- the Ricci tensor on the diagonal -/
theorem round_on :
    φ (ricci d (Matrix.diagonal h) 0 0) = φ (P 0 0) * φ (P 0 1) - φ (P 0 1) ^ 2 - φ (d 0 (P 0 1)) -
      φ (h 0) / φ (h 1) * (φ (d 1 (P 1 0)) + φ (P 1 0) ^ 2 - φ (P 1 0) * φ (P 1 1) + 2 * φ (P 1 0) * φ c) ∧
    φ (ricci d (Matrix.diagonal h) 1 1) = φ (P 1 1) * φ (P 1 0) - φ (P 1 0) ^ 2 - φ (d 1 (P 1 0)) + 2 * φ (P 1 1) * φ c -
      φ (h 1) / φ (h 0) * (φ (d 0 (P 0 1)) + φ (P 0 1) ^ 2 - φ (P 0 1) * φ (P 0 0)) ∧
    φ (ricci d (Matrix.diagonal h) 2 2) = 1 - φ (h 2) / φ (h 1) * φ c * (φ (P 1 0) - φ (P 1 1) + φ c) ∧
    φ (ricci d (Matrix.diagonal h) 3 3) = φ (h 3) / φ (h 2) * (1 - φ (h 2) / φ (h 1) * φ c * (φ (P 1 0) - φ (P 1 1) + φ c)) := by
  obtain ⟨z20, z30, z21, z31, z02, z22, z32, z03, z33, p12, p13, p23, dc, dq⟩ := hR
  have cm := dg_comm (d := d) (h := h) (u := u) (P := P) hd hu hP
  have d0c : d 0 c = 0 := by rw [← p12, cm, z02, map_zero]
  have d2c : d 2 c = 0 := by rw [← p12, cm, z22, map_zero]
  have h0 := dg_ne φ d hu hP 0
  have h1 := dg_ne φ d hu hP 1
  have h2 := dg_ne φ d hu hP 2
  refine ⟨?_, ?_, ?_, ?_⟩ <;> rw [dg_ricci_on φ d hu hP] <;>
    simp [Fin.sum_univ_four, z20, z30, z21, z31, z02, z22, z32, z03, z33, p12, p13, p23, d0c, d2c, dc, dq] <;> field_simp <;> first | ring1 | (left; ring1)

variable (ψ : R → K) (hψ : ∀ x, ψ x = φ x) (g : Matrix (Fin 4) (Fin 4) R) (hg : ∀ i, g i i = h i) (hg0 : ∀ i j, i ≠ j → g i j = 0)
include hψ hg hg0

omit hd hu hP hR hψ in
theorem round_diag : g = Matrix.diagonal h := by
  ext i j
  by_cases e : i = j
  · subst e; rw [hg, Matrix.diagonal_apply_eq]
  · rw [hg0 i j e, Matrix.diagonal_apply_ne _ e]

theorem round_off_fn (a b : Fin 4) (hab : a ≠ b) :
    ψ (ricci d g a b) = if (a = 0 ∧ b = 1) ∨ (a = 1 ∧ b = 0) then 2 * ψ (P 0 1) * ψ c else 0 := by
  rw [round_diag g hg hg0]
  simp only [hψ]
  exact round_off φ hd hu hP hR a b hab

theorem round_on_fn :
    ψ (ricci d g 0 0) = ψ (P 0 0) * ψ (P 0 1) - ψ (P 0 1) ^ 2 - ψ (d 0 (P 0 1)) -
      ψ (h 0) / ψ (h 1) * (ψ (d 1 (P 1 0)) + ψ (P 1 0) ^ 2 - ψ (P 1 0) * ψ (P 1 1) + 2 * ψ (P 1 0) * ψ c) ∧
    ψ (ricci d g 1 1) = ψ (P 1 1) * ψ (P 1 0) - ψ (P 1 0) ^ 2 - ψ (d 1 (P 1 0)) + 2 * ψ (P 1 1) * ψ c -
      ψ (h 1) / ψ (h 0) * (ψ (d 0 (P 0 1)) + ψ (P 0 1) ^ 2 - ψ (P 0 1) * ψ (P 0 0)) ∧
    ψ (ricci d g 2 2) = 1 - ψ (h 2) / ψ (h 1) * ψ c * (ψ (P 1 0) - ψ (P 1 1) + ψ c) ∧
    ψ (ricci d g 3 3) = ψ (h 3) / ψ (h 2) * (1 - ψ (h 2) / ψ (h 1) * ψ c * (ψ (P 1 0) - ψ (P 1 1) + ψ c)) := by
  rw [round_diag g hg hg0]
  simp only [hψ]
  exact round_on φ hd hu hP hR
end
end Einpy.Geo
