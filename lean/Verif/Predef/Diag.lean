import Mathlib.Tactic.FieldSimp
import Mathlib.Tactic.Ring
import Mathlib.Tactic.LinearCombination
import Mathlib.Tactic.FinCases
import Mathlib.RingTheory.Derivation.Basic
import Mathlib.LinearAlgebra.Matrix.NonsingularInverse
import Mathlib.Algebra.BigOperators.Fin
import Mathlib.Algebra.CharP.Algebra
import Verif.Curv.Spec

/-!
# Curvature of diagonal metrics (helper lemmas)

For a diagonal metric `g = diag(h)` over a differential field all curvature formulas are polynomial in the logarithmic
derivatives `p i j = ∂_i h_j / (2 h_j)` and their derivatives.
-/

set_option linter.unusedSectionVars false

namespace Einpy.Geo

section
variable {ι K : Type*} [Fintype ι] [DecidableEq ι] [Field K] [Algebra ℚ K]
variable (d : ι → Derivation ℚ K K) (h : ι → K)

theorem half_eq (x : K) : half x = x / 2 := by
  rw [half, Algebra.smul_def, map_inv₀, map_ofNat]
  ring

/-- Half the logarithmic derivative of the j-th diagonal entry along coordinate i. -/
def pF (i j : ι) : K := d i (h j) / (2 * h j)

variable {h}

theorem diag_inv (hh : ∀ i, h i ≠ 0) : (Matrix.diagonal h)⁻¹ = Matrix.diagonal fun i => (h i)⁻¹ := by
  refine Matrix.inv_eq_right_inv ?_
  rw [Matrix.diagonal_mul_diagonal, ← Matrix.diagonal_one]
  congr 1
  funext i
  exact mul_inv_cancel₀ (hh i)

theorem two_ne : (2:K) ≠ 0 := by
  have : CharZero K := algebraRat.charZero K
  exact two_ne_zero

theorem d_eq (hh : ∀ i, h i ≠ 0) (i j : ι) : d i (h j) = 2 * h j * pF d h i j := by
  have := two_ne (K := K)
  have := hh j
  unfold pF; field_simp

theorem christoffel_diag (hh : ∀ i, h i ≠ 0) (i j k : ι) :
    christoffel d (Matrix.diagonal h) i j k =
      (if i = j then pF d h k i else 0) + (if i = k then pF d h j i else 0) -
        (if j = k then h j / h i * pF d h i j else 0) := by
  have h2 := two_ne (K := K)
  have hi := hh i
  have hj := hh j
  rw [christoffel, diag_inv hh, half_eq, Finset.sum_eq_single i]
  · rw [Matrix.diagonal_apply_eq]
    simp only [Matrix.diagonal_apply]
    by_cases e1 : i = j
    · subst e1
      by_cases e2 : i = k
      · subst e2; simp only [if_true, pF]; field_simp; try ring
      · simp only [if_true, if_neg e2, pF, map_zero]; field_simp; try ring
    · by_cases e2 : i = k
      · subst e2; simp only [if_true, if_neg e1, if_neg (Ne.symm e1), pF, map_zero]; field_simp; try ring
      · by_cases e3 : j = k
        · subst e3
          simp only [if_true, if_neg e1, pF, map_zero]; field_simp; ring
        · simp only [if_neg e1, if_neg e2, if_neg e3, map_zero]; simp
  · intro n _ hn
    rw [Matrix.diagonal_apply_ne _ (Ne.symm hn), zero_mul]
  · intro hn; exact absurd (Finset.mem_univ i) hn

theorem d_q (hh : ∀ i, h i ≠ 0) (l i j : ι) (x : K) :
    d l (h j / h i * x) = h j / h i * (2 * (pF d h l j - pF d h l i) * x + d l x) := by
  have h2 := two_ne (K := K)
  have hi := hh i
  rw [Derivation.leibniz, Derivation.leibniz_div, d_eq d hh, d_eq d hh]
  simp only [smul_eq_mul]
  field_simp
  ring
end

section
variable {K : Type*} [Field K] [Algebra ℚ K]
variable (d : Fin 4 → Derivation ℚ K K) {h : Fin 4 → K}

/-- The Ricci tensor of a diagonal metric, off the diagonal. -/
theorem ricci_diag_off (hh : ∀ i, h i ≠ 0) (a b : Fin 4) (hab : a ≠ b) :
    ricci d (Matrix.diagonal h) a b = ∑ k, (if k = a ∨ k = b then 0 else
      (pF d h b a * pF d h a k + pF d h a b * pF d h b k - pF d h a k * pF d h b k - d b (pF d h a k))) +
      (d a (pF d h b a) - d b (pF d h a a)) := by
  have h0 := hh 0
  have h1 := hh 1
  have h2 := hh 2
  have h3 := hh 3
  unfold ricci riemann
  simp only [christoffel_diag d hh]
  simp only [map_add, map_sub]
  fin_cases a <;> fin_cases b <;>
  first
  | exact absurd rfl hab
  | (simp [Fin.sum_univ_four, d_q d hh]
     field_simp
     ring)

theorem pF_comm (hh : ∀ i, h i ≠ 0) (hd : ∀ i j x, d i (d j x) = d j (d i x)) (a b k : Fin 4) :
    d a (pF d h b k) = d b (pF d h a k) := by
  have := two_ne (K := K)
  have := hh k
  unfold pF
  rw [Derivation.leibniz_div, Derivation.leibniz_div, hd a b]
  have h2 : ∀ i, d i (2:K) = 0 := fun i => by
    rw [show (2:K) = ((2:ℕ):K) by norm_num]; exact Derivation.map_natCast _ _
  simp only [smul_eq_mul, Derivation.leibniz, h2]
  ring

/-- The Ricci tensor of a diagonal metric, on the diagonal. -/
theorem ricci_diag_on (hh : ∀ i, h i ≠ 0) (a : Fin 4) :
    ricci d (Matrix.diagonal h) a a = ∑ k, (if k = a then 0 else
      (pF d h a a * pF d h a k - pF d h a k ^ 2 - d a (pF d h a k) -
        h a / h k * (d k (pF d h k a) + pF d h k a ^ 2 - pF d h k a * pF d h k k +
          pF d h k a * ∑ l, (if l = a ∨ l = k then 0 else pF d h k l)))) := by
  have h0 := hh 0
  have h1 := hh 1
  have h2 := hh 2
  have h3 := hh 3
  unfold ricci riemann
  simp only [christoffel_diag d hh]
  simp only [map_add, map_sub]
  fin_cases a <;>
  · simp [Fin.sum_univ_four, d_q d hh]
    field_simp
    ring

/-- The Ricci scalar of a diagonal metric. -/
theorem scalar_diag (hh : ∀ i, h i ≠ 0) :
    scalar d (Matrix.diagonal h) = ∑ a, ricci d (Matrix.diagonal h) a a / h a := by
  unfold scalar
  rw [diag_inv hh]
  refine Finset.sum_congr rfl fun a _ => ?_
  rw [Finset.sum_eq_single a]
  · rw [Matrix.diagonal_apply_eq]; field_simp
  · intro b _ hb; rw [Matrix.diagonal_apply_ne _ (Ne.symm hb), zero_mul]
  · intro hn; exact absurd (Finset.mem_univ a) hn
end
end Einpy.Geo
