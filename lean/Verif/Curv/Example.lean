import Mathlib.Algebra.MvPolynomial.PDeriv
import Mathlib.RingTheory.Derivation.Lie
import Verif.Curv.Paths

/-!
# A concrete curved space for the non-vacuity examples

Polynomials in the coordinate symbols, `sympy.diff` is the partial derivative, and the metric
`dt² + 2tx dt dx + (1 + t²x²) dx² + dy² + dz²` (or its three-dimensional restriction), whose determinant is 1.
-/

namespace Einpy
open Classical

/-- polynomial expressions -/
abbrev Pol := MvPolynomial String ℚ

/-- `sympy.diff` on polynomials -/
noncomputable def polD : String → Derivation ℚ Pol Pol := fun s => MvPolynomial.pderiv s

theorem polD_comm (s t : String) (x : Pol) : polD s (polD t x) = polD t (polD s x) := by
  have h : ⁅polD s, polD t⁆ = 0 := by
    apply MvPolynomial.derivation_ext
    intro i
    rw [Derivation.commutator_apply]
    simp only [polD, MvPolynomial.pderiv_X, Derivation.zero_apply]
    by_cases h1 : i = t <;> by_cases h2 : i = s <;> simp [Pi.single_apply, h1, h2] <;> split_ifs <;> simp
  have := congrArg (fun F : Derivation ℚ Pol Pol => F x) h
  rw [Derivation.commutator_apply] at this
  exact sub_eq_zero.mp this

/-- `t * x` -/
noncomputable def polP : Pol := MvPolynomial.X "t" * MvPolynomial.X "x"

/-- four-dimensional example metric -/
noncomputable def exG4 : Matrix (Fin 4) (Fin 4) Pol :=
  !![1, polP, 0, 0; polP, 1 + polP ^ 2, 0, 0; 0, 0, 1, 0; 0, 0, 0, 1]

/-- three-dimensional example metric -/
noncomputable def exG3 : Matrix (Fin 3) (Fin 3) Pol :=
  !![1, polP, 0; polP, 1 + polP ^ 2, 0; 0, 0, 1]

theorem exG4_symm : exG4.transpose = exG4 := by
  ext i j; fin_cases i <;> fin_cases j <;> rfl

theorem exG3_symm : exG3.transpose = exG3 := by
  ext i j; fin_cases i <;> fin_cases j <;> rfl

theorem exG3_det : exG3.det = 1 := by
  rw [Matrix.det_fin_three]
  simp [exG3]; ring

theorem exG4_det : exG4.det = 1 := by
  rw [Matrix.det_succ_row _ 3]
  simp only [Fin.sum_univ_four]
  have : exG4.submatrix (Fin.succAbove 3) (Fin.succAbove 3) = exG3 := by
    ext i j; fin_cases i <;> fin_cases j <;> rfl
  rw [this, exG3_det]
  simp [exG4]
  norm_num

/-- four-dimensional example metric object -/
noncomputable def exM4 : MetricV Pol := ⟨NDArr.ofMatrix exG4, ['l', 'l'], ["t", "x", "y", "z"], none⟩
/-- three-dimensional example metric object -/
noncomputable def exM3 : MetricV Pol := ⟨NDArr.ofMatrix exG3, ['l', 'l'], ["t", "x", "y"], none⟩
/-- the same four-dimensional space supplied contravariantly -/
noncomputable def exM4u : MetricV Pol :=
  ⟨NDArr.ofMatrix exG4⁻¹, ['u', 'u'], ["t", "x", "y", "z"], none⟩

theorem exM4_space : IsSpace exM4 exG4 :=
  ⟨⟨rfl, by rw [exG4_det]; exact isUnit_one, Or.inl ⟨rfl, toMatrix_ofMatrix _⟩⟩, rfl, exG4_symm⟩
theorem exM4u_space : IsSpace exM4u exG4 :=
  ⟨⟨rfl, by rw [exG4_det]; exact isUnit_one, Or.inr ⟨rfl, toMatrix_ofMatrix _⟩⟩, rfl, exG4_symm⟩
theorem exM3_space : IsSpace exM3 exG3 :=
  ⟨⟨rfl, by rw [exG3_det]; exact isUnit_one, Or.inl ⟨rfl, toMatrix_ofMatrix _⟩⟩, rfl, exG3_symm⟩

/-- the example metric really depends on the coordinates: `∂_t g_tx = x ≠ 0` -/
theorem exM4_nonconstant : coordD polD exM4.syms 4 0 (exG4 0 1) ≠ 0 := by
  have : coordD polD exM4.syms 4 0 (exG4 0 1) = MvPolynomial.X "x" := by
    have e1 : exG4 0 1 = polP := by simp [exG4]
    have e2 : coordD polD exM4.syms 4 0 = polD "t" := by unfold coordD exM4; rfl
    rw [e1, e2]
    unfold polP polD
    rw [Derivation.leibniz, MvPolynomial.pderiv_X_self, MvPolynomial.pderiv_X_of_ne (by decide)]
    simp
  rw [this]
  exact MvPolynomial.X_ne_zero "x"

end Einpy
