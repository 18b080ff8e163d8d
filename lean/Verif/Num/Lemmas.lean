import Mathlib.Analysis.Calculus.FDeriv.Pi
import Mathlib.Analysis.Calculus.Deriv.Pi
import Mathlib.Analysis.Calculus.Deriv.Mul
import Mathlib.Analysis.Calculus.Deriv.Comp
import Mathlib.Analysis.Calculus.Deriv.Add
import Mathlib.Tactic.LinearCombination
import Mathlib.Tactic.FieldSimp
import Mathlib.Tactic.FinCases
import Verif.Num.Model
import Verif.Num.Spec

/-!
# Generic lemmas about numeric metrics
-/

set_option linter.unusedSimpArgs false
set_option linter.unusedVariables false

namespace Einpy.Num
open Classical

/-- A metric that depends on `x 1` and `x 2` only: partial derivatives from derivatives of the table. -/
theorem hasPartials_of_table {T : ℝ → ℝ → Mat4} {x : Vec4} {dR dT : Mat4}
    (h1 : ∀ i j, HasDerivAt (fun r => T r (x 2) i j) (dR i j) (x 1))
    (h2 : ∀ i j, HasDerivAt (fun t => T (x 1) t i j) (dT i j) (x 2)) :
    HasPartials (fun y => T (y 1) (y 2)) (![0, dR, dT, 0] : Tab3) x := by
  intro k i j
  fin_cases k
  · have : (fun s => T (Function.update x 0 s 1) (Function.update x 0 s 2) i j) = fun _ => T (x 1) (x 2) i j := by
      funext s; simp [Function.update]
    show HasDerivAt (fun s => T (Function.update x 0 s 1) (Function.update x 0 s 2) i j) 0 (x 0)
    rw [this]; exact hasDerivAt_const _ _
  · have : (fun s => T (Function.update x 1 s 1) (Function.update x 1 s 2) i j) = fun s => T s (x 2) i j := by
      funext s; simp [Function.update]
    show HasDerivAt (fun s => T (Function.update x 1 s 1) (Function.update x 1 s 2) i j) (dR i j) (x 1)
    rw [this]; exact h1 i j
  · have : (fun s => T (Function.update x 2 s 1) (Function.update x 2 s 2) i j) = fun s => T (x 1) s i j := by
      funext s; simp [Function.update]
    show HasDerivAt (fun s => T (Function.update x 2 s 1) (Function.update x 2 s 2) i j) (dT i j) (x 2)
    rw [this]; exact h2 i j
  · have : (fun s => T (Function.update x 3 s 1) (Function.update x 3 s 2) i j) = fun _ => T (x 1) (x 2) i j := by
      funext s; simp [Function.update]
    show HasDerivAt (fun s => T (Function.update x 3 s 1) (Function.update x 3 s 2) i j) 0 (x 3)
    rw [this]; exact hasDerivAt_const _ _

/-- Matrices whose only off-diagonal entries are the equal `(0,3)`, `(3,0)`. -/
def axi (A B C D E : ℝ) : Mat4 := !![A, 0, 0, B; 0, C, 0, 0; 0, 0, D, 0; B, 0, 0, E]

theorem axi_mul_inv (A B C D E : ℝ) (hC : C ≠ 0) (hD : D ≠ 0) (h : A * E - B ^ 2 ≠ 0) :
    axi (E / (A * E - B ^ 2)) (-B / (A * E - B ^ 2)) C⁻¹ D⁻¹ (A / (A * E - B ^ 2)) * axi A B C D E = 1 := by
  generalize hd : A * E - B ^ 2 = d at *
  ext i j
  fin_cases i <;> fin_cases j <;> simp [axi, Matrix.mul_apply, Fin.sum_univ_four, hC, hD]
  · field_simp; rw [← hd]; ring
  · field_simp; ring
  · field_simp; ring
  · field_simp; rw [← hd]; ring

theorem npInv_of_mul {g gi : Mat4} (h : gi * g = 1) : npInv g = .ok gi := by
  have hu : IsUnit g.det := by
    have : gi.det * g.det = 1 := by rw [← Matrix.det_mul, h, Matrix.det_one]
    exact IsUnit.of_mul_eq_one _ (by rw [mul_comm]; exact this)
  unfold npInv
  rw [if_pos hu]
  congr 1
  exact Matrix.inv_eq_left_inv h

/-- The result of the loops entry by entry. -/
noncomputable def chSymClosed (gc : Mat4) (dg : Tab3) : Tab3 :=
  let u (kk l : Fin 4) : ℝ := 0.5 * (gc 0 0 * (dg l 0 kk + dg kk 0 l) + gc 0 3 * (dg l 3 kk + dg kk 3 l))
  let w (kk l : Fin 4) : ℝ := 0.5 * (gc 3 0 * (dg l 0 kk + dg kk 0 l) + gc 3 3 * (dg l 3 kk + dg kk 3 l))
  let s (i kk l : Fin 4) : ℝ := 0.5 * (gc i i * (dg l i kk + dg kk i l - dg i kk l))
  ![!![0, u 0 1, u 0 2, 0; u 0 1, 0, 0, u 1 3; u 0 2, 0, 0, u 2 3; 0, u 1 3, u 2 3, 0],
    !![s 1 0 0, 0, 0, s 1 0 3; 0, s 1 1 1, s 1 1 2, 0; 0, s 1 1 2, s 1 2 2, 0; s 1 0 3, 0, 0, s 1 3 3],
    !![s 2 0 0, 0, 0, s 2 0 3; 0, s 2 1 1, s 2 1 2, 0; 0, s 2 1 2, s 2 2 2, 0; s 2 0 3, 0, 0, s 2 3 3],
    !![0, w 0 1, w 0 2, 0; w 0 1, 0, 0, w 1 3; w 0 2, 0, 0, w 2 3; 0, w 1 3, w 2 3, 0]]

theorem chSymLoops_closed (gc : Mat4) (dg : Tab3) : chSymLoops gc dg = chSymClosed gc dg := by
  funext i k l
  fin_cases i <;> fin_cases k <;> fin_cases l <;> rfl

theorem fin4_cases {P : Fin 4 → Prop} (h0 : P 0) (h1 : P 1) (h2 : P 2) (h3 : P 3) : ∀ i, P i := by
  intro i; fin_cases i <;> assumption

section
variable (A B C D E : ℝ)
theorem axi00 : axi A B C D E 0 0 = A := rfl
theorem axi01 : axi A B C D E 0 1 = 0 := rfl
theorem axi02 : axi A B C D E 0 2 = 0 := rfl
theorem axi03 : axi A B C D E 0 3 = B := rfl
theorem axi10 : axi A B C D E 1 0 = 0 := rfl
theorem axi11 : axi A B C D E 1 1 = C := rfl
theorem axi12 : axi A B C D E 1 2 = 0 := rfl
theorem axi13 : axi A B C D E 1 3 = 0 := rfl
theorem axi20 : axi A B C D E 2 0 = 0 := rfl
theorem axi21 : axi A B C D E 2 1 = 0 := rfl
theorem axi22 : axi A B C D E 2 2 = D := rfl
theorem axi23 : axi A B C D E 2 3 = 0 := rfl
theorem axi30 : axi A B C D E 3 0 = B := rfl
theorem axi31 : axi A B C D E 3 1 = 0 := rfl
theorem axi32 : axi A B C D E 3 2 = 0 := rfl
theorem axi33 : axi A B C D E 3 3 = E := rfl
end

/-- A table of derivatives that vanishes in the directions 0 and 3. -/
def tabRT (P Q : Mat4) : Tab3 := ![0, P, Q, 0]
theorem tabRT0 (P Q : Mat4) (i j : Fin 4) : tabRT P Q 0 i j = 0 := rfl
theorem tabRT1 (P Q : Mat4) (i j : Fin 4) : tabRT P Q 1 i j = P i j := rfl
theorem tabRT2 (P Q : Mat4) (i j : Fin 4) : tabRT P Q 2 i j = Q i j := rfl
theorem tabRT3 (P Q : Mat4) (i j : Fin 4) : tabRT P Q 3 i j = 0 := rfl

/-- The loops compute the Christoffel formula for tables of the stationary axisymmetric shape. -/
theorem chSymLoops_eq (a b c d e A1 B1 C1 D1 E1 A2 B2 C2 D2 E2 : ℝ) : ∀ i k l : Fin 4,
    chSymLoops (axi a b c d e) (tabRT (axi A1 B1 C1 D1 E1) (axi A2 B2 C2 D2 E2)) i k l =
      christoffelFormula (axi a b c d e) (tabRT (axi A1 B1 C1 D1 E1) (axi A2 B2 C2 D2 E2)) i k l := by
  rw [chSymLoops_closed]
  unfold christoffelFormula
  generalize hgc : axi a b c d e = gc
  generalize hdg : tabRT (axi A1 B1 C1 D1 E1) (axi A2 B2 C2 D2 E2) = dg
  have h0 : ∀ k l : Fin 4, chSymClosed gc dg 0 k l = 1 / 2 * ∑ m, gc 0 m * (dg l m k + dg k m l - dg m k l) := by
    simp only [Fin.sum_univ_four]
    refine fin4_cases (fin4_cases ?_ ?_ ?_ ?_) (fin4_cases ?_ ?_ ?_ ?_) (fin4_cases ?_ ?_ ?_ ?_) (fin4_cases ?_ ?_ ?_ ?_)
    · refine Eq.trans (show _ = 0 from rfl) ?_
      subst hgc hdg; simp only [tabRT0, tabRT1, tabRT2, tabRT3, axi00, axi01, axi02, axi03, axi10, axi11, axi12, axi13, axi20, axi21, axi22, axi23, axi30, axi31, axi32, axi33]; ring
    · refine Eq.trans (show _ = 0.5 * (gc 0 0 * (dg 1 0 0 + dg 0 0 1) + gc 0 3 * (dg 1 3 0 + dg 0 3 1)) from rfl) ?_
      subst hgc hdg; simp only [tabRT0, tabRT1, tabRT2, tabRT3, axi00, axi01, axi02, axi03, axi10, axi11, axi12, axi13, axi20, axi21, axi22, axi23, axi30, axi31, axi32, axi33]; ring
    · refine Eq.trans (show _ = 0.5 * (gc 0 0 * (dg 2 0 0 + dg 0 0 2) + gc 0 3 * (dg 2 3 0 + dg 0 3 2)) from rfl) ?_
      subst hgc hdg; simp only [tabRT0, tabRT1, tabRT2, tabRT3, axi00, axi01, axi02, axi03, axi10, axi11, axi12, axi13, axi20, axi21, axi22, axi23, axi30, axi31, axi32, axi33]; ring
    · refine Eq.trans (show _ = 0 from rfl) ?_
      subst hgc hdg; simp only [tabRT0, tabRT1, tabRT2, tabRT3, axi00, axi01, axi02, axi03, axi10, axi11, axi12, axi13, axi20, axi21, axi22, axi23, axi30, axi31, axi32, axi33]; ring
    · refine Eq.trans (show _ = 0.5 * (gc 0 0 * (dg 1 0 0 + dg 0 0 1) + gc 0 3 * (dg 1 3 0 + dg 0 3 1)) from rfl) ?_
      subst hgc hdg; simp only [tabRT0, tabRT1, tabRT2, tabRT3, axi00, axi01, axi02, axi03, axi10, axi11, axi12, axi13, axi20, axi21, axi22, axi23, axi30, axi31, axi32, axi33]; ring
    · refine Eq.trans (show _ = 0 from rfl) ?_
      subst hgc hdg; simp only [tabRT0, tabRT1, tabRT2, tabRT3, axi00, axi01, axi02, axi03, axi10, axi11, axi12, axi13, axi20, axi21, axi22, axi23, axi30, axi31, axi32, axi33]; ring
    · refine Eq.trans (show _ = 0 from rfl) ?_
      subst hgc hdg; simp only [tabRT0, tabRT1, tabRT2, tabRT3, axi00, axi01, axi02, axi03, axi10, axi11, axi12, axi13, axi20, axi21, axi22, axi23, axi30, axi31, axi32, axi33]; ring
    · refine Eq.trans (show _ = 0.5 * (gc 0 0 * (dg 3 0 1 + dg 1 0 3) + gc 0 3 * (dg 3 3 1 + dg 1 3 3)) from rfl) ?_
      subst hgc hdg; simp only [tabRT0, tabRT1, tabRT2, tabRT3, axi00, axi01, axi02, axi03, axi10, axi11, axi12, axi13, axi20, axi21, axi22, axi23, axi30, axi31, axi32, axi33]; ring
    · refine Eq.trans (show _ = 0.5 * (gc 0 0 * (dg 2 0 0 + dg 0 0 2) + gc 0 3 * (dg 2 3 0 + dg 0 3 2)) from rfl) ?_
      subst hgc hdg; simp only [tabRT0, tabRT1, tabRT2, tabRT3, axi00, axi01, axi02, axi03, axi10, axi11, axi12, axi13, axi20, axi21, axi22, axi23, axi30, axi31, axi32, axi33]; ring
    · refine Eq.trans (show _ = 0 from rfl) ?_
      subst hgc hdg; simp only [tabRT0, tabRT1, tabRT2, tabRT3, axi00, axi01, axi02, axi03, axi10, axi11, axi12, axi13, axi20, axi21, axi22, axi23, axi30, axi31, axi32, axi33]; ring
    · refine Eq.trans (show _ = 0 from rfl) ?_
      subst hgc hdg; simp only [tabRT0, tabRT1, tabRT2, tabRT3, axi00, axi01, axi02, axi03, axi10, axi11, axi12, axi13, axi20, axi21, axi22, axi23, axi30, axi31, axi32, axi33]; ring
    · refine Eq.trans (show _ = 0.5 * (gc 0 0 * (dg 3 0 2 + dg 2 0 3) + gc 0 3 * (dg 3 3 2 + dg 2 3 3)) from rfl) ?_
      subst hgc hdg; simp only [tabRT0, tabRT1, tabRT2, tabRT3, axi00, axi01, axi02, axi03, axi10, axi11, axi12, axi13, axi20, axi21, axi22, axi23, axi30, axi31, axi32, axi33]; ring
    · refine Eq.trans (show _ = 0 from rfl) ?_
      subst hgc hdg; simp only [tabRT0, tabRT1, tabRT2, tabRT3, axi00, axi01, axi02, axi03, axi10, axi11, axi12, axi13, axi20, axi21, axi22, axi23, axi30, axi31, axi32, axi33]; ring
    · refine Eq.trans (show _ = 0.5 * (gc 0 0 * (dg 3 0 1 + dg 1 0 3) + gc 0 3 * (dg 3 3 1 + dg 1 3 3)) from rfl) ?_
      subst hgc hdg; simp only [tabRT0, tabRT1, tabRT2, tabRT3, axi00, axi01, axi02, axi03, axi10, axi11, axi12, axi13, axi20, axi21, axi22, axi23, axi30, axi31, axi32, axi33]; ring
    · refine Eq.trans (show _ = 0.5 * (gc 0 0 * (dg 3 0 2 + dg 2 0 3) + gc 0 3 * (dg 3 3 2 + dg 2 3 3)) from rfl) ?_
      subst hgc hdg; simp only [tabRT0, tabRT1, tabRT2, tabRT3, axi00, axi01, axi02, axi03, axi10, axi11, axi12, axi13, axi20, axi21, axi22, axi23, axi30, axi31, axi32, axi33]; ring
    · refine Eq.trans (show _ = 0 from rfl) ?_
      subst hgc hdg; simp only [tabRT0, tabRT1, tabRT2, tabRT3, axi00, axi01, axi02, axi03, axi10, axi11, axi12, axi13, axi20, axi21, axi22, axi23, axi30, axi31, axi32, axi33]; ring
  have h1 : ∀ k l : Fin 4, chSymClosed gc dg 1 k l = 1 / 2 * ∑ m, gc 1 m * (dg l m k + dg k m l - dg m k l) := by
    simp only [Fin.sum_univ_four]
    refine fin4_cases (fin4_cases ?_ ?_ ?_ ?_) (fin4_cases ?_ ?_ ?_ ?_) (fin4_cases ?_ ?_ ?_ ?_) (fin4_cases ?_ ?_ ?_ ?_)
    · refine Eq.trans (show _ = 0.5 * (gc 1 1 * (dg 0 1 0 + dg 0 1 0 - dg 1 0 0)) from rfl) ?_
      subst hgc hdg; simp only [tabRT0, tabRT1, tabRT2, tabRT3, axi00, axi01, axi02, axi03, axi10, axi11, axi12, axi13, axi20, axi21, axi22, axi23, axi30, axi31, axi32, axi33]; ring
    · refine Eq.trans (show _ = 0 from rfl) ?_
      subst hgc hdg; simp only [tabRT0, tabRT1, tabRT2, tabRT3, axi00, axi01, axi02, axi03, axi10, axi11, axi12, axi13, axi20, axi21, axi22, axi23, axi30, axi31, axi32, axi33]; ring
    · refine Eq.trans (show _ = 0 from rfl) ?_
      subst hgc hdg; simp only [tabRT0, tabRT1, tabRT2, tabRT3, axi00, axi01, axi02, axi03, axi10, axi11, axi12, axi13, axi20, axi21, axi22, axi23, axi30, axi31, axi32, axi33]; ring
    · refine Eq.trans (show _ = 0.5 * (gc 1 1 * (dg 3 1 0 + dg 0 1 3 - dg 1 0 3)) from rfl) ?_
      subst hgc hdg; simp only [tabRT0, tabRT1, tabRT2, tabRT3, axi00, axi01, axi02, axi03, axi10, axi11, axi12, axi13, axi20, axi21, axi22, axi23, axi30, axi31, axi32, axi33]; ring
    · refine Eq.trans (show _ = 0 from rfl) ?_
      subst hgc hdg; simp only [tabRT0, tabRT1, tabRT2, tabRT3, axi00, axi01, axi02, axi03, axi10, axi11, axi12, axi13, axi20, axi21, axi22, axi23, axi30, axi31, axi32, axi33]; ring
    · refine Eq.trans (show _ = 0.5 * (gc 1 1 * (dg 1 1 1 + dg 1 1 1 - dg 1 1 1)) from rfl) ?_
      subst hgc hdg; simp only [tabRT0, tabRT1, tabRT2, tabRT3, axi00, axi01, axi02, axi03, axi10, axi11, axi12, axi13, axi20, axi21, axi22, axi23, axi30, axi31, axi32, axi33]; ring
    · refine Eq.trans (show _ = 0.5 * (gc 1 1 * (dg 2 1 1 + dg 1 1 2 - dg 1 1 2)) from rfl) ?_
      subst hgc hdg; simp only [tabRT0, tabRT1, tabRT2, tabRT3, axi00, axi01, axi02, axi03, axi10, axi11, axi12, axi13, axi20, axi21, axi22, axi23, axi30, axi31, axi32, axi33]; ring
    · refine Eq.trans (show _ = 0 from rfl) ?_
      subst hgc hdg; simp only [tabRT0, tabRT1, tabRT2, tabRT3, axi00, axi01, axi02, axi03, axi10, axi11, axi12, axi13, axi20, axi21, axi22, axi23, axi30, axi31, axi32, axi33]; ring
    · refine Eq.trans (show _ = 0 from rfl) ?_
      subst hgc hdg; simp only [tabRT0, tabRT1, tabRT2, tabRT3, axi00, axi01, axi02, axi03, axi10, axi11, axi12, axi13, axi20, axi21, axi22, axi23, axi30, axi31, axi32, axi33]; ring
    · refine Eq.trans (show _ = 0.5 * (gc 1 1 * (dg 2 1 1 + dg 1 1 2 - dg 1 1 2)) from rfl) ?_
      subst hgc hdg; simp only [tabRT0, tabRT1, tabRT2, tabRT3, axi00, axi01, axi02, axi03, axi10, axi11, axi12, axi13, axi20, axi21, axi22, axi23, axi30, axi31, axi32, axi33]; ring
    · refine Eq.trans (show _ = 0.5 * (gc 1 1 * (dg 2 1 2 + dg 2 1 2 - dg 1 2 2)) from rfl) ?_
      subst hgc hdg; simp only [tabRT0, tabRT1, tabRT2, tabRT3, axi00, axi01, axi02, axi03, axi10, axi11, axi12, axi13, axi20, axi21, axi22, axi23, axi30, axi31, axi32, axi33]; ring
    · refine Eq.trans (show _ = 0 from rfl) ?_
      subst hgc hdg; simp only [tabRT0, tabRT1, tabRT2, tabRT3, axi00, axi01, axi02, axi03, axi10, axi11, axi12, axi13, axi20, axi21, axi22, axi23, axi30, axi31, axi32, axi33]; ring
    · refine Eq.trans (show _ = 0.5 * (gc 1 1 * (dg 3 1 0 + dg 0 1 3 - dg 1 0 3)) from rfl) ?_
      subst hgc hdg; simp only [tabRT0, tabRT1, tabRT2, tabRT3, axi00, axi01, axi02, axi03, axi10, axi11, axi12, axi13, axi20, axi21, axi22, axi23, axi30, axi31, axi32, axi33]; ring
    · refine Eq.trans (show _ = 0 from rfl) ?_
      subst hgc hdg; simp only [tabRT0, tabRT1, tabRT2, tabRT3, axi00, axi01, axi02, axi03, axi10, axi11, axi12, axi13, axi20, axi21, axi22, axi23, axi30, axi31, axi32, axi33]; ring
    · refine Eq.trans (show _ = 0 from rfl) ?_
      subst hgc hdg; simp only [tabRT0, tabRT1, tabRT2, tabRT3, axi00, axi01, axi02, axi03, axi10, axi11, axi12, axi13, axi20, axi21, axi22, axi23, axi30, axi31, axi32, axi33]; ring
    · refine Eq.trans (show _ = 0.5 * (gc 1 1 * (dg 3 1 3 + dg 3 1 3 - dg 1 3 3)) from rfl) ?_
      subst hgc hdg; simp only [tabRT0, tabRT1, tabRT2, tabRT3, axi00, axi01, axi02, axi03, axi10, axi11, axi12, axi13, axi20, axi21, axi22, axi23, axi30, axi31, axi32, axi33]; ring
  have h2 : ∀ k l : Fin 4, chSymClosed gc dg 2 k l = 1 / 2 * ∑ m, gc 2 m * (dg l m k + dg k m l - dg m k l) := by
    simp only [Fin.sum_univ_four]
    refine fin4_cases (fin4_cases ?_ ?_ ?_ ?_) (fin4_cases ?_ ?_ ?_ ?_) (fin4_cases ?_ ?_ ?_ ?_) (fin4_cases ?_ ?_ ?_ ?_)
    · refine Eq.trans (show _ = 0.5 * (gc 2 2 * (dg 0 2 0 + dg 0 2 0 - dg 2 0 0)) from rfl) ?_
      subst hgc hdg; simp only [tabRT0, tabRT1, tabRT2, tabRT3, axi00, axi01, axi02, axi03, axi10, axi11, axi12, axi13, axi20, axi21, axi22, axi23, axi30, axi31, axi32, axi33]; ring
    · refine Eq.trans (show _ = 0 from rfl) ?_
      subst hgc hdg; simp only [tabRT0, tabRT1, tabRT2, tabRT3, axi00, axi01, axi02, axi03, axi10, axi11, axi12, axi13, axi20, axi21, axi22, axi23, axi30, axi31, axi32, axi33]; ring
    · refine Eq.trans (show _ = 0 from rfl) ?_
      subst hgc hdg; simp only [tabRT0, tabRT1, tabRT2, tabRT3, axi00, axi01, axi02, axi03, axi10, axi11, axi12, axi13, axi20, axi21, axi22, axi23, axi30, axi31, axi32, axi33]; ring
    · refine Eq.trans (show _ = 0.5 * (gc 2 2 * (dg 3 2 0 + dg 0 2 3 - dg 2 0 3)) from rfl) ?_
      subst hgc hdg; simp only [tabRT0, tabRT1, tabRT2, tabRT3, axi00, axi01, axi02, axi03, axi10, axi11, axi12, axi13, axi20, axi21, axi22, axi23, axi30, axi31, axi32, axi33]; ring
    · refine Eq.trans (show _ = 0 from rfl) ?_
      subst hgc hdg; simp only [tabRT0, tabRT1, tabRT2, tabRT3, axi00, axi01, axi02, axi03, axi10, axi11, axi12, axi13, axi20, axi21, axi22, axi23, axi30, axi31, axi32, axi33]; ring
    · refine Eq.trans (show _ = 0.5 * (gc 2 2 * (dg 1 2 1 + dg 1 2 1 - dg 2 1 1)) from rfl) ?_
      subst hgc hdg; simp only [tabRT0, tabRT1, tabRT2, tabRT3, axi00, axi01, axi02, axi03, axi10, axi11, axi12, axi13, axi20, axi21, axi22, axi23, axi30, axi31, axi32, axi33]; ring
    · refine Eq.trans (show _ = 0.5 * (gc 2 2 * (dg 2 2 1 + dg 1 2 2 - dg 2 1 2)) from rfl) ?_
      subst hgc hdg; simp only [tabRT0, tabRT1, tabRT2, tabRT3, axi00, axi01, axi02, axi03, axi10, axi11, axi12, axi13, axi20, axi21, axi22, axi23, axi30, axi31, axi32, axi33]; ring
    · refine Eq.trans (show _ = 0 from rfl) ?_
      subst hgc hdg; simp only [tabRT0, tabRT1, tabRT2, tabRT3, axi00, axi01, axi02, axi03, axi10, axi11, axi12, axi13, axi20, axi21, axi22, axi23, axi30, axi31, axi32, axi33]; ring
    · refine Eq.trans (show _ = 0 from rfl) ?_
      subst hgc hdg; simp only [tabRT0, tabRT1, tabRT2, tabRT3, axi00, axi01, axi02, axi03, axi10, axi11, axi12, axi13, axi20, axi21, axi22, axi23, axi30, axi31, axi32, axi33]; ring
    · refine Eq.trans (show _ = 0.5 * (gc 2 2 * (dg 2 2 1 + dg 1 2 2 - dg 2 1 2)) from rfl) ?_
      subst hgc hdg; simp only [tabRT0, tabRT1, tabRT2, tabRT3, axi00, axi01, axi02, axi03, axi10, axi11, axi12, axi13, axi20, axi21, axi22, axi23, axi30, axi31, axi32, axi33]; ring
    · refine Eq.trans (show _ = 0.5 * (gc 2 2 * (dg 2 2 2 + dg 2 2 2 - dg 2 2 2)) from rfl) ?_
      subst hgc hdg; simp only [tabRT0, tabRT1, tabRT2, tabRT3, axi00, axi01, axi02, axi03, axi10, axi11, axi12, axi13, axi20, axi21, axi22, axi23, axi30, axi31, axi32, axi33]; ring
    · refine Eq.trans (show _ = 0 from rfl) ?_
      subst hgc hdg; simp only [tabRT0, tabRT1, tabRT2, tabRT3, axi00, axi01, axi02, axi03, axi10, axi11, axi12, axi13, axi20, axi21, axi22, axi23, axi30, axi31, axi32, axi33]; ring
    · refine Eq.trans (show _ = 0.5 * (gc 2 2 * (dg 3 2 0 + dg 0 2 3 - dg 2 0 3)) from rfl) ?_
      subst hgc hdg; simp only [tabRT0, tabRT1, tabRT2, tabRT3, axi00, axi01, axi02, axi03, axi10, axi11, axi12, axi13, axi20, axi21, axi22, axi23, axi30, axi31, axi32, axi33]; ring
    · refine Eq.trans (show _ = 0 from rfl) ?_
      subst hgc hdg; simp only [tabRT0, tabRT1, tabRT2, tabRT3, axi00, axi01, axi02, axi03, axi10, axi11, axi12, axi13, axi20, axi21, axi22, axi23, axi30, axi31, axi32, axi33]; ring
    · refine Eq.trans (show _ = 0 from rfl) ?_
      subst hgc hdg; simp only [tabRT0, tabRT1, tabRT2, tabRT3, axi00, axi01, axi02, axi03, axi10, axi11, axi12, axi13, axi20, axi21, axi22, axi23, axi30, axi31, axi32, axi33]; ring
    · refine Eq.trans (show _ = 0.5 * (gc 2 2 * (dg 3 2 3 + dg 3 2 3 - dg 2 3 3)) from rfl) ?_
      subst hgc hdg; simp only [tabRT0, tabRT1, tabRT2, tabRT3, axi00, axi01, axi02, axi03, axi10, axi11, axi12, axi13, axi20, axi21, axi22, axi23, axi30, axi31, axi32, axi33]; ring
  have h3 : ∀ k l : Fin 4, chSymClosed gc dg 3 k l = 1 / 2 * ∑ m, gc 3 m * (dg l m k + dg k m l - dg m k l) := by
    simp only [Fin.sum_univ_four]
    refine fin4_cases (fin4_cases ?_ ?_ ?_ ?_) (fin4_cases ?_ ?_ ?_ ?_) (fin4_cases ?_ ?_ ?_ ?_) (fin4_cases ?_ ?_ ?_ ?_)
    · refine Eq.trans (show _ = 0 from rfl) ?_
      subst hgc hdg; simp only [tabRT0, tabRT1, tabRT2, tabRT3, axi00, axi01, axi02, axi03, axi10, axi11, axi12, axi13, axi20, axi21, axi22, axi23, axi30, axi31, axi32, axi33]; ring
    · refine Eq.trans (show _ = 0.5 * (gc 3 0 * (dg 1 0 0 + dg 0 0 1) + gc 3 3 * (dg 1 3 0 + dg 0 3 1)) from rfl) ?_
      subst hgc hdg; simp only [tabRT0, tabRT1, tabRT2, tabRT3, axi00, axi01, axi02, axi03, axi10, axi11, axi12, axi13, axi20, axi21, axi22, axi23, axi30, axi31, axi32, axi33]; ring
    · refine Eq.trans (show _ = 0.5 * (gc 3 0 * (dg 2 0 0 + dg 0 0 2) + gc 3 3 * (dg 2 3 0 + dg 0 3 2)) from rfl) ?_
      subst hgc hdg; simp only [tabRT0, tabRT1, tabRT2, tabRT3, axi00, axi01, axi02, axi03, axi10, axi11, axi12, axi13, axi20, axi21, axi22, axi23, axi30, axi31, axi32, axi33]; ring
    · refine Eq.trans (show _ = 0 from rfl) ?_
      subst hgc hdg; simp only [tabRT0, tabRT1, tabRT2, tabRT3, axi00, axi01, axi02, axi03, axi10, axi11, axi12, axi13, axi20, axi21, axi22, axi23, axi30, axi31, axi32, axi33]; ring
    · refine Eq.trans (show _ = 0.5 * (gc 3 0 * (dg 1 0 0 + dg 0 0 1) + gc 3 3 * (dg 1 3 0 + dg 0 3 1)) from rfl) ?_
      subst hgc hdg; simp only [tabRT0, tabRT1, tabRT2, tabRT3, axi00, axi01, axi02, axi03, axi10, axi11, axi12, axi13, axi20, axi21, axi22, axi23, axi30, axi31, axi32, axi33]; ring
    · refine Eq.trans (show _ = 0 from rfl) ?_
      subst hgc hdg; simp only [tabRT0, tabRT1, tabRT2, tabRT3, axi00, axi01, axi02, axi03, axi10, axi11, axi12, axi13, axi20, axi21, axi22, axi23, axi30, axi31, axi32, axi33]; ring
    · refine Eq.trans (show _ = 0 from rfl) ?_
      subst hgc hdg; simp only [tabRT0, tabRT1, tabRT2, tabRT3, axi00, axi01, axi02, axi03, axi10, axi11, axi12, axi13, axi20, axi21, axi22, axi23, axi30, axi31, axi32, axi33]; ring
    · refine Eq.trans (show _ = 0.5 * (gc 3 0 * (dg 3 0 1 + dg 1 0 3) + gc 3 3 * (dg 3 3 1 + dg 1 3 3)) from rfl) ?_
      subst hgc hdg; simp only [tabRT0, tabRT1, tabRT2, tabRT3, axi00, axi01, axi02, axi03, axi10, axi11, axi12, axi13, axi20, axi21, axi22, axi23, axi30, axi31, axi32, axi33]; ring
    · refine Eq.trans (show _ = 0.5 * (gc 3 0 * (dg 2 0 0 + dg 0 0 2) + gc 3 3 * (dg 2 3 0 + dg 0 3 2)) from rfl) ?_
      subst hgc hdg; simp only [tabRT0, tabRT1, tabRT2, tabRT3, axi00, axi01, axi02, axi03, axi10, axi11, axi12, axi13, axi20, axi21, axi22, axi23, axi30, axi31, axi32, axi33]; ring
    · refine Eq.trans (show _ = 0 from rfl) ?_
      subst hgc hdg; simp only [tabRT0, tabRT1, tabRT2, tabRT3, axi00, axi01, axi02, axi03, axi10, axi11, axi12, axi13, axi20, axi21, axi22, axi23, axi30, axi31, axi32, axi33]; ring
    · refine Eq.trans (show _ = 0 from rfl) ?_
      subst hgc hdg; simp only [tabRT0, tabRT1, tabRT2, tabRT3, axi00, axi01, axi02, axi03, axi10, axi11, axi12, axi13, axi20, axi21, axi22, axi23, axi30, axi31, axi32, axi33]; ring
    · refine Eq.trans (show _ = 0.5 * (gc 3 0 * (dg 3 0 2 + dg 2 0 3) + gc 3 3 * (dg 3 3 2 + dg 2 3 3)) from rfl) ?_
      subst hgc hdg; simp only [tabRT0, tabRT1, tabRT2, tabRT3, axi00, axi01, axi02, axi03, axi10, axi11, axi12, axi13, axi20, axi21, axi22, axi23, axi30, axi31, axi32, axi33]; ring
    · refine Eq.trans (show _ = 0 from rfl) ?_
      subst hgc hdg; simp only [tabRT0, tabRT1, tabRT2, tabRT3, axi00, axi01, axi02, axi03, axi10, axi11, axi12, axi13, axi20, axi21, axi22, axi23, axi30, axi31, axi32, axi33]; ring
    · refine Eq.trans (show _ = 0.5 * (gc 3 0 * (dg 3 0 1 + dg 1 0 3) + gc 3 3 * (dg 3 3 1 + dg 1 3 3)) from rfl) ?_
      subst hgc hdg; simp only [tabRT0, tabRT1, tabRT2, tabRT3, axi00, axi01, axi02, axi03, axi10, axi11, axi12, axi13, axi20, axi21, axi22, axi23, axi30, axi31, axi32, axi33]; ring
    · refine Eq.trans (show _ = 0.5 * (gc 3 0 * (dg 3 0 2 + dg 2 0 3) + gc 3 3 * (dg 3 3 2 + dg 2 3 3)) from rfl) ?_
      subst hgc hdg; simp only [tabRT0, tabRT1, tabRT2, tabRT3, axi00, axi01, axi02, axi03, axi10, axi11, axi12, axi13, axi20, axi21, axi22, axi23, axi30, axi31, axi32, axi33]; ring
    · refine Eq.trans (show _ = 0 from rfl) ?_
      subst hgc hdg; simp only [tabRT0, tabRT1, tabRT2, tabRT3, axi00, axi01, axi02, axi03, axi10, axi11, axi12, axi13, axi20, axi21, axi22, axi23, axi30, axi31, axi32, axi33]; ring
  exact fin4_cases h0 h1 h2 h3

end Einpy.Num
