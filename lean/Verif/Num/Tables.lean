import Mathlib.Analysis.SpecialFunctions.Trigonometric.Deriv
import Mathlib.Analysis.Calculus.Deriv.Inv
import Mathlib.Analysis.Calculus.Deriv.Pow
import Mathlib.Topology.Algebra.Order.Field
import Verif.Num.Lemmas

/-!
# Closed forms of the numeric metrics and their derivatives
-/

set_option linter.unusedSimpArgs false
set_option linter.unusedVariables false

namespace Einpy.Num
open Classical Filter Topology

/-- Componentwise derivative of a matrix of the `axi` shape. -/
theorem hasDerivAt_axi {A B C D E : ℝ → ℝ} {A' B' C' D' E' s : ℝ} (hA : HasDerivAt A A' s) (hB : HasDerivAt B B' s)
    (hC : HasDerivAt C C' s) (hD : HasDerivAt D D' s) (hE : HasDerivAt E E' s) :
    ∀ i j, HasDerivAt (fun r => axi (A r) (B r) (C r) (D r) (E r) i j) (axi A' B' C' D' E' i j) s := by
  have z : HasDerivAt (fun _ : ℝ => (0 : ℝ)) 0 s := hasDerivAt_const _ _
  exact fin4_cases (fin4_cases hA z z hB) (fin4_cases z hC z z) (fin4_cases z z hD z) (fin4_cases hB z z hE)

/-! ## Schwarzschild -/

/-- schwarzschild.py:82-90 -/
noncomputable def schT (c rs r th : ℝ) : Mat4 :=
  axi ((1 - rs / r) * c ^ 2) 0 (-1 / (1 - rs / r)) (-(r ^ 2)) (-((r * Real.sin th) ^ 2))

noncomputable def schR (c rs r th : ℝ) : Mat4 :=
  axi (rs / r ^ 2 * c ^ 2) 0 (rs / r ^ 2 / (1 - rs / r) ^ 2) (-(2 * r)) (-(2 * r * Real.sin th ^ 2))

noncomputable def schTh (r th : ℝ) : Mat4 := axi 0 0 0 0 (-(2 * r ^ 2 * Real.sin th * Real.cos th))

theorem schT_dr (c rs th : ℝ) {r : ℝ} (hr : r ≠ 0) (ht : 1 - rs / r ≠ 0) :
    ∀ i j, HasDerivAt (fun r => schT c rs r th i j) (schR c rs r th i j) r := by
  have h1 : HasDerivAt (fun r : ℝ => 1 - rs / r) (rs / r ^ 2) r := by
    refine (((hasDerivAt_const r rs).div (hasDerivAt_id r) hr).const_sub 1).congr_deriv ?_
    simp only [id]; field_simp; ring
  refine hasDerivAt_axi (h1.mul_const _) (hasDerivAt_const _ _) ?_ ?_ ?_
  · refine ((hasDerivAt_const r (-1 : ℝ)).div h1 ht).congr_deriv ?_
    ring
  · refine ((hasDerivAt_id r).pow 2).neg.congr_deriv ?_
    simp
  · refine (((hasDerivAt_id r).mul_const (Real.sin th)).pow 2).neg.congr_deriv ?_
    simp; ring

theorem schT_dth (c rs r th : ℝ) :
    ∀ i j, HasDerivAt (fun th => schT c rs r th i j) (schTh r th i j) th := by
  refine hasDerivAt_axi (hasDerivAt_const _ _) (hasDerivAt_const _ _) (hasDerivAt_const _ _) (hasDerivAt_const _ _) ?_
  refine (((Real.hasDerivAt_sin th).const_mul r).pow 2).neg.congr_deriv ?_
  simp; ring

theorem schT_hasPartials (c rs : ℝ) {x : Vec4} (hr : x 1 ≠ 0) (ht : 1 - rs / x 1 ≠ 0) :
    HasPartials (fun y => schT c rs (y 1) (y 2)) (tabRT (schR c rs (x 1) (x 2)) (schTh (x 1) (x 2))) x :=
  hasPartials_of_table (schT_dr c rs (x 2) hr ht) (schT_dth c rs (x 1) (x 2))

/-! ## Kerr -/

noncomputable def sigF (al r th : ℝ) : ℝ := r ^ 2 + (al * Real.cos th) ^ 2
noncomputable def delF (rs al r : ℝ) : ℝ := r ^ 2 - rs * r + al ^ 2

/-- kerr.py:129-143 -/
noncomputable def kerrT (c rs al r th : ℝ) : Mat4 :=
  axi ((1 - rs * r / sigF al r th) * c ^ 2) ((c * rs * r * al * Real.sin th ^ 2) / sigF al r th)
    (-(sigF al r th / delF rs al r)) (-sigF al r th)
    (-((r ^ 2 + al ^ 2 + (rs * r * (al * Real.sin th) ^ 2) / sigF al r th) * Real.sin th ^ 2))

noncomputable def tmpF (rs al r th : ℝ) : ℝ := rs * (sigF al r th - r * (2 * r)) / sigF al r th ^ 2

noncomputable def kerrR (c rs al r th : ℝ) : Mat4 :=
  axi (-tmpF rs al r th * c ^ 2) (c * al * Real.sin th ^ 2 * tmpF rs al r th)
    (-(2 * r - sigF al r th * ((2 * r - rs) / delF rs al r)) / delF rs al r) (-(2 * r))
    (-((2 * r + (al * Real.sin th) ^ 2 * tmpF rs al r th) * Real.sin th ^ 2))

noncomputable def kerrTh (c rs al r th : ℝ) : Mat4 :=
  axi ((c / sigF al r th) ^ 2 * rs * r * (-(al ^ 2) * Real.sin (2 * th)))
    ((c * al * rs * r / sigF al r th ^ 2) *
      (sigF al r th * Real.sin (2 * th) - (-(al ^ 2) * Real.sin (2 * th)) * Real.sin th ^ 2))
    (-((-(al ^ 2) * Real.sin (2 * th)) / delF rs al r)) (-(-(al ^ 2) * Real.sin (2 * th)))
    (-Real.sin (2 * th) * (r ^ 2 + al ^ 2) - (rs * r * al ^ 2) * (Real.sin th / sigF al r th) ^ 2 *
        (2 * sigF al r th * Real.sin (2 * th) - Real.sin th ^ 2 * (-(al ^ 2) * Real.sin (2 * th))))

theorem sigF_dr (al r th : ℝ) : HasDerivAt (fun r => sigF al r th) (2 * r) r := by
  refine (((hasDerivAt_id r).pow 2).add_const _).congr_deriv ?_
  simp

theorem delF_dr (rs al r : ℝ) : HasDerivAt (fun r => delF rs al r) (2 * r - rs) r := by
  refine ((((hasDerivAt_id r).pow 2).sub ((hasDerivAt_id r).const_mul rs)).add_const _).congr_deriv ?_
  simp

theorem sigF_dth (al r th : ℝ) : HasDerivAt (fun th => sigF al r th) (-(al ^ 2) * Real.sin (2 * th)) th := by
  refine ((((Real.hasDerivAt_cos th).const_mul al).pow 2).const_add _).congr_deriv ?_
  simp [Real.sin_two_mul]; ring

theorem sin2_dth (th : ℝ) : HasDerivAt (fun th => Real.sin th ^ 2) (Real.sin (2 * th)) th := by
  refine ((Real.hasDerivAt_sin th).pow 2).congr_deriv ?_
  simp [Real.sin_two_mul]

theorem kerrT_dr (c rs al th : ℝ) {r : ℝ} (hs : sigF al r th ≠ 0) (hd : delF rs al r ≠ 0) :
    ∀ i j, HasDerivAt (fun r => kerrT c rs al r th i j) (kerrR c rs al r th i j) r := by
  have h0 : HasDerivAt (fun r : ℝ => r / sigF al r th) ((sigF al r th - r * (2 * r)) / sigF al r th ^ 2) r := by
    refine ((hasDerivAt_id r).div (sigF_dr al r th) hs).congr_deriv ?_
    simp
  refine hasDerivAt_axi ?_ ?_ ?_ (sigF_dr al r th).neg ?_
  · have h : HasDerivAt (fun r => (1 - rs * (r / sigF al r th)) * c ^ 2) _ r :=
      ((h0.const_mul rs).const_sub 1).mul_const (c ^ 2)
    simp only [← mul_div_assoc] at h
    refine h.congr_deriv ?_
    unfold tmpF; ring
  · have h := h0.const_mul (c * rs * al * Real.sin th ^ 2)
    have e : (fun r => c * rs * al * Real.sin th ^ 2 * (r / sigF al r th))
        = fun r => (c * rs * r * al * Real.sin th ^ 2) / sigF al r th := by funext r; ring
    rw [e] at h
    refine h.congr_deriv ?_
    unfold tmpF; ring
  · refine ((sigF_dr al r th).div (delF_dr rs al r) hd).neg.congr_deriv ?_
    field_simp
  · have h1 : HasDerivAt (fun r => (r ^ 2 + al ^ 2 + rs * (al * Real.sin th) ^ 2 * (r / sigF al r th))) _ r :=
      (((hasDerivAt_id r).pow 2).add_const (al ^ 2)).add (h0.const_mul (rs * (al * Real.sin th) ^ 2))
    have h := (h1.mul_const (Real.sin th ^ 2)).neg
    have e : (fun r => -((r ^ 2 + al ^ 2 + rs * (al * Real.sin th) ^ 2 * (r / sigF al r th)) * Real.sin th ^ 2))
        = fun r => -((r ^ 2 + al ^ 2 + (rs * r * (al * Real.sin th) ^ 2) / sigF al r th) * Real.sin th ^ 2) := by
      funext r; ring
    have h' := h
    simp only [Pi.neg_def] at h'
    rw [e] at h'
    refine h'.congr_deriv ?_
    simp only [tmpF, id, Nat.cast_ofNat, Nat.add_one_sub_one, pow_one]; ring

theorem kerrT_dth (c rs al r : ℝ) {th : ℝ} (hs : sigF al r th ≠ 0) :
    ∀ i j, HasDerivAt (fun th => kerrT c rs al r th i j) (kerrTh c rs al r th i j) th := by
  have hS := sigF_dth al r th
  refine hasDerivAt_axi ?_ ?_ ?_ hS.neg ?_
  · refine ((((hasDerivAt_const th (rs * r)).div hS hs).const_sub 1).mul_const (c ^ 2)).congr_deriv ?_
    field_simp; ring
  · refine (((sin2_dth th).const_mul (c * rs * r * al)).div hS hs).congr_deriv ?_
    field_simp
  · exact (hS.div_const _).neg
  · have h1 : HasDerivAt (fun th => (rs * r * (al * Real.sin th) ^ 2)) (rs * r * (al ^ 2 * Real.sin (2 * th))) th := by
      refine ((((Real.hasDerivAt_sin th).const_mul al).pow 2).const_mul (rs * r)).congr_deriv ?_
      simp only [Real.sin_two_mul, Nat.cast_ofNat, Nat.add_one_sub_one, pow_one]; ring
    refine (((h1.div hS hs).const_add (r ^ 2 + al ^ 2)).mul (sin2_dth th)).neg.congr_deriv ?_
    simp only [Pi.div_apply]
    field_simp; ring

theorem kerrT_hasPartials (c rs al : ℝ) {x : Vec4} (hs : sigF al (x 1) (x 2) ≠ 0) (hd : delF rs al (x 1) ≠ 0) :
    HasPartials (fun y => kerrT c rs al (y 1) (y 2))
      (tabRT (kerrR c rs al (x 1) (x 2)) (kerrTh c rs al (x 1) (x 2))) x :=
  hasPartials_of_table (kerrT_dr c rs al (x 2) hs hd) (kerrT_dth c rs al (x 1) hs)

/-- The determinant of the `t-φ` block. -/
theorem kerr_block (c rs al r th : ℝ) (hs : sigF al r th ≠ 0) :
    ((1 - rs * r / sigF al r th) * c ^ 2) *
      (-((r ^ 2 + al ^ 2 + (rs * r * (al * Real.sin th) ^ 2) / sigF al r th) * Real.sin th ^ 2))
      - ((c * rs * r * al * Real.sin th ^ 2) / sigF al r th) ^ 2 = -(delF rs al r * Real.sin th ^ 2 * c ^ 2) := by
  have e : al ^ 2 * Real.cos th ^ 2 = sigF al r th - r ^ 2 := by unfold sigF; ring
  have e2 : al ^ 2 * Real.sin th ^ 2 = al ^ 2 + r ^ 2 - sigF al r th := by
    have := Real.sin_sq_add_cos_sq th
    linear_combination al ^ 2 * this - e
  generalize sigF al r th = S at *
  unfold delF
  field_simp
  linear_combination (-(c ^ 2 * Real.sin th ^ 2 * S * rs * r)) * e2

end Einpy.Num
