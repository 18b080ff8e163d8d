import Mathlib.Tactic.Positivity
import Verif.Num.Tables

/-!
# Running the numeric metric classes
-/

set_option linter.unusedSimpArgs false
set_option linter.unusedVariables false

namespace Einpy.Num
open Classical

variable (k : PhysConst)

/-- The spin length for a legal `a`. -/
noncomputable def alF (M a : ℝ) : ℝ := a * (k.G * M / k.c ^ 2)

theorem alpha_eq (M a : ℝ) : alpha k M a = if 0 ≤ a ∧ a ≤ 1 then .ok (alF k M a) else .error .valueError := by
  unfold alpha
  by_cases h : 0 ≤ a ∧ a ≤ 1
  · rw [if_pos h, if_neg (by push Not; exact h)]; rfl
  · rw [if_neg h, if_pos (by rw [not_and_or] at h; push Not at h; exact h)]

theorem alpha_ok {M a : ℝ} (h : 0 ≤ a ∧ a ≤ 1) : alpha k M a = .ok (alF k M a) := by rw [alpha_eq, if_pos h]
theorem alpha_bad {M a : ℝ} (h : ¬(0 ≤ a ∧ a ≤ 1)) : alpha k M a = .error .valueError := by rw [alpha_eq, if_neg h]

theorem sigma_ok {M a : ℝ} (h : 0 ≤ a ∧ a ≤ 1) (r th : ℝ) : sigma k r th M a = .ok (sigF (alF k M a) r th) := by
  simp only [sigma, alpha_ok k h, bind, Except.bind, pure, Except.pure, sigF]

theorem sigF_nonneg (al r th : ℝ) : 0 ≤ sigF al r th := by unfold sigF; positivity

theorem rho_ok {M a : ℝ} (h : 0 ≤ a ∧ a ≤ 1) (r th : ℝ) :
    rho k r th M a = .ok (Real.sqrt (sigF (alF k M a) r th)) := by
  simp only [rho, sigma_ok k h, bind, Except.bind, pure, Except.pure]

theorem delta_ok {M a : ℝ} (h : 0 ≤ a ∧ a ≤ 1) (r Q : ℝ) :
    delta k r M a Q = .ok (delF (schwarzschildRadius k M) (alF k M a) r + Q ^ 2 * k.G * k.Cc / k.c ^ 4) := by
  simp only [delta, alpha_ok k h, bind, Except.bind, pure, Except.pure, delF, schwarzschildRadius]
  congr 1; ring

theorem delta0_ok {M a : ℝ} (h : 0 ≤ a ∧ a ≤ 1) (r : ℝ) :
    delta k r M a 0 = .ok (delF (schwarzschildRadius k M) (alF k M a) r) := by
  rw [delta_ok k h]; congr 1; ring

/-! ## Schwarzschild -/

theorem sch_metric (M : ℝ) (x : Vec4) :
    Schwarzschild.metricCovariant k (Schwarzschild.new k "Spherical" M) x =
      if x 1 = 0 ∨ 1 - schwarzschildRadius k M / x 1 = 0 then .error .notANumber
      else .ok (schT k.c (schwarzschildRadius k M) (x 1) (x 2)) := rfl

/-- schwarzschild.py:122-153 entry by entry -/
noncomputable def schChl (c rs r th : ℝ) : Tab3 :=
  ![!![0, -(0.5 * rs / (rs * r - r ^ 2)), 0, 0; -(0.5 * rs / (rs * r - r ^ 2)), 0, 0, 0; 0, 0, 0, 0; 0, 0, 0, 0],
    !![0.5 * rs * (r - rs) * c ^ 2 / r ^ 3, 0, 0, 0; 0, 0.5 * rs / (rs * r - r ^ 2), 0, 0; 0, 0, rs - r, 0;
      0, 0, 0, (rs - r) * Real.sin th ^ 2],
    !![0, 0, 0, 0; 0, 0, 1 / r, 0; 0, 1 / r, 0, 0; 0, 0, 0, -Real.cos th * Real.sin th],
    !![0, 0, 0, 0; 0, 0, 0, 1 / r; 0, 0, 0, Real.cos th / Real.sin th; 0, 1 / r, Real.cos th / Real.sin th, 0]]

theorem sch_christoffels (M : ℝ) (x : Vec4) :
    Schwarzschild.christoffels k (Schwarzschild.new k "Spherical" M) x =
      if x 1 = 0 ∨ schwarzschildRadius k M * x 1 - x 1 ^ 2 = 0 ∨ Real.sin (x 2) = 0 then .error .notANumber
      else .ok (schChl k.c (schwarzschildRadius k M) (x 1) (x 2)) := by
  unfold Schwarzschild.christoffels Schwarzschild.chSymS
  have e : (Schwarzschild.new k "Spherical" M).system = "Spherical" := rfl
  rw [if_pos e]
  have e2 : (Schwarzschild.new k "Spherical" M).schRad = schwarzschildRadius k M := rfl
  rw [e2]
  refine if_congr Iff.rfl rfl ?_
  refine congrArg Except.ok ?_
  funext i j l
  fin_cases i <;> fin_cases j <;> fin_cases l <;> rfl

/-! ## Kerr -/

theorem kerr_metric (M a : ℝ) (x : Vec4) :
    Kerr.metricCovariant k (Kerr.new k "BoyerLindquist" M a) x =
      if 0 ≤ a ∧ a ≤ 1 then
        if sigF (alF k M a) (x 1) (x 2) = 0 ∨ delF (schwarzschildRadius k M) (alF k M a) (x 1) = 0 then .error .notANumber
        else .ok (kerrT k.c (schwarzschildRadius k M) (alF k M a) (x 1) (x 2))
      else .error .valueError := by
  unfold Kerr.metricCovariant Kerr.gCovBl
  have e : (Kerr.new k "BoyerLindquist" M a).system = "BoyerLindquist" := rfl
  rw [if_pos e]
  have eM : (Kerr.new k "BoyerLindquist" M a).M = M := rfl
  have ea : (Kerr.new k "BoyerLindquist" M a).a = a := rfl
  have er : (Kerr.new k "BoyerLindquist" M a).schRad = schwarzschildRadius k M := rfl
  rw [eM, ea, er]
  by_cases h : 0 ≤ a ∧ a ≤ 1
  · rw [if_pos h]
    simp only [alpha_ok k h, sigma_ok k h, delta0_ok k h, bind, Except.bind, pure, Except.pure]
    split_ifs <;> rfl
  · rw [if_neg h]
    simp only [alpha_bad k h, bind, Except.bind]

/-- The array written by kerr.py:195-206, whose entry `[1, 3, 3]` differs from the derivative in one sign. -/
noncomputable def kerrRcode (c rs al r th : ℝ) : Mat4 :=
  axi (-tmpF rs al r th * c ^ 2) (c * al * Real.sin th ^ 2 * tmpF rs al r th)
    (-(2 * r - sigF al r th * ((2 * r - rs) / delF rs al r)) / delF rs al r) (-(2 * r))
    ((-2 * r + (al * Real.sin th) ^ 2 * tmpF rs al r th) * Real.sin th ^ 2)

theorem kerr_dgdx (s : String) (M a : ℝ) (x : Vec4) :
    Kerr.dgdxBl k (Kerr.new k s M a) x =
      if 0 ≤ a ∧ a ≤ 1 then
        if sigF (alF k M a) (x 1) (x 2) = 0 ∨ delF (schwarzschildRadius k M) (alF k M a) (x 1) = 0 then .error .notANumber
        else .ok (tabRT (kerrRcode k.c (schwarzschildRadius k M) (alF k M a) (x 1) (x 2))
          (kerrTh k.c (schwarzschildRadius k M) (alF k M a) (x 1) (x 2)))
      else .error .valueError := by
  unfold Kerr.dgdxBl
  have eM : (Kerr.new k s M a).M = M := rfl
  have ea : (Kerr.new k s M a).a = a := rfl
  have er : (Kerr.new k s M a).schRad = schwarzschildRadius k M := rfl
  rw [eM, ea, er]
  by_cases h : 0 ≤ a ∧ a ≤ 1
  · rw [if_pos h]
    simp only [alpha_ok k h, sigma_ok k h, delta0_ok k h, bind, Except.bind, pure, Except.pure]
    split_ifs <;> rfl
  · rw [if_neg h]
    simp only [alpha_bad k h, bind, Except.bind]

/-- The inverse of the closed form. -/
noncomputable def kerrI (c rs al r th : ℝ) : Mat4 :=
  let A := (1 - rs * r / sigF al r th) * c ^ 2
  let B := (c * rs * r * al * Real.sin th ^ 2) / sigF al r th
  let E := -((r ^ 2 + al ^ 2 + (rs * r * (al * Real.sin th) ^ 2) / sigF al r th) * Real.sin th ^ 2)
  axi (E / (A * E - B ^ 2)) (-B / (A * E - B ^ 2)) (-(sigF al r th / delF rs al r))⁻¹ (-sigF al r th)⁻¹ (A / (A * E - B ^ 2))

theorem kerrI_mul {c rs al r th : ℝ} (hc : c ≠ 0) (hs : sigF al r th ≠ 0) (hd : delF rs al r ≠ 0)
    (ht : Real.sin th ≠ 0) : kerrI c rs al r th * kerrT c rs al r th = 1 := by
  refine axi_mul_inv _ _ _ _ _ (neg_ne_zero.mpr (div_ne_zero hs hd)) (neg_ne_zero.mpr hs) ?_
  rw [kerr_block c rs al r th hs]
  exact neg_ne_zero.mpr (mul_ne_zero (mul_ne_zero hd (pow_ne_zero 2 ht)) (pow_ne_zero 2 hc))

/-- On the axis the metric is singular. -/
theorem kerrT_det_axis {c rs al r th : ℝ} (ht : Real.sin th = 0) : (kerrT c rs al r th).det = 0 := by
  refine Matrix.det_eq_zero_of_row_eq_zero 3 (fin4_cases ?_ rfl rfl ?_)
  · show (c * rs * r * al * Real.sin th ^ 2) / sigF al r th = 0
    rw [ht]; simp
  · show -((r ^ 2 + al ^ 2 + (rs * r * (al * Real.sin th) ^ 2) / sigF al r th) * Real.sin th ^ 2) = 0
    rw [ht]; simp

/-- The points where the closed form is an invertible finite matrix. -/
def Reg (k : PhysConst) (M a : ℝ) (x : Vec4) : Prop :=
  (0 ≤ a ∧ a ≤ 1) ∧ sigF (alF k M a) (x 1) (x 2) ≠ 0 ∧ delF (schwarzschildRadius k M) (alF k M a) (x 1) ≠ 0 ∧
    Real.sin (x 2) ≠ 0

theorem kerr_contra {M a : ℝ} {x : Vec4} :
    contraOf (Kerr.metricCovariant k (Kerr.new k "BoyerLindquist" M a)) x =
      if 0 ≤ a ∧ a ≤ 1 then
        if sigF (alF k M a) (x 1) (x 2) = 0 ∨ delF (schwarzschildRadius k M) (alF k M a) (x 1) = 0 then .error .notANumber
        else if Real.sin (x 2) = 0 then .error .nonInvertible
        else .ok (kerrI k.c (schwarzschildRadius k M) (alF k M a) (x 1) (x 2))
      else .error .valueError := by
  unfold contraOf
  rw [kerr_metric]
  split_ifs with h1 h2 h3
  · rfl
  · simp only [bind, Except.bind]
    unfold npInv
    rw [if_neg (by rw [kerrT_det_axis h3]; simp)]
  · simp only [bind, Except.bind]
    push Not at h2
    exact npInv_of_mul (kerrI_mul k.c_pos.ne' h2.1 h2.2 h3)
  · rfl

theorem kerr_christoffels_iff {M a : ℝ} {x : Vec4} {Γ : Tab3} :
    Kerr.christoffels k (Kerr.new k "BoyerLindquist" M a) x = .ok Γ ↔
      Reg k M a x ∧ Γ = chSymLoops (kerrI k.c (schwarzschildRadius k M) (alF k M a) (x 1) (x 2))
        (tabRT (kerrRcode k.c (schwarzschildRadius k M) (alF k M a) (x 1) (x 2))
          (kerrTh k.c (schwarzschildRadius k M) (alF k M a) (x 1) (x 2))) := by
  unfold Kerr.christoffels
  have e : (Kerr.new k "BoyerLindquist" M a).system = "BoyerLindquist" := rfl
  rw [if_pos e]
  unfold Kerr.chSymBl
  rw [kerr_contra, kerr_dgdx]
  unfold Reg
  split_ifs with h1 h2 h3 <;> simp only [bind, Except.bind, pure, Except.pure]
  · constructor
    · intro h; cases h
    · rintro ⟨h, _⟩; exact absurd h2 (by push Not; exact ⟨h.2.1, h.2.2.1⟩)
  · constructor
    · intro h; cases h
    · rintro ⟨h, _⟩; exact absurd h3 h.2.2.2
  · push Not at h2
    constructor
    · intro h; exact ⟨⟨h1, h2.1, h2.2, h3⟩, (Except.ok.inj h).symm⟩
    · rintro ⟨_, rfl⟩; rfl
  · constructor
    · intro h; cases h
    · rintro ⟨h, _⟩; exact absurd h.1 h1

/-! ## Kerr-Newman -/

theorem knT_eq (c rs al r th : ℝ) (hs : sigF al r th ≠ 0) :
    axi (c ^ 2 * ((delF rs al r - (al * Real.sin th) ^ 2) / sigF al r th))
      (c * ((-al * Real.sin th ^ 2 * (delF rs al r - r ^ 2 - al ^ 2)) / sigF al r th))
      (-sigF al r th / delF rs al r) (-sigF al r th)
      (-(Real.sin th ^ 2 * (((r ^ 2 + al ^ 2) ^ 2 - delF rs al r * (al * Real.sin th) ^ 2) / sigF al r th)))
      = kerrT c rs al r th := by
  have e2 : al ^ 2 * Real.sin th ^ 2 = al ^ 2 + r ^ 2 - sigF al r th := by
    have := Real.sin_sq_add_cos_sq th
    unfold sigF
    linear_combination al ^ 2 * this
  have eA : c ^ 2 * ((delF rs al r - (al * Real.sin th) ^ 2) / sigF al r th) = (1 - rs * r / sigF al r th) * c ^ 2 := by
    rw [mul_pow, e2]; unfold delF; field_simp; ring
  have eB : c * ((-al * Real.sin th ^ 2 * (delF rs al r - r ^ 2 - al ^ 2)) / sigF al r th)
      = (c * rs * r * al * Real.sin th ^ 2) / sigF al r th := by
    unfold delF; ring
  have eE : -(Real.sin th ^ 2 * (((r ^ 2 + al ^ 2) ^ 2 - delF rs al r * (al * Real.sin th) ^ 2) / sigF al r th))
      = -((r ^ 2 + al ^ 2 + (rs * r * (al * Real.sin th) ^ 2) / sigF al r th) * Real.sin th ^ 2) := by
    generalize hS : sigF al r th = S at *
    unfold delF
    have : (r ^ 2 + al ^ 2) ^ 2 - (r ^ 2 - rs * r + al ^ 2) * (al * Real.sin th) ^ 2
        = (r ^ 2 + al ^ 2) * S + rs * r * (al * Real.sin th) ^ 2 := by
      linear_combination (-(r ^ 2 + al ^ 2)) * e2
    rw [this]; field_simp
  unfold kerrT
  rw [eA, eB, eE, neg_div]

theorem kn_metric (M a Q q : ℝ) (x : Vec4) :
    KerrNewman.metricCovariant k (KerrNewman.new k "BoyerLindquist" M a Q q) x =
      if 0 ≤ a ∧ a ≤ 1 then
        if sigF (alF k M a) (x 1) (x 2) = 0 ∨ delF (schwarzschildRadius k M) (alF k M a) (x 1) = 0 then .error .notANumber
        else .ok (kerrT k.c (schwarzschildRadius k M) (alF k M a) (x 1) (x 2))
      else .error .valueError := by
  unfold KerrNewman.metricCovariant KerrNewman.gCovBl
  have e : (KerrNewman.new k "BoyerLindquist" M a Q q).system = "BoyerLindquist" := rfl
  rw [if_pos e]
  have eM : (KerrNewman.new k "BoyerLindquist" M a Q q).M = M := rfl
  have ea : (KerrNewman.new k "BoyerLindquist" M a Q q).a = a := rfl
  rw [eM, ea]
  by_cases h : 0 ≤ a ∧ a ≤ 1
  · rw [if_pos h]
    simp only [alpha_ok k h, rho_ok k h, delta0_ok k h, bind, Except.bind, pure, Except.pure,
      Real.sq_sqrt (sigF_nonneg _ _ _)]
    split_ifs with h2
    · rfl
    · push Not at h2
      rw [← knT_eq _ _ _ _ _ h2.1]; rfl
  · rw [if_neg h]
    simp only [alpha_bad k h, bind, Except.bind]

theorem kn_metric_eq (M a Q q : ℝ) :
    KerrNewman.metricCovariant k (KerrNewman.new k "BoyerLindquist" M a Q q) =
      Kerr.metricCovariant k (Kerr.new k "BoyerLindquist" M a) := by
  funext x
  rw [kn_metric, kerr_metric]

theorem kn_dgdx (s : String) (M a Q q : ℝ) (x : Vec4) :
    KerrNewman.dgdxBl k (KerrNewman.new k s M a Q q) x =
      if 0 ≤ a ∧ a ≤ 1 then
        if sigF (alF k M a) (x 1) (x 2) = 0 ∨ delF (schwarzschildRadius k M) (alF k M a) (x 1) = 0 then .error .notANumber
        else .ok (tabRT (kerrR k.c (schwarzschildRadius k M) (alF k M a) (x 1) (x 2))
          (kerrTh k.c (schwarzschildRadius k M) (alF k M a) (x 1) (x 2)))
      else .error .valueError := by
  unfold KerrNewman.dgdxBl
  have eM : (KerrNewman.new k s M a Q q).M = M := rfl
  have ea : (KerrNewman.new k s M a Q q).a = a := rfl
  have er : (KerrNewman.new k s M a Q q).schRad = schwarzschildRadius k M := rfl
  rw [eM, ea, er]
  by_cases h : 0 ≤ a ∧ a ≤ 1
  · rw [if_pos h]
    simp only [alpha_ok k h, rho_ok k h, delta0_ok k h, bind, Except.bind, pure, Except.pure,
      Real.sq_sqrt (sigF_nonneg _ _ _)]
    split_ifs with h2
    · rfl
    · push Not at h2
      obtain ⟨hs, hd⟩ := h2
      generalize schwarzschildRadius k M = rs at *
      generalize alF k M a = al at *
      generalize x 1 = r at *
      generalize x 2 = th at *
      have e2 : al ^ 2 * Real.sin th ^ 2 = al ^ 2 + r ^ 2 - sigF al r th := by
        have := Real.sin_sq_add_cos_sq th
        unfold sigF
        linear_combination al ^ 2 * this
      have hD : delF rs al r = r ^ 2 - rs * r + al ^ 2 := rfl
      congr 1
      show tabRT (axi _ _ _ _ _) (axi _ _ _ _ _) = tabRT (axi _ _ _ _ _) (axi _ _ _ _ _)
      unfold tmpF
      generalize sigF al r th = S at *
      generalize delF rs al r = D at *
      have eS : S = al ^ 2 + r ^ 2 - al ^ 2 * Real.sin th ^ 2 := by linear_combination e2
      congr 2
      · field_simp
        rw [hD]
        rw [eS]; ring
      · field_simp
        rw [hD]; ring
      · field_simp
      · field_simp
        rw [hD]
        rw [eS]; ring
      · field_simp
        rw [hD]
        rw [eS]; ring
      · field_simp
        rw [hD]
        rw [eS]; ring
      · field_simp
      · field_simp
        rw [hD]
        rw [eS]; ring
  · rw [if_neg h]
    simp only [alpha_bad k h, bind, Except.bind]
end Einpy.Num
