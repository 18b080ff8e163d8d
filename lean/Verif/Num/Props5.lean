import Verif.Num.Props4

/-!
# Property C73: the numeric metrics are the textbook line elements
-/

set_option linter.unusedSimpArgs false
set_option linter.unusedVariables false

namespace Einpy.Num
open Classical Topology

variable (k : PhysConst)

/-- **C73**: where and what the Schwarzschild class returns. -/
theorem C73_schwarzschild_line_element (M : ℝ) (x : Vec4) (g : Mat4) :
    Schwarzschild.metricCovariant k (Schwarzschild.new k "Spherical" M) x = .ok g ↔
      x 1 ≠ 0 ∧ x 1 ≠ 2 * k.G * M / k.c ^ 2 ∧ g = schwarzschildLineElement k.c (2 * k.G * M / k.c ^ 2) x := by
  rw [sch_metric]
  have e : schT k.c (schwarzschildRadius k M) (x 1) (x 2) = schwarzschildLineElement k.c (2 * k.G * M / k.c ^ 2) x := by
    unfold schT schwarzschildLineElement schwarzschildRadius axi
    congr 1
    rw [show (1 - 2 * k.G * M / k.c ^ 2 / x 1) * k.c ^ 2 = k.c ^ 2 * (1 - 2 * k.G * M / k.c ^ 2 / x 1) from mul_comm _ _,
      mul_pow, neg_div, one_div]
  have hcond : (x 1 = 0 ∨ 1 - schwarzschildRadius k M / x 1 = 0) ↔ (x 1 = 0 ∨ x 1 = 2 * k.G * M / k.c ^ 2) := by
    by_cases h0 : x 1 = 0
    · simp [h0]
    · rw [or_iff_right h0, or_iff_right h0, sub_eq_zero, eq_comm, div_eq_iff h0, one_mul, eq_comm]; rfl
  by_cases h : x 1 = 0 ∨ x 1 = 2 * k.G * M / k.c ^ 2
  · rw [if_pos (hcond.mpr h)]
    exact ⟨fun h => (by cases h), fun ⟨h1, h2, _⟩ => absurd h (by push Not; exact ⟨h1, h2⟩)⟩
  · rw [if_neg (fun h' => h (hcond.mp h')), e]
    push Not at h
    exact ⟨fun h' => ⟨h.1, h.2, (Except.ok.inj h').symm⟩, fun h' => by rw [h'.2.2]⟩

/-- **C73**: where and what the Kerr class returns. -/
theorem C73_kerr_line_element (M a : ℝ) (x : Vec4) (g : Mat4) :
    Kerr.metricCovariant k (Kerr.new k "BoyerLindquist" M a) x = .ok g ↔
      ∃ al S D, alpha k M a = .ok al ∧ sigma k (x 1) (x 2) M a = .ok S ∧ delta k (x 1) M a 0 = .ok D ∧ S ≠ 0 ∧ D ≠ 0 ∧
        g = knLineElement k.c (2 * k.G * M / k.c ^ 2) al 0 x := by
  rw [kerr_metric]
  by_cases ha : 0 ≤ a ∧ a ≤ 1
  · rw [if_pos ha, alpha_ok k ha, sigma_ok k ha, delta0_ok k ha]
    by_cases h : sigF (alF k M a) (x 1) (x 2) = 0 ∨ delF (schwarzschildRadius k M) (alF k M a) (x 1) = 0
    · rw [if_pos h]
      refine ⟨fun h => (by cases h), ?_⟩
      rintro ⟨al, S, D, _, h2, h3, h4, h5, _⟩
      rw [← Except.ok.inj h2] at h4
      rw [← Except.ok.inj h3] at h5
      exact absurd h (by push Not; exact ⟨h4, h5⟩)
    · rw [if_neg h]
      push Not at h
      constructor
      · intro e
        refine ⟨_, _, _, rfl, rfl, rfl, h.1, h.2, ?_⟩
        rw [← Except.ok.inj e]
        exact (knLine_zero _ _ _ _ h.1).symm
      · rintro ⟨al, S, D, h1, _, _, _, _, rfl⟩
        rw [← Except.ok.inj h1]
        exact congrArg Except.ok (knLine_zero _ _ _ _ h.1).symm
  · rw [if_neg ha, alpha_bad k ha]
    refine ⟨fun h => (by cases h), ?_⟩
    rintro ⟨al, S, D, h1, _⟩
    cases h1

/-- **C73**: a Kerr object without spin returns what the Schwarzschild object of the same mass returns, failures included. -/
theorem C73_kerr_no_spin (M : ℝ) (x : Vec4) :
    Kerr.metricCovariant k (Kerr.new k "BoyerLindquist" M 0) x =
      Schwarzschild.metricCovariant k (Schwarzschild.new k "Spherical" M) x := by
  rw [kerr_metric, sch_metric, if_pos (by norm_num)]
  have hal : alF k M 0 = 0 := zero_mul _
  rw [hal]
  have hS : sigF 0 (x 1) (x 2) = x 1 ^ 2 := by unfold sigF; ring
  have hD : delF (schwarzschildRadius k M) 0 (x 1) = x 1 * (x 1 - schwarzschildRadius k M) := by unfold delF; ring
  have hcond : (sigF 0 (x 1) (x 2) = 0 ∨ delF (schwarzschildRadius k M) 0 (x 1) = 0) ↔
      (x 1 = 0 ∨ 1 - schwarzschildRadius k M / x 1 = 0) := by
    rw [hS, hD]
    by_cases h0 : x 1 = 0
    · simp [h0]
    · have : (1 - schwarzschildRadius k M / x 1 = 0) ↔ x 1 - schwarzschildRadius k M = 0 := by
        rw [sub_eq_zero, sub_eq_zero, eq_comm, div_eq_iff h0, one_mul, eq_comm]
      rw [this]
      simp [h0]
  by_cases h : x 1 = 0 ∨ 1 - schwarzschildRadius k M / x 1 = 0
  · rw [if_pos h, if_pos (hcond.mpr h)]
  · rw [if_neg h, if_neg (fun h' => h (hcond.mp h'))]
    refine congrArg Except.ok ?_
    push Not at h
    have h0 := h.1
    have ht : x 1 - schwarzschildRadius k M ≠ 0 := by
      intro e; apply h.2; rw [sub_eq_zero] at e; rw [← e, div_self h0, sub_self]
    unfold kerrT schT
    simp only [hS, hD]
    congr 1
    · field_simp
    · ring
    · field_simp
    · ring

/-- The determinant of what the Kerr class returns is `-c² Σ² sin²θ`: off the axis the form is Lorentzian and never
degenerate. -/
theorem C73_kerr_determinant {M a : ℝ} {x : Vec4} {g : Mat4} {S : ℝ}
    (h : Kerr.metricCovariant k (Kerr.new k "BoyerLindquist" M a) x = .ok g) (hS : sigma k (x 1) (x 2) M a = .ok S) :
    g.det = -(k.c ^ 2 * S ^ 2 * Real.sin (x 2) ^ 2) := by
  rw [kerr_metric] at h
  split_ifs at h with ha h2
  push Not at h2
  rw [sigma_ok k ha] at hS
  rw [← Except.ok.inj h, ← Except.ok.inj hS]
  have hb := kerr_block k.c (schwarzschildRadius k M) (alF k M a) (x 1) (x 2) h2.1
  have hdet : ∀ A B C D E : ℝ, (axi A B C D E).det = C * D * (A * E - B ^ 2) := by
    intro A B C D E
    unfold axi
    rw [Matrix.det_succ_row_zero]
    simp [Fin.sum_univ_four, Matrix.det_fin_three, Matrix.submatrix, Fin.succAbove]
    ring
  unfold kerrT
  rw [hdet, hb]
  have hd := h2.2
  generalize delF (schwarzschildRadius k M) (alF k M a) (x 1) = D at *
  generalize sigF (alF k M a) (x 1) (x 2) = S at *
  field_simp

/-- **C73**: in their own coordinate system none of the methods of the three classes raises `CoordinateError`. -/
theorem C73_own_system (M a Q q : ℝ) (x v : Vec4) :
    Schwarzschild.christoffels k (Schwarzschild.new k "Spherical" M) x ≠ .error .coordinateError ∧
    Schwarzschild.fVec k (Schwarzschild.new k "Spherical" M) x v ≠ .error .coordinateError ∧
    Kerr.christoffels k (Kerr.new k "BoyerLindquist" M a) x ≠ .error .coordinateError ∧
    Kerr.fVec k (Kerr.new k "BoyerLindquist" M a) x v ≠ .error .coordinateError ∧
    KerrNewman.metricCovariant k (KerrNewman.new k "BoyerLindquist" M a Q q) x ≠ .error .coordinateError := by
  have h1 : Schwarzschild.christoffels k (Schwarzschild.new k "Spherical" M) x ≠ .error .coordinateError := by
    rw [sch_christoffels]; split_ifs <;> simp
  have h2 : Kerr.christoffels k (Kerr.new k "BoyerLindquist" M a) x ≠ .error .coordinateError := by
    unfold Kerr.christoffels
    rw [if_pos (show (Kerr.new k "BoyerLindquist" M a).system = "BoyerLindquist" from rfl)]
    unfold Kerr.chSymBl
    rw [kerr_contra, kerr_dgdx]
    split_ifs <;> simp [bind, Except.bind, pure, Except.pure]
  refine ⟨h1, fun h => h1 ((C45_schwarzschild_rhs_error k _ _ _ _).mp h), h2, fun h => h2 ((C45_kerr_rhs_error k _ _ _ _).mp h), ?_⟩
  rw [kn_metric]; split_ifs <;> simp

example : ∃ g, Schwarzschild.metricCovariant unitConst (Schwarzschild.new unitConst "Spherical" 1) ![0, 4, 1, 0] = .ok g := by
  refine ⟨_, (C73_schwarzschild_line_element unitConst 1 _ _).mpr ⟨?_, ?_, rfl⟩⟩
  · show (4 : ℝ) ≠ 0; norm_num
  · show (4 : ℝ) ≠ 2 * 1 * 1 / 1 ^ 2; norm_num

end Einpy.Num
