import Mathlib.Tactic.NormNum
import Mathlib.Analysis.SpecialFunctions.Trigonometric.DerivHyp
import Verif.Predef.Props2

/-!
# C86: every predefined metric has Lorentz signature; C87: the warp bubble
-/

namespace Einpy.Predef
open Num (PhysConst Vec4 Mat4)

/-! ## Specification -/

/-- A symmetric real matrix of Lorentz signature: some basis is orthogonal for it, with one square of one sign and three of the
other. -/
def Lorentzian (g : Mat4) : Prop :=
  g.transpose = g ∧ ∃ (P : Mat4) (d : Fin 4 → ℝ), P.det ≠ 0 ∧ P.transpose * g * P = Matrix.diagonal d ∧
    ∃ i, (d i < 0 ∧ ∀ j, j ≠ i → 0 < d j) ∨ (0 < d i ∧ ∀ j, j ≠ i → d j < 0)

/-- The function returns a metric of Lorentz signature. -/
def ReturnsLorentzian (p : Py (MetricV ℝ)) : Prop := ∃ coords g, Returns p coords g ∧ Lorentzian g

/-! ## Lemmas -/

/-- One sign differs from the other three. -/
def OneOff (a b c d : ℝ) : Prop :=
  ∃ i : Fin 4, (![a, b, c, d] i < 0 ∧ ∀ j, j ≠ i → 0 < ![a, b, c, d] j) ∨ (0 < ![a, b, c, d] i ∧ ∀ j, j ≠ i → ![a, b, c, d] j < 0)

theorem oneOff0 {a b c d : ℝ} (h : (a < 0 ∧ 0 < b ∧ 0 < c ∧ 0 < d) ∨ (0 < a ∧ b < 0 ∧ c < 0 ∧ d < 0)) : OneOff a b c d := by
  refine ⟨0, ?_⟩
  rcases h with ⟨h0, h1, h2, h3⟩ | ⟨h0, h1, h2, h3⟩
  · refine Or.inl ⟨h0, fun j hj => ?_⟩
    fin_cases j
    · exact absurd rfl hj
    · exact h1
    · exact h2
    · exact h3
  · refine Or.inr ⟨h0, fun j hj => ?_⟩
    fin_cases j
    · exact absurd rfl hj
    · exact h1
    · exact h2
    · exact h3

theorem oneOff1 {a b c d : ℝ} (h : (b < 0 ∧ 0 < a ∧ 0 < c ∧ 0 < d) ∨ (0 < b ∧ a < 0 ∧ c < 0 ∧ d < 0)) : OneOff a b c d := by
  refine ⟨1, ?_⟩
  rcases h with ⟨h0, h1, h2, h3⟩ | ⟨h0, h1, h2, h3⟩
  · refine Or.inl ⟨h0, fun j hj => ?_⟩
    fin_cases j
    · exact h1
    · exact absurd rfl hj
    · exact h2
    · exact h3
  · refine Or.inr ⟨h0, fun j hj => ?_⟩
    fin_cases j
    · exact h1
    · exact absurd rfl hj
    · exact h2
    · exact h3

theorem oneOff2 {a b c d : ℝ} (h : (c < 0 ∧ 0 < a ∧ 0 < b ∧ 0 < d) ∨ (0 < c ∧ a < 0 ∧ b < 0 ∧ d < 0)) : OneOff a b c d := by
  refine ⟨2, ?_⟩
  rcases h with ⟨h0, h1, h2, h3⟩ | ⟨h0, h1, h2, h3⟩
  · refine Or.inl ⟨h0, fun j hj => ?_⟩
    fin_cases j
    · exact h1
    · exact h2
    · exact absurd rfl hj
    · exact h3
  · refine Or.inr ⟨h0, fun j hj => ?_⟩
    fin_cases j
    · exact h1
    · exact h2
    · exact absurd rfl hj
    · exact h3

theorem oneOff3 {a b c d : ℝ} (h : (d < 0 ∧ 0 < a ∧ 0 < b ∧ 0 < c) ∨ (0 < d ∧ a < 0 ∧ b < 0 ∧ c < 0)) : OneOff a b c d := by
  refine ⟨3, ?_⟩
  rcases h with ⟨h0, h1, h2, h3⟩ | ⟨h0, h1, h2, h3⟩
  · refine Or.inl ⟨h0, fun j hj => ?_⟩
    fin_cases j
    · exact h1
    · exact h2
    · exact h3
    · exact absurd rfl hj
  · refine Or.inr ⟨h0, fun j hj => ?_⟩
    fin_cases j
    · exact h1
    · exact h2
    · exact h3
    · exact absurd rfl hj

theorem lorentz_diag {a b c d : ℝ} (h : OneOff a b c d) : Lorentzian (Matrix.diagonal ![a, b, c, d]) := by
  refine ⟨Matrix.diagonal_transpose _, 1, _, by rw [Matrix.det_one]; exact one_ne_zero, ?_, h⟩
  rw [Matrix.transpose_one, Matrix.one_mul, Matrix.mul_one]

/-- A symmetric 2 × 2 block of negative determinant has one positive and one negative square. -/
theorem block_indef {A D E : ℝ} (h : A * D - E ^ 2 < 0) : ∃ p q s t u v : ℝ, p * t - q * s ≠ 0 ∧
    A * p ^ 2 + 2 * E * p * s + D * s ^ 2 = u ∧ A * p * q + E * (p * t + q * s) + D * s * t = 0 ∧
    A * q ^ 2 + 2 * E * q * t + D * t ^ 2 = v ∧ 0 < u ∧ v < 0 := by
  have key : ∃ p q s t u v : ℝ, p * t - q * s ≠ 0 ∧
      A * p ^ 2 + 2 * E * p * s + D * s ^ 2 = u ∧ A * p * q + E * (p * t + q * s) + D * s * t = 0 ∧
      A * q ^ 2 + 2 * E * q * t + D * t ^ 2 = v ∧ u * v < 0 := by
    by_cases hD : D = 0
    · by_cases hA : A = 0
      · have hE : E ≠ 0 := by
          intro hE; rw [hD, hE] at h; norm_num at h
        refine ⟨1, 1, 1, -1, 2 * E, -2 * E, by norm_num, ?_, ?_, ?_, ?_⟩
        · rw [hA, hD]; ring
        · rw [hA, hD]; ring
        · rw [hA, hD]; ring
        · have : 0 < E ^ 2 := by positivity
          nlinarith
      · refine ⟨1, -E / A, 0, 1, A, D - E ^ 2 / A, by norm_num, by ring, ?_, ?_, ?_⟩
        · field_simp; ring
        · field_simp; ring
        · have : A * (D - E ^ 2 / A) = A * D - E ^ 2 := by field_simp
          rw [this]; exact h
    · refine ⟨1, 0, -E / D, 1, A - E ^ 2 / D, D, by norm_num, ?_, ?_, by ring, ?_⟩
      · field_simp; ring
      · field_simp; ring
      · have : (A - E ^ 2 / D) * D = A * D - E ^ 2 := by field_simp
        rw [this]; exact h
  obtain ⟨p, q, s, t, u, v, h1, h2, h3, h4, h5⟩ := key
  rcases lt_or_ge 0 u with hu | hu
  · exact ⟨p, q, s, t, u, v, h1, h2, h3, h4, hu, by nlinarith⟩
  · have hu' : u < 0 := lt_of_le_of_ne hu (by rintro rfl; norm_num at h5)
    refine ⟨q, p, t, s, v, u, ?_, h4, by linarith, h2, by nlinarith, hu'⟩
    intro h'; apply h1; linarith

theorem lorentz_03 {A B C D E : ℝ} (h : (A * D - E ^ 2 < 0 ∧ ((0 < B ∧ 0 < C) ∨ (B < 0 ∧ C < 0))) ∨
    (0 < A * D - E ^ 2 ∧ D < 0 ∧ ((0 < B ∧ C < 0) ∨ (B < 0 ∧ 0 < C)))) :
    Lorentzian !![A, 0, 0, E; 0, B, 0, 0; 0, 0, C, 0; E, 0, 0, D] := by
  refine ⟨by ext i j; fin_cases i <;> fin_cases j <;> rfl, ?_⟩
  have key : ∃ p q s t u v : ℝ, p * t - q * s ≠ 0 ∧ A * p ^ 2 + 2 * E * p * s + D * s ^ 2 = u ∧
      A * p * q + E * (p * t + q * s) + D * s * t = 0 ∧ A * q ^ 2 + 2 * E * q * t + D * t ^ 2 = v ∧ OneOff u B C v := by
    rcases h with ⟨h1, h2⟩ | ⟨h1, h2, h3⟩
    · obtain ⟨p, q, s, t, u, v, k1, k2, k3, k4, k5, k6⟩ := block_indef h1
      refine ⟨p, q, s, t, u, v, k1, k2, k3, k4, ?_⟩
      rcases h2 with ⟨h3, h4⟩ | ⟨h3, h4⟩
      · exact oneOff3 (Or.inl ⟨k6, k5, h3, h4⟩)
      · exact oneOff0 (Or.inr ⟨k5, h3, h4, k6⟩)
    · have hD := h2.ne
      refine ⟨1, 0, -E / D, 1, A - E ^ 2 / D, D, by norm_num, ?_, ?_, by ring, ?_⟩
      · field_simp; ring
      · field_simp; ring
      · have e : (A - E ^ 2 / D) * D = A * D - E ^ 2 := by field_simp
        have hu : A - E ^ 2 / D < 0 := by nlinarith
        rcases h3 with ⟨h4, h5⟩ | ⟨h4, h5⟩
        · exact oneOff1 (Or.inr ⟨h4, hu, h5, h2⟩)
        · exact oneOff2 (Or.inr ⟨h5, hu, h4, h2⟩)
  obtain ⟨p, q, s, t, u, v, k1, k2, k3, k4, k5⟩ := key
  refine ⟨!![p, 0, 0, q; 0, 1, 0, 0; 0, 0, 1, 0; s, 0, 0, t], ![u, B, C, v], ?_, ?_, k5⟩
  · have : (!![p, 0, 0, q; 0, 1, 0, 0; 0, 0, 1, 0; s, 0, 0, t] : Mat4).det = p * t - q * s := by
      simp [Matrix.det_succ_row_zero, Fin.sum_univ_succ, Fin.succAbove]
      ring
    rw [this]; exact k1
  · rw [diag_eq_of, ← k2, ← k4]
    ext i j
    fin_cases i <;> fin_cases j <;>
      simp [Matrix.mul_apply, Fin.sum_univ_four] <;> first | ring1 | linear_combination k3

theorem lorentz_01 {A B C D E : ℝ} (h : A * B - E ^ 2 < 0) (hC : 0 < C) (hD : 0 < D) :
    Lorentzian !![A, E, 0, 0; E, B, 0, 0; 0, 0, C, 0; 0, 0, 0, D] := by
  refine ⟨by ext i j; fin_cases i <;> fin_cases j <;> rfl, ?_⟩
  obtain ⟨p, q, s, t, u, v, k1, k2, k3, k4, k5, k6⟩ := block_indef h
  refine ⟨!![p, q, 0, 0; s, t, 0, 0; 0, 0, 1, 0; 0, 0, 0, 1], ![u, v, C, D], ?_, ?_, oneOff1 (Or.inl ⟨k6, k5, hC, hD⟩)⟩
  · have : (!![p, q, 0, 0; s, t, 0, 0; 0, 0, 1, 0; 0, 0, 0, 1] : Mat4).det = p * t - q * s := by
      simp [Matrix.det_succ_row_zero, Fin.sum_univ_succ, Fin.succAbove]
      ring
    rw [this]; exact k1
  · rw [diag_eq_of, ← k2, ← k4]
    ext i j
    fin_cases i <;> fin_cases j <;>
      simp [Matrix.mul_apply, Fin.sum_univ_four] <;> first | ring1 | linear_combination k3

theorem lorentz_02 {A B C D E : ℝ} (h : A * C - E ^ 2 < 0) (hB : 0 < B) (hD : 0 < D) :
    Lorentzian !![A, 0, E, 0; 0, B, 0, 0; E, 0, C, 0; 0, 0, 0, D] := by
  refine ⟨by ext i j; fin_cases i <;> fin_cases j <;> rfl, ?_⟩
  obtain ⟨p, q, s, t, u, v, k1, k2, k3, k4, k5, k6⟩ := block_indef h
  refine ⟨!![p, 0, q, 0; 0, 1, 0, 0; s, 0, t, 0; 0, 0, 0, 1], ![u, B, v, D], ?_, ?_, oneOff2 (Or.inl ⟨k6, k5, hB, hD⟩)⟩
  · have : (!![p, 0, q, 0; 0, 1, 0, 0; s, 0, t, 0; 0, 0, 0, 1] : Mat4).det = p * t - q * s := by
      simp [Matrix.det_succ_row_zero, Fin.sum_univ_succ, Fin.succAbove]
      ring
    rw [this]; exact k1
  · rw [diag_eq_of, ← k2, ← k4]
    ext i j
    fin_cases i <;> fin_cases j <;>
      simp [Matrix.mul_apply, Fin.sum_univ_four] <;> first | ring1 | linear_combination k3

/-! ## C86 -/

section
variable (v : String → ℝ) (J : ℝ → ℝ → ℝ) (f : String → ℝ → ℝ)

theorem real_cos_theta : (realFns v J f).cos ((realFns v J f).var "theta") ^ 2 =
    1 - (realFns v J f).sin ((realFns v J f).var "theta") ^ 2 := Real.cos_sq' _

/-- **C86.** Schwarzschild: off r = 0, the horizon and the axis. -/
theorem C86_schwarzschild {c sch : ℝ} (hc : c ≠ 0) (hr : v "r" ≠ 0) (hh : v "r" ≠ sch) (hs : Real.sin (v "theta") ≠ 0) :
    ReturnsLorentzian (schwarzschild (realFns v J f) c sch) := by
  refine ⟨_, _, returns_schwarzschild _ _ _, lorentz_diag ?_⟩
  show OneOff (1 - sch / v "r") (-1 / ((1 - sch / v "r") * c ^ 2)) (-(v "r" ^ 2) / c ^ 2)
    (-((v "r" * Real.sin (v "theta")) ^ 2) / c ^ 2)
  have hA : 1 - sch / v "r" ≠ 0 := by
    intro h0
    rw [sub_eq_zero, eq_div_iff hr, one_mul] at h0
    exact hh h0
  generalize 1 - sch / v "r" = A at *
  have h2 : -(v "r" ^ 2) / c ^ 2 < 0 := by rw [neg_div]; exact neg_neg_of_pos (by positivity)
  have h3 : -((v "r" * Real.sin (v "theta")) ^ 2) / c ^ 2 < 0 := by rw [neg_div]; exact neg_neg_of_pos (by positivity)
  rcases lt_or_gt_of_ne hA with h | h
  · refine oneOff1 (Or.inr ⟨?_, h, h2, h3⟩)
    exact div_pos_of_neg_of_neg (by norm_num) (mul_neg_of_neg_of_pos h (by positivity))
  · refine oneOff0 (Or.inr ⟨h, ?_, h2, h3⟩)
    rw [neg_div]; exact neg_neg_of_pos (by positivity)

/-- The t-phi block of a metric of Kerr-Newman form has determinant -Δ sin²θ/c². -/
theorem kn_block {r s k c a q sch : ℝ} (hk : k ^ 2 = 1 - s ^ 2) (hc : c ≠ 0) (hS : r ^ 2 + a ^ 2 * k ^ 2 ≠ 0) :
    (1 + (q - sch * r) / (r ^ 2 + a ^ 2 * k ^ 2)) *
      (((r ^ 2 - sch * r + a ^ 2 + q) * a ^ 2 * s ^ 2 - (r ^ 2 + a ^ 2) ^ 2) * s ^ 2 / ((r ^ 2 + a ^ 2 * k ^ 2) * c ^ 2)) -
      ((sch * r - q) * a * s ^ 2 / ((r ^ 2 + a ^ 2 * k ^ 2) * c)) ^ 2 = -((r ^ 2 - sch * r + a ^ 2 + q) * s ^ 2 / c ^ 2) := by
  generalize hS' : r ^ 2 + a ^ 2 * k ^ 2 = S at *
  rw [hk] at hS'
  field_simp
  rw [← hS']
  ring

theorem kn_lorentz {r s k c a q sch : ℝ} (hk : k ^ 2 = 1 - s ^ 2) (hc : c ≠ 0) (hS : r ^ 2 + a ^ 2 * k ^ 2 ≠ 0)
    (hD : r ^ 2 - sch * r + a ^ 2 + q ≠ 0) (hs : s ≠ 0) :
    Lorentzian !![1 + (q - sch * r) / (r ^ 2 + a ^ 2 * k ^ 2), 0, 0, (sch * r - q) * a * s ^ 2 / ((r ^ 2 + a ^ 2 * k ^ 2) * c);
      0, -(r ^ 2 + a ^ 2 * k ^ 2) / ((r ^ 2 - sch * r + a ^ 2 + q) * c ^ 2), 0, 0;
      0, 0, -(r ^ 2 + a ^ 2 * k ^ 2) / c ^ 2, 0;
      (sch * r - q) * a * s ^ 2 / ((r ^ 2 + a ^ 2 * k ^ 2) * c), 0, 0,
      ((r ^ 2 - sch * r + a ^ 2 + q) * a ^ 2 * s ^ 2 - (r ^ 2 + a ^ 2) ^ 2) * s ^ 2 / ((r ^ 2 + a ^ 2 * k ^ 2) * c ^ 2)] := by
  refine lorentz_03 ?_
  rw [kn_block hk hc hS]
  have hSp : 0 < r ^ 2 + a ^ 2 * k ^ 2 := lt_of_le_of_ne (by positivity) (Ne.symm hS)
  have hC : -(r ^ 2 + a ^ 2 * k ^ 2) / c ^ 2 < 0 := by
    rw [neg_div]; exact neg_neg_of_pos (by positivity)
  have ha : 0 < r ^ 2 + a ^ 2 := by
    have : 0 ≤ a ^ 2 * s ^ 2 := by positivity
    rw [hk] at hSp
    nlinarith
  generalize r ^ 2 - sch * r + a ^ 2 + q = Δ at *
  generalize r ^ 2 + a ^ 2 * k ^ 2 = S at *
  have hs2 : 0 < s ^ 2 := by positivity
  have hc2 : 0 < c ^ 2 := by positivity
  rcases lt_or_gt_of_ne hD with h | h
  · refine Or.inr ⟨?_, ?_, Or.inl ⟨?_, hC⟩⟩
    · rw [neg_pos]; exact div_neg_of_neg_of_pos (mul_neg_of_neg_of_pos h hs2) hc2
    · refine div_neg_of_neg_of_pos (mul_neg_of_neg_of_pos ?_ hs2) (by positivity)
      have h1 : Δ * a ^ 2 * s ^ 2 ≤ 0 := by
        have : 0 ≤ a ^ 2 * s ^ 2 := by positivity
        nlinarith
      nlinarith [pow_pos ha 2]
    · exact div_pos_of_neg_of_neg (by linarith) (mul_neg_of_neg_of_pos h hc2)
  · refine Or.inl ⟨?_, Or.inr ⟨?_, hC⟩⟩
    · rw [neg_lt_zero]; positivity
    · exact div_neg_of_neg_of_pos (by linarith) (by positivity)

/-- **C86.** KerrNewman: off the horizons (Δ ≠ 0), the ring singularity and the axis.  Also where Δ < 0. -/
theorem C86_kerrNewman {c G eps_0 sch a Q : ℝ} (hc : c ≠ 0)
    (hS : v "r" ^ 2 + a ^ 2 * Real.cos (v "theta") ^ 2 ≠ 0)
    (hD : v "r" ^ 2 - sch * v "r" + a ^ 2 + Q ^ 2 * G / (4 * Real.pi * eps_0 * c ^ 4) ≠ 0)
    (hs : Real.sin (v "theta") ≠ 0) : ReturnsLorentzian (kerrNewman (realFns v J f) c G eps_0 sch a Q) :=
  ⟨_, _, returns_kerrNewman _ _ _ _ _ _ _, kn_lorentz (Real.cos_sq' (v "theta")) hc hS hD hs⟩

/-- **C86.** Kerr: off the horizons, the ring singularity and the axis. -/
theorem C86_kerr {c sch a : ℝ} (hc : c ≠ 0) (hS : v "r" ^ 2 + a ^ 2 * Real.cos (v "theta") ^ 2 ≠ 0)
    (hD : v "r" ^ 2 - sch * v "r" + a ^ 2 ≠ 0) (hs : Real.sin (v "theta") ≠ 0) :
    ReturnsLorentzian (kerr (realFns v J f) c sch a) := by
  obtain ⟨co, g, h1, h2⟩ := C86_kerrNewman v J f (G := 1) (eps_0 := 1) (Q := 0) hc hS
    (by rw [show (0:ℝ) ^ 2 * 1 / (4 * Real.pi * 1 * c ^ 4) = 0 by ring, add_zero]; exact hD) hs
  obtain ⟨co', g', h3, h4⟩ := C61_kerrNewman_kerr (realFns v J f) c 1 1 sch a (Real.sin_sq_add_cos_sq _) hS
  obtain ⟨-, rfl⟩ := h1.inj h3
  exact ⟨_, _, h4, h2⟩

/-- **C86.** ReissnerNordstorm: off r = 0, the horizons and the axis. -/
theorem C86_rn {c G eps_0 sch Q : ℝ} (hc : c ≠ 0) (hr : v "r" ≠ 0)
    (hD : v "r" ^ 2 - sch * v "r" + Q ^ 2 * G / (4 * Real.pi * eps_0 * c ^ 4) ≠ 0) (hs : Real.sin (v "theta") ≠ 0) :
    ReturnsLorentzian (reissnerNordstorm (realFns v J f) c G eps_0 sch Q) := by
  obtain ⟨co, g, h1, h2⟩ := C86_kerrNewman v J f (G := G) (eps_0 := eps_0) (Q := Q) (a := 0) (sch := sch) hc
    (by have : v "r" ^ 2 + 0 ^ 2 * Real.cos (v "theta") ^ 2 = v "r" ^ 2 := by ring
        rw [this]; positivity)
    (by intro h; apply hD; linarith) hs
  obtain ⟨co', g', h3, h4⟩ := C61_kerrNewman_rn (realFns v J f) c G eps_0 sch Q hr
  obtain ⟨-, rfl⟩ := h1.inj h3
  exact ⟨_, _, h4, h2⟩

/-- **C86.** Minkowski space, both charts. -/
theorem C86_minkowski {c : ℝ} (hc : c ≠ 0) : ReturnsLorentzian (minkowskiCartesian c) ∧
    (v "r" ≠ 0 → Real.sin (v "theta") ≠ 0 → ReturnsLorentzian (minkowskiPolar (realFns v J f) c)) := by
  refine ⟨⟨_, _, returns_diag _ _ _ _ _ _ rfl, lorentz_diag (oneOff0 (Or.inl ⟨by norm_num, ?_, ?_, ?_⟩))⟩, fun hr hs =>
    ⟨_, _, returns_diag _ _ _ _ _ _ rfl, lorentz_diag (oneOff0 (Or.inl ⟨by norm_num, ?_, ?_, ?_⟩))⟩⟩
  · positivity
  · positivity
  · positivity
  · positivity
  · show 0 < v "r" ^ 2 / c ^ 2
    positivity
  · show 0 < v "r" ^ 2 * Real.sin (v "theta") ^ 2 / c ^ 2
    positivity

/-- **C86.** The three (anti-)de Sitter metrics. -/
theorem C86_deSitter :
    (Real.cos (v "t") ≠ 0 → v "chi" ≠ 0 → Real.sin (v "theta") ≠ 0 → ReturnsLorentzian (antiDeSitter (realFns v J f))) ∧
    (v "r" ≠ 0 → Real.sin (v "theta") ≠ 0 → ReturnsLorentzian (antiDeSitterStatic (realFns v J f))) ∧
    ReturnsLorentzian (deSitter (realFns v J f)) := by
  refine ⟨fun ht hx hs => ⟨_, _, returns_diag _ _ _ _ _ _ rfl, lorentz_diag (oneOff0 (Or.inl ⟨by norm_num, ?_, ?_, ?_⟩))⟩,
    fun hx hs => ⟨_, _, returns_diag _ _ _ _ _ _ rfl, lorentz_diag (oneOff0 (Or.inl ⟨?_, by norm_num, ?_, ?_⟩))⟩,
    ⟨_, _, returns_diag _ _ _ _ _ _ rfl, lorentz_diag (oneOff0 (Or.inl ⟨by norm_num, ?_, ?_, ?_⟩))⟩⟩
  · show 0 < Real.cos (v "t") ^ 2
    positivity
  · have := Real.sinh_ne_zero.2 hx
    show 0 < Real.cos (v "t") ^ 2 * Real.sinh (v "chi") ^ 2
    positivity
  · have := Real.sinh_ne_zero.2 hx
    show 0 < Real.cos (v "t") ^ 2 * Real.sinh (v "chi") ^ 2 * Real.sin (v "theta") ^ 2
    positivity
  · show -Real.cosh (v "r") ^ 2 < 0
    have := Real.cosh_pos (v "r")
    rw [neg_lt_zero]; positivity
  · have := Real.sinh_ne_zero.2 hx
    show 0 < Real.sinh (v "r") ^ 2
    positivity
  · have := Real.sinh_ne_zero.2 hx
    show 0 < Real.sinh (v "r") ^ 2 * Real.sin (v "theta") ^ 2
    positivity
  all_goals exact Real.exp_pos _

/-- **C86.** Janis-Newman-Winicour, outside the radius where its base vanishes. -/
theorem C86_jnw {c G gam M : ℝ} (hc : c ≠ 0) (hr : v "r" ≠ 0) (hs : Real.sin (v "theta") ≠ 0)
    (hα : 0 < 1 - 2 * G * M / c ^ 2 / (gam * v "r")) : ReturnsLorentzian (janisNewmanWinicour (realFns v J f) c G gam M) := by
  refine ⟨_, _, returns_diag _ _ _ _ _ _ rfl, lorentz_diag (oneOff0 (Or.inl ?_))⟩
  show -1 * (1 - 2 * G * M / c ^ 2 / (gam * v "r")) ^ gam < 0 ∧ 0 < (1 - 2 * G * M / c ^ 2 / (gam * v "r")) ^ (-gam) / c ^ 2 ∧
    0 < v "r" ^ 2 * (1 - 2 * G * M / c ^ 2 / (gam * v "r")) ^ (-gam + 1) ∧
    0 < v "r" ^ 2 * (1 - 2 * G * M / c ^ 2 / (gam * v "r")) ^ (-gam + 1) * Real.sin (v "theta") ^ 2
  generalize 1 - 2 * G * M / c ^ 2 / (gam * v "r") = A at *
  have h1 := Real.rpow_pos_of_pos hα gam
  have h2 := Real.rpow_pos_of_pos hα (-gam)
  have h3 := Real.rpow_pos_of_pos hα (-gam + 1)
  exact ⟨by linarith, by positivity, by positivity, by positivity⟩

/-- **C86.** The warp drive metric, everywhere and for every shape. -/
theorem C86_alcubierre (x_s sigma R w : ℝ) : ReturnsLorentzian (alcubierreWarp (realFns v J f) x_s sigma R w) := by
  refine ⟨_, _, returns_sym01 _ _ _ _ _ _ _ rfl, lorentz_01 ?_ one_pos one_pos⟩
  generalize ((realFns v J f).tanh _ - _) / _ = g
  nlinarith

/-- **C86.** Barriola-Vilenkin, Bertotti-Kasner, the Bessel wave, Davidson and Gödel. -/
theorem C86_others :
    (∀ c k, c ≠ 0 → k ≠ 0 → v "r" ≠ 0 → Real.sin (v "theta") ≠ 0 → ReturnsLorentzian (barriolaVilekin (realFns v J f) c k)) ∧
    (∀ c k l, c ≠ 0 → 0 < l → Real.sin (v "theta") ≠ 0 → ReturnsLorentzian (bertottiKasner (realFns v J f) c k l)) ∧
    (∀ C, v "rho" ≠ 0 → ReturnsLorentzian (besselGravitationalWave (realFns v J f) C)) ∧
    (0 < v "t" → v "r" ≠ 0 → ReturnsLorentzian (davidson (realFns v J f))) ∧
    ReturnsLorentzian (godel (realFns v J f)) := by
  refine ⟨fun c k hc hk hr hs => ⟨_, _, returns_diag _ _ _ _ _ _ rfl, lorentz_diag (oneOff0 (Or.inl ?_))⟩,
    fun c k l hc hl hs => ⟨_, _, returns_diag _ _ _ _ _ _ rfl, lorentz_diag (oneOff0 (Or.inl ?_))⟩,
    fun C hr => ⟨_, _, returns_diag _ _ _ _ _ _ rfl, lorentz_diag (oneOff0 (Or.inl ?_))⟩,
    fun ht hr => ⟨_, _, returns_diag _ _ _ _ _ _ rfl, lorentz_diag (oneOff0 (Or.inl ?_))⟩,
    ⟨_, _, returns_sym02 _ _ _ _ _ _ _ rfl, lorentz_02 ?_ one_pos one_pos⟩⟩
  · show (-1:ℝ) < 0 ∧ 0 < 1 / c ^ 2 ∧ 0 < (k * v "r") ^ 2 / c ^ 2 ∧ 0 < (k * v "r" * Real.sin (v "theta")) ^ 2 / c ^ 2
    exact ⟨by norm_num, by positivity, by positivity, by positivity⟩
  · show (-1:ℝ) < 0 ∧ 0 < Real.exp (2 * Real.sqrt l * c * v "t") / c ^ 2 ∧ 0 < 1 / (l * c ^ 2) ∧
      0 < Real.sin (v "theta") ^ 2 / (l * c ^ 2)
    exact ⟨by norm_num, by positivity, by positivity, by positivity⟩
  · refine ⟨?_, mul_pos (Real.exp_pos _) (Real.exp_pos _), mul_pos (Real.exp_pos _) ?_, Real.exp_pos _⟩
    · rw [mul_assoc, neg_one_mul, neg_lt_zero]
      exact mul_pos (Real.exp_pos _) (Real.exp_pos _)
    · show 0 < v "rho" ^ 2
      positivity
  · show -(((1 + v "r" ^ 2) ^ (2 / 5 : ℝ)) ^ 3) < 0 ∧ 0 < v "t" ^ (4 / 3 : ℝ) * (1 + v "r" ^ 2) ^ (2 / 5 : ℝ) ∧
      0 < v "t" ^ (-2 / 3 : ℝ) / (1 + v "r" ^ 2) ^ (2 / 5 : ℝ) ∧
      0 < v "t" ^ (4 / 3 : ℝ) * v "r" ^ 2 / (1 + v "r" ^ 2) ^ (2 / 5 : ℝ)
    have h1 : 0 < (1 + v "r" ^ 2) ^ (2 / 5 : ℝ) := Real.rpow_pos_of_pos (by positivity) _
    have h2 : 0 < v "t" ^ (4 / 3 : ℝ) := Real.rpow_pos_of_pos ht _
    have h3 : 0 < v "t" ^ (-2 / 3 : ℝ) := Real.rpow_pos_of_pos ht _
    exact ⟨by rw [neg_lt_zero]; positivity, by positivity, by positivity, by positivity⟩
  · show -1 * (-(1 / 2) * Real.exp (2 * Real.sqrt 2 * v "omega" * v "x")) - (-Real.exp (Real.sqrt 2 * v "omega" * v "x")) ^ 2 < 0
    have e : Real.exp (2 * Real.sqrt 2 * v "omega" * v "x") = Real.exp (Real.sqrt 2 * v "omega" * v "x") ^ 2 := by
      rw [← Real.exp_nat_mul]; congr 1; push_cast; ring
    rw [e]
    have := Real.exp_pos (Real.sqrt 2 * v "omega" * v "x")
    nlinarith [pow_pos this 2]

/-- **C86.** The C-metric wherever its two functions do not vanish, whatever their signs. -/
theorem C86_cMetric (hxy : v "x" + v "y" ≠ 0) (hf : f "f" (v "x") ≠ 0) (hh : f "h" (v "y") ≠ 0) :
    ReturnsLorentzian (cMetric (realFns v J f)) := by
  refine ⟨_, _, returns_diag _ _ _ _ _ _ rfl, lorentz_diag ?_⟩
  show OneOff (-f "h" (v "y") / (v "x" + v "y") ^ 2) (1 / ((v "x" + v "y") ^ 2 * f "f" (v "x")))
    (1 / ((v "x" + v "y") ^ 2 * f "h" (v "y"))) (f "f" (v "x") / (v "x" + v "y") ^ 2)
  generalize f "f" (v "x") = a at *
  generalize f "h" (v "y") = b at *
  have h2 : 0 < (v "x" + v "y") ^ 2 := by positivity
  generalize (v "x" + v "y") ^ 2 = q at *
  have pos : ∀ z : ℝ, 0 < z → 0 < 1 / (q * z) ∧ 0 < z / q ∧ -z / q < 0 := fun z hz =>
    ⟨by positivity, by positivity, div_neg_of_neg_of_pos (by linarith) h2⟩
  have neg : ∀ z : ℝ, z < 0 → 1 / (q * z) < 0 ∧ z / q < 0 ∧ 0 < -z / q := fun z hz =>
    ⟨one_div_neg.2 (mul_neg_of_pos_of_neg h2 hz), div_neg_of_neg_of_pos hz h2, div_pos (by linarith) h2⟩
  rcases lt_or_gt_of_ne hf with ha | ha <;> rcases lt_or_gt_of_ne hh with hb | hb
  · obtain ⟨a1, a2, -⟩ := neg a ha
    obtain ⟨b1, -, b3⟩ := neg b hb
    exact oneOff0 (Or.inr ⟨b3, a1, b1, a2⟩)
  · obtain ⟨a1, a2, -⟩ := neg a ha
    obtain ⟨b1, -, b3⟩ := pos b hb
    exact oneOff2 (Or.inr ⟨b1, b3, a1, a2⟩)
  · obtain ⟨a1, a2, -⟩ := pos a ha
    obtain ⟨b1, -, b3⟩ := neg b hb
    exact oneOff2 (Or.inl ⟨b1, b3, a1, a2⟩)
  · obtain ⟨a1, a2, -⟩ := pos a ha
    obtain ⟨b1, -, b3⟩ := pos b hb
    exact oneOff0 (Or.inl ⟨b3, a1, b1, a2⟩)

/-- **C86.** The Ernst metric off r = 0, the horizon r = 2M and the axis. -/
theorem C86_ernst {B M : ℝ} (hr : v "r" ≠ 0) (hh : v "r" ≠ 2 * M) (hs : Real.sin (v "theta") ≠ 0) :
    ReturnsLorentzian (ernst (realFns v J f) B M) := by
  refine ⟨_, _, returns_diag _ _ _ _ _ _ rfl, lorentz_diag ?_⟩
  show OneOff (-1 * (1 + (B * v "r" * Real.sin (v "theta")) ^ 2) ^ 2 * (1 - 2 * M / v "r"))
    ((1 + (B * v "r" * Real.sin (v "theta")) ^ 2) ^ 2 / (1 - 2 * M / v "r"))
    ((v "r" * (1 + (B * v "r" * Real.sin (v "theta")) ^ 2)) ^ 2)
    ((v "r" * Real.sin (v "theta") / (1 + (B * v "r" * Real.sin (v "theta")) ^ 2)) ^ 2)
  have hw : 1 - 2 * M / v "r" ≠ 0 := by
    intro h0
    rw [sub_eq_zero, eq_div_iff hr, one_mul] at h0
    exact hh h0
  have hl : 0 < 1 + (B * v "r" * Real.sin (v "theta")) ^ 2 := by positivity
  generalize 1 + (B * v "r" * Real.sin (v "theta")) ^ 2 = l at *
  generalize 1 - 2 * M / v "r" = w at *
  have h2 : 0 < (v "r" * l) ^ 2 := by positivity
  have h3 : 0 < (v "r" * Real.sin (v "theta") / l) ^ 2 := by positivity
  have hl2 : 0 < l ^ 2 := by positivity
  rcases lt_or_gt_of_ne hw with h | h
  · exact oneOff1 (Or.inl ⟨div_neg_of_pos_of_neg hl2 h, by nlinarith, h2, h3⟩)
  · exact oneOff0 (Or.inl ⟨by nlinarith, by positivity, h2, h3⟩)

end

/-! ## C87: the warp bubble -/

/-- The metric at the coordinates (x, y, z), all other symbols being arguments. -/
noncomputable def warpAt (x_s sigma R w x y z : ℝ) : Py (MetricV ℝ) :=
  alcubierreWarp (realFns (fun s => if s = "x" then x else if s = "y" then y else if s = "z" then z else 0)
    (fun _ _ => 0) (fun _ _ => 0)) x_s sigma R w

/-- Alcubierre's shape function of the distance from the centre of the bubble. -/
noncomputable def shape (sigma R r : ℝ) : ℝ := (Real.tanh (sigma * (r + R)) - Real.tanh (sigma * (r - R))) / (2 * Real.tanh (sigma * R))

/-- The warp drive metric for a value f of the shape function: ds² = -dt² + (dx - v f dt)² + dy² + dz². -/
def warpMetric (w f : ℝ) : Mat4 := !![(w * f) ^ 2 - 1, -(w * f), 0, 0; -(w * f), 1, 0, 0; 0, 0, 1, 0; 0, 0, 0, 1]

theorem warpAt_returns (x_s sigma R w x y z : ℝ) :
    Returns (warpAt x_s sigma R w x y z) ["t", "x", "y", "z"]
      (warpMetric w (shape sigma R (Real.sqrt ((x - x_s) ^ 2 + y + z)))) := by
  have h := returns_sym01 (w ^ 2 * shape sigma R (Real.sqrt ((x - x_s) ^ 2 + y + z)) ^ 2 - 1) 1 1 1
    (-w * shape sigma R (Real.sqrt ((x - x_s) ^ 2 + y + z))) ["t", "x", "y", "z"] "AlcubierreWarpMetric" rfl
  have e : warpMetric w (shape sigma R (Real.sqrt ((x - x_s) ^ 2 + y + z))) =
      !![w ^ 2 * shape sigma R (Real.sqrt ((x - x_s) ^ 2 + y + z)) ^ 2 - 1,
        -w * shape sigma R (Real.sqrt ((x - x_s) ^ 2 + y + z)), 0, 0;
        -w * shape sigma R (Real.sqrt ((x - x_s) ^ 2 + y + z)), 1, 0, 0; 0, 0, 1, 0; 0, 0, 0, 1] := by
    unfold warpMetric
    rw [mul_pow, neg_mul]
  rw [e]
  exact h

/-- **C87, partial.** On the axis of motion y = z = 0 the result is Alcubierre's metric with the distance |x - x_s|.
(Missing: points off the axis, where the code uses y and z in place of their squares; see `C87_refuted`.) -/
theorem C87_axis_partial (x_s sigma R w x : ℝ) : Returns (warpAt x_s sigma R w x 0 0) ["t", "x", "y", "z"]
    (warpMetric w (shape sigma R (Real.sqrt ((x - x_s) ^ 2 + 0 ^ 2 + 0 ^ 2)))) := by
  have := warpAt_returns x_s sigma R w x 0 0
  rwa [show (x - x_s) ^ 2 + (0:ℝ) + 0 = (x - x_s) ^ 2 + 0 ^ 2 + 0 ^ 2 by ring] at this

theorem shape_eq (sigma R r : ℝ) : shape sigma R r =
    Real.sinh (2 * (sigma * R)) / ((Real.cosh (2 * (sigma * r)) + Real.cosh (2 * (sigma * R))) * Real.tanh (sigma * R)) := by
  unfold shape
  rw [mul_add, mul_sub]
  generalize sigma * r = a
  generalize sigma * R = b
  have h1 : Real.tanh (a + b) - Real.tanh (a - b) =
      2 * Real.sinh (2 * b) / (Real.cosh (2 * a) + Real.cosh (2 * b)) := by
    have c1 := (Real.cosh_pos (a + b)).ne'
    have c2 := (Real.cosh_pos (a - b)).ne'
    have c3 : Real.cosh (2 * a) + Real.cosh (2 * b) = 2 * (Real.cosh (a + b) * Real.cosh (a - b)) := by
      have e1 : Real.cosh (2 * a) = Real.cosh ((a + b) + (a - b)) := congrArg Real.cosh (by ring)
      have e2 : Real.cosh (2 * b) = Real.cosh ((a + b) - (a - b)) := congrArg Real.cosh (by ring)
      rw [e1, e2, Real.cosh_add (a + b), Real.cosh_sub (a + b)]
      ring
    have c4 : Real.sinh (2 * b) = Real.sinh (a + b) * Real.cosh (a - b) - Real.cosh (a + b) * Real.sinh (a - b) := by
      have e2 : Real.sinh (2 * b) = Real.sinh ((a + b) - (a - b)) := congrArg Real.sinh (by ring)
      rw [e2, Real.sinh_sub (a + b)]
    rw [c3, c4, Real.tanh_eq_sinh_div_cosh, Real.tanh_eq_sinh_div_cosh]
    field_simp
  rw [h1]
  field_simp

/-- **C87 is violated.** Wherever the code's radicand is not negative, the result is Alcubierre's metric, whose distance is
√((x-x_s)² + y² + z²), exactly at the points with y + z = y² + z². -/
theorem C87_refuted {sigma R w : ℝ} (hsig : sigma ≠ 0) (hR : R ≠ 0) (hw : w ≠ 0) (x_s x y z : ℝ)
    (h0 : 0 ≤ (x - x_s) ^ 2 + y + z) {coords : List String} {g : Mat4} (hg : Returns (warpAt x_s sigma R w x y z) coords g) :
    g = warpMetric w (shape sigma R (Real.sqrt ((x - x_s) ^ 2 + y ^ 2 + z ^ 2))) ↔ y + z = y ^ 2 + z ^ 2 := by
  rw [(hg.inj (warpAt_returns x_s sigma R w x y z)).2]
  constructor
  · intro h
    have h1 : -(w * shape sigma R (Real.sqrt ((x - x_s) ^ 2 + y + z))) =
        -(w * shape sigma R (Real.sqrt ((x - x_s) ^ 2 + y ^ 2 + z ^ 2))) := congrFun (congrFun h 0) 1
    have h2 := mul_left_cancel₀ hw (neg_injective h1)
    rw [shape_eq, shape_eq] at h2
    have hb : sigma * R ≠ 0 := mul_ne_zero hsig hR
    have hs : Real.sinh (2 * (sigma * R)) ≠ 0 := Real.sinh_ne_zero.2 (mul_ne_zero two_ne_zero hb)
    have ht : Real.tanh (sigma * R) ≠ 0 := by
      rw [Real.tanh_eq_sinh_div_cosh]
      exact div_ne_zero (Real.sinh_ne_zero.2 hb) (Real.cosh_pos _).ne'
    have d1 : ∀ u : ℝ, (Real.cosh u + Real.cosh (2 * (sigma * R))) * Real.tanh (sigma * R) ≠ 0 := fun u =>
      mul_ne_zero (add_pos (Real.cosh_pos _) (Real.cosh_pos _)).ne' ht
    rw [div_eq_div_iff (d1 _) (d1 _)] at h2
    have h3 := mul_right_cancel₀ ht (mul_left_cancel₀ hs h2)
    have h4 := add_right_cancel h3
    have h5 := le_antisymm (Real.cosh_le_cosh.1 h4.le) (Real.cosh_le_cosh.1 h4.ge)
    rw [abs_mul, abs_mul, abs_mul, abs_mul] at h5
    have h6 := mul_left_cancel₀ (by positivity) (mul_left_cancel₀ (by positivity) h5)
    rw [abs_of_nonneg (Real.sqrt_nonneg _), abs_of_nonneg (Real.sqrt_nonneg _)] at h6
    have h7 := (Real.sqrt_inj (by positivity) h0).1 h6
    linarith
  · intro h
    rw [show (x - x_s) ^ 2 + y + z = (x - x_s) ^ 2 + y ^ 2 + z ^ 2 by linarith]

example : (0:ℝ) ≤ (5 - 1) ^ 2 + 2 + 0 ∧ ¬ ((2:ℝ) + 0 = 2 ^ 2 + 0 ^ 2) := by norm_num

end Einpy.Predef
