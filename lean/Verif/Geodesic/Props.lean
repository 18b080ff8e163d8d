import Mathlib.LinearAlgebra.Matrix.Notation
import Mathlib.Analysis.SpecialFunctions.Trigonometric.Basic
import Verif.Geodesic.Model
import Verif.Integ.Symplectic
import Verif.Integ.Props2

/-!
# Geodesics: C37 – C40
-/

namespace Einpy
open Classical

/-! ## C37 -/

/-- The only non-zero off-diagonal entries are the equal entries `(0,3)` and `(3,0)`. -/
def AxisymmetricShape (G : Fin 4 → Fin 4 → ℝ) : Prop :=
  G 0 3 = G 3 0 ∧ ∀ i j : Fin 4, i ≠ j → ¬ (i = 0 ∧ j = 3) → ¬ (i = 3 ∧ j = 0) → G i j = 0

/-- **C37** (normalisation).  If the contravariant metric at `q` has only diagonal and `(t,φ)` entries, the momentum
returned by `_P` keeps the three spatial components, satisfies `g^{ab}P_aP_b = -1` (time-like) or `0` (null), and is
future directed: its contravariant time component `g^{0b}P_b` is non-negative. -/
theorem C37_normalised (g : MetricFn) (q : V4) (p : Fin 3 → ℝ) (tl : Bool) (G : Fin 4 → Fin 4 → ℝ) (P : V4)
    (hG : evalMetric g q = .ok G) (hshape : AxisymmetricShape G) (h : fourMomentum g q p tl = .ok P) :
    (P 1 = p 0 ∧ P 2 = p 1 ∧ P 3 = p 2) ∧
    (∑ a, ∑ b, G a b * P a * P b = if tl then -1 else 0) ∧
    0 ≤ ∑ b, G 0 b * P b := by
  unfold fourMomentum at h
  simp only [hG, bind, Except.bind] at h
  generalize hk : (if tl = true then (1 : ℝ) else 0) = k at h
  split_ifs at h with h1 h2
  have hP := Except.ok.inj h
  obtain ⟨hs, ho⟩ := hshape
  have o01 := ho 0 1 (by decide) (by decide) (by decide)
  have o02 := ho 0 2 (by decide) (by decide) (by decide)
  have o10 := ho 1 0 (by decide) (by decide) (by decide)
  have o12 := ho 1 2 (by decide) (by decide) (by decide)
  have o13 := ho 1 3 (by decide) (by decide) (by decide)
  have o20 := ho 2 0 (by decide) (by decide) (by decide)
  have o21 := ho 2 1 (by decide) (by decide) (by decide)
  have o23 := ho 2 3 (by decide) (by decide) (by decide)
  have o31 := ho 3 1 (by decide) (by decide) (by decide)
  have o32 := ho 3 2 (by decide) (by decide) (by decide)
  have hA : G 0 0 ≠ 0 := fun h0 => h2 (by rw [h0]; ring)
  generalize hC : G 1 1 * p 0 * p 0 + G 2 2 * p 1 * p 1 + G 3 3 * p 2 * p 2 + k = C at *
  generalize hS : Real.sqrt ((2 * G 0 3 * p 2) ^ 2 - 4 * G 0 0 * C) = S at *
  have hS0 : 0 ≤ S := by rw [← hS]; exact Real.sqrt_nonneg _
  have hS2 : S ^ 2 = (2 * G 0 3 * p 2) ^ 2 - 4 * G 0 0 * C := by
    rw [← hS]; exact Real.sq_sqrt (not_lt.mp h1)
  have p0 : P 0 = (-(2 * G 0 3 * p 2) + S) / (2 * G 0 0) := by rw [← hP]; rfl
  have p1 : P 1 = p 0 := by rw [← hP]; rfl
  have p2 : P 2 = p 1 := by rw [← hP]; rfl
  have p3 : P 3 = p 2 := by rw [← hP]; rfl
  have hlin : 2 * G 0 0 * P 0 + 2 * G 0 3 * p 2 = S := by
    rw [p0]; field_simp; ring
  refine ⟨⟨p1, p2, p3⟩, ?_, ?_⟩
  · have hkk : (if tl = true then (-1 : ℝ) else 0) = -k := by
      rw [← hk]; split_ifs <;> norm_num
    rw [hkk]
    simp only [Fin.sum_univ_four, o01, o02, o10, o12, o13, o20, o21, o23, o31, o32, ← hs, p1, p2, p3]
    have e : 4 * G 0 0 * (G 0 0 * P 0 * P 0 + 2 * G 0 3 * p 2 * P 0 + C) = 0 := by
      have : S ^ 2 = (2 * G 0 0 * P 0 + 2 * G 0 3 * p 2) ^ 2 := by rw [hlin]
      rw [hS2] at this
      linear_combination -this
    have e2 : G 0 0 * P 0 * P 0 + 2 * G 0 3 * p 2 * P 0 + C = 0 := by
      rcases mul_eq_zero.mp e with h0 | h0
      · exact absurd h0 (mul_ne_zero (by norm_num) hA)
      · exact h0
    rw [← hC] at e2
    linear_combination e2
  · simp only [Fin.sum_univ_four, o01, o02, p3]
    linarith

/-- **C37** (domain).  `_P` produces numbers exactly when the metric can be evaluated, `g^{tt} ≠ 0` and the discriminant
is non-negative. -/
theorem C37_domain (g : MetricFn) (q : V4) (p : Fin 3 → ℝ) (tl : Bool) (G : Fin 4 → Fin 4 → ℝ)
    (hG : evalMetric g q = .ok G) :
    (∃ P, fourMomentum g q p tl = .ok P) ↔
      G 0 0 ≠ 0 ∧ 4 * G 0 0 * (G 1 1 * p 0 * p 0 + G 2 2 * p 1 * p 1 + G 3 3 * p 2 * p 2 + (if tl then 1 else 0)) ≤
        (2 * G 0 3 * p 2) ^ 2 := by
  unfold fourMomentum
  simp only [hG, bind, Except.bind]
  generalize (if tl = true then (1 : ℝ) else 0) = k
  constructor
  · rintro ⟨P, h⟩
    split_ifs at h with h1 h2
    exact ⟨fun h0 => h2 (by rw [h0]; ring), by linarith⟩
  · rintro ⟨hA, hd⟩
    rw [if_neg (by linarith), if_neg (mul_ne_zero (by norm_num) hA)]
    exact ⟨_, rfl⟩

theorem evalMetric_entry {g : MetricFn} {q : V4} {G : Fin 4 → Fin 4 → ℝ} (h : evalMetric g q = .ok G) (i j : Fin 4) :
    (g i j).evalNum q = .ok (G i j) := seq4_ok.mp (seq4_ok.mp h i) j

theorem shape_of_fn {g : MetricFn} (hsym : g 0 3 = g 3 0)
    (hz : ∀ i j : Fin 4, i ≠ j → ¬ (i = 0 ∧ j = 3) → ¬ (i = 3 ∧ j = 0) → g i j = .const 0)
    {q : V4} {G : Fin 4 → Fin 4 → ℝ} (h : evalMetric g q = .ok G) : AxisymmetricShape G := by
  constructor
  · have h1 := evalMetric_entry h 0 3
    have h2 := evalMetric_entry h 3 0
    rw [← hsym, h1] at h2
    exact Except.ok.inj h2
  · intro i j h1 h2 h3
    have := evalMetric_entry h i j
    rw [hz i j h1 h2 h3] at this
    exact (Except.ok.inj this).symm

/-- The three shipped metric functions have the shape `_P` needs. -/
theorem C37_builtin (g : MetricFn) (hg : g = schFn ∨ (∃ a, g = kerrFn a) ∨ (∃ a Q, g = kerrNewmanFn a Q))
    (q : V4) (p : Fin 3 → ℝ) (tl : Bool) (P : V4) (h : fourMomentum g q p tl = .ok P) :
    ∃ G, evalMetric g q = .ok G ∧ (P 1 = p 0 ∧ P 2 = p 1 ∧ P 3 = p 2) ∧
      (∑ a, ∑ b, G a b * P a * P b = if tl then -1 else 0) ∧ 0 ≤ ∑ b, G 0 b * P b := by
  cases hG : evalMetric g q with
  | error e => simp only [fourMomentum, hG, bind, Except.bind] at h; cases h
  | ok G =>
    refine ⟨G, rfl, C37_normalised g q p tl G P hG (shape_of_fn ?_ ?_ hG) h⟩
    · rcases hg with rfl | ⟨a, rfl⟩ | ⟨a, Q, rfl⟩ <;> rfl
    · intro i j h1 h2 h3
      rcases hg with rfl | ⟨a, rfl⟩ | ⟨a, Q, rfl⟩ <;> fin_cases i <;> fin_cases j <;>
        first
        | rfl
        | exact absurd rfl h1
        | exact absurd ⟨rfl, rfl⟩ h2
        | exact absurd ⟨rfl, rfl⟩ h3

/-- a user-supplied metric function with a `(t, r)` entry -/
noncomputable def exTR : MetricFn := fun i j =>
  match i, j with
  | 0, 0 => .const (-1)
  | 0, 1 | 1, 0 => .const (1 / 2)
  | 1, 1 | 2, 2 | 3, 3 => .const 1
  | _, _ => .const 0

/-- **C37** (refuted for general callables).  A callable symmetric Lorentzian metric with a `(t,r)` entry is accepted, but
the resulting momentum is not normalised: `_P` ignores every off-diagonal entry except `(t,φ)`. -/
theorem C37_general_refuted :
    ∃ (g : MetricFn) (q : V4) (p : Fin 3 → ℝ) (G : Fin 4 → Fin 4 → ℝ) (P : V4),
      evalMetric g q = .ok G ∧ (∀ i j, G i j = G j i) ∧ fourMomentum g q p true = .ok P ∧
      ∑ a, ∑ b, G a b * P a * P b ≠ -1 := by
  let G : Fin 4 → Fin 4 → ℝ := fun i j => (exTR i j).den 0
  have hreg : ∀ i j, (exTR i j).Regular (0 : V4) := by
    intro i j; fin_cases i <;> fin_cases j <;> trivial
  have hG : evalMetric exTR 0 = .ok G := evalMetric_regular hreg
  have e00 : G 0 0 = -1 := rfl
  have e01 : G 0 1 = 1 / 2 := rfl
  have e10 : G 1 0 = 1 / 2 := rfl
  have e11 : G 1 1 = 1 := rfl
  have e22 : G 2 2 = 1 := rfl
  have e33 : G 3 3 = 1 := rfl
  have e03 : G 0 3 = 0 := rfl
  have hd := (C37_domain exTR 0 ![1, 0, 0] true G hG).mpr ⟨by rw [e00]; norm_num, by
    rw [e00, e11, e22, e33, e03]; simp⟩
  obtain ⟨P, hP⟩ := hd
  refine ⟨exTR, 0, ![1, 0, 0], G, P, hG, ?_, hP, ?_⟩
  · intro i j; fin_cases i <;> fin_cases j <;> rfl
  · unfold fourMomentum at hP
    simp only [hG, bind, Except.bind, if_true] at hP
    split_ifs at hP with h1 h2
    have hv := Except.ok.inj hP
    have p0 : P 0 = -(Real.sqrt 8 / 2) := by
      rw [← hv]
      show (-(2 * G 0 3 * 0) + Real.sqrt ((2 * G 0 3 * 0) ^ 2 -
        4 * G 0 0 * (G 1 1 * 1 * 1 + G 2 2 * 0 * 0 + G 3 3 * 0 * 0 + 1))) / (2 * G 0 0) = _
      rw [e00, e03, e11, e22, e33, show ((2 * 0 * 0 : ℝ)) ^ 2 - 4 * (-1) * (1 * 1 * 1 + 1 * 0 * 0 + 1 * 0 * 0 + 1) = 8 by
        norm_num]
      ring
    have p1 : P 1 = 1 := by rw [← hv]; rfl
    have p2 : P 2 = 0 := by rw [← hv]; rfl
    have p3 : P 3 = 0 := by rw [← hv]; rfl
    have hs : Real.sqrt 8 ^ 2 = 8 := Real.sq_sqrt (by norm_num)
    have hpos : 0 < Real.sqrt 8 := Real.sqrt_pos.mpr (by norm_num)
    simp only [Fin.sum_univ_four, e00, e01, e10, e11, e22, e33, e03, p0, p1, p2, p3]
    intro hh
    nlinarith

/-! ## C38 -/

/-- Covariant Kerr–Newman metric in Boyer–Lindquist coordinates, `c = G = M = 1`, signature `(-,+,+,+)`, written down
independently: `Σ = r² + a²cos²θ`, `Δ = r² - 2r + a² + Q²`. -/
noncomputable def knCov (a Q r th : ℝ) : Matrix (Fin 4) (Fin 4) ℝ :=
  let S := r ^ 2 + a ^ 2 * Real.cos th ^ 2
  let D := r ^ 2 - 2 * r + a ^ 2 + Q ^ 2
  let w := (2 * r - Q ^ 2) / S
  !![-(1 - w), 0, 0, -(w * a * Real.sin th ^ 2);
     0, S / D, 0, 0;
     0, 0, S, 0;
     -(w * a * Real.sin th ^ 2), 0, 0, (r ^ 2 + a ^ 2 + w * a ^ 2 * Real.sin th ^ 2) * Real.sin th ^ 2]

/-- Covariant Schwarzschild metric, `c = G = M = 1`. -/
noncomputable def schCov (r th : ℝ) : Matrix (Fin 4) (Fin 4) ℝ :=
  Matrix.diagonal ![-(1 - 2 / r), (1 - 2 / r)⁻¹, r ^ 2, r ^ 2 * Real.sin th ^ 2]

theorem knCov_schCov (r th : ℝ) (hr : r ≠ 0) : knCov 0 0 r th = schCov r th := by
  by_cases h2 : r = 2
  · subst h2
    ext i j
    fin_cases i <;> fin_cases j <;> simp [knCov, schCov] <;> norm_num
  · have hd : r ^ 2 - 2 * r ≠ 0 := by
      have : r ^ 2 - 2 * r = r * (r - 2) := by ring
      rw [this]; exact mul_ne_zero hr (sub_ne_zero.mpr h2)
    have h3 : 1 - 2 / r ≠ 0 := by
      rw [ne_eq, sub_eq_zero, eq_div_iff hr]; intro h; exact h2 (by linarith)
    ext i j
    fin_cases i <;> fin_cases j <;> simp [knCov, schCov]
    · field_simp
    · have h4 : r - 2 ≠ 0 := sub_ne_zero.mpr h2
      rw [div_eq_iff hd]; field_simp

theorem sch_regular (q : V4) (hr : q 1 ≠ 0) (h2 : q 1 ≠ 2) (hs : Real.sin (q 2) ≠ 0) : ∀ i j, (schFn i j).Regular q := by
  have hpow : ∀ x : ℝ, 0 < x ∨ (x < 0 ∧ ∃ k : ℤ, (2 : ℝ) = k) ∨ (x = 0 ∧ (1 : ℝ) ≤ 2) := by
    intro x
    rcases lt_trichotomy x 0 with h | h | h
    · exact Or.inr (Or.inl ⟨h, 2, by norm_num⟩)
    · exact Or.inr (Or.inr ⟨h, by norm_num⟩)
    · exact Or.inl h
  have h1 : (1 : ℝ) - 2 / q 1 ≠ 0 := by
    rw [ne_eq, sub_eq_zero, eq_div_iff hr]; intro h; exact h2 (by linarith)
  intro i j
  fin_cases i <;> fin_cases j <;> first
    | exact trivial
    | exact ⟨trivial, ⟨trivial, trivial, trivial, hr⟩, h1⟩
    | exact ⟨trivial, trivial, trivial, hr⟩
    | exact ⟨trivial, ⟨trivial, hpow _⟩, by simp only [Expr.den, Real.rpow_two]; exact pow_ne_zero 2 hr⟩
    | exact ⟨trivial, ⟨⟨trivial, trivial⟩, hpow _⟩, by
        simp only [Expr.den, Real.rpow_two]; exact pow_ne_zero 2 (mul_ne_zero hr hs)⟩

theorem pow2_ok (x : ℝ) : 0 < x ∨ (x < 0 ∧ ∃ k : ℤ, (2 : ℝ) = k) ∨ (x = 0 ∧ (1 : ℝ) ≤ 2) := by
  rcases lt_trichotomy x 0 with h | h | h
  · exact Or.inr (Or.inl ⟨h, 2, by norm_num⟩)
  · exact Or.inr (Or.inr ⟨h, by norm_num⟩)
  · exact Or.inl h

section RegularIff
variable {ι : Type*} (x : ι → ℝ) (a b : Expr ι)
theorem reg_var (i : ι) : (Expr.var i).Regular x ↔ True := Iff.rfl
theorem reg_const (c : ℝ) : (Expr.const c : Expr ι).Regular x ↔ True := Iff.rfl
theorem reg_add : (Expr.add a b).Regular x ↔ a.Regular x ∧ b.Regular x := Iff.rfl
theorem reg_sub : (Expr.sub a b).Regular x ↔ a.Regular x ∧ b.Regular x := Iff.rfl
theorem reg_mul : (Expr.mul a b).Regular x ↔ a.Regular x ∧ b.Regular x := Iff.rfl
theorem reg_div : (Expr.div a b).Regular x ↔ a.Regular x ∧ b.Regular x ∧ b.den x ≠ 0 := Iff.rfl
theorem reg_neg : (Expr.neg a).Regular x ↔ a.Regular x := Iff.rfl
theorem reg_sin : (Expr.sin a).Regular x ↔ a.Regular x := Iff.rfl
theorem reg_cos : (Expr.cos a).Regular x ↔ a.Regular x := Iff.rfl
theorem reg_pow2 : (Expr.pow a 2).Regular x ↔ a.Regular x := ⟨fun h => h.1, fun h => ⟨h, pow2_ok _⟩⟩
end RegularIff

/-- Contravariant Kerr–Newman metric in closed form. -/
noncomputable def knContra (a Q r th : ℝ) : Matrix (Fin 4) (Fin 4) ℝ :=
  let S := r ^ 2 + a ^ 2 * Real.cos th ^ 2
  let D := r ^ 2 - 2 * r + a ^ 2 + Q ^ 2
  let s2 := Real.sin th ^ 2
  !![-(((r ^ 2 + a ^ 2) ^ 2 - a ^ 2 * D * s2) / (S * D)), 0, 0, -(a * (2 * r - Q ^ 2) / (S * D));
     0, D / S, 0, 0;
     0, 0, 1 / S, 0;
     -(a * (2 * r - Q ^ 2) / (S * D)), 0, 0, (D - a ^ 2 * s2) / (S * D * s2)]

theorem knContra_inverse_aux (a r S D W s : ℝ) (hS : S ≠ 0) (hD : D ≠ 0) (hs : s ≠ 0)
    (hw : W = r ^ 2 + a ^ 2 - D) (hS2 : S = r ^ 2 + a ^ 2 - a ^ 2 * s ^ 2) :
    !![-(((r ^ 2 + a ^ 2) ^ 2 - a ^ 2 * D * s ^ 2) / (S * D)), 0, 0, -(a * W / (S * D));
     0, D / S, 0, 0;
     0, 0, 1 / S, 0;
     -(a * W / (S * D)), 0, 0, (D - a ^ 2 * s ^ 2) / (S * D * s ^ 2)] *
    !![-(1 - W / S), 0, 0, -(W / S * a * s ^ 2);
     0, S / D, 0, 0;
     0, 0, S, 0;
     -(W / S * a * s ^ 2), 0, 0, (r ^ 2 + a ^ 2 + W / S * a ^ 2 * s ^ 2) * s ^ 2] = (1 : Matrix (Fin 4) (Fin 4) ℝ) := by
  ext i j
  fin_cases i <;> fin_cases j <;> simp [Matrix.mul_apply, Fin.sum_univ_four, hw]
  · field_simp
    rw [hS2]; ring
  · field_simp
    rw [hS2]; ring
  · field_simp
  · field_simp
  · field_simp
    rw [hS2]; ring
  · field_simp
    rw [hS2]; ring

theorem knContra_inverse (a Q r th : ℝ) (hS : r ^ 2 + a ^ 2 * Real.cos th ^ 2 ≠ 0)
    (hD : r ^ 2 - 2 * r + a ^ 2 + Q ^ 2 ≠ 0) (hs : Real.sin th ≠ 0) :
    knContra a Q r th * knCov a Q r th = 1 := by
  have hc : Real.cos th ^ 2 = 1 - Real.sin th ^ 2 := by
    have := Real.sin_sq_add_cos_sq th; linarith
  exact knContra_inverse_aux a r _ _ _ _ hS hD hs (by ring) (by rw [hc]; ring)

theorem kerrNewman_regular (a Q : ℝ) (q : V4) (hS : q 1 ^ 2 + a ^ 2 * Real.cos (q 2) ^ 2 ≠ 0)
    (hD : q 1 ^ 2 - 2 * q 1 + a ^ 2 + Q ^ 2 ≠ 0) (hs : Real.sin (q 2) ≠ 0) :
    ∀ i j, (kerrNewmanFn a Q i j).Regular q := by
  have h2 : a ^ 2 + 2 * q 1 ^ 2 + a ^ 2 * Real.cos (2 * q 2) ≠ 0 := by
    rw [Real.cos_two_mul]
    intro h; apply hS; linarith
  have h3 : a ^ 2 - (a ^ 2 + q 1 ^ 2) * (1 / Real.sin (q 2) ^ 2) ≠ 0 := by
    intro h
    field_simp at h
    apply hS
    have := Real.sin_sq_add_cos_sq (q 2)
    have hc : Real.cos (q 2) ^ 2 = 1 - Real.sin (q 2) ^ 2 := by linarith
    rw [hc]; linarith
  have hS' : q 1 ^ 2 + (a * Real.cos (q 2)) ^ 2 ≠ 0 := by rw [mul_pow]; exact hS
  intro i j
  fin_cases i <;> fin_cases j <;>
    simp [kerrNewmanFn, sigmaE, deltaE, reg_var, reg_const, reg_add, reg_sub, reg_mul, reg_div, reg_neg, reg_sin, reg_cos,
      reg_pow2, Expr.den, Real.rpow_two, -one_div, hS', hD, hs, h2, h3]

theorem kerrNewman_den (a Q : ℝ) (q : V4) (hS : q 1 ^ 2 + a ^ 2 * Real.cos (q 2) ^ 2 ≠ 0)
    (hD : q 1 ^ 2 - 2 * q 1 + a ^ 2 + Q ^ 2 ≠ 0) (hs : Real.sin (q 2) ≠ 0) :
    (fun i j => (kerrNewmanFn a Q i j).den q) = knContra a Q (q 1) (q 2) := by
  have hc : Real.cos (q 2) ^ 2 = 1 - Real.sin (q 2) ^ 2 := by
    have := Real.sin_sq_add_cos_sq (q 2); linarith
  have h2 : a ^ 2 + 2 * q 1 ^ 2 + a ^ 2 * Real.cos (2 * q 2) = 2 * (q 1 ^ 2 + a ^ 2 * Real.cos (q 2) ^ 2) := by
    rw [Real.cos_two_mul]; ring
  have h3 : a ^ 2 - (a ^ 2 + q 1 ^ 2) * (1 / Real.sin (q 2) ^ 2) =
      -((q 1 ^ 2 + a ^ 2 * Real.cos (q 2) ^ 2) / Real.sin (q 2) ^ 2) := by
    rw [hc]; field_simp; ring
  have hS' : q 1 ^ 2 + (a * Real.cos (q 2)) ^ 2 = q 1 ^ 2 + a ^ 2 * Real.cos (q 2) ^ 2 := by rw [mul_pow]
  funext i j
  fin_cases i <;> fin_cases j <;>
    simp [kerrNewmanFn, sigmaE, deltaE, Expr.den, Real.rpow_two, knContra, -one_div, h2, h3, hS']
  all_goals
    generalize q 1 ^ 2 + a ^ 2 * Real.cos (q 2) ^ 2 = S at *
    generalize hDv : q 1 ^ 2 - 2 * q 1 + a ^ 2 + Q ^ 2 = D at *
    first
    | (field_simp; done)
    | (field_simp; ring1)
    | (field_simp; rw [← hDv]; ring1)

theorem kerr_regular (a : ℝ) (q : V4) (hS : q 1 ^ 2 + a ^ 2 * Real.cos (q 2) ^ 2 ≠ 0)
    (hD : q 1 ^ 2 - 2 * q 1 + a ^ 2 ≠ 0) (hs : Real.sin (q 2) ≠ 0) :
    ∀ i j, (kerrFn a i j).Regular q := by
  have hS' : q 1 ^ 2 + (a * Real.cos (q 2)) ^ 2 ≠ 0 := by rw [mul_pow]; exact hS
  intro i j
  fin_cases i <;> fin_cases j <;>
    simp [kerrFn, sigmaE, deltaE, reg_var, reg_const, reg_add, reg_sub, reg_mul, reg_div, reg_neg, reg_sin, reg_cos,
      reg_pow2, Expr.den, Real.rpow_two, -one_div, hS', hD, hs]

theorem kerr_den (a : ℝ) (q : V4) (hS : q 1 ^ 2 + a ^ 2 * Real.cos (q 2) ^ 2 ≠ 0)
    (hD : q 1 ^ 2 - 2 * q 1 + a ^ 2 ≠ 0) (hs : Real.sin (q 2) ≠ 0) :
    (fun i j => (kerrFn a i j).den q) = knContra a 0 (q 1) (q 2) := by
  have hc : Real.cos (q 2) ^ 2 = 1 - Real.sin (q 2) ^ 2 := by
    have := Real.sin_sq_add_cos_sq (q 2); linarith
  have hS' : q 1 ^ 2 + (a * Real.cos (q 2)) ^ 2 = q 1 ^ 2 + a ^ 2 * Real.cos (q 2) ^ 2 := by rw [mul_pow]
  have hS2 : q 1 ^ 2 + a ^ 2 * Real.cos (q 2) ^ 2 = q 1 ^ 2 + a ^ 2 - a ^ 2 * Real.sin (q 2) ^ 2 := by rw [hc]; ring
  funext i j
  fin_cases i <;> fin_cases j <;>
    simp [kerrFn, sigmaE, deltaE, Expr.den, Real.rpow_two, knContra, -one_div, hS']
  all_goals
    generalize q 1 ^ 2 + a ^ 2 * Real.cos (q 2) ^ 2 = S at *
    field_simp
    try (rw [hS2]; ring)

theorem sch_den (q : V4) (hr : q 1 ≠ 0) (h2 : q 1 ≠ 2) (hs : Real.sin (q 2) ≠ 0) :
    (fun i j => (schFn i j).den q) = knContra 0 0 (q 1) (q 2) := by
  have h3 : q 1 ^ 2 - 2 * q 1 ≠ 0 := by
    have : q 1 ^ 2 - 2 * q 1 = q 1 * (q 1 - 2) := by ring
    rw [this]; exact mul_ne_zero hr (sub_ne_zero.mpr h2)
  have h4 : 1 - 2 / q 1 ≠ 0 := by
    rw [ne_eq, sub_eq_zero, eq_div_iff hr]; intro h; exact h2 (by linarith)
  have h5 : q 1 - 2 ≠ 0 := sub_ne_zero.mpr h2
  funext i j
  fin_cases i <;> fin_cases j <;> simp [schFn, Expr.den, Real.rpow_two, knContra, -one_div]
  all_goals
    field_simp
    try ring

/-- **C38** (Kerr–Newman).  Away from the ring (`Σ = 0`), the horizons (`Δ = 0`) and the axis, the function behind
`metric="KerrNewman"` evaluates, and its table is the inverse of the covariant Kerr–Newman metric. -/
theorem C38_kerrNewman (a Q : ℝ) (q : V4) (hS : q 1 ^ 2 + a ^ 2 * Real.cos (q 2) ^ 2 ≠ 0)
    (hD : q 1 ^ 2 - 2 * q 1 + a ^ 2 + Q ^ 2 ≠ 0) (hs : Real.sin (q 2) ≠ 0) :
    ∃ G, evalMetric (kerrNewmanFn a Q) q = .ok G ∧ Matrix.of G * knCov a Q (q 1) (q 2) = 1 ∧
      ∀ i j, G i j = G j i := by
  refine ⟨_, evalMetric_regular (kerrNewman_regular a Q q hS hD hs), ?_, ?_⟩
  · rw [kerrNewman_den a Q q hS hD hs]
    exact knContra_inverse a Q _ _ hS hD hs
  · intro i j; fin_cases i <;> fin_cases j <;> rfl

/-- **C38** (Kerr). -/
theorem C38_kerr (a : ℝ) (q : V4) (hS : q 1 ^ 2 + a ^ 2 * Real.cos (q 2) ^ 2 ≠ 0)
    (hD : q 1 ^ 2 - 2 * q 1 + a ^ 2 ≠ 0) (hs : Real.sin (q 2) ≠ 0) :
    ∃ G, evalMetric (kerrFn a) q = .ok G ∧ Matrix.of G * knCov a 0 (q 1) (q 2) = 1 ∧ ∀ i j, G i j = G j i := by
  refine ⟨_, evalMetric_regular (kerr_regular a q hS hD hs), ?_, ?_⟩
  · rw [kerr_den a q hS hD hs]
    exact knContra_inverse a 0 _ _ hS (by simpa using hD) hs
  · intro i j; fin_cases i <;> fin_cases j <;> rfl

/-- **C38** (Schwarzschild). -/
theorem C38_schwarzschild (q : V4) (hr : q 1 ≠ 0) (h2 : q 1 ≠ 2) (hs : Real.sin (q 2) ≠ 0) :
    ∃ G, evalMetric schFn q = .ok G ∧ Matrix.of G * schCov (q 1) (q 2) = 1 ∧ ∀ i j, G i j = G j i := by
  refine ⟨_, evalMetric_regular (sch_regular q hr h2 hs), ?_, ?_⟩
  · rw [sch_den q hr h2 hs, ← knCov_schCov _ _ hr]
    refine knContra_inverse 0 0 _ _ (by simpa using hr) ?_ hs
    have : q 1 ^ 2 - 2 * q 1 + 0 ^ 2 + 0 ^ 2 = q 1 * (q 1 - 2) := by ring
    rw [this]; exact mul_ne_zero hr (sub_ne_zero.mpr h2)
  · intro i j; fin_cases i <;> fin_cases j <;> rfl

/-- **C38** (reductions).  Zero charge turns the Kerr–Newman function into the Kerr function, and zero spin the Kerr
function into the Schwarzschild function: where both are defined they return the same table. -/
theorem C38_reductions (a : ℝ) (q : V4) (hS : q 1 ^ 2 + a ^ 2 * Real.cos (q 2) ^ 2 ≠ 0)
    (hD : q 1 ^ 2 - 2 * q 1 + a ^ 2 ≠ 0) (hs : Real.sin (q 2) ≠ 0) :
    evalMetric (kerrNewmanFn a 0) q = evalMetric (kerrFn a) q ∧
    (a = 0 → evalMetric (kerrFn a) q = evalMetric schFn q) := by
  have hD' : q 1 ^ 2 - 2 * q 1 + a ^ 2 + 0 ^ 2 ≠ 0 := by simpa using hD
  constructor
  · rw [evalMetric_regular (kerr_regular a q hS hD hs), evalMetric_regular (kerrNewman_regular a 0 q hS hD' hs),
      kerr_den a q hS hD hs, kerrNewman_den a 0 q hS hD' hs]
  · rintro rfl
    have hr : q 1 ≠ 0 := by simpa using hS
    have h2 : q 1 ≠ 2 := by
      intro h; apply hD; rw [h]; norm_num
    rw [evalMetric_regular (kerr_regular 0 q hS hD hs), evalMetric_regular (sch_regular q hr h2 hs),
      kerr_den 0 q hS hD hs, sch_den q hr h2 hs]

/-- Non-vacuity of C38: `r = 3`, `θ = π/2`, `a = Q = 1/2`. -/
example : ∃ (a Q : ℝ) (q : V4), a ≠ 0 ∧ Q ≠ 0 ∧ q 1 ^ 2 + a ^ 2 * Real.cos (q 2) ^ 2 ≠ 0 ∧
    q 1 ^ 2 - 2 * q 1 + a ^ 2 + Q ^ 2 ≠ 0 ∧ Real.sin (q 2) ≠ 0 := by
  refine ⟨1 / 2, 1 / 2, ![0, 3, Real.pi / 2, 0], by norm_num, by norm_num, ?_, ?_, ?_⟩ <;> simp <;> norm_num

/-! ## C39 -/

/-- **C39** (unknown metrics).  A string that is not one of the three names, or an argument that is neither a string
nor callable, raises `NotImplementedError`, whatever the other arguments. -/
theorem C39_unknown_metric (m : MetricArg)
    (hm : m = .other ∨ ∃ s, m = .str s ∧ s ≠ "Schwarzschild" ∧ s ≠ "Kerr" ∧ s ≠ "KerrNewman")
    (ps : Option (List ℝ)) (x p : Fin 3 → ℝ) (tl rc : Bool) (kw : GeoKw) :
    Geodesic.new m ps x p tl rc kw = .error .notImplementedError := by
  rcases hm with rfl | ⟨s, rfl, h1, h2, h3⟩
  · rfl
  · have : builtinMetric s = none := by
      unfold builtinMetric
      split <;> simp_all
    simp only [Geodesic.new, this, bind, Except.bind]

/-- **C39** (Schwarzschild ignores parameters).  Any two parameter tuples give the same result; the stored parameters
are `(0,)`. -/
theorem C39_schwarzschild_params (ps ps' : List ℝ) (x p : Fin 3 → ℝ) (tl rc : Bool) (kw : GeoKw) :
    Geodesic.new (.str "Schwarzschild") (some ps) x p tl rc kw = Geodesic.new (.str "Schwarzschild") (some ps') x p tl rc kw ∧
    ∀ o, Geodesic.new (.str "Schwarzschild") (some ps) x p tl rc kw = .ok o → o.metricParams = [0] := by
  refine ⟨rfl, ?_⟩
  intro o h
  simp only [Geodesic.new, builtinMetric, bind, Except.bind, pure, Except.pure] at h
  split at h
  · cases h
  · split at h
    · cases h
    · rw [← Except.ok.inj h]

/-- **C39** (too few parameters).  Kerr without a spin, and Kerr–Newman with fewer than two parameters, raise
`IndexError`. -/
theorem C39_missing_params (x p : Fin 3 → ℝ) (tl rc : Bool) (kw : GeoKw) (a : ℝ) :
    Geodesic.new (.str "Kerr") (some []) x p tl rc kw = .error .indexError ∧
    Geodesic.new (.str "KerrNewman") (some []) x p tl rc kw = .error .indexError ∧
    Geodesic.new (.str "KerrNewman") (some [a]) x p tl rc kw = .error .indexError := ⟨rfl, rfl, rfl⟩

/-- **C39** (non-iterable parameters). A parameter argument that cannot be unpacked raises `TypeError` for every
accepted metric. -/
theorem C39_params_not_iterable (m : MetricArg)
    (hm : m = .str "Schwarzschild" ∨ m = .str "Kerr" ∨ m = .str "KerrNewman" ∨ ∃ n f, m = .callable n f)
    (x p : Fin 3 → ℝ) (tl rc : Bool) (kw : GeoKw) :
    Geodesic.new m none x p tl rc kw = .error .typeError := by
  rcases hm with rfl | rfl | rfl | ⟨n, f, rfl⟩ <;> rfl

/-- What a successfully built geodesic object records, and where it came from. -/
theorem geodesic_ok {m : MetricArg} {ps : Option (List ℝ)} {x p : Fin 3 → ℝ} {tl rc : Bool} {kw : GeoKw} {o : GeodesicObj}
    (h : Geodesic.new m ps x p tl rc kw = .ok o) :
    ∃ g g' P, fourMomentum g ![0, x 0, x 1, x 2] p tl = .ok P ∧
      calculateTrajectory g' ![0, x 0, x 1, x 2] P tl (if rc then "Cartesian" else "Spherical Polar") kw =
        .ok (o.steps, o.rows) ∧
      o.position = ![0, x 0, x 1, x 2] ∧ o.momentum = P ∧ o.timeLike = tl ∧
      o.kind = (if tl then "Time-like" else "Null-like") ∧
      o.coords = (if rc then "Cartesian" else "Spherical Polar") := by
  unfold Geodesic.new at h
  simp only [bind, Except.bind, pure, Except.pure] at h
  split at h
  · cases h
  · split at h
    · cases h
    · split at h
      · cases h
      · rename_i g hg
        split at h
        · cases h
        · rename_i P hP
          split at h
          · cases h
          · split at h
            · cases h
            · rename_i g' hg'
              split at h
              · cases h
              · rename_i r hr
                rw [← Except.ok.inj h]
                exact ⟨g, g', P, hP, hr, rfl, rfl, rfl, rfl, rfl⟩

/-- **C39** (kind).  `Timelike` and `Nulllike` build geodesics whose recorded kind is theirs. -/
theorem C39_kind (m : MetricArg) (ps : Option (List ℝ)) (x p : Fin 3 → ℝ) (rc : Bool) (kw : GeoKw) (o : GeodesicObj) :
    (Timelike.new m ps x p rc kw = .ok o → o.timeLike = true ∧ o.kind = "Time-like" ∧ o.momentum 1 = p 0 ∧
      o.momentum 2 = p 1 ∧ o.momentum 3 = p 2 ∧ o.position = ![0, x 0, x 1, x 2]) ∧
    (Nulllike.new m ps x p rc kw = .ok o → o.timeLike = false ∧ o.kind = "Null-like" ∧ o.momentum 1 = p 0 ∧
      o.momentum 2 = p 1 ∧ o.momentum 3 = p 2 ∧ o.position = ![0, x 0, x 1, x 2]) := by
  have key : ∀ {g : MetricFn} {q : V4} {tl : Bool} {P : V4}, fourMomentum g q p tl = .ok P →
      P 1 = p 0 ∧ P 2 = p 1 ∧ P 3 = p 2 := by
    intro g q tl P h
    unfold fourMomentum at h
    cases hG : evalMetric g q with
    | error e => simp only [hG, bind, Except.bind] at h; cases h
    | ok G =>
      simp only [hG, bind, Except.bind] at h
      generalize (if tl = true then (1 : ℝ) else 0) = k at h
      split_ifs at h
      rw [← Except.ok.inj h]
      exact ⟨rfl, rfl, rfl⟩
  constructor <;> intro h <;> obtain ⟨g, g', P, h1, -, h3, h4, h5, h6, -⟩ := geodesic_ok h
  all_goals
    obtain ⟨k1, k2, k3⟩ := key h1
    exact ⟨h5, h6, by rw [h4]; exact k1, by rw [h4]; exact k2, by rw [h4]; exact k3, h3⟩

/-! ## C40 -/

/-- Cartesian row computed from a spherical-polar row, written independently of the model. -/
noncomputable def toCartRow : List ℝ → List ℝ
  | t :: r :: th :: ph :: rest =>
    t :: (r * Real.sin th * Real.cos ph) :: (r * Real.sin th * Real.sin ph) :: (r * Real.cos th) :: rest
  | l => l

/-- **C40**.  The flag `return_cartesian` changes nothing but the three spatial columns of the rows: both calls succeed
or fail alike, and the Cartesian rows are the spherical rows with `(r, θ, φ)` replaced by `(x, y, z)`. -/
theorem C40_cartesian_rows (m : MetricArg) (ps : Option (List ℝ)) (x p : Fin 3 → ℝ) (tl : Bool) (kw : GeoKw) :
    (∀ e, Geodesic.new m ps x p tl true kw = .error e ↔ Geodesic.new m ps x p tl false kw = .error e) ∧
    ∀ oc op, Geodesic.new m ps x p tl true kw = .ok oc → Geodesic.new m ps x p tl false kw = .ok op →
      oc.coords = "Cartesian" ∧ op.coords = "Spherical Polar" ∧ oc.steps = op.steps ∧ oc.rows.length = op.rows.length ∧
      oc.rows = op.rows.map toCartRow ∧ oc.momentum = op.momentum ∧ oc.metricParams = op.metricParams := by
  have key : ∀ (g : MetricFn) (q0 p0 : V4),
      calculateTrajectory g q0 p0 tl "Cartesian" kw =
        (calculateTrajectory g q0 p0 tl "Spherical Polar" kw).map fun r => (r.1, r.2.map toCartRow) := by
    intro g q0 p0
    unfold calculateTrajectory
    cases Integ.new ⟨g, kw.omega, kw.order⟩ q0 p0 tl kw.delta kw.rtol kw.atol kw.suppressWarnings with
    | error e => rfl
    | ok I0 =>
      simp only [bind, Except.bind]
      cases I0.runN kw.steps.toNat with
      | error e => rfl
      | ok I =>
        simp only
        split_ifs with h h'
        · rfl
        · exact absurd h' (by decide)
        · simp only [pure, Except.pure, Except.map, List.map_map]
          rfl
  have main : Geodesic.new m ps x p tl true kw = (Geodesic.new m ps x p tl false kw).map fun o =>
      { o with coords := "Cartesian", rows := o.rows.map toCartRow } := by
    unfold Geodesic.new
    simp only [bind, Except.bind, pure, Except.pure, if_true, Bool.false_eq_true, if_false, key]
    split
    · rfl
    · split
      · rfl
      · split
        · rfl
        · split
          · rfl
          · split
            · rfl
            · split
              · rfl
              · rename_i g' hg'
                cases calculateTrajectory g' _ _ tl "Spherical Polar" kw with
                | error e => rfl
                | ok r => rfl
  have hcoord : ∀ op, Geodesic.new m ps x p tl false kw = .ok op → op.coords = "Spherical Polar" := by
    intro op h
    obtain ⟨_, _, _, _, _, _, _, _, _, h7⟩ := geodesic_ok h
    simpa using h7
  refine ⟨?_, ?_⟩
  · intro e
    rw [main]
    cases Geodesic.new m ps x p tl false kw with
    | error e' => exact Iff.rfl
    | ok o => exact ⟨fun h => (by cases h), fun h => (by cases h)⟩
  · intro oc op h1 h2
    rw [main, h2] at h1
    have := (Except.ok.inj h1).symm
    subst this
    exact ⟨rfl, hcoord op h2, rfl, by simp, rfl, rfl, rfl⟩

/-- **C40** (radius).  Each Cartesian row has `x² + y² + z² = r²`. -/
theorem C40_radius (s : PS) :
    ∃ t X Y Z r th ph P0 P1 P2 P3, polarRow s = [t, r, th, ph, P0, P1, P2, P3] ∧
      cartRow s = [t, X, Y, Z, P0, P1, P2, P3] ∧ X ^ 2 + Y ^ 2 + Z ^ 2 = r ^ 2 := by
  refine ⟨_, _, _, _, _, _, _, _, _, _, _, rfl, rfl, ?_⟩
  have h1 := Real.sin_sq_add_cos_sq (s.q1 2)
  have h2 := Real.sin_sq_add_cos_sq (s.q1 3)
  linear_combination (s.q1 1) ^ 2 * Real.sin (s.q1 2) ^ 2 * h2 + (s.q1 1) ^ 2 * h1

end Einpy
