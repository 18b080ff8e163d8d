import Mathlib.Tactic.FieldSimp
import Mathlib.Tactic.LinearCombination
import Mathlib.Tactic.Positivity
import Mathlib.Analysis.SpecialFunctions.Pow.Real
import Mathlib.Analysis.SpecialFunctions.Trigonometric.Basic
import Verif.Predef.Model

/-!
# Properties of the predefined metrics: C61, C65, C86, C87
-/

namespace Einpy.Predef

section
variable {K : Type} [Field K] (F : Fns K)

/-- Both functions return a metric, in the same coordinates and with the same components. -/
def SameMetric (p q : Py (MetricV K)) : Prop := ∃ coords g, Returns p coords g ∧ Returns q coords g

theorem returns_schwarzschild (c sch : K) : Returns (schwarzschild F c sch) ["t", "r", "theta", "phi"]
    (Matrix.diagonal ![1 - sch / F.var "r", -1 / ((1 - sch / F.var "r") * c ^ 2), -(F.var "r" ^ 2) / c ^ 2,
      -((F.var "r" * F.sin (F.var "theta")) ^ 2) / c ^ 2]) := returns_diag _ _ _ _ _ _ rfl

theorem returns_kerr (c sch a : K) :
    let r := F.var "r"
    let s := F.sin (F.var "theta")
    let S := r ^ 2 + a ^ 2 * F.cos (F.var "theta") ^ 2
    let D := r ^ 2 - sch * r + a ^ 2
    let e := sch * r * a * s ^ 2 / (S * c)
    Returns (kerr F c sch a) ["t", "r", "theta", "phi"]
      !![1 - sch * r / S, 0, 0, e; 0, -S / (D * c ^ 2), 0, 0; 0, 0, -S / c ^ 2, 0;
        e, 0, 0, -((r ^ 2 + a ^ 2 + sch * r * a ^ 2 * s ^ 2 / S) * s ^ 2) / c ^ 2] := returns_sym03 _ _ _ _ _ _ _ rfl

theorem returns_kerrNewman (c G eps_0 sch a Q : K) :
    let r := F.var "r"
    let s := F.sin (F.var "theta")
    let S := r ^ 2 + a ^ 2 * F.cos (F.var "theta") ^ 2
    let q := Q ^ 2 * G / (4 * F.pi * eps_0 * c ^ 4)
    let D := r ^ 2 - sch * r + a ^ 2 + q
    let e := (sch * r - q) * a * s ^ 2 / (S * c)
    Returns (kerrNewman F c G eps_0 sch a Q) ["t", "r", "theta", "phi"]
      !![1 + (q - sch * r) / S, 0, 0, e; 0, -S / (D * c ^ 2), 0, 0; 0, 0, -S / c ^ 2, 0;
        e, 0, 0, (D * a ^ 2 * s ^ 2 - (r ^ 2 + a ^ 2) ^ 2) * s ^ 2 / (S * c ^ 2)] := returns_sym03 _ _ _ _ _ _ _ rfl

theorem returns_rn (c G eps_0 sch Q : K) :
    let r := F.var "r"
    let q := Q ^ 2 * G / (4 * F.pi * eps_0 * c ^ 4)
    let A := 1 - sch / r + q / r ^ 2
    Returns (reissnerNordstorm F c G eps_0 sch Q) ["t", "r", "theta", "phi"]
      (Matrix.diagonal ![A, -1 / (A * c ^ 2), -(r ^ 2) / c ^ 2, -(r ^ 2) * F.sin (F.var "theta") ^ 2 / c ^ 2]) :=
  returns_diag _ _ _ _ _ _ rfl

theorem diag_eq_of (a b c d : K) : Matrix.diagonal ![a, b, c, d] = !![a, 0, 0, 0; 0, b, 0, 0; 0, 0, c, 0; 0, 0, 0, d] := by
  ext i j
  rw [Matrix.diagonal_apply]
  fin_cases i <;> fin_cases j <;> rfl

theorem mat03_congr {a b c d e a' b' c' d' e' : K} (h1 : a = a') (h2 : b = b') (h3 : c = c') (h4 : d = d') (h5 : e = e') :
    !![a, 0, 0, e; 0, b, 0, 0; 0, 0, c, 0; e, 0, 0, d] = !![a', 0, 0, e'; 0, b', 0, 0; 0, 0, c', 0; e', 0, 0, d'] := by
  rw [h1, h2, h3, h4, h5]

/-! ## C61: the limits of the vacuum solutions -/

/-- **C61.** Kerr with a = 0 is Schwarzschild. -/
theorem C61_kerr_schwarzschild (c sch : K) (hr : F.var "r" ≠ 0) : SameMetric (kerr F c sch 0) (schwarzschild F c sch) := by
  refine ⟨_, _, returns_kerr F c sch 0, ?_⟩
  have := returns_schwarzschild F c sch
  rw [diag_eq_of] at this
  convert this using 2
  generalize F.var "r" = r at *
  generalize F.sin (F.var "theta") = s
  generalize F.cos (F.var "theta") = k
  refine mat03_congr ?_ ?_ ?_ ?_ ?_
  · have : r ^ 2 + 0 ^ 2 * k ^ 2 = r ^ 2 := by ring
    rw [this]; field_simp
  · have h1 : r ^ 2 + 0 ^ 2 * k ^ 2 = r ^ 2 := by ring
    have h2 : r ^ 2 - sch * r + 0 ^ 2 = r ^ 2 * (1 - sch / r) := by field_simp; ring
    rw [h1, h2, mul_assoc, neg_div, neg_div, ← div_div, div_self (pow_ne_zero 2 hr)]
  · ring
  · ring
  · ring

/-- **C61.** ReissnerNordstorm with Q = 0 is Schwarzschild. -/
theorem C61_rn_schwarzschild (c G eps_0 sch : K) :
    SameMetric (reissnerNordstorm F c G eps_0 sch 0) (schwarzschild F c sch) := by
  refine ⟨_, _, returns_rn F c G eps_0 sch 0, ?_⟩
  have := returns_schwarzschild F c sch
  have e : 1 - sch / F.var "r" + 0 ^ 2 * G / (4 * F.pi * eps_0 * c ^ 4) / F.var "r" ^ 2 = 1 - sch / F.var "r" := by ring
  simp only [e]
  convert this using 2
  congr 3
  ring_nf

/-- **C61.** KerrNewman with Q = 0 is Kerr. -/
theorem C61_kerrNewman_kerr (c G eps_0 sch a : K)
    (hsc : F.sin (F.var "theta") ^ 2 + F.cos (F.var "theta") ^ 2 = 1)
    (hS : F.var "r" ^ 2 + a ^ 2 * F.cos (F.var "theta") ^ 2 ≠ 0) :
    SameMetric (kerrNewman F c G eps_0 sch a 0) (kerr F c sch a) := by
  refine ⟨_, _, returns_kerrNewman F c G eps_0 sch a 0, ?_⟩
  have := returns_kerr F c sch a
  convert this using 2
  have e : (0:K) ^ 2 * G / (4 * F.pi * eps_0 * c ^ 4) = 0 := by ring
  rw [e]
  generalize F.var "r" = r at *
  generalize F.sin (F.var "theta") = s at *
  have hk : F.cos (F.var "theta") ^ 2 = 1 - s ^ 2 := by linear_combination hsc
  generalize F.cos (F.var "theta") = k at *
  refine mat03_congr ?_ ?_ ?_ ?_ ?_
  · ring
  · rw [add_zero]
  · rfl
  · rw [← div_div]
    congr 1
    rw [div_eq_iff hS]
    have : (r ^ 2 + a ^ 2 + sch * r * a ^ 2 * s ^ 2 / (r ^ 2 + a ^ 2 * k ^ 2)) * (r ^ 2 + a ^ 2 * k ^ 2) =
        (r ^ 2 + a ^ 2) * (r ^ 2 + a ^ 2 * k ^ 2) + sch * r * a ^ 2 * s ^ 2 := by
      rw [add_mul, div_mul_cancel₀ _ hS]
    calc _ = -(((r ^ 2 + a ^ 2) * (r ^ 2 + a ^ 2 * k ^ 2) + sch * r * a ^ 2 * s ^ 2) * s ^ 2) := by
          rw [hk]; ring
      _ = _ := by rw [← this]; ring
  · ring

/-- **C61.** KerrNewman with a = 0 is ReissnerNordstorm. -/
theorem C61_kerrNewman_rn (c G eps_0 sch Q : K) (hr : F.var "r" ≠ 0) :
    SameMetric (kerrNewman F c G eps_0 sch 0 Q) (reissnerNordstorm F c G eps_0 sch Q) := by
  refine ⟨_, _, returns_kerrNewman F c G eps_0 sch 0 Q, ?_⟩
  have := returns_rn F c G eps_0 sch Q
  simp only [diag_eq_of] at this
  convert this using 2
  generalize Q ^ 2 * G / (4 * F.pi * eps_0 * c ^ 4) = q
  generalize F.var "r" = r at *
  generalize F.sin (F.var "theta") = s
  generalize F.cos (F.var "theta") = k
  have h1 : r ^ 2 + 0 ^ 2 * k ^ 2 = r ^ 2 := by ring
  refine mat03_congr ?_ ?_ ?_ ?_ ?_
  · rw [h1]; field_simp; ring
  · have h2 : r ^ 2 - sch * r + 0 ^ 2 + q = r ^ 2 * (1 - sch / r + q / r ^ 2) := by field_simp; ring
    rw [h1, h2, mul_assoc, neg_div, neg_div, ← div_div, div_self (pow_ne_zero 2 hr)]
  · ring
  · rw [h1]
    have : ((r ^ 2 - sch * r + 0 ^ 2 + q) * 0 ^ 2 * s ^ 2 - (r ^ 2 + 0 ^ 2) ^ 2) * s ^ 2 = r ^ 2 * (-(r ^ 2) * s ^ 2) := by ring
    rw [this, mul_div_mul_left _ _ (pow_ne_zero 2 hr)]
  · ring

/-! ## C65: the Janis-Newman-Winicour metric -/

/-- The laws of powers used for gamma = 1. -/
def PowLaws (F : Fns K) : Prop := ∀ x, x ≠ 0 → F.pow x 1 = x ∧ F.pow x (-1) = 1 / x ∧ F.pow x 0 = 1

theorem returns_jnw_one (hp : PowLaws F) (c G M : K) (hα : 1 - 2 * G * M / c ^ 2 / F.var "r" ≠ 0) :
    let r := F.var "r"
    let A := 1 - 2 * G * M / c ^ 2 / r
    Returns (janisNewmanWinicour F c G 1 M) ["t", "r", "theta", "phi"]
      (Matrix.diagonal ![-A, 1 / (A * c ^ 2), r ^ 2, r ^ 2 * F.sin (F.var "theta") ^ 2]) := by
  intro r A
  have h := returns_diag (-1 * (F.pow (1 - (2 * G * M) / (c ^ 2) / (1 * r)) 1))
    (F.pow (1 - (2 * G * M) / (c ^ 2) / (1 * r)) (-1) / (c ^ 2))
    ((r ^ 2) * (F.pow (1 - (2 * G * M) / (c ^ 2) / (1 * r)) (-1 + 1)))
    ((r ^ 2) * (F.pow (1 - (2 * G * M) / (c ^ 2) / (1 * r)) (-1 + 1)) * (F.sin (F.var "theta") ^ 2))
    ["t", "r", "theta", "phi"] "JanisNewmanWinicourMetric" rfl
  rw [one_mul, neg_add_cancel] at h
  obtain ⟨p1, p2, p3⟩ := hp A hα
  have e1 : F.pow (1 - 2 * G * M / c ^ 2 / r) 1 = A := p1
  have e2 : F.pow (1 - 2 * G * M / c ^ 2 / r) (-1) = 1 / A := p2
  have e3 : F.pow (1 - 2 * G * M / c ^ 2 / r) 0 = 1 := p3
  rw [e1, e2, e3, neg_one_mul, mul_one, div_div] at h
  have e4 : janisNewmanWinicour F c G 1 M = metricTensor (diag [-1 * (F.pow (1 - (2 * G * M) / (c ^ 2) / (1 * r)) 1),
    (F.pow (1 - (2 * G * M) / (c ^ 2) / (1 * r)) (-1) / (c ^ 2)),
    ((r ^ 2) * (F.pow (1 - (2 * G * M) / (c ^ 2) / (1 * r)) (-1 + 1))),
    ((r ^ 2) * (F.pow (1 - (2 * G * M) / (c ^ 2) / (1 * r)) (-1 + 1)) * (F.sin (F.var "theta") ^ 2))])
    ["t", "r", "theta", "phi"] "JanisNewmanWinicourMetric" := rfl
  rw [e4, one_mul, neg_add_cancel, e1, e2, e3, neg_one_mul, mul_one, div_div]
  exact h

theorem diag4_inj {a b c d a' b' c' d' : K} (h : Matrix.diagonal ![a, b, c, d] = Matrix.diagonal ![a', b', c', d']) :
    a = a' ∧ b = b' ∧ c = c' ∧ d = d' := by
  have := Matrix.diagonal_injective h
  exact ⟨congrFun this 0, congrFun this 1, congrFun this 2, congrFun this 3⟩

/-- **C65, what holds.** For gamma = 1 and c² = 1 the components are those of the Schwarzschild metric of radius 2GM/c² with
the opposite sign. -/
theorem C65_opposite_partial (hp : PowLaws F) (c G M : K) (hα : 1 - 2 * G * M / c ^ 2 / F.var "r" ≠ 0) (hc : c ^ 2 = 1) :
    ∃ coords g, Returns (janisNewmanWinicour F c G 1 M) coords g ∧
      Returns (schwarzschild F c (2 * G * M / c ^ 2)) coords (-g) := by
  refine ⟨_, _, returns_jnw_one F hp c G M hα, ?_⟩
  have := returns_schwarzschild F c (2 * G * M / c ^ 2)
  convert this using 2
  rw [Matrix.diagonal_neg]
  congr 1
  funext i
  rw [hc] at *
  fin_cases i
  · show - -_ = _; rw [neg_neg]; rfl
  · show -(1 / _) = -1 / _; rw [neg_div]
  · exact (div_one (-(F.var "r" ^ 2))).symm
  · show -(_ * _) = -(_ ^ 2) / 1; rw [div_one]; ring

/-- **C65 is violated.** With gamma = 1 the result is never the predefined Schwarzschild metric: the sign of the tt component
is opposite. -/
theorem C65_refuted [CharZero K] (hp : PowLaws F) (c G M : K) (hα : 1 - 2 * G * M / c ^ 2 / F.var "r" ≠ 0) :
    ¬ SameMetric (janisNewmanWinicour F c G 1 M) (schwarzschild F c (2 * G * M / c ^ 2)) := by
  rintro ⟨_, g, h1, h2⟩
  have e1 := (h1.inj (returns_jnw_one F hp c G M hα)).2
  have e2 := (h2.inj (returns_schwarzschild F c (2 * G * M / c ^ 2))).2
  have := (diag4_inj (e1.symm.trans e2)).1
  exact hα (self_eq_neg.1 this.symm)

/-- **C65 is violated.** Even up to an overall sign the metric is Schwarzschild's only in units with c² = 1: the angular
components are not divided by c². -/
theorem C65_refuted_units (hp : PowLaws F) (c G M : K) (hα : 1 - 2 * G * M / c ^ 2 / F.var "r" ≠ 0) (hr : F.var "r" ≠ 0)
    (hc : c ≠ 0) {coords coords' : List String} {g g' : Matrix (Fin 4) (Fin 4) K}
    (h1 : Returns (janisNewmanWinicour F c G 1 M) coords g)
    (h2 : Returns (schwarzschild F c (2 * G * M / c ^ 2)) coords' g') : g' = -g ↔ c ^ 2 = 1 := by
  constructor
  · intro h
    have e1 := (h1.inj (returns_jnw_one F hp c G M hα)).2
    have e2 := (h2.inj (returns_schwarzschild F c (2 * G * M / c ^ 2))).2
    rw [e1, e2, Matrix.diagonal_neg] at h
    have := congrFun (Matrix.diagonal_injective h) 2
    have h3 : -(F.var "r" ^ 2) / c ^ 2 = -(F.var "r" ^ 2) := this
    rw [div_eq_iff (pow_ne_zero 2 hc)] at h3
    have h4 : F.var "r" ^ 2 * (c ^ 2 - 1) = 0 := by linear_combination h3
    rcases mul_eq_zero.1 h4 with h5 | h5
    · exact absurd h5 (pow_ne_zero 2 hr)
    · linear_combination h5
  · intro h
    obtain ⟨co, g0, h3, h4⟩ := C65_opposite_partial F hp c G M hα h
    rw [(h1.inj h3).2, (h2.inj h4).2]

end

/-! ## real points -/

/-- The real numbers with the values `v` of the symbols; `J` and `f` interpret Bessel functions and undefined functions. -/
noncomputable def realFns (v : String → ℝ) (J : ℝ → ℝ → ℝ) (f : String → ℝ → ℝ) : Fns ℝ :=
  ⟨v, Real.sin, Real.cos, Real.sinh, Real.cosh, Real.tanh, Real.exp, Real.sqrt, fun x y => x ^ y, J, f, Real.pi⟩

theorem realFns_powLaws (v : String → ℝ) (J : ℝ → ℝ → ℝ) (f : String → ℝ → ℝ) : PowLaws (realFns v J f) := by
  intro x _
  exact ⟨Real.rpow_one x, (Real.rpow_neg_one x).trans (one_div x).symm, Real.rpow_zero x⟩

/-- The hypotheses of C61 and C65 hold at the point r = 3, theta = 1 with G = c = M = 1. -/
example (J : ℝ → ℝ → ℝ) (f : String → ℝ → ℝ) : let F := realFns (fun s => if s = "r" then 3 else 1) J f
    F.var "r" ≠ 0 ∧ F.sin (F.var "theta") ^ 2 + F.cos (F.var "theta") ^ 2 = 1 ∧
    F.var "r" ^ 2 + 1 ^ 2 * F.cos (F.var "theta") ^ 2 ≠ 0 ∧ PowLaws F ∧ 1 - 2 * 1 * 1 / (1:ℝ) ^ 2 / F.var "r" ≠ 0 := by
  intro F
  have hr : F.var "r" = 3 := rfl
  refine ⟨by rw [hr]; norm_num, Real.sin_sq_add_cos_sq _, ?_, realFns_powLaws _ _ _, by rw [hr]; norm_num⟩
  rw [hr]
  positivity

end Einpy.Predef
