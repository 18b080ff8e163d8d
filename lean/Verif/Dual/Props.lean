import Mathlib.Analysis.SpecialFunctions.Pow.Deriv
import Mathlib.Analysis.SpecialFunctions.Trigonometric.Deriv
import Mathlib.Analysis.SpecialFunctions.Trigonometric.ArctanDeriv
import Mathlib.Analysis.SpecialFunctions.Log.Deriv
import Mathlib.Analysis.SpecialFunctions.ExpDeriv
import Mathlib.Analysis.Calculus.Deriv.Slope
import Verif.Tensor.Spec
import Verif.Dual.Model

/-!
# Dual numbers and automatic differentiation: C25 – C28
-/

namespace Einpy
open Classical

/-! ## C25 -/

/-- the dual number of a plain number -/
def Dual.ofNum (c : ℝ) : Dual := ⟨c, 0⟩

/-- **C25** (ring laws).  Addition, subtraction, negation and multiplication of dual numbers satisfy the laws of a
commutative ring with zero `0 + 0ε` and one `1 + 0ε`. -/
theorem C25_ring_laws (x y z : Dual) :
    x.add y = y.add x ∧ (x.add y).add z = x.add (y.add z) ∧ x.add (.ofNum 0) = x ∧
    x.add x.neg = .ofNum 0 ∧ x.sub y = x.add y.neg ∧
    x.mul y = y.mul x ∧ (x.mul y).mul z = x.mul (y.mul z) ∧ x.mul (.ofNum 1) = x ∧
    x.mul (y.add z) = (x.mul y).add (x.mul z) ∧ (x.add y).mul z = (x.mul z).add (y.mul z) := by
  refine ⟨?_, ?_, ?_, ?_, ?_, ?_, ?_, ?_, ?_, ?_⟩ <;>
    (ext <;> simp [Dual.add, Dual.sub, Dual.neg, Dual.mul, Dual.ofNum] <;> ring)

/-- **C25** (`ε² = 0`). -/
theorem C25_epsilon_squared : (⟨0, 1⟩ : Dual).mul ⟨0, 1⟩ = .ofNum 0 := by
  ext <;> simp [Dual.mul, Dual.ofNum]

/-- **C25** (mixed arithmetic).  Arithmetic with a plain number, on either side, is arithmetic with the corresponding
dual number. -/
theorem C25_mixed (x : Dual) (c : ℝ) :
    x.addNum c = x.add (.ofNum c) ∧ x.subNum c = x.sub (.ofNum c) ∧ x.rsubNum c = (Dual.ofNum c).sub x ∧
    x.mulNum c = x.mul (.ofNum c) ∧ x.rtruedivNum c = (Dual.ofNum c).truediv x ∧
    (c ≠ 0 → x.truedivNum c = x.truediv (.ofNum c)) := by
  refine ⟨?_, ?_, ?_, ?_, rfl, fun hc => ?_⟩
  · ext <;> simp [Dual.addNum, Dual.add, Dual.ofNum]
  · ext <;> simp [Dual.subNum, Dual.sub, Dual.ofNum]
  · rfl
  · ext <;> simp [Dual.mulNum, Dual.mul, Dual.ofNum]
  · simp only [Dual.truedivNum, Dual.truediv, Dual.ofNum, hc, and_false, if_false]
    congr 2
    field_simp
    ring

/-- **C25** (division).  When `y.val ≠ 0`, `x / y` is a dual number `z` with `z * y = x`, and the only such. -/
theorem C25_division (x y : Dual) (hy : y.val ≠ 0) :
    Returns (x.truediv y) fun z => z.mul y = x ∧ ∀ w : Dual, w.mul y = x → w = z := by
  refine ⟨⟨x.val / y.val, (x.deriv * y.val - x.val * y.deriv) / y.val ^ 2⟩, ?_, ?_, ?_⟩
  · simp [Dual.truediv, hy]
  · ext
    · simp [Dual.mul, hy]
    · simp only [Dual.mul]; field_simp; ring
  · intro w hw
    have h1 : w.val * y.val = x.val := congrArg Dual.val hw
    have h2 : w.deriv * y.val + w.val * y.deriv = x.deriv := congrArg Dual.deriv hw
    ext
    · show w.val = x.val / y.val
      field_simp; exact h1
    · show w.deriv = (x.deriv * y.val - x.val * y.deriv) / y.val ^ 2
      rw [eq_div_iff (pow_ne_zero 2 hy), ← h1, ← h2]; ring

/-! ## C26 -/

/-- The function an expression denotes (independent of dual numbers). -/
noncomputable def Expr.den {ι : Type*} (x : ι → ℝ) : Expr ι → ℝ
  | .var i => x i
  | .const c => c
  | .add a b => a.den x + b.den x
  | .sub a b => a.den x - b.den x
  | .mul a b => a.den x * b.den x
  | .div a b => a.den x / b.den x
  | .neg a => - a.den x
  | .pow a p => a.den x ^ p
  | .sin a => Real.sin (a.den x)
  | .cos a => Real.cos (a.den x)
  | .tan a => Real.tan (a.den x)
  | .log a => Real.log (a.den x)
  | .exp a => Real.exp (a.den x)

/-- Every sub-evaluation at `x` is regular: no zero denominator, logarithms of positive numbers, tangents away from the
poles, powers where the real power function is defined and differentiable. -/
def Expr.Regular {ι : Type*} (x : ι → ℝ) : Expr ι → Prop
  | .var _ | .const _ => True
  | .add a b | .sub a b | .mul a b => a.Regular x ∧ b.Regular x
  | .div a b => a.Regular x ∧ b.Regular x ∧ b.den x ≠ 0
  | .neg a | .sin a | .cos a | .exp a => a.Regular x
  | .pow a p => a.Regular x ∧ (0 < a.den x ∨ (a.den x < 0 ∧ ∃ k : ℤ, p = k) ∨ (a.den x = 0 ∧ 1 ≤ p))
  | .tan a => a.Regular x ∧ Real.cos (a.den x) ≠ 0
  | .log a => a.Regular x ∧ 0 < a.den x

/-- the value part of a run-time value -/
def Val.val : Val → ℝ
  | .num c => c
  | .dual x => x.val

theorem pyPow_ok {a p : ℝ} (h : 0 < a ∨ (a < 0 ∧ ∃ k : ℤ, p = k) ∨ (a = 0 ∧ 1 ≤ p)) :
    pyPow a p = .ok (a ^ p) ∧ pyPow a (p - 1) = .ok (a ^ (p - 1)) := by
  unfold pyPow
  rcases h with h | ⟨h, k, hk⟩ | ⟨h, hp⟩
  · have h1 : ¬ a = 0 := ne_of_gt h
    have h2 : ¬ a < 0 := not_lt.mpr h.le
    simp [h1, h2]
  · have h1 : ¬ a = 0 := ne_of_lt h
    have e1 : ∃ k : ℤ, p = k := ⟨k, hk⟩
    have e2 : ∃ k : ℤ, p - 1 = k := ⟨k - 1, by rw [hk]; push_cast; ring⟩
    rw [if_neg (by tauto), if_neg (by tauto), if_neg (by tauto), if_neg (by tauto)]
    exact ⟨rfl, rfl⟩
  · have h2 : ¬ a < 0 := by rw [h]; exact lt_irrefl 0
    have h3 : ¬ p < 0 := by linarith
    have h4 : ¬ p - 1 < 0 := by linarith
    simp [h2, h3, h4]

/-- Chain rule for the whole evaluation: along any differentiable curve of coordinates. -/
theorem eval_correct {ι : Type*} (γ : ι → ℝ → ℝ) (v : ι → ℝ) (s : ℝ)
    (hγ : ∀ i, HasDerivAt (γ i) (v i) s) (e : Expr ι) (hr : e.Regular fun i => γ i s) :
    ∃ w, e.eval (fun i => ⟨γ i s, v i⟩) = .ok w ∧ w.val = e.den (fun i => γ i s) ∧
      HasDerivAt (fun u => e.den fun i => γ i u) (derivOf w) s := by
  induction e with
  | var i => exact ⟨_, rfl, rfl, hγ i⟩
  | const c => exact ⟨_, rfl, rfl, hasDerivAt_const s c⟩
  | add a b iha ihb =>
    obtain ⟨w1, e1, v1, d1⟩ := iha hr.1
    obtain ⟨w2, e2, v2, d2⟩ := ihb hr.2
    refine ⟨w1.add w2, by simp [Expr.eval, e1, e2] <;> rfl, ?_, ?_⟩
    · rw [Expr.den, ← v1, ← v2]
      cases w1 <;> cases w2 <;> simp [Val.add, Val.val, Dual.add, Dual.addNum, add_comm]
    · refine HasDerivAt.congr_deriv (d1.add d2) ?_
      cases w1 <;> cases w2 <;> simp [Val.add, derivOf, Dual.add, Dual.addNum]
  | sub a b iha ihb =>
    obtain ⟨w1, e1, v1, d1⟩ := iha hr.1
    obtain ⟨w2, e2, v2, d2⟩ := ihb hr.2
    refine ⟨w1.sub w2, by simp [Expr.eval, e1, e2] <;> rfl, ?_, ?_⟩
    · rw [Expr.den, ← v1, ← v2]
      cases w1 <;> cases w2 <;> simp [Val.sub, Val.val, Dual.sub, Dual.subNum, Dual.rsubNum]
    · refine HasDerivAt.congr_deriv (d1.sub d2) ?_
      cases w1 <;> cases w2 <;> simp [Val.sub, derivOf, Dual.sub, Dual.subNum, Dual.rsubNum]
  | mul a b iha ihb =>
    obtain ⟨w1, e1, v1, d1⟩ := iha hr.1
    obtain ⟨w2, e2, v2, d2⟩ := ihb hr.2
    refine ⟨w1.mul w2, by simp [Expr.eval, e1, e2] <;> rfl, ?_, ?_⟩
    · rw [Expr.den, ← v1, ← v2]
      cases w1 <;> cases w2 <;> simp [Val.mul, Val.val, Dual.mul, Dual.mulNum, mul_comm]
    · refine HasDerivAt.congr_deriv (d1.mul d2) ?_
      rw [← v1, ← v2]
      cases w1 <;> cases w2 <;> simp [Val.mul, Val.val, derivOf, Dual.mul, Dual.mulNum] <;> ring
  | div a b iha ihb =>
    obtain ⟨w1, e1, v1, d1⟩ := iha hr.1
    obtain ⟨w2, e2, v2, d2⟩ := ihb hr.2.1
    have hb := hr.2.2
    rw [← v2] at hb
    have d3 := d1.div d2 hr.2.2
    rw [← v1, ← v2] at d3
    cases w1 with
    | num x =>
      cases w2 with
      | num y =>
        refine ⟨.num (x / y), ?_, by rw [Expr.den, ← v1, ← v2]; rfl, ?_⟩
        · simp only [Val.val] at hb
          simp [Expr.eval, e1, e2, bind, Except.bind, Val.div, hb]
        · refine HasDerivAt.congr_deriv (d3) ?_
          simp [derivOf, Val.val]
      | dual y =>
        simp only [Val.val] at hb
        refine ⟨.dual ⟨x / y.val, (0 * y.val - x * y.deriv) / y.val ^ 2⟩, ?_, by
          rw [Expr.den, ← v1, ← v2]; rfl, ?_⟩
        · simp [Expr.eval, e1, e2, bind, Except.bind, Val.div, Dual.rtruedivNum, Dual.truediv, hb, pure,
            Except.pure]
        · refine HasDerivAt.congr_deriv (d3) ?_
          rfl
    | dual x =>
      cases w2 with
      | num y =>
        simp only [Val.val] at hb
        refine ⟨.dual ⟨x.val / y, x.deriv / y⟩, ?_, by rw [Expr.den, ← v1, ← v2]; rfl, ?_⟩
        · simp [Expr.eval, e1, e2, bind, Except.bind, Val.div, Dual.truedivNum, hb, pure, Except.pure]
        · refine HasDerivAt.congr_deriv (d3) ?_
          simp only [derivOf, Val.val, mul_zero, sub_zero]
          field_simp
      | dual y =>
        simp only [Val.val] at hb
        refine ⟨.dual ⟨x.val / y.val, (x.deriv * y.val - x.val * y.deriv) / y.val ^ 2⟩, ?_, by
          rw [Expr.den, ← v1, ← v2]; rfl, ?_⟩
        · simp [Expr.eval, e1, e2, bind, Except.bind, Val.div, Dual.truediv, hb, pure, Except.pure]
        · refine HasDerivAt.congr_deriv (d3) ?_
          rfl
  | neg a iha =>
    obtain ⟨w1, e1, v1, d1⟩ := iha hr
    refine ⟨w1.neg, by simp [Expr.eval, e1] <;> rfl, ?_, ?_⟩
    · rw [Expr.den, ← v1]; cases w1 <;> simp [Val.neg, Val.val, Dual.neg]
    · refine HasDerivAt.congr_deriv (d1.neg) ?_
      cases w1 <;> simp [Val.neg, derivOf, Dual.neg]
  | pow a p iha =>
    obtain ⟨w1, e1, v1, d1⟩ := iha hr.1
    have hp := hr.2
    have hp' : a.den (fun i => γ i s) ≠ 0 ∨ 1 ≤ p := by
      rcases hp with h | ⟨h, -⟩ | ⟨-, h⟩
      · exact Or.inl (ne_of_gt h)
      · exact Or.inl (ne_of_lt h)
      · exact Or.inr h
    have d2 := d1.rpow_const hp'
    rw [← v1] at hp d2
    obtain ⟨k1, k2⟩ := pyPow_ok hp
    cases w1 with
    | num x =>
      refine ⟨.num (x ^ p), ?_, by rw [Expr.den, ← v1]; rfl, ?_⟩
      · simp only [Val.val] at k1
        simp [Expr.eval, e1, bind, Except.bind, Val.pow, k1, pure, Except.pure]
      · refine HasDerivAt.congr_deriv (d2) ?_; simp [derivOf]
    | dual x =>
      refine ⟨.dual ⟨x.val ^ p, x.deriv * p * x.val ^ (p - 1)⟩, ?_, by rw [Expr.den, ← v1]; rfl, ?_⟩
      · simp only [Val.val] at k1 k2
        simp [Expr.eval, e1, bind, Except.bind, Val.pow, Dual.pow, k1, k2, pure, Except.pure]
      · refine HasDerivAt.congr_deriv (d2) ?_
        rfl
  | sin a iha =>
    obtain ⟨w1, e1, v1, d1⟩ := iha hr
    refine ⟨w1.sin, by simp [Expr.eval, e1] <;> rfl, ?_, ?_⟩
    · rw [Expr.den, ← v1]; cases w1 <;> simp [Val.sin, Val.val, Dual.sin]
    · refine HasDerivAt.congr_deriv (d1.sin) ?_
      rw [← v1]
      cases w1 <;> simp [Val.sin, derivOf, Dual.sin, Val.val, mul_comm]
  | cos a iha =>
    obtain ⟨w1, e1, v1, d1⟩ := iha hr
    refine ⟨w1.cos, by simp [Expr.eval, e1] <;> rfl, ?_, ?_⟩
    · rw [Expr.den, ← v1]; cases w1 <;> simp [Val.cos, Val.val, Dual.cos]
    · refine HasDerivAt.congr_deriv (d1.cos) ?_
      rw [← v1]
      cases w1 <;> simp [Val.cos, derivOf, Dual.cos, Val.val, mul_comm]
  | tan a iha =>
    obtain ⟨w1, e1, v1, d1⟩ := iha hr.1
    have hc := hr.2
    have d2 := (Real.hasDerivAt_tan hc).comp s d1
    rw [← v1] at hc d2
    cases w1 with
    | num x =>
      simp only [Val.val] at hc
      refine ⟨.num (Real.tan x), ?_, by rw [Expr.den, ← v1]; rfl, ?_⟩
      · simp [Expr.eval, e1, bind, Except.bind, Val.tan, hc]
      · refine HasDerivAt.congr_deriv (d2) ?_; simp [derivOf]
    | dual x =>
      simp only [Val.val] at hc
      refine ⟨.dual ⟨Real.sin x.val / Real.cos x.val, (x.deriv * Real.cos x.val * Real.cos x.val -
        Real.sin x.val * (-x.deriv * Real.sin x.val)) / Real.cos x.val ^ 2⟩, ?_, ?_, ?_⟩
      · simp [Expr.eval, e1, bind, Except.bind, Val.tan, Dual.tan, Dual.truediv, Dual.sin, Dual.cos, hc, pure,
          Except.pure]
      · rw [Expr.den, ← v1, Real.tan_eq_sin_div_cos]; rfl
      · refine HasDerivAt.congr_deriv (d2) ?_
        simp only [derivOf, Val.val]
        have := Real.sin_sq_add_cos_sq x.val
        field_simp
        linear_combination (-x.deriv) * this
  | log a iha =>
    obtain ⟨w1, e1, v1, d1⟩ := iha hr.1
    have hl := hr.2
    have d2 := d1.log (ne_of_gt hl)
    rw [← v1] at hl d2
    cases w1 with
    | num x =>
      simp only [Val.val] at hl
      refine ⟨.num (Real.log x), ?_, by rw [Expr.den, ← v1]; rfl, ?_⟩
      · simp [Expr.eval, e1, bind, Except.bind, Val.log, hl]
      · refine HasDerivAt.congr_deriv (d2) ?_; simp [derivOf]
    | dual x =>
      simp only [Val.val] at hl
      refine ⟨.dual ⟨Real.log x.val, x.deriv / x.val⟩, ?_, by rw [Expr.den, ← v1]; rfl, ?_⟩
      · have h1 : ¬ x.val = 0 := ne_of_gt hl
        have h2 : ¬ x.val < 0 := not_lt.mpr hl.le
        simp [Expr.eval, e1, bind, Except.bind, Val.log, Dual.log, h1, h2, pure, Except.pure]
      · refine HasDerivAt.congr_deriv (d2) ?_
        rfl
  | exp a iha =>
    obtain ⟨w1, e1, v1, d1⟩ := iha hr
    refine ⟨w1.exp, by simp [Expr.eval, e1] <;> rfl, ?_, ?_⟩
    · rw [Expr.den, ← v1]; cases w1 <;> simp [Val.exp, Val.val, Dual.exp]
    · refine HasDerivAt.congr_deriv (d1.exp) ?_
      rw [← v1]
      cases w1 <;> simp [Val.exp, derivOf, Dual.exp, Val.val, mul_comm]

/-- **C26**.  For every expression and every point where all sub-evaluations are regular, evaluation on
`DualNumber(x, 1)` succeeds and yields the value and the derivative of the denoted function; `_deriv` returns that
derivative. -/
theorem C26_automatic_differentiation (e : Expr Unit) (x : ℝ) (hr : e.Regular fun _ => x) :
    Returns (e.eval fun _ => ⟨x, 1⟩) (fun w => w.val = e.den fun _ => x) ∧
    Returns (derivPy e x) fun d => HasDerivAt (fun u => e.den fun _ => u) d x := by
  obtain ⟨w, h1, h2, h3⟩ := eval_correct (fun _ u => u) (fun _ => 1) x (fun _ => hasDerivAt_id x) e hr
  exact ⟨⟨w, h1, h2⟩, ⟨derivOf w, by simp [derivPy, h1] <;> rfl, h3⟩⟩

/-- **C26** (several coordinates).  Evaluated on dual coordinates `(x_i, v_i)` the derivative part is the derivative
along any curve through `x` with velocity `v`. -/
theorem C26_directional {ι : Type*} (γ : ι → ℝ → ℝ) (v : ι → ℝ) (s : ℝ)
    (hγ : ∀ i, HasDerivAt (γ i) (v i) s) (e : Expr ι) (hr : e.Regular fun i => γ i s) :
    Returns (e.eval fun i => ⟨γ i s, v i⟩) fun w =>
      w.val = e.den (fun i => γ i s) ∧ HasDerivAt (fun u => e.den fun i => γ i u) (derivOf w) s :=
  eval_correct γ v s hγ e hr

/-- `x ↦ exp(sin x) / (1 + x²) ** 0.5 − log x` at `x = 2` is regular. -/
example : Expr.Regular (fun _ : Unit => (2 : ℝ))
    (.sub (.div (.exp (.sin (.var ()))) (.pow (.add (.const 1) (.mul (.var ()) (.var ()))) (1 / 2)))
      (.log (.var ()))) := by
  simp only [Expr.Regular, Expr.den, true_and, and_true]
  refine ⟨⟨by norm_num, ?_⟩, by norm_num⟩
  positivity

/-! ## C27 -/

/-- **C27** (0/0).  If numerator and denominator vanish at `x` and the denominator has non-zero derivative, the value of
the dual quotient is the limit of the quotient at `x`. -/
theorem C27_lhopital (f g : ℝ → ℝ) (f' g' x : ℝ) (hf : HasDerivAt f f' x) (hg : HasDerivAt g g' x)
    (hf0 : f x = 0) (hg0 : g x = 0) (hg' : g' ≠ 0) :
    Returns (Dual.truediv ⟨f x, f'⟩ ⟨g x, g'⟩) fun z =>
      z.deriv = 0 ∧ Filter.Tendsto (fun u => f u / g u) (nhdsWithin x {x}ᶜ) (nhds z.val) := by
  refine ⟨⟨f' / g', 0⟩, by simp [Dual.truediv, hf0, hg0, hg'], rfl, ?_⟩
  have h1 := (hasDerivAt_iff_tendsto_slope.mp hf)
  have h2 := (hasDerivAt_iff_tendsto_slope.mp hg)
  have h3 := h1.div h2 hg'
  refine h3.congr' ?_
  filter_upwards [self_mem_nhdsWithin] with u hu
  have hne : u - x ≠ 0 := sub_ne_zero.mpr hu
  simp only [slope_def_field, hf0, hg0, sub_zero, Pi.div_apply]
  rw [div_div_div_cancel_right₀ hne]

/-- **C27** (other zero denominators).  A zero denominator with a non-zero numerator, or with zero derivative when both
vanish, raises `ZeroDivisionError`, as float division does. -/
theorem C27_zero_denominator (x y : Dual) (hy : y.val = 0) (h : x.val ≠ 0 ∨ y.deriv = 0) :
    Raises (x.truediv y) .zeroDivisionError := by
  unfold Raises Dual.truediv
  by_cases hx : x.val = 0
  · have hd : y.deriv = 0 := h.resolve_left (by simp [hx])
    simp [hx, hy, hd]
  · simp [hx, hy]

/-- **C27** (reverse operations).  `c / x` and `c - x` with a plain number `c` carry the derivatives of the functions
`c / f` and `c - f`. -/
theorem C27_reverse (c : ℝ) (f : ℝ → ℝ) (f' s : ℝ) (hf : HasDerivAt f f' s) :
    HasDerivAt (fun u => c - f u) ((⟨f s, f'⟩ : Dual).rsubNum c).deriv s ∧
    ((⟨f s, f'⟩ : Dual).rsubNum c).val = c - f s ∧
    (f s ≠ 0 → Returns ((⟨f s, f'⟩ : Dual).rtruedivNum c) fun z =>
      z.val = c / f s ∧ HasDerivAt (fun u => c / f u) z.deriv s) := by
  refine ⟨?_, rfl, fun h0 => ⟨⟨c / f s, (0 * f s - c * f') / f s ^ 2⟩, ?_, rfl, ?_⟩⟩
  · exact ((hasDerivAt_const s c).sub hf).congr_deriv rfl
  · simp [Dual.rtruedivNum, Dual.truediv, h0]
  · exact ((hasDerivAt_const s c).div hf h0).congr_deriv rfl

/-- **C27** (limits of the rule).  At a removable singularity the reported derivative is 0 even when the extended
function has another derivative: `x²/x` at 0 is the function `x` with derivative 1. -/
theorem C27_removable_derivative_lost :
    Dual.truediv ((⟨0, 1⟩ : Dual).mul ⟨0, 1⟩) ⟨0, 1⟩ = .ok ⟨0, 0⟩ ∧
    HasDerivAt (fun u : ℝ => if u = 0 then 0 else u * u / u) 1 0 := by
  constructor
  · simp [Dual.truediv, Dual.mul]
  · have : (fun u : ℝ => if u = 0 then 0 else u * u / u) = fun u => u := by
      funext u; split_ifs with h
      · exact h.symm
      · field_simp
    rw [this]; exact hasDerivAt_id 0

/-- hypotheses of `C27_lhopital`: `sin x / x` at 0 -/
example : Returns (Dual.truediv ⟨Real.sin 0, Real.cos 0⟩ ⟨0, 1⟩) fun z =>
    z.deriv = 0 ∧ Filter.Tendsto (fun u => Real.sin u / u) (nhdsWithin 0 {0}ᶜ) (nhds z.val) :=
  C27_lhopital Real.sin id _ 1 0 (Real.hasDerivAt_sin 0) (hasDerivAt_id 0) Real.sin_zero rfl one_ne_zero

/-- **C27** (division by the number zero).  Dividing a dual number by the plain number 0 raises `ZeroDivisionError`,
whatever its value and derivative; dividing it by any other number divides value and derivative. -/
theorem C27_number_denominator (x : Dual) (c : ℝ) :
    (c = 0 → Raises (x.truedivNum c) .zeroDivisionError) ∧
    (c ≠ 0 → Returns (x.truedivNum c) fun z => z.val * c = x.val ∧ z.deriv * c = x.deriv) := by
  refine ⟨fun h => by unfold Raises Dual.truedivNum; rw [if_pos h], fun h => ⟨⟨x.val / c, x.deriv / c⟩, ?_, ?_, ?_⟩⟩
  · unfold Dual.truedivNum; rw [if_neg h]
  · exact div_mul_cancel₀ _ h
  · exact div_mul_cancel₀ _ h

/-- **C27** (edges of the domains of `log`, `tan` and powers).  The logarithm of a dual number raises `ZeroDivisionError` at
the value 0 and yields `nan` below it; the tangent raises `ZeroDivisionError` where the cosine of the value vanishes; a
power `x ** p` with `x.val = 0` and `p < 1` raises `ZeroDivisionError` (so does the square root at 0, although its value
exists); a negative value with a non-integral exponent raises `TypeError`. -/
theorem C27_domain_edges (x : Dual) :
    (x.val = 0 → Raises x.log .zeroDivisionError) ∧
    (x.val < 0 → Raises x.log .notANumber) ∧
    (Real.cos x.val = 0 → Raises x.tan .zeroDivisionError) ∧
    (∀ p : ℝ, x.val = 0 → p < 1 → Raises (x.pow p) .zeroDivisionError) ∧
    (∀ p : ℝ, x.val < 0 → (¬ ∃ k : ℤ, p = k) → Raises (x.pow p) .typeError) := by
  refine ⟨fun h => ?_, fun h => ?_, fun h => ?_, fun p h hp => ?_, fun p h hp => ?_⟩
  · unfold Raises Dual.log; rw [if_pos h]
  · unfold Raises Dual.log; rw [if_neg h.ne, if_pos h]
  · refine C27_zero_denominator x.sin x.cos h (Or.inl fun hs => ?_)
    have h1 := Real.sin_sq_add_cos_sq x.val
    have hs' : Real.sin x.val = 0 := hs
    rw [h, hs'] at h1
    norm_num at h1
  · unfold Raises Dual.pow
    by_cases hp0 : p < 0
    · simp [pyPow, h, hp0, bind, Except.bind]
    · simp [pyPow, h, hp0, hp, bind, Except.bind]
  · unfold Raises Dual.pow
    have h0 : ¬ (x.val = 0 ∧ p < 0) := fun hh => h.ne hh.1
    have e : pyPow x.val p = .error .typeError := by
      unfold pyPow; rw [if_neg h0, if_pos ⟨h, hp⟩]
    rw [e]; rfl

/-- hypotheses of `C27_domain_edges`: the tangent at a pole, and `√(-1)` -/
example : Raises (⟨Real.pi / 2, 1⟩ : Dual).tan .zeroDivisionError ∧ Raises ((⟨0, 1⟩ : Dual).pow (1 / 2)) .zeroDivisionError ∧
    Raises ((⟨-1, 1⟩ : Dual).pow (1 / 2)) .typeError := by
  refine ⟨(C27_domain_edges _).2.2.1 Real.cos_pi_div_two, (C27_domain_edges _).2.2.2.1 _ rfl (by norm_num),
    (C27_domain_edges _).2.2.2.2 _ (by norm_num) ?_⟩
  rintro ⟨k, hk⟩
  have h2 : (1 : ℝ) = 2 * (k : ℝ) := by rw [← hk]; norm_num
  have h3 : (1 : ℤ) = 2 * k := by exact_mod_cast h2
  omega

end Einpy
