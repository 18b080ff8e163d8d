import Verif.Integ.RungeKutta
import Verif.Integ.Props2

/-!
# C108: RK4naive is a fourth-order method
-/

namespace Einpy
open Topology
open scoped ContDiff

section
variable {E : Type*} [NormedAddCommGroup E] [NormedSpace ℝ E]

/-- the right-hand side with the time as an additional unknown -/
noncomputable def autoField (f : ℝ → E → E) (p : ℝ × E) : ℝ × E := (1, f p.1 p.2)

theorem rk4_step_auto (s : RK4 E) (hd : s.direction = 0) :
    (s.step.t, s.step.y) = Flow.rk4 (autoField s.func) s.stepSize (s.t, s.y) ∧ s.step.direction = 0 ∧
      s.step.func = s.func ∧ s.step.stepSize = s.stepSize := by
  have : ¬ ((s.t ≥ s.tBound ∧ s.direction = 1) ∨ (s.t ≤ s.tBound ∧ s.direction = -1)) := by
    rw [hd]; simp
  unfold RK4.step
  rw [if_neg this]
  refine ⟨?_, hd, rfl, rfl⟩
  simp only [Flow.rk4, autoField, Prod.smul_mk, Prod.mk_add_mk, smul_eq_mul, mul_one]
  refine Prod.ext ?_ rfl
  show s.t + s.stepSize = s.t + s.stepSize / 6 * (1 + 2 + 2 + 1)
  ring

theorem rk4_iterate_auto (f : ℝ → E → E) (t0 : ℝ) (y0 : E) (tb h : ℝ) (n : ℕ) :
    ((RK4.step^[n] (RK4.new f t0 y0 tb h)).t, (RK4.step^[n] (RK4.new f t0 y0 tb h)).y) =
      (Flow.rk4 (autoField f) h)^[n] (t0, y0) := by
  have : ∀ n, ((RK4.step^[n] (RK4.new f t0 y0 tb h)).t, (RK4.step^[n] (RK4.new f t0 y0 tb h)).y) =
      (Flow.rk4 (autoField f) h)^[n] (t0, y0) ∧ (RK4.step^[n] (RK4.new f t0 y0 tb h)).direction = 0 ∧
      (RK4.step^[n] (RK4.new f t0 y0 tb h)).func = f ∧ (RK4.step^[n] (RK4.new f t0 y0 tb h)).stepSize = h := by
    intro n
    induction n with
    | zero => exact ⟨rfl, rk4_direction f t0 y0 tb h, rfl, rfl⟩
    | succ n ih =>
      rw [Function.iterate_succ_apply', Function.iterate_succ_apply']
      obtain ⟨i1, i2, i3, i4⟩ := ih
      obtain ⟨a, b, c, d⟩ := rk4_step_auto _ i2
      refine ⟨?_, b, by rw [c, i3], by rw [d, i4]⟩
      rw [a, i1, i3, i4]
  exact (this n).1

/-- **C108**.  Let `y` solve `y' = f(t, y)` near every `t ∈ [a, b]`, where `f` is smooth on an open set containing the graph
of the solution.  One step of `RK4naive` started on the solution has an error of at most `C·|h|⁵`, with one constant for the
whole interval; and `n` steps started at `(t₀, y(t₀))` reach the time `t₀ + n·h` with an error of at most `K·|h|⁴`, however many
steps are taken, as long as `t₀ + n·h` is in `[a, b]`. -/
theorem C108_rk4_fourth_order (f : ℝ → E → E) (U : Set (ℝ × E)) (hU : IsOpen U) (hf : ContDiffOn ℝ ∞ (fun p : ℝ × E => f p.1 p.2) U)
    (y : ℝ → E) (a b t₀ : ℝ) (ht₀ : t₀ ∈ Set.Icc a b) (hy : ∀ t ∈ Set.Icc a b, (t, y t) ∈ U)
    (hd : ∀ t ∈ Set.Icc a b, ∀ᶠ u in 𝓝 t, HasDerivAt y (f u (y u)) u) :
    (∃ C h₀ : ℝ, 0 < h₀ ∧ ∀ t ∈ Set.Icc a b, ∀ tb h, |h| < h₀ →
      ‖((RK4.new f t (y t) tb h).step).y - y (t + h)‖ ≤ C * |h| ^ 5) ∧
    ∃ K h₀ : ℝ, 0 < h₀ ∧ ∀ tb h, |h| < h₀ → ∀ n : ℕ, t₀ + n * h ∈ Set.Icc a b →
      (RK4.step^[n] (RK4.new f t₀ (y t₀) tb h)).t = t₀ + n * h ∧
      ‖(RK4.step^[n] (RK4.new f t₀ (y t₀) tb h)).y - y (t₀ + n * h)‖ ≤ K * |h| ^ 4 := by
  let X : Flow.SmoothFn U := ⟨autoField f, contDiffOn_const.prodMk hf⟩
  let Y : ℝ → ℝ × E := fun t => (t₀ + t, y (t₀ + t))
  have hsh : ∀ t, t ∈ Set.Icc (a - t₀) (b - t₀) → t₀ + t ∈ Set.Icc a b := fun t ht => ⟨by linarith [ht.1], by linarith [ht.2]⟩
  have hc : ∀ t, Filter.Tendsto (fun u : ℝ => t₀ + u) (𝓝 t) (𝓝 (t₀ + t)) := fun t => (continuous_const_add t₀).continuousAt.tendsto
  have hY : ∀ t ∈ Set.Icc (a - t₀) (b - t₀), ∀ᶠ u in 𝓝 t, HasDerivAt Y (X.1 (Y u)) u := by
    intro t ht
    filter_upwards [(hc t).eventually (hd _ (hsh t ht))] with u hu
    exact ((hasDerivAt_id u).const_add t₀).prodMk (HasDerivAt.comp_const_add t₀ u hu)
  obtain ⟨⟨C, h1, hp1, hC⟩, ⟨K, h2, hp2, hK⟩⟩ := Flow.rk4_converges hU X Y (a - t₀) (b - t₀) (by linarith [ht₀.1]) (by linarith [ht₀.2])
    (fun t ht => hy _ (hsh t ht)) hY
  constructor
  · refine ⟨C, h1, hp1, fun t ht tb h hh => ?_⟩
    have e := hC (t - t₀) ⟨by linarith [ht.1], by linarith [ht.2]⟩ h hh
    have e2 := (rk4_step_auto (RK4.new f t (y t) tb h) (rk4_direction _ _ _ _ _)).1
    have hYt : Y (t - t₀) = (t, y t) := by simp [Y]
    have hYt2 : Y (t - t₀ + h) = (t + h, y (t + h)) := by
      have : t₀ + (t - t₀ + h) = t + h := by ring
      simp only [Y, this]
    rw [hYt, hYt2] at e
    have e3 : Flow.rk4 X.1 h (t, y t) = (((RK4.new f t (y t) tb h).step).t, ((RK4.new f t (y t) tb h).step).y) := e2.symm
    rw [e3] at e
    exact (norm_snd_le _).trans e
  · refine ⟨K, h2, hp2, fun tb h hh n hn => ⟨C35_time_after_n_steps f t₀ (y t₀) tb h n, ?_⟩⟩
    have e := hK h hh n ⟨by linarith [hn.1], by linarith [hn.2]⟩
    have hY0 : Y 0 = (t₀, y t₀) := by simp [Y]
    rw [hY0] at e
    have e3 : (Flow.rk4 X.1 h)^[n] (t₀, y t₀) = ((RK4.step^[n] (RK4.new f t₀ (y t₀) tb h)).t, (RK4.step^[n] (RK4.new f t₀ (y t₀) tb h)).y) :=
      (rk4_iterate_auto f t₀ (y t₀) tb h n).symm
    rw [e3] at e
    exact (norm_snd_le _).trans e

end

/-- Non-vacuity of C108: the non-linear equation `y' = 2 t y²` with the solution `1/(1 - t²)` on `[-1/2, 1/2]`. -/
example : ContDiffOn ℝ ∞ (fun p : ℝ × ℝ => 2 * p.1 * p.2 ^ 2) Set.univ ∧
    ∀ t ∈ Set.Icc (-1 / 2 : ℝ) (1 / 2), ∀ᶠ u in 𝓝 t, HasDerivAt (fun t : ℝ => (1 - t ^ 2)⁻¹) (2 * u * ((1 - u ^ 2)⁻¹) ^ 2) u := by
  refine ⟨ContDiff.contDiffOn (by fun_prop), fun t ht => ?_⟩
  have hc : Continuous (fun t : ℝ => 1 - t ^ 2) := by fun_prop
  have h0 : 1 - t ^ 2 ≠ 0 := by
    have : t ^ 2 ≤ 1 / 4 := by
      have := ht.1; have := ht.2
      nlinarith
    linarith
  filter_upwards [hc.continuousAt.eventually_ne h0] with u hu
  have h1 : HasDerivAt (fun t : ℝ => 1 - t ^ 2) (-(2 * u)) u := by
    simpa using (hasDerivAt_pow 2 u).const_sub 1
  refine (h1.inv hu).congr_deriv ?_
  field_simp

end Einpy
