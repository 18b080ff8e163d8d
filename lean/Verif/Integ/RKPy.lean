import Mathlib.Analysis.Normed.Module.FiniteDimension
import Mathlib.Topology.MetricSpace.Thickening
import Verif.Integ.RungeKutta2

/-!
# `RK4naive` with a callback that may raise

The same class as `RK4` (integrators/runge_kutta.py:7-55), for right-hand sides such as `metric.f_vec` that can fail.
-/

namespace Einpy
open Topology
open scoped ContDiff

/-- runge_kutta.py:7-35 an `RK4naive` object whose function may raise. -/
structure RK4Py (E : Type*) where
  t : ℝ
  y : E
  tBound : ℝ
  stepSize : ℝ
  func : ℝ → E → Py E
  direction : Int

/-- runge_kutta.py:12-35 the constructor. -/
noncomputable def RK4Py.new {E : Type*} (f : ℝ → E → Py E) (t0 : ℝ) (y0 : E) (tBound h : ℝ) : RK4Py E :=
  ⟨t0, y0, tBound, h, f, 1 * (if tBound ≥ t0 then 1 else 0) - 1 * (if ¬ tBound < t0 then 1 else 0)⟩

/-- runge_kutta.py:37-55 `step`: an exception raised by one of the four evaluations leaves it, before any attribute is written. -/
noncomputable def RK4Py.step {E : Type*} [AddCommGroup E] [Module ℝ E] (s : RK4Py E) : Py (RK4Py E) :=
  if (s.t ≥ s.tBound ∧ s.direction = 1) ∨ (s.t ≤ s.tBound ∧ s.direction = -1) then .ok s
  else do
    let h := s.stepSize
    let k0 ← s.func s.t s.y
    let k1 ← s.func (s.t + h / 2) (s.y + (h / 2) • k0)
    let k2 ← s.func (s.t + h / 2) (s.y + (h / 2) • k1)
    let k3 ← s.func (s.t + h) (s.y + h • k2)
    return { s with y := s.y + (h / 6) • (k0 + (2 : ℝ) • k1 + (2 : ℝ) • k2 + k3), t := s.t + h }

/-- `n` calls of `step` on one object. -/
noncomputable def RK4Py.steps {E : Type*} [AddCommGroup E] [Module ℝ E] : ℕ → RK4Py E → Py (RK4Py E)
  | 0, s => .ok s
  | n + 1, s => do (← RK4Py.steps n s).step

/-- the object with a total function seen as one whose function may raise -/
def RK4.toPy {E : Type*} (f : ℝ → E → Py E) (s : RK4 E) : RK4Py E := ⟨s.t, s.y, s.tBound, s.stepSize, f, s.direction⟩

section
variable {E : Type*} [NormedAddCommGroup E] [NormedSpace ℝ E]

/-- A step in which the four evaluations succeed is a step of the total model. -/
theorem rk4py_step {F : ℝ → E → Py E} (s : RK4 E) (hd : s.direction = 0)
    (h0 : F s.t s.y = .ok (s.func s.t s.y))
    (h1 : F (s.t + s.stepSize / 2) (s.y + (s.stepSize / 2) • s.func s.t s.y)
      = .ok (s.func (s.t + s.stepSize / 2) (s.y + (s.stepSize / 2) • s.func s.t s.y)))
    (h2 : F (s.t + s.stepSize / 2) (s.y + (s.stepSize / 2) • s.func (s.t + s.stepSize / 2) (s.y + (s.stepSize / 2) • s.func s.t s.y))
      = .ok (s.func (s.t + s.stepSize / 2) (s.y + (s.stepSize / 2) • s.func (s.t + s.stepSize / 2) (s.y + (s.stepSize / 2) • s.func s.t s.y))))
    (h3 : F (s.t + s.stepSize) (s.y + s.stepSize • s.func (s.t + s.stepSize / 2) (s.y + (s.stepSize / 2) • s.func (s.t + s.stepSize / 2) (s.y + (s.stepSize / 2) • s.func s.t s.y)))
      = .ok (s.func (s.t + s.stepSize) (s.y + s.stepSize • s.func (s.t + s.stepSize / 2) (s.y + (s.stepSize / 2) • s.func (s.t + s.stepSize / 2) (s.y + (s.stepSize / 2) • s.func s.t s.y))))) :
    (s.toPy F).step = .ok (s.step.toPy F) := by
  have hn : ¬ ((s.t ≥ s.tBound ∧ s.direction = 1) ∨ (s.t ≤ s.tBound ∧ s.direction = -1)) := by
    rw [hd]; simp
  unfold RK4Py.step RK4.step
  rw [if_neg hn]
  refine (if_neg hn).trans ?_
  simp only [RK4.toPy, h0, h1, h2, h3, bind, Except.bind, pure, Except.pure]

/-- near a compact piece of the solution every evaluation of a step with a small step size is inside the domain -/
theorem rk4_stages {U : Set (ℝ × E)} [ProperSpace E] (hU : IsOpen U) (f : ℝ → E → E)
    (hf : ContinuousOn (fun p : ℝ × E => f p.1 p.2) U) (C : Set (ℝ × E)) (hC : IsCompact C) (hCU : C ⊆ U) :
    ∃ r h₀ : ℝ, 0 < r ∧ 0 < h₀ ∧ ∀ (t h : ℝ) (y z : E), |h| < h₀ → (t, z) ∈ C → ‖y - z‖ ≤ r →
      (t, y) ∈ U ∧ (t + h / 2, y + (h / 2) • f t y) ∈ U ∧
      (t + h / 2, y + (h / 2) • f (t + h / 2) (y + (h / 2) • f t y)) ∈ U ∧
      (t + h, y + h • f (t + h / 2) (y + (h / 2) • f (t + h / 2) (y + (h / 2) • f t y))) ∈ U := by
  obtain ⟨d, hd, hdU⟩ := hC.exists_cthickening_subset_open hU hCU
  have hK : IsCompact (Metric.cthickening d C) := hC.cthickening
  obtain ⟨B, hB⟩ := hK.exists_bound_of_continuousOn (hf.mono hdU)
  refine ⟨d / 2, min (d / 2) (d / 2 / (|B| + 1)), by positivity, by positivity, ?_⟩
  intro t h y z hh hz hy
  have hh1 : |h| ≤ d / 2 := (lt_of_lt_of_le hh (min_le_left _ _)).le
  have hB1 : 0 < |B| + 1 := by positivity
  have hh2 : |h| * |B| ≤ d / 2 := by
    have := (lt_of_lt_of_le hh (min_le_right _ _)).le
    rw [le_div_iff₀ hB1] at this
    nlinarith [abs_nonneg h]
  have key : ∀ (s : ℝ) (w : E), |s| ≤ |h| → ‖w‖ ≤ |B| → (t + s, y + s • w) ∈ Metric.cthickening d C := by
    intro s w hs hw
    refine Metric.mem_cthickening_of_dist_le _ _ _ _ hz ?_
    rw [Prod.dist_eq, max_le_iff]
    constructor
    · rw [Real.dist_eq, add_sub_cancel_left]; linarith
    · rw [dist_eq_norm]
      have : y + s • w - z = (y - z) + s • w := by abel
      rw [this]
      refine (norm_add_le _ _).trans ?_
      rw [norm_smul, Real.norm_eq_abs]
      have h2 : |s| * ‖w‖ ≤ |h| * |B| := mul_le_mul hs hw (norm_nonneg _) (abs_nonneg _)
      linarith
  have bnd : ∀ (t' : ℝ) (y' : E), (t', y') ∈ Metric.cthickening d C → ‖f t' y'‖ ≤ |B| :=
    fun t' y' h' => (hB _ h').trans (le_abs_self B)
  have k0 : (t, y) ∈ Metric.cthickening d C := by
    have := key 0 0 (by simp) (by simp)
    simpa using this
  have hhalf : |h / 2| ≤ |h| := by
    rw [abs_div, abs_two]; linarith [abs_nonneg h]
  have k1 := key (h / 2) _ hhalf (bnd _ _ k0)
  have k2 := key (h / 2) _ hhalf (bnd _ _ k1)
  have k3 := key h _ le_rfl (bnd _ _ k2)
  exact ⟨hdU k0, hdU k1, hdU k2, hdU k3⟩

/-- Fourth-order convergence of `RK4naive` when the function may raise: the steps succeed as well. -/
theorem rk4py_converges [ProperSpace E] (F : ℝ → E → Py E) (f : ℝ → E → E) (U : Set (ℝ × E)) (hU : IsOpen U)
    (hF : ∀ t y, (t, y) ∈ U → F t y = .ok (f t y))
    (hf : ContDiffOn ℝ ∞ (fun p : ℝ × E => f p.1 p.2) U)
    (y : ℝ → E) (a b t₀ : ℝ) (ht₀ : t₀ ∈ Set.Icc a b) (hy : ∀ t ∈ Set.Icc a b, (t, y t) ∈ U)
    (hd : ∀ t ∈ Set.Icc a b, ∀ᶠ u in 𝓝 t, HasDerivAt y (f u (y u)) u) :
    ∃ K h₀ : ℝ, 0 < h₀ ∧ ∀ tb h, |h| < h₀ → ∀ n : ℕ, t₀ + n * h ∈ Set.Icc a b →
      ∃ s, RK4Py.steps n (RK4Py.new F t₀ (y t₀) tb h) = .ok s ∧ s.t = t₀ + n * h ∧ ‖s.y - y (t₀ + n * h)‖ ≤ K * |h| ^ 4 := by
  obtain ⟨_, K, h1, hp1, hK⟩ := C108_rk4_fourth_order f U hU hf y a b t₀ ht₀ hy hd
  have hcont : ContinuousOn (fun t => (t, y t)) (Set.Icc a b) := fun t ht =>
    (continuousAt_id.prodMk ((hd t ht).self_of_nhds.continuousAt)).continuousWithinAt
  have hC : IsCompact ((fun t => (t, y t)) '' Set.Icc a b) := isCompact_Icc.image_of_continuousOn hcont
  obtain ⟨r, h2, hr, hp2, hst⟩ := rk4_stages hU f hf.continuousOn _ hC (by rintro _ ⟨t, ht, rfl⟩; exact hy t ht)
  refine ⟨K, min (min h1 h2) (min 1 (r / (|K| + 1))), by positivity, ?_⟩
  intro tb h hh
  have hh1 : |h| < h1 := lt_of_lt_of_le hh ((min_le_left _ _).trans (min_le_left _ _))
  have hh2 : |h| < h2 := lt_of_lt_of_le hh ((min_le_left _ _).trans (min_le_right _ _))
  have hh3 : |h| < 1 := lt_of_lt_of_le hh ((min_le_right _ _).trans (min_le_left _ _))
  have hh4 : |h| < r / (|K| + 1) := lt_of_lt_of_le hh ((min_le_right _ _).trans (min_le_right _ _))
  have hKr : K * |h| ^ 4 ≤ r := by
    have e1 : |h| ^ 4 ≤ |h| := by
      calc |h| ^ 4 = |h| ^ 3 * |h| := by ring
        _ ≤ 1 * |h| := mul_le_mul_of_nonneg_right (pow_le_one₀ (abs_nonneg h) hh3.le) (abs_nonneg h)
        _ = |h| := one_mul _
    rw [lt_div_iff₀ (by positivity)] at hh4
    calc K * |h| ^ 4 ≤ |K| * |h| ^ 4 := mul_le_mul_of_nonneg_right (le_abs_self K) (by positivity)
      _ ≤ |K| * |h| := mul_le_mul_of_nonneg_left e1 (abs_nonneg K)
      _ ≤ r := by nlinarith [abs_nonneg h]
  have inv : ∀ n, (RK4.step^[n] (RK4.new f t₀ (y t₀) tb h)).direction = 0 ∧
      (RK4.step^[n] (RK4.new f t₀ (y t₀) tb h)).func = f ∧ (RK4.step^[n] (RK4.new f t₀ (y t₀) tb h)).stepSize = h := by
    intro n
    induction n with
    | zero => exact ⟨rk4_direction f t₀ (y t₀) tb h, rfl, rfl⟩
    | succ n ih =>
      rw [Function.iterate_succ_apply']
      obtain ⟨_, b, c, d⟩ := rk4_step_auto _ ih.1
      exact ⟨b, c.trans ih.2.1, d.trans ih.2.2⟩
  have main : ∀ n : ℕ, t₀ + n * h ∈ Set.Icc a b →
      RK4Py.steps n (RK4Py.new F t₀ (y t₀) tb h) = .ok ((RK4.step^[n] (RK4.new f t₀ (y t₀) tb h)).toPy F) := by
    intro n
    induction n with
    | zero => intro _; rfl
    | succ n ih =>
      intro hn
      have hn' : t₀ + n * h ∈ Set.Icc a b := by
        push_cast at hn
        rcases le_or_gt 0 h with h0 | h0
        · have : 0 ≤ (n : ℝ) * h := by positivity
          exact ⟨by linarith [ht₀.1], by linarith [hn.2]⟩
        · have : (n : ℝ) * h ≤ 0 := mul_nonpos_of_nonneg_of_nonpos (by positivity) h0.le
          exact ⟨by linarith [hn.1], by linarith [ht₀.2]⟩
      rw [RK4Py.steps, ih hn', Function.iterate_succ_apply']
      show RK4Py.step _ = _
      obtain ⟨i1, i2, i3⟩ := inv n
      obtain ⟨j1, j2⟩ := hK tb h hh1 n hn'
      generalize RK4.step^[n] (RK4.new f t₀ (y t₀) tb h) = s at *
      obtain ⟨q0, q1, q2, q3⟩ := hst (t₀ + n * h) h s.y (y (t₀ + n * h)) hh2 ⟨_, hn', rfl⟩ (j2.trans hKr)
      rw [← j1] at q0 q1 q2 q3
      refine rk4py_step s i1 ?_ ?_ ?_ ?_ <;> simp only [i2, i3]
      · exact hF _ _ q0
      · exact hF _ _ q1
      · exact hF _ _ q2
      · exact hF _ _ q3
  intro n hn
  exact ⟨_, main n hn, (hK tb h hh1 n hn).1, (hK tb h hh1 n hn).2⟩

/-- An exception raised by the function at the current state leaves `step`. -/
theorem rk4py_raises {s : RK4Py E} {e : PyErr} (hd : s.direction = 0) (h : s.func s.t s.y = .error e) : s.step = .error e := by
  have hn : ¬ ((s.t ≥ s.tBound ∧ s.direction = 1) ∨ (s.t ≤ s.tBound ∧ s.direction = -1)) := by
    rw [hd]; simp
  unfold RK4Py.step
  rw [if_neg hn, h]
  rfl

end
end Einpy
