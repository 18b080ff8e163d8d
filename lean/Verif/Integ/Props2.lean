import Verif.Integ.Props
import Verif.Geodesic.Model

/-!
# Trajectory bookkeeping, warnings, Runge-Kutta: C34 – C36, C67
-/

namespace Einpy
open Classical

theorem iterPy_succ' {α : Type*} (f : α → Py α) (n : Nat) (a b : α) (h : f a = .ok b) :
    iterPy f (n + 1) a = iterPy f n b := by
  induction n with
  | zero => simp only [iterPy, bind, Except.bind]; exact h
  | succ n ih =>
    have : iterPy f (n + 1 + 1) a = (do f (← iterPy f (n + 1) a)) := rfl
    rw [this, ih]; rfl

/-- the step does not match the tolerance: `g^{ab} p_a p_b` is not `-1` (time-like) or `0` (null) within
`atol + rtol·|const|` -/
def OffShell (I : Integ) (s : PS) : Prop :=
  ∃ G, evalMetric I.cfg.metric s.q1 = .ok G ∧
    let const : ℝ := if I.timeLike then -1 else 0
    I.atol + I.rtol * |const| < |(∑ a, ∑ b, G a b * s.p1 a * s.p1 b) - const|

theorem dot4_matVec (G : Fin 4 → Fin 4 → ℝ) (p : V4) : dot4 (matVec G p) p = ∑ a, ∑ b, G a b * p a * p b := by
  simp only [dot4, matVec, Finset.sum_mul]
  refine Finset.sum_congr rfl fun a _ => Finset.sum_congr rfl fun b _ => by ring

/-- What one `step` does. -/
theorem step_spec (I I' : Integ) (h : I.step = .ok I') :
    ∃ s, orderStep I.cfg I.resList I.delta = .ok s ∧ I'.resList = s ∧ I'.results = I.results ++ [s] ∧
      I'.stepNum = I.stepNum + 1 ∧ I'.cfg = I.cfg ∧ I'.delta = I.delta ∧ I'.timeLike = I.timeLike ∧ I'.rtol = I.rtol ∧
      I'.atol = I.atol ∧ I'.suppressWarnings = I.suppressWarnings ∧
      I'.warned = (if I.suppressWarnings = false ∧ OffShell I s then I.warned ++ [I.stepNum + 1] else I.warned) := by
  unfold Integ.step at h
  cases hs : orderStep I.cfg I.resList I.delta with
  | error e => rw [hs] at h; cases h
  | ok s =>
    rw [hs] at h
    simp only [bind, Except.bind] at h
    refine ⟨s, rfl, ?_⟩
    cases hw : I.suppressWarnings with
    | true =>
      simp only [hw, if_true, pure, Except.pure] at h
      rw [← Except.ok.inj h]
      simp [hw]
    | false =>
      simp only [hw, Bool.false_eq_true, if_false] at h
      cases hG : evalMetric I.cfg.metric s.q1 with
      | error e => simp only [hG] at h; cases h
      | ok G =>
        simp only [hG] at h
        have hoff : OffShell I s ↔ ¬ allclose (dot4 (matVec G s.p1) s.p1) (if I.timeLike then -1 else 0) I.rtol I.atol := by
          unfold OffShell allclose
          rw [dot4_matVec, not_le]
          constructor
          · rintro ⟨G', h1, h2⟩
            rw [hG] at h1
            rw [← Except.ok.inj h1] at h2
            exact h2
          · intro h2; exact ⟨G, hG, h2⟩
        by_cases hc : allclose (dot4 (matVec G s.p1) s.p1) (if I.timeLike then -1 else 0) I.rtol I.atol
        · rw [if_pos hc] at h
          simp only [pure, Except.pure] at h
          rw [← Except.ok.inj h]
          have : ¬ OffShell I s := fun ho => hoff.mp ho hc
          simp [hw, this]
        · rw [if_neg hc] at h
          simp only [pure, Except.pure] at h
          rw [← Except.ok.inj h]
          have : OffShell I s := hoff.mpr hc
          simp [hw, this]

theorem runN_spec (N : Nat) (I I' : Integ) (h : I.runN N = .ok I') :
    I'.cfg = I.cfg ∧ I'.delta = I.delta ∧ I'.timeLike = I.timeLike ∧ I'.rtol = I.rtol ∧ I'.atol = I.atol ∧
    I'.stepNum = I.stepNum + N ∧
    ∃ l : List PS, l.length = N ∧ I'.results = I.results ++ l ∧
      (∀ k < N, ∃ s, l[k]? = some s ∧ iterPy (fun s => orderStep I.cfg s I.delta) (k + 1) I.resList = .ok s) ∧
      I'.warned = I.warned ++ (if I.suppressWarnings then [] else
        ((List.range N).filter fun k => ∃ s, l[k]? = some s ∧ OffShell I s).map fun k => I.stepNum + k + 1) := by
  induction N generalizing I with
  | zero =>
    rw [← Except.ok.inj h]
    exact ⟨rfl, rfl, rfl, rfl, rfl, rfl, [], rfl, by simp, by simp, by simp⟩
  | succ N ih =>
    simp only [Integ.runN] at h
    cases hs : I.step with
    | error e => rw [hs] at h; cases h
    | ok I1 =>
      rw [hs] at h
      simp only [bind, Except.bind] at h
      obtain ⟨s, e1, e2, e3, e4, e5, e6, e7, e8, e9, e10, e11⟩ := step_spec I I1 hs
      obtain ⟨f1, f2, f3, f4, f5, f6, l, f7, f8, f9, f10⟩ := ih I1 h
      refine ⟨by rw [f1, e5], by rw [f2, e6], by rw [f3, e7], by rw [f4, e8], by rw [f5, e9], by rw [f6, e4]; omega,
        s :: l, by simp [f7], by rw [f8, e3]; simp, ?_, ?_⟩
      · intro k hk
        cases k with
        | zero => exact ⟨s, rfl, by simp only [iterPy, bind, Except.bind]; exact e1⟩
        | succ k =>
          obtain ⟨s', g1, g2⟩ := f9 k (by omega)
          refine ⟨s', by simpa using g1, ?_⟩
          rw [iterPy_succ' _ _ _ s e1, ← g2, e2, e5, e6]
      · have hoff : ∀ s', OffShell I1 s' ↔ OffShell I s' := by
          intro s'; unfold OffShell; rw [e5, e7, e8, e9]
        rw [f10, e11, e10]
        cases hw : I.suppressWarnings with
        | true => simp
        | false =>
          simp only [true_and, Bool.false_eq_true, if_false]
          rw [List.range_succ_eq_map, List.filter_cons]
          have h0 : (decide (∃ s', (s :: l)[0]? = some s' ∧ OffShell I s') = true) ↔ OffShell I s := by simp
          have htail : (List.filter (fun k => decide (∃ s', (s :: l)[k]? = some s' ∧ OffShell I s'))
              (List.map Nat.succ (List.range N))).map (fun k => I.stepNum + k + 1) =
              ((List.range N).filter fun k => ∃ s', l[k]? = some s' ∧ OffShell I1 s').map
                fun k => I1.stepNum + k + 1 := by
            rw [List.filter_map, List.map_map]
            congr 1
            · funext k; simp only [Function.comp, e4]; omega
            · congr 1; funext k; simp only [Function.comp, Nat.succ_eq_add_one, List.getElem?_cons_succ]
              exact decide_eq_decide.mpr (by simp only [hoff])
          by_cases ho : OffShell I s
          · rw [if_pos ho, if_pos (h0.mpr ho), List.map_cons, htail]
            simp
          · rw [if_neg ho, if_neg (fun hh => ho (h0.mp hh)), htail]

/-! ## C34 -/

/-- **C34** (rows).  After `N` steps of a fresh integrator `results` has exactly `N` entries, the entry number `k`
(counting from 0) is the state after `k+1` applications of the step map to the doubled initial state
`[q0, p0, q0, p0]` (the initial state itself is not recorded), and `step_num` is `N`. -/
theorem C34_rows (cfg : IntegCfg) (q0 p0 : V4) (tl : Bool) (δ rtol atol : ℝ) (sw : Bool) (N : Nat) (I0 I : Integ)
    (h0 : Integ.new cfg q0 p0 tl δ rtol atol sw = .ok I0) (h : I0.runN N = .ok I) :
    I.results.length = N ∧ I.stepNum = N ∧
    ∀ k < N, ∃ s, I.results[k]? = some s ∧
      iterPy (fun s => orderStep cfg s δ) (k + 1) (q0, p0, q0, p0) = .ok s := by
  unfold Integ.new at h0
  split_ifs at h0
  have hI := Except.ok.inj h0
  subst hI
  obtain ⟨-, -, -, -, -, f6, l, f7, f8, f9, -⟩ := runN_spec N _ I h
  simp only [List.nil_append] at f8
  refine ⟨by rw [f8, f7], by rw [f6]; simp, ?_⟩
  rw [f8]
  exact f9

/-- **C34** (unsupported order).  Any other order raises `NotImplementedError` when the integrator is created, so no
trajectory is returned. -/
theorem C34_unsupported_order (cfg : IntegCfg) (h : ¬ (cfg.order = 2 ∨ cfg.order = 4 ∨ cfg.order = 6 ∨ cfg.order = 8))
    (q0 p0 : V4) (tl : Bool) (δ rtol atol : ℝ) (sw : Bool) :
    Raises (Integ.new cfg q0 p0 tl δ rtol atol sw) .notImplementedError := by
  unfold Raises Integ.new
  rw [if_pos (by tauto)]

/-- **C34** (trajectory).  When `calculate_trajectory` returns `(steps, rows)` then the requested number of steps `N` is
positive, `steps` is `0 … N-1`, there are `N` rows, and row `k` shows the first copy of the state after `k+1` steps. -/
theorem C34_trajectory (g : MetricFn) (q0 p0 : V4) (tl : Bool) (coords : String) (kw : GeoKw)
    (st : List Nat) (rows : List (List ℝ)) (h : calculateTrajectory g q0 p0 tl coords kw = .ok (st, rows)) :
    0 < kw.steps ∧ (rows.length : Int) = kw.steps ∧ st = List.range rows.length ∧
    ∀ k < rows.length, ∃ s, iterPy (fun s => orderStep ⟨g, kw.omega, kw.order⟩ s kw.delta) (k + 1) (q0, p0, q0, p0) = .ok s ∧
      rows[k]? = some (if coords = "Cartesian" then cartRow s else polarRow s) := by
  unfold calculateTrajectory at h
  cases h0 : Integ.new ⟨g, kw.omega, kw.order⟩ q0 p0 tl kw.delta kw.rtol kw.atol kw.suppressWarnings with
  | error e => simp only [h0, bind, Except.bind] at h; cases h
  | ok I0 =>
    simp only [h0, bind, Except.bind] at h
    cases h1 : I0.runN kw.steps.toNat with
    | error e => simp only [h1] at h; cases h
    | ok I =>
      obtain ⟨a1, -, a3⟩ := C34_rows _ q0 p0 tl kw.delta kw.rtol kw.atol kw.suppressWarnings _ I0 I h0 h1
      simp only [h1] at h
      by_cases hr : I.results = []
      · rw [if_pos hr] at h; cases h
      · rw [if_neg hr] at h
        have hpos : 0 < kw.steps.toNat := by
          rw [← a1]; exact List.length_pos_of_ne_nil hr
        have key : ∀ (f : PS → List ℝ), st = List.range kw.steps.toNat → rows = I.results.map f →
            0 < kw.steps ∧ (rows.length : Int) = kw.steps ∧ st = List.range rows.length ∧
            ∀ k < rows.length, ∃ s, iterPy (fun s => orderStep ⟨g, kw.omega, kw.order⟩ s kw.delta) (k + 1)
              (q0, p0, q0, p0) = .ok s ∧ rows[k]? = some (f s) := by
          intro f hst hrows
          have hl : rows.length = kw.steps.toNat := by rw [hrows, List.length_map, a1]
          refine ⟨by omega, by omega, by rw [hl, hst], ?_⟩
          intro k hk
          obtain ⟨s, b1, b2⟩ := a3 k (by omega)
          exact ⟨s, b2, by rw [hrows, List.getElem?_map, b1]; rfl⟩
        by_cases hc : coords = "Cartesian"
        · rw [if_pos hc] at h
          have hp := Except.ok.inj h
          simp only [if_pos hc]
          exact key cartRow (Prod.ext_iff.mp hp).1.symm (Prod.ext_iff.mp hp).2.symm
        · rw [if_neg hc] at h
          have hp := Except.ok.inj h
          simp only [if_neg hc]
          exact key polarRow (Prod.ext_iff.mp hp).1.symm (Prod.ext_iff.mp hp).2.symm

/-- **C34** (no steps).  Asking for zero or a negative number of steps raises `IndexError` instead of returning an empty
trajectory. -/
theorem C34_no_steps (g : MetricFn) (q0 p0 : V4) (tl : Bool) (coords : String) (kw : GeoKw) (hN : kw.steps ≤ 0)
    (ho : kw.order = 2 ∨ kw.order = 4 ∨ kw.order = 6 ∨ kw.order = 8) :
    Raises (calculateTrajectory g q0 p0 tl coords kw) .indexError := by
  have hz : kw.steps.toNat = 0 := by omega
  have hcond : ¬ (kw.order ≠ 2 ∧ kw.order ≠ 4 ∧ kw.order ≠ 6 ∧ kw.order ≠ 8) := by tauto
  unfold Raises calculateTrajectory
  simp only [Integ.new, hcond, if_false, bind, Except.bind, hz, Integ.runN, if_true]
  rfl

/-! ## C67 -/

/-- **C67**.  Over `N` steps a warning is issued for step number `k+1` exactly when warnings are not suppressed and the
norm `g^{ab} p_a p_b` of the recorded state number `k` is outside the tolerance; the recorded states do not depend on
whether warnings are suppressed. -/
theorem C67_warnings (cfg : IntegCfg) (q0 p0 : V4) (tl : Bool) (δ rtol atol : ℝ) (sw : Bool) (N : Nat) (I0 I : Integ)
    (h0 : Integ.new cfg q0 p0 tl δ rtol atol sw = .ok I0) (h : I0.runN N = .ok I) :
    (sw = true → I.warned = []) ∧
    (sw = false → ∀ n, n ∈ I.warned ↔ ∃ k s, n = k + 1 ∧ I.results[k]? = some s ∧ OffShell I s) ∧
    (∀ (sw' : Bool) (J0 J : Integ), Integ.new cfg q0 p0 tl δ rtol atol sw' = .ok J0 → J0.runN N = .ok J →
      J.results = I.results) := by
  have hlen := C34_rows cfg q0 p0 tl δ rtol atol sw N I0 I h0 h
  have h0' := h0
  unfold Integ.new at h0'
  split_ifs at h0'
  have hI := Except.ok.inj h0'
  subst hI
  obtain ⟨f1, f2, f3, f4, f5, f6, l, f7, f8, f9, f10⟩ := runN_spec N _ I h
  simp only [List.nil_append, Nat.zero_add] at f8 f10
  refine ⟨fun hs => by rw [f10, hs]; rfl, fun hs n => ?_, ?_⟩
  · rw [f10, hs, f8]
    have hoff : ∀ s, OffShell I s ↔ OffShell ⟨cfg, δ, tl, rtol, atol, sw, 0, (q0, p0, q0, p0), [], []⟩ s := by
      intro s; unfold OffShell; rw [f1, f3, f4, f5]
    simp only [Bool.false_eq_true, if_false, List.mem_map, List.mem_filter, List.mem_range, decide_eq_true_eq, hoff]
    constructor
    · rintro ⟨k, ⟨-, s, hs, ho⟩, rfl⟩; exact ⟨k, s, rfl, hs, ho⟩
    · rintro ⟨k, s, rfl, hs, ho⟩
      refine ⟨k, ⟨?_, s, hs, ho⟩, rfl⟩
      have := (List.getElem?_eq_some_iff.mp hs).1
      omega
  · intro sw' J0 J hj0 hj
    obtain ⟨b1, -, b3⟩ := C34_rows cfg q0 p0 tl δ rtol atol sw' N J0 J hj0 hj
    apply List.ext_getElem?
    intro k
    by_cases hk : k < N
    · obtain ⟨s, c1, c2⟩ := hlen.2.2 k hk
      obtain ⟨s', d1, d2⟩ := b3 k hk
      rw [c2] at d2
      rw [c1, d1, Except.ok.inj d2]
    · rw [List.getElem?_eq_none (by omega), List.getElem?_eq_none (by omega)]

/-! ## C35, C36 -/

theorem rk4_direction {E : Type*} (f : ℝ → E → E) (t0 : ℝ) (y0 : E) (tb h : ℝ) : (RK4.new f t0 y0 tb h).direction = 0 := by
  unfold RK4.new
  by_cases hb : tb ≥ t0
  · have : ¬ tb < t0 := not_lt.mpr hb
    simp [hb, this]
  · have h2 : tb < t0 := not_le.mp hb
    simp [hb, h2]

theorem rk4_step_t {E : Type*} [AddCommGroup E] [Module ℝ E] (s : RK4 E) (hd : s.direction = 0) :
    s.step.t = s.t + s.stepSize ∧ s.step.direction = 0 ∧ s.step.stepSize = s.stepSize := by
  have : ¬ ((s.t ≥ s.tBound ∧ s.direction = 1) ∨ (s.t ≤ s.tBound ∧ s.direction = -1)) := by
    rw [hd]; simp
  unfold RK4.step
  rw [if_neg this]
  exact ⟨rfl, hd, rfl⟩

/-- **C35** (what the code does).  The bound is never consulted: after `n` steps the time is `t0 + n·h`. -/
theorem C35_time_after_n_steps {E : Type*} [AddCommGroup E] [Module ℝ E] (f : ℝ → E → E) (t0 : ℝ) (y0 : E)
    (tb h : ℝ) (n : Nat) : (RK4.step^[n] (RK4.new f t0 y0 tb h)).t = t0 + n * h := by
  have : ∀ n, (RK4.step^[n] (RK4.new f t0 y0 tb h)).t = t0 + n * h ∧
      (RK4.step^[n] (RK4.new f t0 y0 tb h)).direction = 0 ∧
      (RK4.step^[n] (RK4.new f t0 y0 tb h)).stepSize = h := by
    intro n
    induction n with
    | zero => exact ⟨by simp [RK4.new], rk4_direction f t0 y0 tb h, rfl⟩
    | succ n ih =>
      rw [Function.iterate_succ_apply']
      obtain ⟨a, b, c⟩ := rk4_step_t _ ih.2.1
      refine ⟨?_, b, by rw [c, ih.2.2]⟩
      rw [a, ih.1, ih.2.2]; push_cast; ring
  exact (this n).1

/-- **C35** (refuted).  For every interval, right-hand side and non-zero step size in the direction of the bound the
integrator passes the bound: forwards … -/
theorem C35_refuted {E : Type*} [AddCommGroup E] [Module ℝ E] (f : ℝ → E → E) (t0 : ℝ) (y0 : E) (tb h : ℝ) :
    (t0 ≤ tb → 0 < h → ∃ n, tb < (RK4.step^[n] (RK4.new f t0 y0 tb h)).t) ∧
    (tb ≤ t0 → h < 0 → ∃ n, (RK4.step^[n] (RK4.new f t0 y0 tb h)).t < tb) := by
  constructor
  · intro _ hh
    obtain ⟨n, hn⟩ := exists_nat_gt ((tb - t0) / h)
    refine ⟨n, ?_⟩
    rw [C35_time_after_n_steps]
    rw [div_lt_iff₀ hh] at hn
    linarith
  · intro _ hh
    obtain ⟨n, hn⟩ := exists_nat_gt ((t0 - tb) / (-h))
    refine ⟨n, ?_⟩
    rw [C35_time_after_n_steps]
    rw [div_lt_iff₀ (by linarith)] at hn
    linarith

theorem rk4_step_new {E : Type*} [AddCommGroup E] [Module ℝ E] (f : ℝ → E → E) (t0 : ℝ) (y0 : E) (tb h : ℝ) :
    ((RK4.new f t0 y0 tb h).step).y = y0 + (h / 6) • (f t0 y0 +
      (2 : ℝ) • f (t0 + h / 2) (y0 + (h / 2) • f t0 y0) +
      (2 : ℝ) • f (t0 + h / 2) (y0 + (h / 2) • f (t0 + h / 2) (y0 + (h / 2) • f t0 y0)) +
      f (t0 + h) (y0 + h • f (t0 + h / 2) (y0 + (h / 2) • f (t0 + h / 2) (y0 + (h / 2) • f t0 y0)))) := by
  have hd := rk4_direction f t0 y0 tb h
  have : ¬ (((RK4.new f t0 y0 tb h).t ≥ (RK4.new f t0 y0 tb h).tBound ∧ (RK4.new f t0 y0 tb h).direction = 1) ∨
      ((RK4.new f t0 y0 tb h).t ≤ (RK4.new f t0 y0 tb h).tBound ∧ (RK4.new f t0 y0 tb h).direction = -1)) := by
    rw [hd]; simp
  unfold RK4.step
  rw [if_neg this]
  rfl

/-- **C36** (quadrature).  For `y' = f(t)` with `f` a cubic polynomial the step is exact: it adds the increment of any
antiderivative. -/
theorem C36_cubic_exact (a b c d : ℝ) (F : ℝ → ℝ) (hF : ∀ t, HasDerivAt F (a + b * t + c * t ^ 2 + d * t ^ 3) t)
    (t0 y0 tb h : ℝ) :
    ((RK4.new (fun t _ => a + b * t + c * t ^ 2 + d * t ^ 3) t0 y0 tb h).step).y = y0 + (F (t0 + h) - F t0) := by
  let P : ℝ → ℝ := fun t => a * t + b * t ^ 2 / 2 + c * t ^ 3 / 3 + d * t ^ 4 / 4
  have hP : ∀ t, HasDerivAt P (a + b * t + c * t ^ 2 + d * t ^ 3) t := by
    intro t
    have h1 := (hasDerivAt_id t).const_mul a
    have h2 := ((hasDerivAt_pow 2 t).const_mul b).div_const 2
    have h3 := ((hasDerivAt_pow 3 t).const_mul c).div_const 3
    have h4 := ((hasDerivAt_pow 4 t).const_mul d).div_const 4
    refine HasDerivAt.congr_deriv (((h1.add h2).add h3).add h4) ?_
    push_cast; ring
  have hconst : ∀ x y, F x - P x = F y - P y := by
    have hd : ∀ t, HasDerivAt (fun t => F t - P t) 0 t := fun t =>
      HasDerivAt.congr_deriv ((hF t).sub (hP t)) (sub_self _)
    exact is_const_of_deriv_eq_zero (fun t => (hd t).differentiableAt) (fun t => (hd t).deriv)
  have h1 := hconst (t0 + h) t0
  have h2 : F (t0 + h) - F t0 = P (t0 + h) - P t0 := by linarith
  rw [rk4_step_new, h2]
  simp only [P, smul_eq_mul]
  ring

/-- **C36** (linear equations).  For `y' = A y` with any linear map `A` the step multiplies by the fourth-order Taylor
polynomial of `exp(hA)`. -/
theorem C36_linear {E : Type*} [AddCommGroup E] [Module ℝ E] (A : E →ₗ[ℝ] E) (t0 : ℝ) (y0 : E) (tb h : ℝ) :
    ((RK4.new (fun _ y => A y) t0 y0 tb h).step).y =
      y0 + h • A y0 + (h ^ 2 / 2) • A (A y0) + (h ^ 3 / 6) • A (A (A y0)) + (h ^ 4 / 24) • A (A (A (A y0))) := by
  rw [rk4_step_new]
  simp only [map_add, map_smul]
  module

end Einpy
