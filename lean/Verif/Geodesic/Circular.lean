import Verif.Geodesic.Named
import Verif.Integ.Flat

/-!
# C133: circular orbits are integrated exactly by `Geodesic`

The integrator of `Geodesic` (integrators/fantasy.py) couples two copies of the particle.  On a solution that moves uniformly in the
coordinates the two copies stay together, so the computed trajectory is exact; circular geodesics are such solutions.
-/

namespace Einpy
open Classical Finset
open scoped Topology

/-- The point reached from `q0` after the parameter time `t` with constant coordinate velocity `w`. -/
def onLine (q0 w : V4) (t : ℝ) : V4 := fun i => q0 i + t * w i

/-- Uniform motion: moving along the coordinate line with the constant momentum `p0` solves Hamilton's equations, and the metric function is
differentiable on the line. -/
structure UniformMotion (g : MetricFn) (q0 w p0 : V4) : Prop where
  regular : ∀ (t : ℝ) i j, (g i j).Regular (onLine q0 w t)
  hamilton : ∀ t : ℝ, HamiltonAt g (onLine q0 w) (fun _ => p0) t

section Uniform
variable {g : MetricFn} {q0 w p0 : V4}

theorem slice_update (g : MetricFn) (x : V4) (i a b : Fin 4) :
    slice g x i a b = fun u => (g a b).den (Function.update x i u) := by
  funext u
  unfold slice
  congr 1
  funext k
  simp [Function.update_apply]

theorem uniform_force (hs : ∀ i j (y : V4), (g i j).den y = (g j i).den y) (h : UniformMotion g q0 w p0) (t : ℝ) (i : Fin 4) :
    partHamFlow g (onLine q0 w t) p0 i = .ok 0 := by
  obtain ⟨J, hJ, -, -, h3⟩ := C28_jacobian g (onLine q0 w t) (h.regular t) i
  have h4 := h3 hs
  have e : ∀ a b, J a b = deriv (fun u => (g a b).den (Function.update (onLine q0 w t) i u)) (onLine q0 w t i) := by
    intro a b
    have := (h4 a b).deriv
    rw [slice_update] at this
    exact this.symm
  have z := ((h.hamilton t).dp i).unique (hasDerivAt_const t (p0 i))
  have z' : ∑ a, ∑ b, J a b * p0 a * p0 b = 0 := by
    simp only [e]
    linarith
  unfold partHamFlow
  rw [hJ]
  simp only [bind, Except.bind, pure, Except.pure, dot4, matVec]
  refine congrArg Except.ok ?_
  rw [← z']
  refine sum_congr rfl fun a _ => ?_
  rw [sum_mul]
  exact sum_congr rfl fun b _ => by ring

theorem uniform_metric (h : UniformMotion g q0 w p0) (t : ℝ) :
    evalMetric g (onLine q0 w t) = .ok fun i j => (g i j).den (onLine q0 w t) := by
  unfold evalMetric
  exact seq4_ok.mpr fun i => seq4_ok.mpr fun j => evalNum_regular (h.regular t i j)

theorem uniform_velocity (h : UniformMotion g q0 w p0) (t : ℝ) (i : Fin 4) :
    ∑ j, (g i j).den (onLine q0 w t) * p0 j = w i := by
  refine ((h.hamilton t).dq i).unique ?_
  exact (((hasDerivAt_id t).mul_const (w i)).const_add (q0 i)).congr_deriv (by simp)

theorem uniform_flowA (hs : ∀ i j (y : V4), (g i j).den y = (g j i).den y) (h : UniformMotion g q0 w p0) (t : ℝ) (p1 q2 : V4) (δ : ℝ) :
    flowA g (onLine q0 w t) p1 q2 p0 δ = .ok (fun i => q2 i + δ * w i, p1) := by
  have hd : (seq4 fun i => do return 0.5 * (← partHamFlow g (onLine q0 w t) p0 i)) = .ok fun _ => 0 := by
    refine seq4_ok.mpr fun i => ?_
    rw [uniform_force hs h]; simp [bind, Except.bind, pure, Except.pure]
  rw [flowA_of g _ p1 q2 p0 δ (uniform_metric h t) hd]
  simp only [matVec, uniform_velocity h, mul_zero, sub_zero]

theorem onLine_add (t δ : ℝ) : (fun i => onLine q0 w t i + δ * w i) = onLine q0 w (t + δ) := by
  funext i; unfold onLine; ring

theorem uniform_ord2 {c : IntegCfg} (hs : ∀ i j (y : V4), (c.metric i j).den y = (c.metric j i).den y)
    (h : UniformMotion c.metric q0 w p0) (t δ : ℝ) :
    ord2 c (onLine q0 w t, p0, onLine q0 w t, p0) δ = .ok (onLine q0 w (t + δ), p0, onLine q0 w (t + δ), p0) := by
  rw [ord2_eq]
  unfold subs2
  have hm : ∀ x : V4, flowMixed x p0 x p0 δ c.omega = (x, p0, x, p0) := by
    intro x
    unfold flowMixed
    simp only [sub_self, zero_mul, add_zero, sub_zero, Prod.mk.injEq]
    refine ⟨?_, ?_, ?_, ?_⟩ <;> funext i <;> ring
  simp only [runSubs, runSub, flowB_eq_flowA, uniform_flowA hs h, onLine_add, bind, Except.bind, pure, Except.pure, PS.q1, PS.p1, PS.q2,
    PS.p2, hm]
  have e : t + 0.5 * δ + 0.5 * δ = t + δ := by ring
  rw [e]

theorem uniform_run {c : IntegCfg} (hs : ∀ i j (y : V4), (c.metric i j).den y = (c.metric j i).den y)
    (h : UniformMotion c.metric q0 w p0) (ds : List ℝ) (t : ℝ) :
    runOrd2 c ds (onLine q0 w t, p0, onLine q0 w t, p0) = .ok (onLine q0 w (t + ds.sum), p0, onLine q0 w (t + ds.sum), p0) := by
  induction ds generalizing t with
  | nil => simp [runOrd2]
  | cons d ds ih =>
    simp only [runOrd2, uniform_ord2 hs h, bind, Except.bind]
    rw [ih, List.sum_cons, add_assoc]

theorem uniform_orderStep {c : IntegCfg} (hs : ∀ i j (y : V4), (c.metric i j).den y = (c.metric j i).den y)
    (h : UniformMotion c.metric q0 w p0) (ho : Supported c.order) (t δ : ℝ) :
    orderStep c (onLine q0 w t, p0, onLine q0 w t, p0) δ = .ok (onLine q0 w (t + δ), p0, onLine q0 w (t + δ), p0) := by
  rw [orderStep_weights c ho, uniform_run hs h]
  have e : ((usedWeights c.order).map (δ * ·)).sum = δ := by
    rw [List.sum_map_mul_left, List.map_id', usedWeights_sum c ho, mul_one]
  rw [e]

/-- **C133, integrator.** If uniform motion along a coordinate line solves Hamilton's equations, the integrator — of any order, with any step size,
ω, tolerances and number of steps — never fails and is exact: after `k + 1` steps both copies of the position are q0 + (k+1)·δ·w and both copies
of the momentum p0.  If the start satisfies the mass-shell condition (and the tolerances are not negative) no warning is issued. -/
theorem C133_uniform_exact {c : IntegCfg} (hs : ∀ i j (y : V4), (c.metric i j).den y = (c.metric j i).den y)
    (h : UniformMotion c.metric q0 w p0) (ho : c.order = 2 ∨ c.order = 4 ∨ c.order = 6 ∨ c.order = 8)
    (tl sw : Bool) (δ rtol atol : ℝ) (N : ℕ) :
    ∃ I0 I, Integ.new c q0 p0 tl δ rtol atol sw = .ok I0 ∧ I0.runN N = .ok I ∧ I.results.length = N ∧
      (∀ k < N, ∃ x : V4, (∀ i, x i = q0 i + ((k:ℝ) + 1) * δ * w i) ∧ I.results[k]? = some (x, p0, x, p0)) ∧
      (0 ≤ rtol → 0 ≤ atol → ∑ a, w a * p0 a = (if tl then -1 else 0) → I.warned = []) := by
  have key : ∀ (N : ℕ) (I : Integ) (t : ℝ), I.cfg = c → I.resList = (onLine q0 w t, p0, onLine q0 w t, p0) → ∃ I', I.runN N = .ok I' ∧
      (∃ l : List PS, I'.results = I.results ++ l ∧ l.length = N ∧
        ∀ k < N, ∃ x : V4, (∀ i, x i = q0 i + (t + ((k:ℝ) + 1) * I.delta) * w i) ∧ l[k]? = some (x, p0, x, p0)) ∧
      (0 ≤ I.rtol → 0 ≤ I.atol → ∑ a, w a * p0 a = (if I.timeLike then -1 else 0) → I'.warned = I.warned) := by
    intro N
    induction N with
    | zero =>
      intro I t hc hr
      exact ⟨I, rfl, ⟨[], by simp, rfl, fun k hk => absurd hk (by omega)⟩, fun _ _ _ => rfl⟩
    | succ N ih =>
      intro I t hc hr
      have hstep := uniform_orderStep hs h ho t I.delta
      have hsx : ∃ I1, I.step = .ok I1 := by
        unfold Integ.step
        rw [hc, hr, hstep]
        simp only [bind, Except.bind, pure, Except.pure, PS.q1, uniform_metric h]
        split_ifs <;> exact ⟨_, rfl⟩
      obtain ⟨I1, h1⟩ := hsx
      obtain ⟨s, e0, e1, e2, e3, e4, e5, e6, e7, e8, e9, e10⟩ := step_spec I I1 h1
      rw [hc, hr, hstep] at e0
      have es := (Except.ok.inj e0).symm
      obtain ⟨I', r1, ⟨l, r2, r3, r4⟩, r5⟩ := ih I1 (t + I.delta) (e4.trans hc) (e1.trans es)
      refine ⟨I', ?_, ⟨s :: l, ?_, ?_, ?_⟩, ?_⟩
      · simp only [Integ.runN, h1, bind, Except.bind]; exact r1
      · rw [r2, e2, List.append_assoc]; rfl
      · rw [List.length_cons, r3]
      · intro k hk
        match k with
        | 0 =>
          refine ⟨onLine q0 w (t + I.delta), fun i => by unfold onLine; push_cast; ring, ?_⟩
          rw [es]; rfl
        | k + 1 =>
          obtain ⟨x, x1, x2⟩ := r4 k (by omega)
          refine ⟨x, fun i => ?_, ?_⟩
          · rw [x1, e5]; push_cast; ring
          · rw [List.getElem?_cons_succ]; exact x2
      · intro t1 t2 t3
        rw [r5 (by rw [e7]; exact t1) (by rw [e8]; exact t2) (by rw [e6]; exact t3), e10, if_neg]
        rintro ⟨-, G', hG', hoff⟩
        rw [hc, es] at hG'
        simp only [PS.q1] at hG'
        rw [uniform_metric h] at hG'
        have := Except.ok.inj hG'
        subst this
        rw [es] at hoff
        simp only [PS.p1] at hoff
        have e : ∑ a, ∑ b, (c.metric a b).den (onLine q0 w (t + I.delta)) * p0 a * p0 b = ∑ a, w a * p0 a := by
          refine sum_congr rfl fun a _ => ?_
          rw [← uniform_velocity h (t + I.delta) a, sum_mul]
          exact sum_congr rfl fun b _ => by ring
        rw [e, t3, sub_self, abs_zero] at hoff
        have := mul_nonneg t1 (abs_nonneg (if I.timeLike then (-1:ℝ) else 0))
        linarith
  have e0 : onLine q0 w 0 = q0 := by funext i; unfold onLine; ring
  have hn : Integ.new c q0 p0 tl δ rtol atol sw = .ok ⟨c, δ, tl, rtol, atol, sw, 0, (q0, p0, q0, p0), [], []⟩ := by
    unfold Integ.new
    rw [if_neg]
    rintro ⟨a, b, d, e⟩
    omega
  obtain ⟨I', r1, ⟨l, r2, r3, r4⟩, r5⟩ := key N ⟨c, δ, tl, rtol, atol, sw, 0, (q0, p0, q0, p0), [], []⟩ 0 rfl (by rw [e0])
  refine ⟨_, I', hn, r1, by rw [r2]; simpa using r3, ?_, ?_⟩
  · intro k hk
    obtain ⟨x, x1, x2⟩ := r4 k hk
    exact ⟨x, fun i => by rw [x1]; ring, by rw [r2]; simpa using x2⟩
  · intro t1 t2 t3; exact r5 t1 t2 t3

/-- **C133, trajectory.** The same for the rows of `calculate_trajectory`, polar or Cartesian. -/
theorem C133_uniform_trajectory (hs : ∀ i j (y : V4), (g i j).den y = (g j i).den y)
    (h : UniformMotion g q0 w p0) (tl : Bool) (coords : String) (kw : GeoKw)
    (ho : kw.order = 2 ∨ kw.order = 4 ∨ kw.order = 6 ∨ kw.order = 8) (hN : 0 < kw.steps) :
    ∃ rows, calculateTrajectory g q0 p0 tl coords kw = .ok (List.range kw.steps.toNat, rows) ∧ rows.length = kw.steps.toNat ∧
      ∀ k < kw.steps.toNat, rows[k]? = some (rowOf coords (fun i => q0 i + ((k:ℝ) + 1) * kw.delta * w i) p0) := by
  obtain ⟨I0, I, h1, h2, h3, h4, -⟩ := C133_uniform_exact (c := ⟨g, kw.omega, kw.order⟩) hs h ho tl kw.suppressWarnings kw.delta
    kw.rtol kw.atol kw.steps.toNat
  have hne : I.results ≠ [] := by
    intro h0; rw [h0] at h3; simp at h3; omega
  refine ⟨I.results.map (fun s => rowOf coords s.q1 s.p1), ?_, by rw [List.length_map, h3], ?_⟩
  · unfold calculateTrajectory
    simp only [h1, h2, bind, Except.bind, pure, Except.pure]
    rw [if_neg hne]
    unfold rowOf
    split_ifs <;> rfl
  · intro k hk
    obtain ⟨x, x1, x2⟩ := h4 k hk
    rw [List.getElem?_map, x2]
    have : x = fun i => q0 i + ((k:ℝ) + 1) * kw.delta * w i := funext x1
    rw [← this]; rfl

end Uniform

/-! ## circular orbits of the named space-times -/

/-- Position on the circle of radius `r` at the polar angle `th`, at coordinate time 0. -/
def circPos (r th ph : ℝ) : V4 := ![0, r, th, ph]

/-- Velocity along the circle: `dt/dλ = ut`, `dφ/dλ = w`. -/
def circDir (ut w : ℝ) : V4 := ![ut, 0, 0, w]

theorem circ_r (r th ph ut w t : ℝ) : onLine (circPos r th ph) (circDir ut w) t 1 = r := by simp [onLine, circPos, circDir]
theorem circ_th (r th ph ut w t : ℝ) : onLine (circPos r th ph) (circDir ut w) t 2 = th := by simp [onLine, circPos, circDir]

/-- partial derivatives of the metric on the equator -/
theorem eq_partial_r (a Q : ℝ) (x : V4) (hr : x 1 ≠ 0) (hth : x 2 = Real.pi / 2) :
    partialAt (blCov a Q 0 0) x 1 = -(2 * (x 1 - Q ^ 2) / x 1 ^ 3) ∧
    partialAt (blCov a Q 0 3) x 1 = a * (2 * (x 1 - Q ^ 2) / x 1 ^ 3) ∧
    partialAt (blCov a Q 3 0) x 1 = a * (2 * (x 1 - Q ^ 2) / x 1 ^ 3) ∧
    partialAt (blCov a Q 3 3) x 1 = 2 * x 1 - a ^ 2 * (2 * (x 1 - Q ^ 2) / x 1 ^ 3) := by
  have hF : HasDerivAt (fun u : ℝ => (2 * u - Q ^ 2) / u ^ 2) (-(2 * (x 1 - Q ^ 2) / x 1 ^ 3)) (x 1) := by
    have h1 : HasDerivAt (fun u : ℝ => 2 * u - Q ^ 2) 2 (x 1) := by
      simpa using ((hasDerivAt_id (x 1)).const_mul 2).sub_const (Q ^ 2)
    have h2 : HasDerivAt (fun u : ℝ => u ^ 2) (2 * x 1) (x 1) := by simpa using hasDerivAt_pow 2 (x 1)
    refine (h1.div h2 (pow_ne_zero 2 hr)).congr_deriv ?_
    field_simp
    ring
  have e00 : (fun u => blCov a Q 0 0 (Function.update x 1 u)) = fun u => -(1 - (2 * u - Q ^ 2) / u ^ 2) := by
    funext u; simp [blCov, knCov, hth]
  have e03 : (fun u => blCov a Q 0 3 (Function.update x 1 u)) = fun u => -((2 * u - Q ^ 2) / u ^ 2 * a) := by
    funext u; simp [blCov, knCov, hth]
  have e30 : (fun u => blCov a Q 3 0 (Function.update x 1 u)) = fun u => -((2 * u - Q ^ 2) / u ^ 2 * a) := by
    funext u; simp [blCov, knCov, hth]
  have e33 : (fun u => blCov a Q 3 3 (Function.update x 1 u)) = fun u => u ^ 2 + a ^ 2 + (2 * u - Q ^ 2) / u ^ 2 * a ^ 2 := by
    funext u; simp [blCov, knCov, hth]
  unfold partialAt
  rw [e00, e03, e30, e33]
  refine ⟨?_, ?_, ?_, ?_⟩
  · exact ((hF.const_sub 1).neg.congr_deriv (by ring)).deriv
  · exact ((hF.mul_const a).neg.congr_deriv (by ring)).deriv
  · exact ((hF.mul_const a).neg.congr_deriv (by ring)).deriv
  · have h2 : HasDerivAt (fun u : ℝ => u ^ 2) (2 * x 1) (x 1) := by simpa using hasDerivAt_pow 2 (x 1)
    exact (((h2.add_const (a ^ 2)).add (hF.mul_const (a ^ 2))).congr_deriv (by ring)).deriv

theorem eq_partial_th (a Q : ℝ) (x : V4) (hr : x 1 ≠ 0) (hth : x 2 = Real.pi / 2) :
    partialAt (blCov a Q 0 0) x 2 = 0 ∧ partialAt (blCov a Q 0 3) x 2 = 0 ∧
    partialAt (blCov a Q 3 0) x 2 = 0 ∧ partialAt (blCov a Q 3 3) x 2 = 0 := by
  have hc : HasDerivAt (fun u : ℝ => Real.cos u ^ 2) 0 (x 2) := by
    refine ((Real.hasDerivAt_cos (x 2)).pow 2).congr_deriv ?_
    rw [hth]; simp
  have hs : HasDerivAt (fun u : ℝ => Real.sin u ^ 2) 0 (x 2) := by
    refine ((Real.hasDerivAt_sin (x 2)).pow 2).congr_deriv ?_
    rw [hth]; simp
  have hS0 : x 1 ^ 2 + a ^ 2 * Real.cos (x 2) ^ 2 ≠ 0 := by rw [hth]; simpa using hr
  have hF : HasDerivAt (fun u : ℝ => (2 * x 1 - Q ^ 2) / (x 1 ^ 2 + a ^ 2 * Real.cos u ^ 2)) 0 (x 2) := by
    have h2 : HasDerivAt (fun u : ℝ => x 1 ^ 2 + a ^ 2 * Real.cos u ^ 2) 0 (x 2) := by
      simpa using (hc.const_mul (a ^ 2)).const_add (x 1 ^ 2)
    refine ((hasDerivAt_const (x 2) (2 * x 1 - Q ^ 2)).div h2 hS0).congr_deriv ?_
    simp
  have u1 : ∀ u, Function.update x 2 u 1 = x 1 := fun u => by simp
  have u2 : ∀ u, Function.update x 2 u 2 = u := fun u => by simp
  unfold partialAt blCov
  simp only [u1, u2]
  refine ⟨?_, ?_, ?_, ?_⟩
  · exact ((hF.const_sub 1).neg.congr_deriv (by ring)).deriv
  · exact (((hF.mul_const a).mul hs).neg.congr_deriv (by ring)).deriv
  · exact (((hF.mul_const a).mul hs).neg.congr_deriv (by ring)).deriv
  · exact ((((hF.mul_const (a ^ 2)).mul hs).const_add (x 1 ^ 2 + a ^ 2)).mul hs |>.congr_deriv (by ring)).deriv

/-- **C133, Kepler.** In the equatorial plane the circle of radius `r` with `dt/dλ = ut`, `dφ/dλ = w` is a geodesic of the Kerr–Newman line element
exactly if (r - Q²)(ut - a w)² = r⁴ w². -/
theorem C133_kepler {a Q r : ℝ} (hr : r ≠ 0) (hD : r ^ 2 - 2 * r + a ^ 2 + Q ^ 2 ≠ 0) (ph ut w : ℝ) :
    (∀ t, IsGeodesicAt (blCov a Q) (onLine (circPos r (Real.pi / 2) ph) (circDir ut w)) (fun _ => circDir ut w) t) ↔
      (r - Q ^ 2) * (ut - a * w) ^ 2 = r ^ 4 * w ^ 2 := by
  have hx1 := circ_r r (Real.pi / 2) ph ut w
  have hx2 := circ_th r (Real.pi / 2) ph ut w
  have hE : ∀ t, Exterior a Q (onLine (circPos r (Real.pi / 2) ph) (circDir ut w) t) := by
    intro t
    refine ⟨?_, ?_, ?_⟩
    · rw [hx1, hx2]; simpa using hr
    · rw [hx1]; exact hD
    · rw [hx2]; simp
  have v0 : circDir ut w 0 = ut := rfl
  have v1 : circDir ut w 1 = 0 := rfl
  have v2 : circDir ut w 2 = 0 := rfl
  have v3 : circDir ut w 3 = w := rfl
  have acc : ∀ t i, -∑ j, ∑ k, christoffelOf (blCov a Q) (onLine (circPos r (Real.pi / 2) ph) (circDir ut w) t) i j k * circDir ut w j *
      circDir ut w k = if i = 1 then (r ^ 2 - 2 * r + a ^ 2 + Q ^ 2) / r ^ 5 * (r ^ 4 * w ^ 2 - (r - Q ^ 2) * (ut - a * w) ^ 2) else 0 := by
    intro t i
    generalize hx : onLine (circPos r (Real.pi / 2) ph) (circDir ut w) t = x
    have hx1' : x 1 = r := by rw [← hx]; exact hx1 t
    have hx2' : x 2 = Real.pi / 2 := by rw [← hx]; exact hx2 t
    have s0 := fun i j => blCov_stationary a Q i j 0 (Or.inl rfl) x
    have s3 := fun i j => blCov_stationary a Q i j 3 (Or.inr rfl) x
    obtain ⟨a00, a03, a30, a33⟩ := eq_partial_r a Q x (by rw [hx1']; exact hr) hx2'
    obtain ⟨b00, b03, b30, b33⟩ := eq_partial_th a Q x (by rw [hx1']; exact hr) hx2'
    have hI := knCov_inv a Q x (hx ▸ hE t)
    simp only [christoffelOf, hI, Fin.sum_univ_four, v0, v1, v2, v3, s0, s3, a00, a03, a30, a33, b00, b03, b30, b33, hx1', hx2']
    fin_cases i
    · simp [knContra]
    · simp [knContra]
      field_simp
      ring
    · simp [knContra]
    · simp [knContra]
  constructor
  · intro h
    have h1 := ((h 0).accel 1).unique (hasDerivAt_const 0 (circDir ut w 1))
    rw [acc, if_pos rfl] at h1
    have h2 := (mul_eq_zero.mp h1).resolve_left (div_ne_zero hD (pow_ne_zero 5 hr))
    linarith
  · intro h t
    refine ⟨fun i => ?_, fun i => ?_⟩
    · exact (((hasDerivAt_id t).mul_const (circDir ut w i)).const_add (circPos r (Real.pi / 2) ph i)).congr_deriv (by simp)
    · refine (hasDerivAt_const t (circDir ut w i)).congr_deriv ?_
      rw [acc]
      split_ifs
      · rw [h]; ring
      · rfl


/-- The metric function behind a name moves uniformly along every circle that is a geodesic. -/
theorem named_uniform {s : String} {ps : List ℝ} {a Q : ℝ} (hn : NamedMetric s ps a Q) {r th ph ut w : ℝ}
    (hext : Exterior a Q (circPos r th ph))
    (hgeo : ∀ t, IsGeodesicAt (blCov a Q) (onLine (circPos r th ph) (circDir ut w)) (fun _ => circDir ut w) t) (tl : Bool)
    (hnorm : ∑ i, ∑ j, blCov a Q i j (circPos r th ph) * circDir ut w i * circDir ut w j = if tl then -1 else 0)
    (hfut : 0 ≤ ut) (htt : knContra a Q r th 0 0 ≠ 0) :
    ∃ g : MetricFn, (∀ x p tl rc kw P st rows, fourMomentum g ![0, x 0, x 1, x 2] p tl = .ok P →
        calculateTrajectory g ![0, x 0, x 1, x 2] P tl (if rc then "Cartesian" else "Spherical Polar") kw = .ok (st, rows) →
        ∃ o, Geodesic.new (.str s) (some ps) x p tl rc kw = .ok o ∧ o.momentum = P ∧ o.rows = rows) ∧
      (∀ i j (y : V4), (g i j).den y = (g j i).den y) ∧
      UniformMotion g (circPos r th ph) (circDir ut w) (fun i => ∑ j, blCov a Q i j (circPos r th ph) * circDir ut w j) ∧
      fourMomentum g (circPos r th ph) (fun i => ∑ j, blCov a Q i.succ j (circPos r th ph) * circDir ut w j) tl =
        .ok (fun i => ∑ j, blCov a Q i j (circPos r th ph) * circDir ut w j) := by
  obtain ⟨g, hnew, hsm, hden, hsym⟩ := named_fn hn
  have hx1 := circ_r r th ph ut w
  have hx2 := circ_th r th ph ut w
  have hE : ∀ t, Exterior a Q (onLine (circPos r th ph) (circDir ut w) t) := by
    intro t
    obtain ⟨h1, h2, h3⟩ := hext
    exact ⟨by rw [hx1, hx2]; exact h1, by rw [hx1]; exact h2, by rw [hx2]; exact h3⟩
  have hinvm : ∀ y, Exterior a Q y → knContra a Q (y 1) (y 2) * knCov a Q (y 1) (y 2) = 1 := fun y hy =>
    knContra_inverse a Q _ _ hy.1 hy.2.1 hy.2.2
  have hdij : ∀ y, Exterior a Q y → ∀ i j, (g i j).den y = knContra a Q (y 1) (y 2) i j := fun y hy i j =>
    congrFun (congrFun (hden y hy) i) j
  have hcsym : ∀ (y : V4) i j, blCov a Q i j y = blCov a Q j i y := by
    intro y i j; fin_cases i <;> fin_cases j <;> rfl
  have hI : ∀ y, Exterior a Q y → InverseOf g (blCov a Q) y := by
    intro y hy
    refine ⟨hsm y hy, blCov_diff a Q y hy, fun i j => Filter.Eventually.of_forall fun z => hcsym z i j, fun i k => ?_⟩
    filter_upwards [exterior_open a Q y hy] with z hz
    have e := congrFun (congrFun (hinvm z hz) i) k
    rw [Matrix.mul_apply, Matrix.one_apply] at e
    rw [← e]
    exact sum_congr rfl fun b _ => by rw [hdij z hz]; rfl
  have hG : ∀ u, GeodesicAt g (blCov a Q) (onLine (circPos r th ph) (circDir ut w)) (fun _ => circDir ut w) u := by
    intro u
    refine ⟨(hgeo u).velocity, fun i => ((hgeo u).accel i).congr_deriv ?_⟩
    have e : ∀ i j k, christoffelOf (blCov a Q) (onLine (circPos r th ph) (circDir ut w) u) i j k =
        gammaAt g (blCov a Q) (onLine (circPos r th ph) (circDir ut w) u) i j k := by
      intro i j k
      unfold christoffelOf gammaAt
      rw [knCov_inv a Q _ (hE u)]
      simp only [hdij _ (hE u)]
    simp only [e]
  have hconst : ∀ u, (fun i => ∑ j, blCov a Q i j (onLine (circPos r th ph) (circDir ut w) u) * circDir ut w j) =
      fun i => ∑ j, blCov a Q i j (circPos r th ph) * circDir ut w j := by
    intro u
    funext i
    refine sum_congr rfl fun j _ => ?_
    unfold blCov
    rw [hx1, hx2]
    rfl
  refine ⟨g, hnew, hsym, ⟨fun t i j => (hsm _ (hE t) i j).regular, fun t => ?_⟩, ?_⟩
  · have := geodesic_hamilton hsym (hI _ (hE t)) (hG t)
    have e : (fun t a_1 => ∑ b, blCov a Q a_1 b (onLine (circPos r th ph) (circDir ut w) t) * circDir ut w b) =
        fun (_ : ℝ) i => ∑ j, blCov a Q i j (circPos r th ph) * circDir ut w j := funext fun u => hconst u
    rw [e] at this
    exact this
  · have hev : evalMetric g (circPos r th ph) = .ok (knContra a Q r th) := by
      have := hden _ hext
      rw [show circPos r th ph 1 = r from rfl, show circPos r th ph 2 = th from rfl] at this
      rw [← this]
      exact evalMetric_regular fun i j => (hsm _ hext i j).regular
    have hup : ∀ i, ∑ b, knContra a Q r th i b * ∑ j, blCov a Q b j (circPos r th ph) * circDir ut w j = circDir ut w i := by
      intro i
      have := congrFun (congrArg (fun M : Matrix (Fin 4) (Fin 4) ℝ => M.mulVec (circDir ut w)) (hinvm _ hext)) i
      simp only [← Matrix.mulVec_mulVec, Matrix.one_mulVec] at this
      exact this
    refine fourMomentum_of hev (knContra_shape _ _ _ _) htt (fun i => ∑ j, blCov a Q i j (circPos r th ph) * circDir ut w j) tl ?_ ?_
    · rw [← hnorm]
      refine sum_congr rfl fun i _ => ?_
      have e : ∀ b, knContra a Q r th i b * (∑ j, blCov a Q i j (circPos r th ph) * circDir ut w j) *
          (∑ j, blCov a Q b j (circPos r th ph) * circDir ut w j) =
          (∑ j, blCov a Q i j (circPos r th ph) * circDir ut w j) *
            (knContra a Q r th i b * ∑ j, blCov a Q b j (circPos r th ph) * circDir ut w j) :=
        fun b => by ring
      simp only [e]
      rw [← mul_sum, hup, sum_mul]
      exact sum_congr rfl fun j _ => by ring
    · rw [hup]; exact hfut

/-- the angular momentum per mass of the circular motion `(ut, w)` at radius `r` on the equator -/
noncomputable def circL (a Q r ut w : ℝ) : ℝ :=
  -(a * (2 * r - Q ^ 2) / r ^ 2) * ut + (r ^ 2 + a ^ 2 + a ^ 2 * (2 * r - Q ^ 2) / r ^ 2) * w

/-- the energy per mass -/
noncomputable def circE (a Q r ut w : ℝ) : ℝ := (1 - (2 * r - Q ^ 2) / r ^ 2) * ut + a * (2 * r - Q ^ 2) / r ^ 2 * w

/-- **C133.** A circular orbit given to `Geodesic` is followed exactly.  For the three named space-times, `r` off the horizons and a future directed
motion `(ut, w)` that satisfies Kepler's law and is time-like with unit speed (`tl`) or null, the object built from the position (r, π/2, φ) and
the momentum (0, 0, L) stores p_t = -E, and row `k` is the exact position and momentum at parameter (k+1)·delta, for every order, step size,
ω, tolerance and number of steps. -/
theorem C133_circular (s : String) (ps : List ℝ) (a Q : ℝ) (hn : NamedMetric s ps a Q) {r : ℝ} (hr : 0 < r)
    (hD : r ^ 2 - 2 * r + a ^ 2 + Q ^ 2 ≠ 0) (ph ut w : ℝ) (tl rc : Bool) (hut : 0 < ut)
    (hkep : (r - Q ^ 2) * (ut - a * w) ^ 2 = r ^ 4 * w ^ 2)
    (hnorm : -circE a Q r ut w * ut + circL a Q r ut w * w = if tl then -1 else 0)
    (kw : GeoKw) (ho : kw.order = 2 ∨ kw.order = 4 ∨ kw.order = 6 ∨ kw.order = 8) (hN : 0 < kw.steps) :
    ∃ o, Geodesic.new (.str s) (some ps) ![r, Real.pi / 2, ph] ![0, 0, circL a Q r ut w] tl rc kw = .ok o ∧
      o.momentum = ![-circE a Q r ut w, 0, 0, circL a Q r ut w] ∧ o.rows.length = kw.steps.toNat ∧
      ∀ k < kw.steps.toNat, o.rows[k]? = some (
        let lam := ((k:ℝ) + 1) * kw.delta
        if rc then [lam * ut, r * Real.cos (ph + lam * w), r * Real.sin (ph + lam * w), 0, -circE a Q r ut w, 0, 0, circL a Q r ut w]
        else [lam * ut, r, Real.pi / 2, ph + lam * w, -circE a Q r ut w, 0, 0, circL a Q r ut w]) := by
  have hr0 : r ≠ 0 := hr.ne'
  have hext : Exterior a Q (circPos r (Real.pi / 2) ph) := by
    refine ⟨?_, ?_, ?_⟩
    · show r ^ 2 + a ^ 2 * Real.cos (Real.pi / 2) ^ 2 ≠ 0
      simpa using hr0
    · exact hD
    · show Real.sin (Real.pi / 2) ≠ 0
      simp
  have hP : (fun i => ∑ j, blCov a Q i j (circPos r (Real.pi / 2) ph) * circDir ut w j) =
      ![-circE a Q r ut w, 0, 0, circL a Q r ut w] := by
    funext i
    fin_cases i <;> simp [Fin.sum_univ_four, blCov, knCov, circPos, circDir, circE, circL] <;> ring
  have hnorm' : ∑ i, ∑ j, blCov a Q i j (circPos r (Real.pi / 2) ph) * circDir ut w i * circDir ut w j = if tl then -1 else 0 := by
    rw [← hnorm]
    have : ∀ i, ∑ j, blCov a Q i j (circPos r (Real.pi / 2) ph) * circDir ut w i * circDir ut w j =
        circDir ut w i * (![-circE a Q r ut w, 0, 0, circL a Q r ut w] : V4) i := by
      intro i
      rw [← hP, mul_sum]
      exact sum_congr rfl fun j _ => by ring
    simp only [this]
    simp [Fin.sum_univ_four, circDir]
    ring
  have hrQ : 0 ≤ r - Q ^ 2 := by
    by_contra hneg
    push Not at hneg
    have h1 : 0 ≤ r ^ 4 * w ^ 2 := by positivity
    have h2 : (ut - a * w) ^ 2 = 0 := by
      by_contra h3
      have : 0 < (ut - a * w) ^ 2 := lt_of_le_of_ne (sq_nonneg _) (Ne.symm h3)
      nlinarith
    rw [h2, mul_zero] at hkep
    have h4 : w ^ 2 = 0 := (mul_eq_zero.mp hkep.symm).resolve_left (pow_ne_zero 4 hr0)
    have hw : w = 0 := by simpa using h4
    rw [hw] at h2
    have : ut = 0 := by simpa using h2
    exact hut.ne' this
  have htt : knContra a Q r (Real.pi / 2) 0 0 ≠ 0 := by
    have : knContra a Q r (Real.pi / 2) 0 0 = -(((r ^ 2 + a ^ 2) ^ 2 - a ^ 2 * (r ^ 2 - 2 * r + a ^ 2 + Q ^ 2)) /
        (r ^ 2 * (r ^ 2 - 2 * r + a ^ 2 + Q ^ 2))) := by
      simp [knContra]
    rw [this]
    refine neg_ne_zero.mpr (div_ne_zero ?_ (mul_ne_zero (pow_ne_zero 2 hr0) hD))
    have : 0 < (r ^ 2 + a ^ 2) ^ 2 - a ^ 2 * (r ^ 2 - 2 * r + a ^ 2 + Q ^ 2) := by
      have e : (r ^ 2 + a ^ 2) ^ 2 - a ^ 2 * (r ^ 2 - 2 * r + a ^ 2 + Q ^ 2) = r ^ 4 + a ^ 2 * r ^ 2 + a ^ 2 * r + a ^ 2 * (r - Q ^ 2) := by
        ring
      rw [e]
      have := mul_nonneg (sq_nonneg a) hrQ
      positivity
    exact this.ne'
  obtain ⟨g, hnew, hsym, hU, hF⟩ := named_uniform hn hext ((C133_kepler hr0 hD ph ut w).mpr hkep) tl hnorm' hut.le htt
  rw [hP] at hU hF
  obtain ⟨rows, h1, h2, h3⟩ := C133_uniform_trajectory hsym hU tl (if rc then "Cartesian" else "Spherical Polar") kw ho hN
  have hF' : fourMomentum g (circPos r (Real.pi / 2) ph) ![0, 0, circL a Q r ut w] tl = .ok ![-circE a Q r ut w, 0, 0, circL a Q r ut w] := by
    rw [← hF]
    congr 1
    funext i
    refine Eq.trans ?_ (congrFun hP i.succ).symm
    fin_cases i <;> rfl
  obtain ⟨o, o1, o2, o3⟩ := hnew ![r, Real.pi / 2, ph] ![0, 0, circL a Q r ut w] tl rc kw _ _ rows hF' h1
  refine ⟨o, o1, o2, by rw [o3]; exact h2, fun k hk => ?_⟩
  rw [o3, h3 k hk]
  refine congrArg some ?_
  cases rc <;> simp [rowOf, circPos, circDir]

/-- **C133, the orbits exist.**  With `W = ±√(r - Q²)` (prograde, retrograde) and `X = r² - 3r + 2Q² + 2aW`: for `X > 0` the motion with
`dt/dτ = (r² + aW)/(r√X)`, `dφ/dτ = W/(r√X)` meets the conditions of `C133_circular` for time-like orbits, for `X = 0` (the photon sphere)
every motion with `dt/dλ = l(r² + aW)`, `dφ/dλ = lW` those for null orbits.  In both cases `dφ/dt = W/(r² + aW)`, Kepler's third law. -/
theorem C133_orbits {a Q r W X : ℝ} (hr : 0 < r) (hW : W ^ 2 = r - Q ^ 2) (hX : X = r ^ 2 - 3 * r + 2 * Q ^ 2 + 2 * a * W)
    (hp : 0 < r ^ 2 + a * W) :
    (0 < X → ∃ ut w, 0 < ut ∧ w * (r ^ 2 + a * W) = W * ut ∧ (r - Q ^ 2) * (ut - a * w) ^ 2 = r ^ 4 * w ^ 2 ∧
      -circE a Q r ut w * ut + circL a Q r ut w * w = -1) ∧
    (X = 0 → ∀ l, 0 < l → ∃ ut w, ut = l * (r ^ 2 + a * W) ∧ 0 < ut ∧ w * (r ^ 2 + a * W) = W * ut ∧
      (r - Q ^ 2) * (ut - a * w) ^ 2 = r ^ 4 * w ^ 2 ∧ -circE a Q r ut w * ut + circL a Q r ut w * w = 0) := by
  have hr0 := hr.ne'
  have nrm : ∀ l, -circE a Q r (l * (r ^ 2 + a * W)) (l * W) * (l * (r ^ 2 + a * W)) + circL a Q r (l * (r ^ 2 + a * W)) (l * W) * (l * W) =
      -(l ^ 2 * r ^ 2 * X) := by
    intro l
    unfold circE circL
    field_simp
    rw [hX]
    linear_combination (l ^ 2 * r ^ 4 : ℝ) * hW
  have kep : ∀ l, (r - Q ^ 2) * (l * (r ^ 2 + a * W) - a * (l * W)) ^ 2 = r ^ 4 * (l * W) ^ 2 := by
    intro l
    rw [← hW]; ring
  constructor
  · intro h
    have hs : 0 < Real.sqrt X := Real.sqrt_pos.mpr h
    refine ⟨1 / (r * Real.sqrt X) * (r ^ 2 + a * W), 1 / (r * Real.sqrt X) * W, by positivity, by ring, kep _, ?_⟩
    rw [nrm]
    have : Real.sqrt X ^ 2 = X := Real.sq_sqrt h.le
    field_simp
    rw [this]
  · intro h l hl
    exact ⟨l * (r ^ 2 + a * W), l * W, rfl, by positivity, by ring, kep _, by rw [nrm, h]; ring⟩

/-- A concrete instance: `Geodesic("Schwarzschild", (), [4, π/2, 0], [0, 0, 4])` is the circular orbit of radius 4. -/
example (kw : GeoKw) (ho : kw.order = 2) (hN : kw.steps = 50) :
    ∃ o, Geodesic.new (.str "Schwarzschild") (some []) ![4, Real.pi / 2, 0] ![0, 0, 4] true false kw = .ok o ∧
      o.rows[49]? = some [100 * kw.delta, 4, Real.pi / 2, 25 / 2 * kw.delta, -1, 0, 0, 4] := by
  have eE : circE 0 0 4 2 (1 / 4) = 1 := by norm_num [circE]
  have eL : circL 0 0 4 2 (1 / 4) = 4 := by norm_num [circL]
  obtain ⟨o, h1, -, -, h2⟩ := C133_circular "Schwarzschild" [] 0 0 (.schwarzschild []) (r := 4) (by norm_num) (by norm_num) 0 2 (1 / 4) true
    false (by norm_num) (by norm_num) (by norm_num [eE, eL]) kw (Or.inl ho) (by rw [hN]; norm_num)
  rw [eL] at h1
  refine ⟨o, h1, ?_⟩
  have := h2 49 (by rw [hN]; norm_num)
  rw [this, eE, eL]
  simp
  constructor <;> ring

/-- The photon sphere `r = 3` of the Schwarzschild space-time. -/
example : ∃ ut w, 0 < ut ∧ w ≠ 0 ∧ ((3:ℝ) - 0 ^ 2) * (ut - 0 * w) ^ 2 = 3 ^ 4 * w ^ 2 ∧ -circE 0 0 3 ut w * ut + circL 0 0 3 ut w * w = 0 := by
  obtain ⟨ut, w, -, h1, h2, h3, h4⟩ := (C133_orbits (a := 0) (Q := 0) (r := 3) (W := Real.sqrt 3) (X := 0) (by norm_num) (by norm_num)
    (by norm_num) (by norm_num)).2 rfl 1 one_pos
  refine ⟨ut, w, h1, ?_, h3, h4⟩
  rintro rfl
  have : Real.sqrt 3 * ut = 0 := by linarith
  have h5 : 0 < Real.sqrt 3 * ut := mul_pos (Real.sqrt_pos.mpr (by norm_num)) h1
  linarith

end Einpy
