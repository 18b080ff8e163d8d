import Verif.Integ.Order

/-!
# C120: exact straight lines in a constant metric
-/

namespace Einpy
open Classical

/-- The metric function is regular everywhere and has the same value `G` at every point. -/
def ConstMetric (g : MetricFn) (G : Fin 4 → Fin 4 → ℝ) : Prop :=
  ∀ (y : V4) (i j : Fin 4), (g i j).Regular y ∧ (g i j).den y = G i j

theorem const_force {g : MetricFn} {G : Fin 4 → Fin 4 → ℝ} (h : ConstMetric g G) (q p : V4) (i : Fin 4) :
    partHamFlow g q p i = .ok 0 := by
  obtain ⟨J, hJ, h1, h2, -⟩ := C28_jacobian g q (fun i j => (h q i j).1) i
  have h0 : ∀ a b, a ≤ b → J a b = 0 := by
    intro a b hab
    have h3 := h2 a b hab
    have e : slice g q i a b = fun _ => G a b := by
      funext u; exact (h _ a b).2
    rw [e] at h3
    exact h3.unique (hasDerivAt_const _ _)
  have h0' : ∀ a b, J a b = 0 := by
    intro a b
    rcases le_total a b with hab | hab
    · exact h0 a b hab
    · rw [h1]; exact h0 b a hab
  unfold partHamFlow
  rw [hJ]
  simp [bind, Except.bind, pure, Except.pure, dot4, matVec, h0']

theorem const_flowA {g : MetricFn} {G : Fin 4 → Fin 4 → ℝ} (h : ConstMetric g G) (q1 p1 q2 p2 : V4) (δ : ℝ) :
    flowA g q1 p1 q2 p2 δ = .ok (fun i => q2 i + δ * ∑ j, G i j * p2 j, p1) := by
  have hG : evalMetric g q1 = .ok G := by
    rw [show G = fun i j => (g i j).den q1 by funext i j; exact ((h q1 i j).2).symm]
    unfold evalMetric
    exact seq4_ok.mpr fun i => seq4_ok.mpr fun j => evalNum_regular (h q1 i j).1
  have hd : (seq4 fun i => do return 0.5 * (← partHamFlow g q1 p2 i)) = .ok fun _ => 0 := by
    refine seq4_ok.mpr fun i => ?_
    rw [const_force h]; simp [bind, Except.bind, pure, Except.pure]
  rw [flowA_of g q1 p1 q2 p2 δ hG hd]
  simp [matVec]

theorem const_ord2 {c : IntegCfg} {G : Fin 4 → Fin 4 → ℝ} (h : ConstMetric c.metric G) (q p : V4) (δ : ℝ) :
    ord2 c (q, p, q, p) δ =
      .ok (fun i => q i + δ * ∑ j, G i j * p j, p, fun i => q i + δ * ∑ j, G i j * p j, p) := by
  rw [ord2_eq]
  unfold subs2
  simp only [runSubs, runSub, flowB_eq_flowA, const_flowA h, bind, Except.bind, pure, Except.pure, PS.q1, PS.p1, PS.q2, PS.p2]
  have hm : ∀ x : V4, flowMixed x p x p δ c.omega = (x, p, x, p) := by
    intro x
    unfold flowMixed
    simp only [sub_self, zero_mul, add_zero, sub_zero, Prod.mk.injEq]
    refine ⟨?_, ?_, ?_, ?_⟩ <;> funext i <;> ring
  rw [hm]
  have e : ∀ i, q i + 0.5 * δ * ∑ j, G i j * p j + 0.5 * δ * ∑ j, G i j * p j = q i + δ * ∑ j, G i j * p j := by
    intro i; ring
  simp only [e]

theorem const_run {c : IntegCfg} {G : Fin 4 → Fin 4 → ℝ} (h : ConstMetric c.metric G) (p : V4) (ds : List ℝ) (q : V4) :
    runOrd2 c ds (q, p, q, p) =
      .ok (fun i => q i + ds.sum * ∑ j, G i j * p j, p, fun i => q i + ds.sum * ∑ j, G i j * p j, p) := by
  induction ds generalizing q with
  | nil => simp [runOrd2]
  | cons d ds ih =>
    simp only [runOrd2, const_ord2 h, bind, Except.bind]
    rw [ih]
    have e : ∀ i, q i + d * ∑ j, G i j * p j + ds.sum * ∑ j, G i j * p j = q i + (d :: ds).sum * ∑ j, G i j * p j := by
      intro i; rw [List.sum_cons]; ring
    simp only [e]

/-- **C120, one step.** -/
theorem const_orderStep {c : IntegCfg} {G : Fin 4 → Fin 4 → ℝ} (h : ConstMetric c.metric G) (ho : Supported c.order) (q p : V4) (δ : ℝ) :
    orderStep c (q, p, q, p) δ =
      .ok (fun i => q i + δ * ∑ j, G i j * p j, p, fun i => q i + δ * ∑ j, G i j * p j, p) := by
  rw [orderStep_weights c ho, const_run h]
  have e : ((usedWeights c.order).map (δ * ·)).sum = δ := by
    rw [List.sum_map_mul_left, List.map_id', usedWeights_sum c ho, mul_one]
  rw [e]

/-- **C120.** In a space-time whose contravariant metric is the same matrix `G` everywhere, the integrator — of any order, with
any step size, ω, tolerances and number of steps — never fails and is exact: after `k + 1` steps both copies of the
position are q0 + (k+1)·δ·(G p0) and both copies of the momentum p0.  If the start satisfies the mass-shell condition
(and the tolerances are not negative) no warning is issued. -/
theorem C120_flat_exact {c : IntegCfg} {G : Fin 4 → Fin 4 → ℝ} (h : ConstMetric c.metric G)
    (ho : c.order = 2 ∨ c.order = 4 ∨ c.order = 6 ∨ c.order = 8) (q0 p0 : V4) (tl sw : Bool) (δ rtol atol : ℝ) (N : ℕ) :
    ∃ I0 I, Integ.new c q0 p0 tl δ rtol atol sw = .ok I0 ∧ I0.runN N = .ok I ∧ I.results.length = N ∧
      (∀ k < N, ∃ x : V4, (∀ i, x i = q0 i + ((k:ℝ) + 1) * δ * ∑ j, G i j * p0 j) ∧ I.results[k]? = some (x, p0, x, p0)) ∧
      (0 ≤ rtol → 0 ≤ atol → ∑ a, ∑ b, G a b * p0 a * p0 b = (if tl then -1 else 0) → I.warned = []) := by
  have hG : ∀ y, evalMetric c.metric y = .ok G := by
    intro y
    rw [show G = fun i j => (c.metric i j).den y by funext i j; exact ((h y i j).2).symm]
    unfold evalMetric
    exact seq4_ok.mpr fun i => seq4_ok.mpr fun j => evalNum_regular (h y i j).1
  have key : ∀ (N : ℕ) (I : Integ) (q : V4), I.cfg = c → I.resList = (q, p0, q, p0) → ∃ I', I.runN N = .ok I' ∧
      (∃ l : List PS, I'.results = I.results ++ l ∧ l.length = N ∧
        ∀ k < N, ∃ x : V4, (∀ i, x i = q i + ((k:ℝ) + 1) * I.delta * ∑ j, G i j * p0 j) ∧ l[k]? = some (x, p0, x, p0)) ∧
      (0 ≤ I.rtol → 0 ≤ I.atol → ∑ a, ∑ b, G a b * p0 a * p0 b = (if I.timeLike then -1 else 0) → I'.warned = I.warned) := by
    intro N
    induction N with
    | zero =>
      intro I q hc hr
      exact ⟨I, rfl, ⟨[], by simp, rfl, fun k hk => absurd hk (by omega)⟩, fun _ _ _ => rfl⟩
    | succ N ih =>
      intro I q hc hr
      have hstep := const_orderStep h ho q p0 I.delta
      have hs : ∃ I1, I.step = .ok I1 := by
        unfold Integ.step
        rw [hc, hr, hstep]
        simp only [bind, Except.bind, pure, Except.pure, PS.q1, hG]
        split_ifs <;> exact ⟨_, rfl⟩
      obtain ⟨I1, h1⟩ := hs
      obtain ⟨s, e0, e1, e2, e3, e4, e5, e6, e7, e8, e9, e10⟩ := step_spec I I1 h1
      rw [hc, hr, hstep] at e0
      have es := (Except.ok.inj e0).symm
      obtain ⟨I', r1, ⟨l, r2, r3, r4⟩, r5⟩ := ih I1 (fun i => q i + I.delta * ∑ j, G i j * p0 j) (e4.trans hc) (e1.trans es)
      refine ⟨I', ?_, ⟨s :: l, ?_, ?_, ?_⟩, ?_⟩
      · simp only [Integ.runN, h1, bind, Except.bind]; exact r1
      · rw [r2, e2, List.append_assoc]; rfl
      · rw [List.length_cons, r3]
      · intro k hk
        match k with
        | 0 =>
          refine ⟨fun i => q i + I.delta * ∑ j, G i j * p0 j, fun i => by push_cast; ring, ?_⟩
          rw [es]; rfl
        | k + 1 =>
          obtain ⟨x, x1, x2⟩ := r4 k (by omega)
          refine ⟨x, fun i => ?_, ?_⟩
          · rw [x1, e5]; push_cast; ring
          · rw [List.getElem?_cons_succ]; exact x2
      · intro t1 t2 t3
        rw [r5 (by rw [e7]; exact t1) (by rw [e8]; exact t2) (by rw [e6]; exact t3), e10, if_neg]
        rintro ⟨-, G', hG', hoff⟩
        rw [hc, hG] at hG'
        have := Except.ok.inj hG'
        subst this
        rw [es] at hoff
        simp only [PS.p1] at hoff
        rw [t3, sub_self, abs_zero] at hoff
        have := mul_nonneg t1 (abs_nonneg (if I.timeLike then (-1:ℝ) else 0))
        linarith
  have hn : Integ.new c q0 p0 tl δ rtol atol sw = .ok ⟨c, δ, tl, rtol, atol, sw, 0, (q0, p0, q0, p0), [], []⟩ := by
    unfold Integ.new
    rw [if_neg]
    rintro ⟨a, b, d, e⟩
    omega
  obtain ⟨I', r1, ⟨l, r2, r3, r4⟩, r5⟩ := key N ⟨c, δ, tl, rtol, atol, sw, 0, (q0, p0, q0, p0), [], []⟩ q0 rfl rfl
  refine ⟨_, I', hn, r1, by rw [r2]; simpa using r3, ?_, ?_⟩
  · intro k hk
    obtain ⟨x, x1, x2⟩ := r4 k hk
    exact ⟨x, x1, by rw [r2]; simpa using x2⟩
  · intro t1 t2 t3; exact r5 t1 t2 t3

/-- **C120, the trajectory returned.** The same for the rows of `calculate_trajectory` (spherical output): row `k` is the
position q0 + (k+1)·δ·(G p0) followed by the momentum p0. -/
theorem C120_trajectory {g : MetricFn} {G : Fin 4 → Fin 4 → ℝ} (h : ConstMetric g G) (q0 p0 : V4) (tl : Bool) (coords : String)
    (kw : GeoKw) (ho : kw.order = 2 ∨ kw.order = 4 ∨ kw.order = 6 ∨ kw.order = 8) (hN : 0 < kw.steps) (hc : coords ≠ "Cartesian") :
    ∃ rows, calculateTrajectory g q0 p0 tl coords kw = .ok (List.range kw.steps.toNat, rows) ∧ rows.length = kw.steps.toNat ∧
      ∀ k < kw.steps.toNat, ∃ x : V4, (∀ i, x i = q0 i + ((k:ℝ) + 1) * kw.delta * ∑ j, G i j * p0 j) ∧
        rows[k]? = some [x 0, x 1, x 2, x 3, p0 0, p0 1, p0 2, p0 3] := by
  obtain ⟨I0, I, h1, h2, h3, h4, -⟩ := C120_flat_exact (c := ⟨g, kw.omega, kw.order⟩) h ho q0 p0 tl kw.suppressWarnings kw.delta
    kw.rtol kw.atol kw.steps.toNat
  refine ⟨I.results.map polarRow, ?_, by rw [List.length_map, h3], ?_⟩
  · unfold calculateTrajectory
    have hne : I.results ≠ [] := by
      intro h0; rw [h0] at h3; simp at h3; omega
    simp only [h1, h2, bind, Except.bind, pure, Except.pure]
    rw [if_neg hne, if_neg hc]
  · intro k hk
    obtain ⟨x, x1, x2⟩ := h4 k hk
    refine ⟨x, x1, ?_⟩
    rw [List.getElem?_map, x2]; rfl

/-- The Minkowski metric in Cartesian coordinates is such a metric, written with constants or in any other way. -/
example : ConstMetric (fun i j => .const (if i = j then (if i = 0 then -1 else 1) else 0))
    (fun i j => if i = j then (if i = 0 then -1 else 1) else 0) := fun _ _ _ => ⟨trivial, rfl⟩

end Einpy
