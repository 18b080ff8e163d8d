import Verif.Integ.Order
import Verif.Integ.RungeKutta2

/-!
# C143: rounding errors

The model computes with real numbers, the program with floating point numbers.  This file says what remains of the convergence theorems C105 and C108 when
the state after every step is wrong by up to `ε`, in whatever way: the computed states are then any sequence of integrator objects in which each one is within
`ε` of what `step()` returns on its predecessor.
-/

namespace Einpy.Flow
open scoped Topology

variable {E : Type*} [NormedAddCommGroup E]

/-- Discrete Grönwall with an additional error `ε` per step. -/
theorem converges_rounded {Good : ℝ → E → Prop} {Φ : ℝ → E → E} {y : ℝ → E} {m : ℕ} {a b : ℝ} (ha : a ≤ 0) (hb : 0 ≤ b)
    (hm : 0 < m) (h : OneStep Good Φ y (m + 1) (Set.Icc a b)) :
    ∃ K δ₀ η : ℝ, 0 < δ₀ ∧ 0 < η ∧ ∀ δ ε, 0 < |δ| → |δ| < δ₀ → 0 ≤ ε → ε ≤ η * |δ| → ∀ (k : ℕ) (x : ℕ → E), k * δ ∈ Set.Icc a b →
      ‖x 0 - y 0‖ ≤ ε → (∀ j < k, Good δ (x j) → ‖x (j + 1) - Φ δ (x j)‖ ≤ ε) →
      ∀ j ≤ k, ‖x j - y (j * δ)‖ ≤ K * (|δ| ^ m + ε / |δ|) ∧ (j < k → Good δ (x j)) := by
  obtain ⟨C, L, ρ, δ₀, hC, hL, hρ, hδ₀, hst⟩ := h
  let T := max (-a) b
  have hT : 0 ≤ T := le_max_of_le_right hb
  let K := (C * T + T + 1) * Real.exp (L * T)
  have hK : 0 ≤ K := by positivity
  refine ⟨K, min δ₀ (min 1 (ρ / 2 / (K + 1))), ρ / 2 / (K + 1), lt_min hδ₀ (lt_min one_pos (by positivity)), by positivity, ?_⟩
  intro δ ε hδ0 hδ hε hεη k x hk hx0 hx
  obtain ⟨d1, d2⟩ := lt_min_iff.mp hδ
  obtain ⟨d3, d4⟩ := lt_min_iff.mp d2
  have dn := abs_nonneg δ
  have hpow : |δ| ^ m ≤ |δ| := pow_le_of_le_one dn d3.le hm.ne'
  have hq : ε / |δ| ≤ ρ / 2 / (K + 1) := by rwa [div_le_iff₀ hδ0]
  have hKρ : K * (|δ| ^ m + ε / |δ|) < ρ := by
    have hs : |δ| ^ m + ε / |δ| < ρ / (K + 1) := by
      have : ρ / (K + 1) = ρ / 2 / (K + 1) + ρ / 2 / (K + 1) := by field_simp; ring
      linarith
    rw [lt_div_iff₀ (by positivity)] at hs
    have : 0 ≤ |δ| ^ m + ε / |δ| := by positivity
    nlinarith
  have hin : ∀ j : ℕ, j ≤ k → (j : ℝ) * δ ∈ Set.Icc a b ∧ (j : ℝ) * |δ| ≤ T := by
    intro j hj
    have hj' : (j : ℝ) ≤ k := by exact_mod_cast hj
    have j0 : (0 : ℝ) ≤ j := by positivity
    rcases le_total 0 δ with hp | hp
    · have h1 : (j : ℝ) * δ ≤ k * δ := by gcongr
      have h0 : 0 ≤ (j : ℝ) * δ := by positivity
      refine ⟨⟨by linarith, h1.trans hk.2⟩, ?_⟩
      rw [abs_of_nonneg hp]
      exact (h1.trans hk.2).trans (le_max_right _ _)
    · have h1 : (k : ℝ) * δ ≤ j * δ := mul_le_mul_of_nonpos_right hj' hp
      have h0 : (j : ℝ) * δ ≤ 0 := mul_nonpos_of_nonneg_of_nonpos j0 hp
      refine ⟨⟨hk.1.trans h1, by linarith⟩, ?_⟩
      rw [abs_of_nonpos hp]
      refine le_trans ?_ (le_max_left _ _)
      have := hk.1
      linarith
  have hbound : ∀ j ≤ k, (C * (j * |δ|) * |δ| ^ m + (j + 1) * ε) * Real.exp (L * (j * |δ|)) ≤ K * (|δ| ^ m + ε / |δ|) := by
    intro j hj
    have hjT := (hin j hj).2
    have h1 : ((j : ℝ) + 1) * ε ≤ (T + 1) * (ε / |δ|) := by
      have e : ((j : ℝ) + 1) * ε = (j * |δ| + |δ|) * (ε / |δ|) := by field_simp
      rw [e]
      gcongr
    calc (C * (j * |δ|) * |δ| ^ m + (j + 1) * ε) * Real.exp (L * (j * |δ|))
        ≤ (C * T * |δ| ^ m + (T + 1) * (ε / |δ|)) * Real.exp (L * T) := by gcongr
      _ ≤ ((C * T + T + 1) * |δ| ^ m + (C * T + T + 1) * (ε / |δ|)) * Real.exp (L * T) := by
          gcongr ?_ * _
          have p1 : 0 ≤ (T + 1) * |δ| ^ m := by positivity
          have p2 : 0 ≤ C * T * (ε / |δ|) := by positivity
          nlinarith
      _ = _ := by show _ = (C * T + T + 1) * Real.exp (L * T) * _; ring
  have main : ∀ j : ℕ, j ≤ k → ‖x j - y (j * δ)‖ ≤ (C * (j * |δ|) * |δ| ^ m + (j + 1) * ε) * Real.exp (L * (j * |δ|)) := by
    intro j
    induction j with
    | zero => intro _; simpa using hx0
    | succ j ih =>
      intro hj
      have i1 := ih (by omega)
      obtain ⟨g1, g2⟩ := hst (j * δ) (hin j (by omega)).1 δ d1 _ (lt_of_le_of_lt (i1.trans (hbound j (by omega))) hKρ)
      have g3 := hx j (by omega) g1
      rw [show ((j + 1 : ℕ) : ℝ) * δ = j * δ + δ by push_cast; ring]
      have e1 : 1 + L * |δ| ≤ Real.exp (L * |δ|) := by linarith [Real.add_one_le_exp (L * |δ|)]
      have e2 : Real.exp (L * |δ|) * Real.exp (L * (j * |δ|)) = Real.exp (L * ((j + 1 : ℕ) * |δ|)) := by
        rw [← Real.exp_add]; congr 1; push_cast; ring
      have e3 : 1 ≤ Real.exp (L * ((j + 1 : ℕ) * |δ|)) := Real.one_le_exp (by positivity)
      calc ‖x (j + 1) - y (j * δ + δ)‖ ≤ ‖x (j + 1) - Φ δ (x j)‖ + ‖Φ δ (x j) - y (j * δ + δ)‖ := norm_sub_le_norm_sub_add_norm_sub _ _ _
        _ ≤ ε + ((1 + L * |δ|) * ‖x j - y (j * δ)‖ + C * |δ| ^ (m + 1)) := by gcongr
        _ ≤ ε + (Real.exp (L * |δ|) * ((C * (j * |δ|) * |δ| ^ m + (j + 1) * ε) * Real.exp (L * (j * |δ|))) + C * |δ| ^ (m + 1)) := by gcongr
        _ = (ε + C * |δ| * |δ| ^ m) * 1 + (C * (j * |δ|) * |δ| ^ m + (j + 1) * ε) * (Real.exp (L * |δ|) * Real.exp (L * (j * |δ|))) := by ring
        _ ≤ (ε + C * |δ| * |δ| ^ m) * Real.exp (L * ((j + 1 : ℕ) * |δ|)) + (C * (j * |δ|) * |δ| ^ m + (j + 1) * ε) * Real.exp (L * ((j + 1 : ℕ) * |δ|)) := by
          rw [e2]; gcongr
        _ = _ := by push_cast; ring
  intro j hj
  refine ⟨(main j hj).trans (hbound j hj), fun hj' => ?_⟩
  exact (hst (j * δ) (hin j hj).1 δ d1 _ (lt_of_le_of_lt ((main j hj).trans (hbound j hj)) hKρ)).1

end Einpy.Flow

namespace Einpy
open Classical Topology Einpy.Flow
open scoped ContDiff

/-! ## specification -/

/-- The positions and momenta of two pairs of copies differ by at most `ε` in every component. -/
def PS.Within (ε : ℝ) (s s' : PS) : Prop :=
  ∀ i, |s.q1 i - s'.q1 i| ≤ ε ∧ |s.p1 i - s'.p1 i| ≤ ε ∧ |s.q2 i - s'.q2 i| ≤ ε ∧ |s.p2 i - s'.p2 i| ≤ ε

/-- `I 0, …, I N` are the integrator objects of a computation with rounding errors up to `ε`: the first has the given settings and holds the data `(q0, p0)` up
to `ε`; each next one has the same settings and holds, up to `ε`, what `step()` makes of its predecessor (`step()` in exact arithmetic, when it returns). -/
structure RoundedRun (c : IntegCfg) (δ ε : ℝ) (q0 p0 : V4) (N : ℕ) (I : ℕ → Integ) : Prop where
  settings : ∀ k ≤ N, (I k).cfg = c ∧ (I k).delta = δ
  start : ((I 0).resList).Within ε (q0, p0, q0, p0)
  next : ∀ k < N, ∀ J, (I k).step = .ok J → ((I (k + 1)).resList).Within ε J.resList

/-! ## proofs -/

theorem within_norm {ε : ℝ} (hε : 0 ≤ ε) (s s' : PS) : s.Within ε s' ↔ ‖s - s'‖ ≤ ε := by
  unfold PS.Within
  simp only [Prod.norm_def, max_le_iff, pi_norm_le_iff_of_nonneg hε, Real.norm_eq_abs]
  exact ⟨fun h => ⟨fun i => (h i).1, fun i => (h i).2.1, fun i => (h i).2.2.1, fun i => (h i).2.2.2⟩,
    fun h i => ⟨h.1 i, h.2.1 i, h.2.2.1 i, h.2.2.2 i⟩⟩

theorem step_of_orderStep (I : Integ) (s : PS) (h : orderStep I.cfg I.resList I.delta = .ok s) (hG : ∃ G, evalMetric I.cfg.metric s.q1 = .ok G) :
    ∃ J, I.step = .ok J ∧ J.resList = s := by
  obtain ⟨G, hG⟩ := hG
  unfold Integ.step
  simp only [h, bind, Except.bind, pure, Except.pure]
  by_cases hw : I.suppressWarnings
  · rw [if_pos hw]; exact ⟨_, rfl, rfl⟩
  · rw [if_neg hw]
    simp only [hG]
    split_ifs <;> exact ⟨_, rfl, by rfl⟩

theorem rounded_of (c : IntegCfg) (ho : Supported c.order)
    (hs : ∀ i j (y : V4), (c.metric i j).den y = (c.metric j i).den y) (m : ℕ) (hm : 0 < m)
    (hP : ∀ k < m + 1, listSer (ser2 c.metric c.omega) (usedWeights c.order) k =
      expSer 1 (lie (goodSet_open c.metric) (fX c.metric c.omega)) k)
    (q p : ℝ → V4) (a b : ℝ) (ha : a ≤ 0) (hb : 0 ≤ b)
    (hsm : ∀ t ∈ Set.Icc a b, ∀ i j, (c.metric i j).Smooth (q t))
    (h : ∀ t ∈ Set.Icc a b, ∀ᶠ u in 𝓝 t, HamiltonAt c.metric q p u) :
    ∃ K δ₀ η : ℝ, 0 < δ₀ ∧ 0 < η ∧ ∀ (δ ε : ℝ) (N : ℕ) (I : ℕ → Integ), δ ≠ 0 → |δ| < δ₀ → 0 ≤ ε → ε ≤ η * |δ| → N * δ ∈ Set.Icc a b →
      RoundedRun c δ ε (q 0) (p 0) N I →
      (∀ k < N, ∃ J, (I k).step = .ok J) ∧
      ∀ k ≤ N, ((I k).resList).Within (K * (|δ| ^ m + ε / |δ|)) (q (k * δ), p (k * δ), q (k * δ), p (k * δ)) := by
  obtain ⟨S⟩ := orderStep_series c ho hs
  let Good : ℝ → PS → Prop := fun δ s => orderStep c s δ = .ok (S.Φ δ s) ∧ S.Φ δ s ∈ goodSet c.metric
  have hG : ∀ s₀ ∈ goodSet c.metric, ∀ᶠ x in 𝓝 (0 : ℝ) ×ˢ 𝓝 s₀, Good x.1 x.2 := fun s₀ h0 =>
    (S.runs s₀ h0).and ((S.expands.near s₀ h0).eventually ((goodSet_open c.metric).mem_nhds h0))
  have h1 : OneStep Good S.Φ (twin q p) (m + 1) (Set.Icc a b) :=
    oneStep_compact isCompact_Icc fun t ht =>
      oneStep_near (goodSet_open c.metric) (fX c.metric c.omega) S.expands S.lip hG (m + 1) hP (twin q p) t
        ⟨hsm t ht, hsm t ht⟩ (twin_solves_near c.omega hs (hsm t ht) (h t ht))
  obtain ⟨K, δ₀, η, hδ₀, hη, hK⟩ := converges_rounded ha hb hm h1
  refine ⟨K, δ₀, η, hδ₀, hη, ?_⟩
  intro δ ε N I hδ hδ' hε hεη hN hI
  have hstep : ∀ k ≤ N, Good δ ((I k).resList) → ∃ J, (I k).step = .ok J ∧ J.resList = S.Φ δ (I k).resList := by
    intro k hk hg
    obtain ⟨e1, e2⟩ := hI.settings k hk
    refine step_of_orderStep (I k) _ (by rw [e1, e2]; exact hg.1) ?_
    rw [e1]
    exact ⟨_, evalMetric_regular fun i j => (hg.2.1 i j).regular⟩
  have hall := hK δ ε (abs_pos.mpr hδ) hδ' hε hεη N (fun k => (I k).resList) hN ((within_norm hε _ _).mp hI.start) (fun j hj hg => by
    obtain ⟨J, e1, e2⟩ := hstep j hj.le hg
    have := (within_norm hε _ _).mp (hI.next j hj J e1)
    rwa [e2] at this)
  refine ⟨fun k hk => ?_, fun k hk => ?_⟩
  · obtain ⟨J, e1, -⟩ := hstep k hk.le ((hall k hk.le).2 hk)
    exact ⟨J, e1⟩
  · have hb := (hall k hk).1
    exact (within_norm ((norm_nonneg _).trans hb) _ _).mpr hb

/-- **C143** (geodesic integrator).  In the setting of C105, let the data and the state after every step be wrong by up to `ε ≤ η·|delta|`.  Then no step
raises, and all states differ from the exact solution by at most `K·(delta² + ε/|delta|)` in every component of both copies. -/
theorem C143_rounding (c : IntegCfg) (ho : c.order = 2 ∨ c.order = 4 ∨ c.order = 6 ∨ c.order = 8)
    (hs : ∀ i j (y : V4), (c.metric i j).den y = (c.metric j i).den y)
    (q p : ℝ → V4) (a b : ℝ) (ha : a ≤ 0) (hb : 0 ≤ b)
    (hsm : ∀ t ∈ Set.Icc a b, ∀ i j, (c.metric i j).Smooth (q t))
    (h : ∀ t ∈ Set.Icc a b, ∀ᶠ u in 𝓝 t, HamiltonAt c.metric q p u) :
    ∃ K δ₀ η : ℝ, 0 < δ₀ ∧ 0 < η ∧ ∀ (δ ε : ℝ) (N : ℕ) (I : ℕ → Integ), δ ≠ 0 → |δ| < δ₀ → 0 ≤ ε → ε ≤ η * |δ| → N * δ ∈ Set.Icc a b →
      RoundedRun c δ ε (q 0) (p 0) N I →
      (∀ k < N, ∃ J, (I k).step = .ok J) ∧
      ∀ k ≤ N, ((I k).resList).Within (K * (|δ| ^ 2 + ε / |δ|)) (q (k * δ), p (k * δ), q (k * δ), p (k * δ)) :=
  rounded_of c ho hs 2 (by norm_num) (orderStep_agrees c ho) q p a b ha hb hsm h

/-- **C143** (order 4). -/
theorem C143_rounding_order4 (c : IntegCfg) (ho : c.order = 4)
    (hs : ∀ i j (y : V4), (c.metric i j).den y = (c.metric j i).den y)
    (q p : ℝ → V4) (a b : ℝ) (ha : a ≤ 0) (hb : 0 ≤ b)
    (hsm : ∀ t ∈ Set.Icc a b, ∀ i j, (c.metric i j).Smooth (q t))
    (h : ∀ t ∈ Set.Icc a b, ∀ᶠ u in 𝓝 t, HamiltonAt c.metric q p u) :
    ∃ K δ₀ η : ℝ, 0 < δ₀ ∧ 0 < η ∧ ∀ (δ ε : ℝ) (N : ℕ) (I : ℕ → Integ), δ ≠ 0 → |δ| < δ₀ → 0 ≤ ε → ε ≤ η * |δ| → N * δ ∈ Set.Icc a b →
      RoundedRun c δ ε (q 0) (p 0) N I →
      (∀ k < N, ∃ J, (I k).step = .ok J) ∧
      ∀ k ≤ N, ((I k).resList).Within (K * (|δ| ^ 4 + ε / |δ|)) (q (k * δ), p (k * δ), q (k * δ), p (k * δ)) :=
  rounded_of c (by unfold Supported; omega) hs 4 (by norm_num) (orderStep_agrees4 c ho) q p a b ha hb hsm h

/-- Rounding the stored state after every step with any function `rnd` that is accurate to `ε` produces such a run, from every integrator object. -/
theorem roundedRun_of (I₀ : Integ) (q0 p0 : V4) (rnd : PS → PS) (ε : ℝ) (hr : ∀ s, (rnd s).Within ε s) (h0 : I₀.resList = (q0, p0, q0, p0)) (N : ℕ) :
    RoundedRun I₀.cfg I₀.delta ε q0 p0 N fun k =>
      (fun I : Integ => match I.step with | .ok J => { J with resList := rnd J.resList } | .error _ => I)^[k] { I₀ with resList := rnd I₀.resList } := by
  set F : Integ → Integ := fun I : Integ => match I.step with | .ok J => { J with resList := rnd J.resList } | .error _ => I with hF
  have hset : ∀ I J : Integ, I.step = .ok J → J.cfg = I.cfg ∧ J.delta = I.delta := by
    intro I J h
    obtain ⟨s, -, -, -, -, e1, e2, -⟩ := step_spec I J h
    exact ⟨e1, e2⟩
  refine ⟨fun k _ => ?_, ?_, fun k _ J hJ => ?_⟩
  · induction k with
    | zero => exact ⟨rfl, rfl⟩
    | succ k ih =>
      have ih := ih (by omega)
      rw [Function.iterate_succ_apply']
      generalize F^[k] _ = I at ih
      show (F I).cfg = _ ∧ (F I).delta = _
      simp only [hF]
      cases h : I.step with
      | error e => exact ih
      | ok J =>
        obtain ⟨e1, e2⟩ := hset I J h
        exact ⟨e1.trans ih.1, e2.trans ih.2⟩
  · show (rnd I₀.resList).Within ε _
    rw [← h0]
    exact hr _
  · show ((F^[k + 1] _).resList).Within ε J.resList
    rw [Function.iterate_succ_apply']
    have hJ : (F^[k] { I₀ with resList := rnd I₀.resList }).step = .ok J := hJ
    generalize F^[k] { I₀ with resList := rnd I₀.resList } = I at hJ
    simp only [hF, hJ]
    exact hr _

/-! ## RK4naive -/

variable {E : Type*} [NormedAddCommGroup E] [NormedSpace ℝ E]

/-- `s 0, …, s N` are the `RK4naive` objects of a computation with rounding errors up to `ε`, with right-hand side `f` and step size `h`: the first one was
built for the time `t0` and the data `y0`, up to `ε`; each next one is, up to `ε`, what `step()` makes of its predecessor. -/
structure RoundedRK4 (f : ℝ → E → E) (t0 : ℝ) (y0 : E) (tb h ε : ℝ) (N : ℕ) (s : ℕ → RK4 E) : Prop where
  start : ∃ t0' y0', s 0 = RK4.new f t0' y0' tb h ∧ |t0' - t0| ≤ ε ∧ ‖y0' - y0‖ ≤ ε
  next : ∀ k < N, ∃ t' y', s (k + 1) = { (s k).step with t := t', y := y' } ∧ |t' - (s k).step.t| ≤ ε ∧ ‖y' - (s k).step.y‖ ≤ ε

/-- **C143** (RK4naive).  In the setting of C108, with errors of up to `ε ≤ η·|h|` in time and state after every step, all objects have times and states within
`K·(h⁴ + ε/|h|)` of the exact ones. -/
theorem C143_rk4 [CompleteSpace E] (f : ℝ → E → E) (U : Set (ℝ × E)) (hU : IsOpen U) (hf : ContDiffOn ℝ ∞ (fun p : ℝ × E => f p.1 p.2) U)
    (y : ℝ → E) (a b t₀ : ℝ) (ht₀ : t₀ ∈ Set.Icc a b) (hy : ∀ t ∈ Set.Icc a b, (t, y t) ∈ U)
    (hd : ∀ t ∈ Set.Icc a b, ∀ᶠ u in 𝓝 t, HasDerivAt y (f u (y u)) u) :
    ∃ K h₀ η : ℝ, 0 < h₀ ∧ 0 < η ∧ ∀ (tb h ε : ℝ) (N : ℕ) (s : ℕ → RK4 E), h ≠ 0 → |h| < h₀ → 0 ≤ ε → ε ≤ η * |h| → t₀ + N * h ∈ Set.Icc a b →
      RoundedRK4 f t₀ (y t₀) tb h ε N s →
      ∀ k ≤ N, |(s k).t - (t₀ + k * h)| ≤ K * (|h| ^ 4 + ε / |h|) ∧ ‖(s k).y - y (t₀ + k * h)‖ ≤ K * (|h| ^ 4 + ε / |h|) := by
  let X : Flow.SmoothFn U := ⟨autoField f, contDiffOn_const.prodMk hf⟩
  let Y : ℝ → ℝ × E := fun t => (t₀ + t, y (t₀ + t))
  have hsh : ∀ t, t ∈ Set.Icc (a - t₀) (b - t₀) → t₀ + t ∈ Set.Icc a b := fun t ht => ⟨by linarith [ht.1], by linarith [ht.2]⟩
  have hc : ∀ t, Filter.Tendsto (fun u : ℝ => t₀ + u) (𝓝 t) (𝓝 (t₀ + t)) := fun t => (continuous_const_add t₀).continuousAt.tendsto
  have hY : ∀ t ∈ Set.Icc (a - t₀) (b - t₀), ∀ᶠ u in 𝓝 t, HasDerivAt Y (X.1 (Y u)) u := by
    intro t ht
    filter_upwards [(hc t).eventually (hd _ (hsh t ht))] with u hu
    exact ((hasDerivAt_id u).const_add t₀).prodMk (HasDerivAt.comp_const_add t₀ u hu)
  have h1 := Flow.oneStep_compact isCompact_Icc fun t ht => Flow.rk4_oneStep hU X Y t (hy _ (hsh t ht)) (hY t ht)
  obtain ⟨K, δ₀, η, hδ₀, hη, hK⟩ := Flow.converges_rounded (m := 4) (by linarith [ht₀.1]) (by linarith [ht₀.2]) (by norm_num) h1
  refine ⟨K, δ₀, η, hδ₀, hη, ?_⟩
  intro tb h ε N s hh hh' hε hεη hN hs
  have hset : ∀ k ≤ N, (s k).direction = 0 ∧ (s k).func = f ∧ (s k).stepSize = h := by
    intro k
    induction k with
    | zero =>
      intro _
      obtain ⟨t0', y0', e, -⟩ := hs.start
      rw [e]
      exact ⟨rk4_direction _ _ _ _ _, rfl, rfl⟩
    | succ k ih =>
      intro hk
      obtain ⟨i1, i2, i3⟩ := ih (by omega)
      obtain ⟨t', y', e, -⟩ := hs.next k (by omega)
      obtain ⟨-, r1, r2, r3⟩ := rk4_step_auto (s k) i1
      rw [e]
      exact ⟨r1, r2.trans i2, r3.trans i3⟩
  have hall := hK h ε (abs_pos.mpr hh) hh' hε hεη N (fun k => ((s k).t, (s k).y)) ⟨by linarith [hN.1], by linarith [hN.2]⟩ (by
    obtain ⟨t0', y0', e, e1, e2⟩ := hs.start
    show ‖((s 0).t, (s 0).y) - Y 0‖ ≤ ε
    rw [e]
    simp only [Y, add_zero]
    exact max_le e1 e2) (fun j hj _ => by
    obtain ⟨i1, i2, i3⟩ := hset j hj.le
    obtain ⟨t', y', e, e1, e2⟩ := hs.next j hj
    obtain ⟨r0, -⟩ := rk4_step_auto (s j) i1
    rw [i2, i3] at r0
    show ‖((s (j + 1)).t, (s (j + 1)).y) - Flow.rk4 (autoField f) h ((s j).t, (s j).y)‖ ≤ ε
    rw [← r0, e]
    exact max_le e1 e2)
  intro k hk
  have := (hall k hk).1
  exact ⟨(norm_fst_le _).trans this, (norm_snd_le _).trans this⟩

/-- Storing every time and state through functions that are accurate to `ε` produces such a run. -/
theorem roundedRK4_of (f : ℝ → E → E) (t0 : ℝ) (y0 : E) (tb h ε : ℝ) (N : ℕ) (rt : ℝ → ℝ) (ry : E → E) (ht : ∀ t, |rt t - t| ≤ ε)
    (hy : ∀ y, ‖ry y - y‖ ≤ ε) :
    RoundedRK4 f t0 y0 tb h ε N fun k => (fun s : RK4 E => { s.step with t := rt s.step.t, y := ry s.step.y })^[k] (RK4.new f (rt t0) (ry y0) tb h) := by
  refine ⟨⟨_, _, rfl, ht _, hy _⟩, fun k _ => ?_⟩
  simp only [Function.iterate_succ_apply']
  exact ⟨_, _, rfl, ht _, hy _⟩

end Einpy
