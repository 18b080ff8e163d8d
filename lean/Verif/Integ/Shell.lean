import Verif.Integ.Geod

/-!
# C109: computed geodesics stay on the mass shell
-/

namespace Einpy
open Classical Topology Asymptotics Finset

/-- `g^{ab}(x) u_a u_b` -/
noncomputable def normAt (g : MetricFn) (x u : V4) : ℝ := ∑ a, ∑ b, (g a b).den x * u a * u b

/-- The norm is constant along solutions of Hamilton's equations. -/
theorem norm_deriv {g : MetricFn} {q p : ℝ → V4} {t : ℝ} (hs : ∀ i j (y : V4), (g i j).den y = (g j i).den y)
    (hsm : ∀ i j, (g i j).Smooth (q t)) (h : HamiltonAt g q p t) : HasDerivAt (fun t => normAt g (q t) (p t)) 0 t := by
  have hg : ∀ a b, DifferentiableAt ℝ (fun y => (g a b).den y) (q t) := fun a b =>
    ((hsm a b).contDiffAt.differentiableAt (by norm_num))
  have h1 : HasDerivAt (fun t => normAt g (q t) (p t)) (∑ a, ∑ b,
      (((∑ k, partialAt (fun y => (g a b).den y) (q t) k * ∑ c, (g k c).den (q t) * p t c) * p t a +
        (g a b).den (q t) * (-(1 / 2) * ∑ i, ∑ j, partialAt (fun y => (g i j).den y) (q t) a * p t i * p t j)) * p t b +
        (g a b).den (q t) * p t a * (-(1 / 2) * ∑ i, ∑ j, partialAt (fun y => (g i j).den y) (q t) b * p t i * p t j))) t := by
    refine HasDerivAt.fun_sum fun a _ => HasDerivAt.fun_sum fun b _ => ?_
    exact ((chain_partial (hg a b) h.dq).mul (h.dp a)).mul (h.dp b)
  refine h1.congr_deriv ?_
  -- F_k = ∑ ∂_k g^{ij} p_i p_j, w^k = ∑ g^{kc} p_c
  have e1 : ∑ a, ∑ b, (∑ k, partialAt (fun y => (g a b).den y) (q t) k * ∑ c, (g k c).den (q t) * p t c) * p t a * p t b =
      ∑ k, (∑ c, (g k c).den (q t) * p t c) * ∑ a, ∑ b, partialAt (fun y => (g a b).den y) (q t) k * p t a * p t b := by
    generalize (fun k => ∑ c, (g k c).den (q t) * p t c) = w
    simp only [Fin.sum_univ_four]
    ring
  have e2 : ∀ F : Fin 4 → ℝ, ∑ a, ∑ b, (g a b).den (q t) * (-(1 / 2) * F a) * p t b =
      -(1 / 2) * ∑ k, (∑ c, (g k c).den (q t) * p t c) * F k := by
    intro F
    simp only [sum_mul, mul_sum]
    exact sum_congr rfl fun a _ => sum_congr rfl fun b _ => by ring
  have e3 : ∀ F : Fin 4 → ℝ, ∑ a, ∑ b, (g a b).den (q t) * p t a * (-(1 / 2) * F b) =
      -(1 / 2) * ∑ k, (∑ c, (g k c).den (q t) * p t c) * F k := by
    intro F
    rw [sum_comm]
    simp only [sum_mul, mul_sum]
    exact sum_congr rfl fun a _ => sum_congr rfl fun b _ => by rw [hs b a]; ring
  have e2' := e2 fun k => ∑ a, ∑ b, partialAt (fun y => (g a b).den y) (q t) k * p t a * p t b
  have e3' := e3 fun k => ∑ a, ∑ b, partialAt (fun y => (g a b).den y) (q t) k * p t a * p t b
  simp only [add_mul, sum_add_distrib]
  rw [e1, e2', e3']
  ring

/-- The norm function is Lipschitz near a compact piece of the curve. -/
theorem norm_lip {g : MetricFn} {q p : ℝ → V4} {K : Set ℝ} (hK : IsCompact K)
    (hsm : ∀ t ∈ K, ∀ i j, (g i j).Smooth (q t)) (hq : ∀ t ∈ K, ContinuousAt q t) (hp : ∀ t ∈ K, ContinuousAt p t) :
    ∃ L ρ : ℝ, 0 ≤ L ∧ 0 < ρ ∧ ∀ t ∈ K, ∀ x u : V4, dist (x, u) (q t, p t) < ρ → (∀ i j, (g i j).Smooth x) ∧
      |normAt g x u - normAt g (q t) (p t)| ≤ L * dist (x, u) (q t, p t) := by
  refine hK.induction_on (p := fun K => ∃ L ρ : ℝ, 0 ≤ L ∧ 0 < ρ ∧ ∀ t ∈ K, ∀ x u : V4, dist (x, u) (q t, p t) < ρ →
    (∀ i j, (g i j).Smooth x) ∧ |normAt g x u - normAt g (q t) (p t)| ≤ L * dist (x, u) (q t, p t)) ?_ ?_ ?_ ?_
  · exact ⟨0, 1, le_refl 0, one_pos, fun t ht => absurd ht (Set.notMem_empty t)⟩
  · rintro A B hAB ⟨L, ρ, h1, h2, h3⟩
    exact ⟨L, ρ, h1, h2, fun t ht => h3 t (hAB ht)⟩
  · rintro A B ⟨L, ρ, h1, h2, h3⟩ ⟨L', ρ', h1', h2', h3'⟩
    refine ⟨max L L', min ρ ρ', le_max_of_le_left h1, lt_min h2 h2', fun t ht x u hx => ?_⟩
    obtain ⟨d1, d2⟩ := lt_min_iff.mp hx
    rcases ht with ht | ht
    · obtain ⟨a1, a2⟩ := h3 t ht x u d1
      exact ⟨a1, a2.trans (by gcongr; exact le_max_left _ _)⟩
    · obtain ⟨a1, a2⟩ := h3' t ht x u d2
      exact ⟨a1, a2.trans (by gcongr; exact le_max_right _ _)⟩
  · intro t₀ ht₀
    have hN : ContDiffAt ℝ 1 (fun z : V4 × V4 => normAt g z.1 z.2) (q t₀, p t₀) := by
      unfold normAt
      refine ContDiffAt.sum fun a _ => ContDiffAt.sum fun b _ => ?_
      have h1 : ContDiffAt ℝ 1 (fun z : V4 × V4 => (g a b).den z.1) (q t₀, p t₀) :=
        ContDiffAt.comp (g := fun y : V4 => (g a b).den y) (q t₀, p t₀) ((hsm t₀ ht₀ a b).contDiffAt_n 1) contDiffAt_fst
      have h2 : ∀ c : Fin 4, ContDiffAt ℝ 1 (fun z : V4 × V4 => z.2 c) (q t₀, p t₀) := fun c =>
        ContDiffAt.comp (g := fun y : V4 => y c) (q t₀, p t₀) (contDiff_apply ℝ ℝ c).contDiffAt contDiffAt_snd
      exact (h1.mul (h2 a)).mul (h2 b)
    obtain ⟨L, T, hT, hL⟩ := hN.exists_lipschitzOnWith
    have hsm' : ∀ᶠ z : V4 × V4 in 𝓝 (q t₀, p t₀), ∀ i j, (g i j).Smooth z.1 := by
      have : ∀ᶠ x in 𝓝 (q t₀), ∀ i j, (g i j).Smooth x :=
        Filter.eventually_all.mpr fun i => Filter.eventually_all.mpr fun j => (hsm t₀ ht₀ i j).eventually
      rw [nhds_prod_eq]
      exact Filter.tendsto_fst.eventually this
    obtain ⟨r, hr, hball⟩ := Metric.eventually_nhds_iff.mp ((Filter.eventually_mem_set.mpr hT).and hsm')
    have hc : ContinuousAt (fun t => (q t, p t)) t₀ := (hq t₀ ht₀).prodMk (hp t₀ ht₀)
    refine ⟨{t | dist (q t, p t) (q t₀, p t₀) < r / 2}, mem_nhdsWithin_of_mem_nhds (hc.eventually (Metric.ball_mem_nhds _ (half_pos hr))),
      L, r / 2, L.2, half_pos hr, fun t ht x u hx => ?_⟩
    have ht' : dist (q t, p t) (q t₀, p t₀) < r / 2 := ht
    have d1 : dist (x, u) (q t₀, p t₀) < r := by
      have := dist_triangle (x, u) (q t, p t) (q t₀, p t₀)
      linarith
    obtain ⟨m1, m2⟩ := hball d1
    obtain ⟨m3, -⟩ := hball (show dist (q t, p t) (q t₀, p t₀) < r by linarith)
    refine ⟨m2, ?_⟩
    have := hL.dist_le_mul _ m1 _ m3
    rwa [Real.dist_eq] at this

theorem rowOf_polar_inj {x u : V4} {s : PS} (h : polarRow s = rowOf "Spherical Polar" x u) : s.q1 = x ∧ s.p1 = u := by
  simp only [polarRow, rowOf, show ("Spherical Polar" = "Cartesian") = False by decide, if_false, List.cons.injEq] at h
  obtain ⟨h0, h1, h2, h3, h4, h5, h6, h7, -⟩ := h
  constructor
  · funext i; fin_cases i <;> assumption
  · funext i; fin_cases i <;> assumption

/-- What the trajectory theorems say about the integrator object itself. -/
theorem run_of (c : IntegCfg) (q p : ℝ → V4) (m : ℕ) (a b K δ₀ : ℝ)
    (ho : c.order = 2 ∨ c.order = 4 ∨ c.order = 6 ∨ c.order = 8)
    (hT : ∀ (tl : Bool) (coords : String) (kw : GeoKw), kw.omega = c.omega → kw.order = c.order →
      0 < kw.steps → |kw.delta| < δ₀ → kw.steps * kw.delta ∈ Set.Icc a b →
      ∃ st rows, calculateTrajectory c.metric (q 0) (p 0) tl coords kw = .ok (st, rows) ∧
        ∀ k : ℕ, (k : ℤ) < kw.steps → ∃ x u : V4, rows[k]? = some (rowOf coords x u) ∧
          ∀ i, |x i - q ((k + 1) * kw.delta) i| ≤ K * |kw.delta| ^ m ∧ |u i - p ((k + 1) * kw.delta) i| ≤ K * |kw.delta| ^ m)
    (tl sw : Bool) (δ rtol atol : ℝ) (N : ℕ) (hδ : |δ| < δ₀) (hin : N * δ ∈ Set.Icc a b) :
    ∃ I0 I, Integ.new c (q 0) (p 0) tl δ rtol atol sw = .ok I0 ∧ I0.runN N = .ok I ∧
      ∀ k < N, ∃ s, I.results[k]? = some s ∧ ∀ i, |s.q1 i - q ((k + 1) * δ) i| ≤ K * |δ| ^ m ∧
        |s.p1 i - p ((k + 1) * δ) i| ≤ K * |δ| ^ m := by
  have hI0 : Integ.new c (q 0) (p 0) tl δ rtol atol sw = .ok ⟨c, δ, tl, rtol, atol, sw, 0, (q 0, p 0, q 0, p 0), [], []⟩ := by
    unfold Integ.new
    exact if_neg (by rcases ho with e | e | e | e <;> rw [e] <;> decide)
  rcases Nat.eq_zero_or_pos N with h0 | hpos
  · subst h0
    exact ⟨_, _, hI0, rfl, fun k hk => absurd hk (Nat.not_lt_zero k)⟩
  obtain ⟨st, rows, h1, h2⟩ := hT tl "Spherical Polar" ⟨N, δ, rtol, atol, c.order, c.omega, sw⟩ rfl rfl
    (Int.natCast_pos.mpr hpos) hδ (by push_cast; exact hin)
  have hc : (⟨c.metric, c.omega, c.order⟩ : IntegCfg) = c := rfl
  unfold calculateTrajectory at h1
  simp only [hc, hI0, bind, Except.bind, Int.toNat_natCast] at h1
  cases hr : Integ.runN N ⟨c, δ, tl, rtol, atol, sw, 0, (q 0, p 0, q 0, p 0), [], []⟩ with
  | error e => rw [hr] at h1; cases h1
  | ok I =>
    refine ⟨_, I, hI0, hr, fun k hk => ?_⟩
    obtain ⟨r1, r2, r3⟩ := C34_rows _ _ _ _ _ _ _ _ N _ I hI0 hr
    have hne : I.results ≠ [] := by
      intro he
      rw [he] at r1
      simp only [List.length_nil] at r1
      omega
    rw [hr] at h1
    simp only [if_neg hne, show ("Spherical Polar" = "Cartesian") = False by decide, if_false] at h1
    have h3 : rows = I.results.map polarRow := (Prod.mk.inj (Except.ok.inj h1)).2.symm
    obtain ⟨s, s1, -⟩ := r3 k hk
    obtain ⟨x, u, hx, hb⟩ := h2 k (Int.ofNat_lt.mpr hk)
    rw [h3, List.getElem?_map, s1] at hx
    obtain ⟨e1, e2⟩ := rowOf_polar_inj (Option.some.inj hx)
    refine ⟨s, s1, ?_⟩
    rw [e1, e2]
    exact hb

/-- The bound on the norm from a bound on the state. -/
theorem shell_of (c : IntegCfg) (hs : ∀ i j (y : V4), (c.metric i j).den y = (c.metric j i).den y) (m : ℕ) (hm : 0 < m)
    (ho : c.order = 2 ∨ c.order = 4 ∨ c.order = 6 ∨ c.order = 8)
    (q p : ℝ → V4) (a b : ℝ) (ha : a ≤ 0) (hb : 0 ≤ b)
    (hsm : ∀ t ∈ Set.Icc a b, ∀ i j, (c.metric i j).Smooth (q t))
    (h : ∀ t ∈ Set.Icc a b, ∀ᶠ u in 𝓝 t, HamiltonAt c.metric q p u)
    (hT : ∃ K δ₀ : ℝ, 0 < δ₀ ∧ ∀ (tl : Bool) (coords : String) (kw : GeoKw), kw.omega = c.omega → kw.order = c.order →
      0 < kw.steps → |kw.delta| < δ₀ → kw.steps * kw.delta ∈ Set.Icc a b →
      ∃ st rows, calculateTrajectory c.metric (q 0) (p 0) tl coords kw = .ok (st, rows) ∧
        ∀ k : ℕ, (k : ℤ) < kw.steps → ∃ x u : V4, rows[k]? = some (rowOf coords x u) ∧
          ∀ i, |x i - q ((k + 1) * kw.delta) i| ≤ K * |kw.delta| ^ m ∧ |u i - p ((k + 1) * kw.delta) i| ≤ K * |kw.delta| ^ m)
    (tl : Bool) (hn : ∑ i, ∑ j, (c.metric i j).den (q 0) * p 0 i * p 0 j = if tl then -1 else 0) :
    ∃ K δ₀ : ℝ, 0 < δ₀ ∧ ∀ (δ rtol atol : ℝ) (sw : Bool) (N : ℕ), |δ| < δ₀ → N * δ ∈ Set.Icc a b →
      ∃ I0 I, Integ.new c (q 0) (p 0) tl δ rtol atol sw = .ok I0 ∧ I0.runN N = .ok I ∧ I.results.length = N ∧
        (∀ s ∈ I.results, ∃ G, evalMetric c.metric s.q1 = .ok G ∧
          |(∑ i, ∑ j, G i j * s.p1 i * s.p1 j) - if tl then -1 else 0| ≤ K * |δ| ^ m) ∧
        (K * |δ| ^ m ≤ atol + rtol * |if tl then -1 else 0| → I.warned = []) := by
  obtain ⟨K₁, δ₁, hδ₁, hT⟩ := hT
  have hH : ∀ t ∈ Set.Icc a b, HamiltonAt c.metric q p t := fun t ht => (h t ht).self_of_nhds
  have hq : ∀ t ∈ Set.Icc a b, ContinuousAt q t := fun t ht => continuousAt_pi.mpr fun i => ((hH t ht).dq i).continuousAt
  have hp : ∀ t ∈ Set.Icc a b, ContinuousAt p t := fun t ht => continuousAt_pi.mpr fun i => ((hH t ht).dp i).continuousAt
  -- the norm is constant
  have hd : ∀ t ∈ Set.Icc a b, HasDerivAt (fun t => normAt c.metric (q t) (p t)) 0 t := fun t ht => norm_deriv hs (hsm t ht) (hH t ht)
  have hconst : ∀ t ∈ Set.Icc a b, normAt c.metric (q t) (p t) = if tl then -1 else 0 := by
    intro t ht
    rw [← hn]
    have e := constant_of_has_deriv_right_zero (f := fun t => normAt c.metric (q t) (p t)) (a := a) (b := b)
      (fun t ht => (hd t ht).continuousAt.continuousWithinAt) (fun t ht => (hd t (Set.Ico_subset_Icc_self ht)).hasDerivWithinAt)
    exact (e t ht).trans (e 0 ⟨ha, hb⟩).symm
  obtain ⟨L, ρ, hL, hρ, hlip⟩ := norm_lip isCompact_Icc hsm hq hp
  -- small steps stay in the tube
  have hK0 : 0 ≤ |K₁| := abs_nonneg _
  refine ⟨L * |K₁|, min δ₁ (min 1 (ρ / (|K₁| + 1))), lt_min hδ₁ (lt_min one_pos (by positivity)), ?_⟩
  intro δ rtol atol sw N hδ hin
  obtain ⟨d1, d2⟩ := lt_min_iff.mp hδ
  obtain ⟨d2, d3⟩ := lt_min_iff.mp d2
  obtain ⟨I0, I, i0, i1, i2⟩ := run_of c q p m a b K₁ δ₁ ho hT tl sw δ rtol atol N d1 hin
  obtain ⟨r1, r2, r3⟩ := C34_rows _ _ _ _ _ _ _ _ N _ I i0 i1
  have hδm : |δ| ^ m ≤ |δ| := by
    calc |δ| ^ m ≤ |δ| ^ 1 := pow_le_pow_of_le_one (abs_nonneg _) d2.le hm
      _ = |δ| := pow_one _
  have hall : ∀ k ≤ N, (k : ℝ) * δ ∈ Set.Icc a b := by
    intro k hk
    have hk' : (k : ℝ) ≤ N := by exact_mod_cast hk
    rcases le_total 0 δ with hp | hp
    · have e1 : (k : ℝ) * δ ≤ N * δ := by gcongr
      have e0 : 0 ≤ (k : ℝ) * δ := by positivity
      exact ⟨by linarith, e1.trans hin.2⟩
    · have e1 : (N : ℝ) * δ ≤ k * δ := mul_le_mul_of_nonpos_right hk' hp
      have e0 : (k : ℝ) * δ ≤ 0 := mul_nonpos_of_nonneg_of_nonpos (by positivity) hp
      exact ⟨hin.1.trans e1, by linarith⟩
  have hres : ∀ s ∈ I.results, ∃ G, evalMetric c.metric s.q1 = .ok G ∧
      |(∑ i, ∑ j, G i j * s.p1 i * s.p1 j) - if tl then -1 else 0| ≤ L * |K₁| * |δ| ^ m := by
    intro s hsr
    obtain ⟨k, hk, hks⟩ := List.mem_iff_getElem.mp hsr
    obtain ⟨s', s1, s2⟩ := i2 k (by omega)
    have hss : s' = s := by
      rw [List.getElem?_eq_getElem hk, hks] at s1
      exact (Option.some.inj s1).symm
    subst hss
    have ht := hall (k + 1) (by omega)
    push_cast at ht
    have hdist : dist (s'.q1, s'.p1) (q ((k + 1) * δ), p ((k + 1) * δ)) ≤ |K₁| * |δ| ^ m := by
      rw [Prod.dist_eq]
      have hnn : 0 ≤ |K₁| * |δ| ^ m := by positivity
      have hle : K₁ * |δ| ^ m ≤ |K₁| * |δ| ^ m := by gcongr; exact le_abs_self _
      refine max_le ((dist_pi_le_iff hnn).mpr fun i => ?_) ((dist_pi_le_iff hnn).mpr fun i => ?_)
      · rw [Real.dist_eq]; exact (s2 i).1.trans hle
      · rw [Real.dist_eq]; exact (s2 i).2.trans hle
    have hlt : dist (s'.q1, s'.p1) (q ((k + 1) * δ), p ((k + 1) * δ)) < ρ := by
      refine hdist.trans_lt ?_
      have e1 : |K₁| * |δ| ^ m ≤ |K₁| * |δ| := by gcongr
      have e2 : |K₁| * |δ| ≤ (|K₁| + 1) * |δ| := by nlinarith [abs_nonneg δ]
      have e3 : (|K₁| + 1) * |δ| < ρ := by
        rw [lt_div_iff₀ (by positivity)] at d3
        linarith
      linarith
    obtain ⟨l1, l2⟩ := hlip _ ht s'.q1 s'.p1 hlt
    refine ⟨_, evalMetric_regular fun i j => (l1 i j).regular, ?_⟩
    rw [hconst _ ht] at l2
    refine l2.trans ?_
    calc L * dist (s'.q1, s'.p1) (q ((k + 1) * δ), p ((k + 1) * δ)) ≤ L * (|K₁| * |δ| ^ m) := by gcongr
      _ = L * |K₁| * |δ| ^ m := by ring
  refine ⟨I0, I, i0, i1, r1, hres, fun hle => ?_⟩
  obtain ⟨w1, w2, -⟩ := C67_warnings _ _ _ _ _ _ _ _ N _ I i0 i1
  cases sw with
  | true => exact w1 rfl
  | false =>
    refine List.eq_nil_iff_forall_not_mem.mpr fun n hnw => ?_
    obtain ⟨k, s, -, hks, G, hG, hoff⟩ := (w2 rfl n).mp hnw
    have hf : I.cfg = c ∧ I.timeLike = tl ∧ I.rtol = rtol ∧ I.atol = atol := by
      have i0' := i0
      unfold Integ.new at i0'
      split_ifs at i0'
      have hI := Except.ok.inj i0'
      subst hI
      obtain ⟨f1, f2, f3, f4, f5, -⟩ := runN_spec N _ I i1
      exact ⟨f1, f3, f4, f5⟩
    obtain ⟨f1, f2, f3, f4⟩ := hf
    obtain ⟨G', hG', hb'⟩ := hres s (List.mem_of_getElem? hks)
    rw [f1, hG'] at hG
    have hGG := Except.ok.inj hG
    subst hGG
    simp only [f2, f3, f4] at hoff
    linarith

/-- **C109**.  Let `q`, `p` solve Hamilton's equations of the (symmetric, smooth) metric near every parameter in
`[a, b] ∋ 0`, and let the starting momentum be on shell: `Σ g^ij p_i p_j` is `-1` (time-like) or `0` (null).  Then there are
`K` and `δ₀ > 0` such that the integrator, for every supported order, every `|delta| < δ₀` and every number of steps `N` with
`N·delta` in `[a, b]`, runs without an error, every state it records is off shell by at most `K·delta²`, and it prints no
warning at all as soon as `K·delta²` is at most the tolerance `atol + rtol·|const|`. -/
theorem C109_on_shell (c : IntegCfg) (ho : c.order = 2 ∨ c.order = 4 ∨ c.order = 6 ∨ c.order = 8)
    (hs : ∀ i j (y : V4), (c.metric i j).den y = (c.metric j i).den y)
    (q p : ℝ → V4) (a b : ℝ) (ha : a ≤ 0) (hb : 0 ≤ b)
    (hsm : ∀ t ∈ Set.Icc a b, ∀ i j, (c.metric i j).Smooth (q t))
    (h : ∀ t ∈ Set.Icc a b, ∀ᶠ u in 𝓝 t, HamiltonAt c.metric q p u)
    (tl : Bool) (hn : ∑ i, ∑ j, (c.metric i j).den (q 0) * p 0 i * p 0 j = if tl then -1 else 0) :
    ∃ K δ₀ : ℝ, 0 < δ₀ ∧ ∀ (δ rtol atol : ℝ) (sw : Bool) (N : ℕ), |δ| < δ₀ → N * δ ∈ Set.Icc a b →
      ∃ I0 I, Integ.new c (q 0) (p 0) tl δ rtol atol sw = .ok I0 ∧ I0.runN N = .ok I ∧ I.results.length = N ∧
        (∀ s ∈ I.results, ∃ G, evalMetric c.metric s.q1 = .ok G ∧
          |(∑ i, ∑ j, G i j * s.p1 i * s.p1 j) - if tl then -1 else 0| ≤ K * |δ| ^ 2) ∧
        (K * |δ| ^ 2 ≤ atol + rtol * |if tl then -1 else 0| → I.warned = []) :=
  shell_of c hs 2 (by norm_num) ho q p a b ha hb hsm h (C105_converges c ho hs q p a b ha hb hsm h) tl hn

/-- **C109** (order 4).  With `order = 4` the bound is `K·delta⁴`. -/
theorem C109_on_shell_order4 (c : IntegCfg) (ho : c.order = 4)
    (hs : ∀ i j (y : V4), (c.metric i j).den y = (c.metric j i).den y)
    (q p : ℝ → V4) (a b : ℝ) (ha : a ≤ 0) (hb : 0 ≤ b)
    (hsm : ∀ t ∈ Set.Icc a b, ∀ i j, (c.metric i j).Smooth (q t))
    (h : ∀ t ∈ Set.Icc a b, ∀ᶠ u in 𝓝 t, HamiltonAt c.metric q p u)
    (tl : Bool) (hn : ∑ i, ∑ j, (c.metric i j).den (q 0) * p 0 i * p 0 j = if tl then -1 else 0) :
    ∃ K δ₀ : ℝ, 0 < δ₀ ∧ ∀ (δ rtol atol : ℝ) (sw : Bool) (N : ℕ), |δ| < δ₀ → N * δ ∈ Set.Icc a b →
      ∃ I0 I, Integ.new c (q 0) (p 0) tl δ rtol atol sw = .ok I0 ∧ I0.runN N = .ok I ∧ I.results.length = N ∧
        (∀ s ∈ I.results, ∃ G, evalMetric c.metric s.q1 = .ok G ∧
          |(∑ i, ∑ j, G i j * s.p1 i * s.p1 j) - if tl then -1 else 0| ≤ K * |δ| ^ 4) ∧
        (K * |δ| ^ 4 ≤ atol + rtol * |if tl then -1 else 0| → I.warned = []) :=
  shell_of c hs 4 (by norm_num) (Or.inr (Or.inl ho)) q p a b ha hb hsm h (C105_converges_order4 c ho hs q p a b ha hb hsm h) tl hn

/-- The default tolerances of `Geodesic` are positive, so for every such run with small enough `delta` nothing is warned. -/
theorem C109_no_warnings (c : IntegCfg) (ho : c.order = 2 ∨ c.order = 4 ∨ c.order = 6 ∨ c.order = 8)
    (hs : ∀ i j (y : V4), (c.metric i j).den y = (c.metric j i).den y)
    (q p : ℝ → V4) (a b : ℝ) (ha : a ≤ 0) (hb : 0 ≤ b)
    (hsm : ∀ t ∈ Set.Icc a b, ∀ i j, (c.metric i j).Smooth (q t))
    (h : ∀ t ∈ Set.Icc a b, ∀ᶠ u in 𝓝 t, HamiltonAt c.metric q p u)
    (tl : Bool) (hn : ∑ i, ∑ j, (c.metric i j).den (q 0) * p 0 i * p 0 j = if tl then -1 else 0)
    (rtol atol : ℝ) (hr : 0 ≤ rtol) (hat : 0 < atol) :
    ∃ δ₀ > 0, ∀ (δ : ℝ) (N : ℕ), |δ| < δ₀ → N * δ ∈ Set.Icc a b →
      ∃ I0 I, Integ.new c (q 0) (p 0) tl δ rtol atol false = .ok I0 ∧ I0.runN N = .ok I ∧ I.warned = [] := by
  obtain ⟨K, δ₀, h0, hK⟩ := C109_on_shell c ho hs q p a b ha hb hsm h tl hn
  refine ⟨min δ₀ (min 1 (atol / (|K| + 1))), lt_min h0 (lt_min one_pos (by positivity)), fun δ N hδ hin => ?_⟩
  obtain ⟨d1, d2⟩ := lt_min_iff.mp hδ
  obtain ⟨d2, d3⟩ := lt_min_iff.mp d2
  obtain ⟨I0, I, i0, i1, -, -, i2⟩ := hK δ rtol atol false N d1 hin
  refine ⟨I0, I, i0, i1, i2 ?_⟩
  have e1 : K * |δ| ^ 2 ≤ |K| * |δ| ^ 2 := by gcongr; exact le_abs_self K
  have e2 : |K| * |δ| ^ 2 ≤ (|K| + 1) * |δ| := by nlinarith [abs_nonneg δ, abs_nonneg K, mul_nonneg (abs_nonneg K) (abs_nonneg δ)]
  have e3 : (|K| + 1) * |δ| < atol := by
    rw [lt_div_iff₀ (by positivity)] at d3
    linarith
  have e4 : 0 ≤ rtol * |if tl then (-1 : ℝ) else 0| := by positivity
  linarith

/-- The null geodesic `exQ`, `exP` of the metric `exR` meets the hypotheses on `[-1, 2]`. -/
example : (∀ i j (y : V4), (exR i j).den y = (exR j i).den y) ∧ (∀ t ∈ Set.Icc (-1 : ℝ) 2, ∀ i j, (exR i j).Smooth (exQ t)) ∧
    (∀ t ∈ Set.Icc (-1 : ℝ) 2, ∀ᶠ u in 𝓝 t, HamiltonAt exR exQ exP u) ∧
    ∑ i, ∑ j, (exR i j).den (exQ 0) * exP 0 i * exP 0 j = if false then -1 else 0 := by
  refine ⟨exR_symm, fun t _ => exR_smooth _, fun _ _ => Filter.Eventually.of_forall ex_hamilton, ?_⟩
  simp [exR_den, Fin.sum_univ_four, exQ, exP]

end Einpy
