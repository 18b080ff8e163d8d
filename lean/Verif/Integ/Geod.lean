import Verif.Integ.Order2

/-!
# Geodesics and Hamilton's equations: C106

The trajectories computed by `Geodesic` approximate solutions of the geodesic equation.
-/

namespace Einpy
open Classical Topology Asymptotics Finset

/-! ## specification -/

/-- `∂f/∂x^k` at `x` -/
noncomputable def partialAt (f : V4 → ℝ) (x : V4) (k : Fin 4) : ℝ := deriv (fun u => f (Function.update x k u)) (x k)

/-- Christoffel symbols `Γ^i_jk = ½ Σ_l g^{il} (∂_j g_lk + ∂_k g_lj - ∂_l g_jk)` of the metric `cov` with inverse `g`. -/
noncomputable def gammaAt (g : MetricFn) (cov : Fin 4 → Fin 4 → V4 → ℝ) (x : V4) (i j k : Fin 4) : ℝ :=
  1 / 2 * ∑ l, (g i l).den x * (partialAt (cov l k) x j + partialAt (cov l j) x k - partialAt (cov j k) x l)

/-- The curve `q` with velocity `v` satisfies the geodesic equation `v'^i + Σ Γ^i_jk v^j v^k = 0` at parameter `t`. -/
structure GeodesicAt (g : MetricFn) (cov : Fin 4 → Fin 4 → V4 → ℝ) (q v : ℝ → V4) (t : ℝ) : Prop where
  velocity : ∀ i, HasDerivAt (fun t => q t i) (v t i) t
  accel : ∀ i, HasDerivAt (fun t => v t i) (-∑ j, ∑ k, gammaAt g cov (q t) i j k * v t j * v t k) t

/-- `cov` is the inverse, a symmetric matrix of differentiable functions, near every smooth point of `g`. -/
structure InverseOf (g : MetricFn) (cov : Fin 4 → Fin 4 → V4 → ℝ) (x : V4) : Prop where
  smooth : ∀ i j, (g i j).Smooth x
  diff : ∀ a b, DifferentiableAt ℝ (cov a b) x
  symm : ∀ a b, ∀ᶠ y in 𝓝 x, cov a b y = cov b a y
  inv : ∀ a c, ∀ᶠ y in 𝓝 x, ∑ b, (g a b).den y * cov b c y = if a = c then 1 else 0

/-! ## proofs -/

theorem update_hasDerivAt (x : V4) (k : Fin 4) : HasDerivAt (fun u => Function.update x k u) (Pi.single k 1) (x k) := by
  have e : (fun u => Function.update x k u) = repl x k := by
    funext u i; simp [repl, Function.update_apply]
  rw [e]; exact hasDerivAt_repl x k

theorem partial_hasDerivAt {f : V4 → ℝ} {x : V4} (h : DifferentiableAt ℝ f x) (k : Fin 4) :
    HasDerivAt (fun u => f (Function.update x k u)) (partialAt f x k) (x k) := by
  have h1 : DifferentiableAt ℝ f (Function.update x k (x k)) := by rwa [Function.update_eq_self]
  exact (DifferentiableAt.comp (g := f) (x k) h1 (update_hasDerivAt x k).differentiableAt).hasDerivAt

theorem partialAt_eq {f : V4 → ℝ} {x : V4} (h : DifferentiableAt ℝ f x) (k : Fin 4) :
    partialAt f x k = fderiv ℝ f x (Pi.single k 1) := by
  refine (partial_hasDerivAt h k).unique ?_
  have h1 : HasFDerivAt f (fderiv ℝ f x) (Function.update x k (x k)) := by
    rw [Function.update_eq_self]; exact h.hasFDerivAt
  exact h1.comp_hasDerivAt (x k) (update_hasDerivAt x k)

theorem chain_partial {f : V4 → ℝ} {q : ℝ → V4} {t : ℝ} {v : V4} (h : DifferentiableAt ℝ f (q t))
    (hq : ∀ i, HasDerivAt (fun t => q t i) (v i) t) : HasDerivAt (fun t => f (q t)) (∑ k, partialAt f (q t) k * v k) t := by
  have hq' : HasDerivAt q v t := hasDerivAt_pi.mpr hq
  refine (h.hasFDerivAt.comp_hasDerivAt t hq').congr_deriv ?_
  have hv : v = ∑ k, v k • (Pi.single k 1 : V4) := by
    funext i
    rw [Finset.sum_apply, Finset.sum_eq_single i]
    · simp
    · intro k _ hk; simp [Pi.single_eq_of_ne (Ne.symm hk)]
    · simp
  conv_lhs => rw [hv, map_sum]
  refine sum_congr rfl fun k _ => ?_
  rw [map_smul, partialAt_eq h, smul_eq_mul, mul_comm]

theorem partial_congr {f f' : V4 → ℝ} {x : V4} (h : ∀ᶠ y in 𝓝 x, f y = f' y) (k : Fin 4) : partialAt f x k = partialAt f' x k := by
  unfold partialAt
  refine Filter.EventuallyEq.deriv_eq ?_
  have hc : Filter.Tendsto (fun u => Function.update x k u) (𝓝 (x k)) (𝓝 x) := by
    have := (update_hasDerivAt x k).continuousAt.tendsto
    rwa [Function.update_eq_self] at this
  exact hc.eventually h

/-- derivative of the inverse matrix, contracted with two vectors -/
theorem inverse_deriv {g : MetricFn} {cov : Fin 4 → Fin 4 → V4 → ℝ} {x : V4} (h : InverseOf g cov x)
    (hs : ∀ i j (y : V4), (g i j).den y = (g j i).den y) (v : V4) (k : Fin 4) :
    ∑ a, ∑ b, partialAt (fun y => (g a b).den y) x k * (∑ c, cov a c x * v c) * (∑ c, cov b c x * v c) =
      -∑ a, ∑ b, partialAt (cov a b) x k * v a * v b := by
  have hg : ∀ a b, DifferentiableAt ℝ (fun y => (g a b).den y) x := fun a b =>
    ((h.smooth a b).contDiffAt.differentiableAt (by norm_num))
  have hsy : ∀ a b, cov a b x = cov b a x := fun a b => (h.symm a b).self_of_nhds
  -- Σ_b ∂g^{ab} g_bc + g^{ab} ∂g_bc = 0
  have key : ∀ a c, ∑ b, (partialAt (fun y => (g a b).den y) x k * cov b c x + (g a b).den x * partialAt (cov b c) x k) = 0 := by
    intro a c
    have h1 : HasDerivAt (fun u => ∑ b, (g a b).den (Function.update x k u) * cov b c (Function.update x k u))
        (∑ b, (partialAt (fun y => (g a b).den y) x k * cov b c x + (g a b).den x * partialAt (cov b c) x k)) (x k) := by
      refine HasDerivAt.fun_sum fun b _ => ?_
      have e := (partial_hasDerivAt (hg a b) k).mul (partial_hasDerivAt (h.diff b c) k)
      simp only [Function.update_eq_self] at e
      exact e
    have hc : Filter.Tendsto (fun u => Function.update x k u) (𝓝 (x k)) (𝓝 x) := by
      have := (update_hasDerivAt x k).continuousAt.tendsto
      rwa [Function.update_eq_self] at this
    have h2 : HasDerivAt (fun u => ∑ b, (g a b).den (Function.update x k u) * cov b c (Function.update x k u)) 0 (x k) :=
      (hasDerivAt_const (x k) (if a = c then (1 : ℝ) else 0)).congr_of_eventuallyEq (hc.eventually (h.inv a c))
    exact h1.unique h2
  -- p_a g^{ab} = v^b
  have hpv : ∀ b, ∑ a, (∑ c, cov a c x * v c) * (g a b).den x = v b := by
    intro b
    have e : ∀ a, (∑ c, cov a c x * v c) * (g a b).den x = ∑ c, (g b a).den x * cov a c x * v c := by
      intro a
      rw [sum_mul]
      exact sum_congr rfl fun c _ => by rw [hs a b x]; ring
    simp only [e]
    rw [sum_comm]
    have e2 : ∀ c, ∑ a, (g b a).den x * cov a c x * v c = (if b = c then 1 else 0) * v c := by
      intro c
      rw [← sum_mul, (h.inv b c).self_of_nhds]
    simp only [e2, ite_mul, one_mul, zero_mul, sum_ite_eq, mem_univ, if_true]
  calc ∑ a, ∑ b, partialAt (fun y => (g a b).den y) x k * (∑ c, cov a c x * v c) * (∑ c, cov b c x * v c)
      = ∑ a, (∑ c, cov a c x * v c) * ∑ c, v c * ∑ b, partialAt (fun y => (g a b).den y) x k * cov b c x := by
        refine sum_congr rfl fun a _ => ?_
        generalize ∑ c, cov a c x * v c = pa
        simp only [mul_sum]
        rw [sum_comm]
        exact sum_congr rfl fun b _ => sum_congr rfl fun c _ => by ring
    _ = ∑ a, (∑ c, cov a c x * v c) * ∑ c, v c * -∑ b, (g a b).den x * partialAt (cov b c) x k := by
        refine sum_congr rfl fun a _ => ?_
        congr 1
        refine sum_congr rfl fun c _ => ?_
        congr 1
        have := key a c
        rw [sum_add_distrib] at this
        linarith
    _ = -∑ b, (∑ a, (∑ c, cov a c x * v c) * (g a b).den x) * ∑ c, partialAt (cov b c) x k * v c := by
        generalize (fun a => ∑ c, cov a c x * v c) = P
        simp only [mul_sum, sum_mul, mul_neg, sum_neg_distrib]
        congr 1
        simp only [Fin.sum_univ_four]
        ring
    _ = _ := by
        simp only [hpv, mul_sum]
        congr 1
        exact sum_congr rfl fun a _ => sum_congr rfl fun b _ => by ring

/-- A geodesic, with the momentum `p_a = Σ_b g_ab v^b`, solves Hamilton's equations. -/
theorem geodesic_hamilton {g : MetricFn} {cov : Fin 4 → Fin 4 → V4 → ℝ} {q v : ℝ → V4} {t : ℝ}
    (hs : ∀ i j (y : V4), (g i j).den y = (g j i).den y) (hi : InverseOf g cov (q t)) (h : GeodesicAt g cov q v t) :
    HamiltonAt g q (fun t a => ∑ b, cov a b (q t) * v t b) t := by
  have hsy : ∀ a b, cov a b (q t) = cov b a (q t) := fun a b => (hi.symm a b).self_of_nhds
  constructor
  · intro i
    refine (h.velocity i).congr_deriv ?_
    simp only [mul_sum]
    rw [sum_comm]
    have e : ∀ c, ∑ b, (g i b).den (q t) * (cov b c (q t) * v t c) = (if i = c then 1 else 0) * v t c := by
      intro c
      rw [← (hi.inv i c).self_of_nhds, sum_mul]
      exact sum_congr rfl fun b _ => by ring
    simp only [e, ite_mul, one_mul, zero_mul, sum_ite_eq, mem_univ, if_true]
  · intro a
    have h1 : HasDerivAt (fun t => ∑ b, cov a b (q t) * v t b)
        (∑ b, ((∑ k, partialAt (cov a b) (q t) k * v t k) * v t b +
          cov a b (q t) * -∑ j, ∑ k, gammaAt g cov (q t) b j k * v t j * v t k)) t :=
      HasDerivAt.fun_sum fun b _ => (chain_partial (hi.diff a b) h.velocity).mul (h.accel b)
    refine h1.congr_deriv ?_
    have hinv : ∀ l, ∑ b, cov a b (q t) * (g b l).den (q t) = if a = l then 1 else 0 := by
      intro l
      have e := (hi.inv l a).self_of_nhds
      rw [show (if a = l then (1 : ℝ) else 0) = if l = a then 1 else 0 by simp only [eq_comm], ← e]
      exact sum_congr rfl fun b _ => by rw [hsy a b, hs b l]; ring
    have hΓ : ∀ j k, ∑ b, cov a b (q t) * gammaAt g cov (q t) b j k =
        1 / 2 * (partialAt (cov a k) (q t) j + partialAt (cov a j) (q t) k - partialAt (cov j k) (q t) a) := by
      intro j k
      have e : ∀ b, cov a b (q t) * gammaAt g cov (q t) b j k = ∑ l, (cov a b (q t) * (g b l).den (q t)) *
          (1 / 2 * (partialAt (cov l k) (q t) j + partialAt (cov l j) (q t) k - partialAt (cov j k) (q t) l)) := by
        intro b
        simp only [gammaAt, mul_sum]
        exact sum_congr rfl fun l _ => by ring
      simp only [e]
      rw [sum_comm]
      simp only [← sum_mul, hinv, ite_mul, one_mul, zero_mul, sum_ite_eq, mem_univ, if_true]
    have hacc : ∑ b, cov a b (q t) * -∑ j, ∑ k, gammaAt g cov (q t) b j k * v t j * v t k =
        -∑ j, ∑ k, (∑ b, cov a b (q t) * gammaAt g cov (q t) b j k) * v t j * v t k := by
      simp only [mul_neg, sum_neg_distrib, mul_sum, sum_mul]
      congr 1
      rw [sum_comm]
      refine sum_congr rfl fun j _ => ?_
      rw [sum_comm]
      exact sum_congr rfl fun k _ => sum_congr rfl fun b _ => by ring
    have hJ := inverse_deriv hi hs (v t) a
    unfold partialAt at hJ
    rw [hJ, sum_add_distrib, hacc]
    simp only [hΓ]
    change _ = -(1 / 2) * -∑ j, ∑ k, partialAt (cov j k) (q t) a * v t j * v t k
    simp only [sum_mul, Fin.sum_univ_four]
    ring

/-- **C106**.  Let `q` with velocity `v` be a geodesic of the metric `cov` near every parameter in `[a, b] ∋ 0`, where the
metric function passed to the integrator is the inverse of `cov` and is smooth.  Then the trajectory computed from `q(0)` and
the momentum `p_a = Σ_b g_ab v^b(0)` with any supported order succeeds for all small step sizes and its row number `k` shows
the position `q((k+1)·delta)` and the momentum `Σ_b g_ab v^b` there, up to `K·delta²` in every component. -/
theorem C106_geodesic (c : IntegCfg) (ho : c.order = 2 ∨ c.order = 4 ∨ c.order = 6 ∨ c.order = 8)
    (hs : ∀ i j (y : V4), (c.metric i j).den y = (c.metric j i).den y) (cov : Fin 4 → Fin 4 → V4 → ℝ)
    (q v : ℝ → V4) (a b : ℝ) (ha : a ≤ 0) (hb : 0 ≤ b)
    (hi : ∀ t ∈ Set.Icc a b, ∀ᶠ u in 𝓝 t, InverseOf c.metric cov (q u))
    (h : ∀ t ∈ Set.Icc a b, ∀ᶠ u in 𝓝 t, GeodesicAt c.metric cov q v u) :
    ∃ K δ₀ : ℝ, 0 < δ₀ ∧ ∀ (tl : Bool) (coords : String) (kw : GeoKw), kw.omega = c.omega → kw.order = c.order →
      0 < kw.steps → |kw.delta| < δ₀ → kw.steps * kw.delta ∈ Set.Icc a b →
      ∃ st rows, calculateTrajectory c.metric (q 0) (fun i => ∑ j, cov i j (q 0) * v 0 j) tl coords kw = .ok (st, rows) ∧
        ∀ k : ℕ, (k : ℤ) < kw.steps → ∃ x u : V4, rows[k]? = some (rowOf coords x u) ∧
          ∀ i, |x i - q ((k + 1) * kw.delta) i| ≤ K * |kw.delta| ^ 2 ∧
            |u i - ∑ j, cov i j (q ((k + 1) * kw.delta)) * v ((k + 1) * kw.delta) j| ≤ K * |kw.delta| ^ 2 :=
  C105_converges c ho hs q (fun t i => ∑ j, cov i j (q t) * v t j) a b ha hb
    (fun t ht => (hi t ht).self_of_nhds.smooth)
    fun t ht => by filter_upwards [hi t ht, h t ht] with u h1 h2 using geodesic_hamilton hs h1 h2

/-! ## an explicit geodesic -/

/-- the metric whose inverse is `exR` -/
noncomputable def exCov (a b : Fin 4) (x : V4) : ℝ := if a = b then (if a = 0 then -(x 1 * x 1)⁻¹ else 1) else 0

/-- velocity of `exQ` -/
noncomputable def exV (t : ℝ) : V4 := ![-(Real.cosh t * Real.cosh t), Real.sinh t, 1, 0]

theorem exCov_diff (a b : Fin 4) (x : V4) (hx : x 1 ≠ 0) : DifferentiableAt ℝ (exCov a b) x := by
  unfold exCov
  split_ifs
  · have h1 : DifferentiableAt ℝ (fun x : V4 => x 1) x := differentiableAt_apply 1 x
    exact ((h1.mul h1).inv (mul_ne_zero hx hx)).neg
  · exact differentiableAt_const _
  · exact differentiableAt_const _

theorem exCov_partial (a b k : Fin 4) (x : V4) (hx : x 1 ≠ 0) :
    partialAt (exCov a b) x k = if k = 1 ∧ a = 0 ∧ b = 0 then 2 / x 1 ^ 3 else 0 := by
  unfold partialAt exCov
  by_cases hab : a = b
  · subst hab
    by_cases h0 : a = 0
    · subst h0
      by_cases hk : k = 1
      · subst hk
        simp only [if_true, Function.update_self, and_self]
        have h1 : HasDerivAt (fun u : ℝ => u * u) (1 * x 1 + x 1 * 1) (x 1) := (hasDerivAt_id (x 1)).mul (hasDerivAt_id (x 1))
        have h := ((h1.inv (mul_ne_zero hx hx)).neg).deriv
        refine h.trans ?_
        field_simp
        ring
      · simp [Function.update_of_ne (Ne.symm hk), hk]
    · simp [h0]
  · have : ¬ (k = 1 ∧ a = 0 ∧ b = 0) := by rintro ⟨-, rfl, rfl⟩; exact hab rfl
    simp [hab, this]

theorem ex_inverse (x : V4) (hx : x 1 ≠ 0) : InverseOf exR exCov x := by
  refine ⟨fun i j => exR_smooth x i j, fun a b => exCov_diff a b x hx, fun a b => Filter.Eventually.of_forall fun y => ?_, fun a c => ?_⟩
  · unfold exCov
    by_cases hab : a = b
    · rw [hab]
    · rw [if_neg hab, if_neg (Ne.symm hab)]
  · have hc : ContinuousAt (fun y : V4 => y 1) x := (continuous_apply 1).continuousAt
    filter_upwards [hc.eventually_ne hx] with y hy
    simp only [exR_den, exCov]
    fin_cases a <;> fin_cases c <;> simp <;> field_simp

theorem ex_geodesic (t : ℝ) : GeodesicAt exR exCov exQ exV t := by
  have hx : exQ t 1 ≠ 0 := (Real.cosh_pos t).ne'
  constructor
  · intro i
    have h := (ex_hamilton t).dq i
    refine h.congr_deriv ?_
    simp only [exR_den]
    fin_cases i <;> simp [exP, exV, exQ]
  · intro i
    have hc : Real.cosh t ≠ 0 := (Real.cosh_pos t).ne'
    have e1 : exQ t 1 = Real.cosh t := rfl
    simp only [gammaAt, exCov_partial _ _ _ _ hx, exR_den, e1]
    fin_cases i
    · have h : HasDerivAt (fun t : ℝ => -(Real.cosh t * Real.cosh t)) (-(Real.sinh t * Real.cosh t + Real.cosh t * Real.sinh t)) t :=
        ((Real.hasDerivAt_cosh t).mul (Real.hasDerivAt_cosh t)).neg
      refine h.congr_deriv ?_
      simp [Fin.sum_univ_four, exV]
      field_simp
      try ring
    · refine (Real.hasDerivAt_sinh t).congr_deriv ?_
      simp [Fin.sum_univ_four, exV]
      field_simp
    · refine (hasDerivAt_const t (1 : ℝ)).congr_deriv ?_
      simp [Fin.sum_univ_four]
    · refine (hasDerivAt_const t (0 : ℝ)).congr_deriv ?_
      simp [Fin.sum_univ_four]

/-- The hypotheses of C106 hold for this metric and geodesic, on `[-1, 2]`. -/
example : (∀ t ∈ Set.Icc (-1 : ℝ) 2, ∀ᶠ u in 𝓝 t, InverseOf exR exCov (exQ u)) ∧
    ∀ t ∈ Set.Icc (-1 : ℝ) 2, ∀ᶠ u in 𝓝 t, GeodesicAt exR exCov exQ exV u :=
  ⟨fun _ _ => Filter.Eventually.of_forall fun u => ex_inverse _ (Real.cosh_pos u).ne',
    fun _ _ => Filter.Eventually.of_forall ex_geodesic⟩

end Einpy
