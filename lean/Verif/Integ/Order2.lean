import Mathlib.Analysis.SpecialFunctions.Trigonometric.DerivHyp
import Verif.Integ.Order

/-!
# Orders 6 and 8 are not better than order 2 (C104), and an explicit solution
-/

namespace Einpy
open Classical Topology Asymptotics Finset Einpy.Flow
open scoped ContDiff

/-- Leading error of one step: the third-order error of the order-2 step times the sum of the cubes of the weights. -/
theorem error_lead (c : IntegCfg) (ho : Supported c.order)
    (hs : ∀ i j (y : V4), (c.metric i j).den y = (c.metric j i).den y) (y : ℝ → PS) (hy : y 0 ∈ goodSet c.metric)
    (hd : ∀ᶠ t in 𝓝 (0 : ℝ), HasDerivAt y ((fX c.metric c.omega).1 (y t)) t) :
    ∃ C : ℝ, ∀ᶠ δ in 𝓝 (0 : ℝ), ∃ s, orderStep c (y 0) δ = .ok s ∧
      ‖s - y δ - (((usedWeights c.order).map (· ^ 3)).sum * δ ^ 3) • ((ser2 c.metric c.omega 3 -
        (1 / 6 : ℝ) • lie (goodSet_open c.metric) (fX c.metric c.omega) ^ 3) (idFn _)).1 (y 0)‖ ≤ C * |δ| ^ 4 := by
  obtain ⟨S⟩ := orderStep_series c ho hs
  have h1 := expand_solution (goodSet_open c.metric) (fX c.metric c.omega) y hy hd 4 (idFn _)
  have hq : Filter.Tendsto (fun t : ℝ => (t, y 0)) (𝓝 0) (𝓝 0 ×ˢ 𝓝 (y 0)) :=
    Filter.tendsto_id.prodMk tendsto_const_nhds
  have h2 := (S.expands.exp (y 0) hy (idFn _) 4).comp_tendsto hq
  obtain ⟨C, hC⟩ := (h2.sub h1).bound
  refine ⟨C, ?_⟩
  filter_upwards [hC, hq.eventually (S.runs (y 0) hy)] with δ hδ hr
  refine ⟨_, hr, ?_⟩
  simp only [Function.comp] at hδ
  rw [norm_pow, Real.norm_eq_abs] at hδ
  refine le_trans (le_of_eq (congrArg norm ?_)) hδ
  obtain ⟨e0, e1, e2⟩ := ser2_coeffs c.metric c.omega
  obtain ⟨-, -, -, k3⟩ := listSer_coeffs e0 e1 e2 (usedWeights c.order)
  rw [usedWeights_sum c ho] at k3
  have ha := orderStep_agrees c ho
  rw [sum_range_succ, sum_range_succ (n := 3),
    sum_congr rfl fun k hk => by rw [ha k (mem_range.mp hk)]]
  have k3' : (listSer (ser2 c.metric c.omega) (usedWeights c.order) 3 (idFn _)).1 (y 0) =
      (expSer 1 (lie (goodSet_open c.metric) (fX c.metric c.omega)) 3 (idFn _)).1 (y 0) +
      ((usedWeights c.order).map (· ^ 3)).sum • ((ser2 c.metric c.omega 3 -
        (1 / 6 : ℝ) • lie (goodSet_open c.metric) (fX c.metric c.omega) ^ 3) (idFn _)).1 (y 0) := by
    rw [k3, LinearMap.add_apply]
    have e : ((1 : ℝ) ^ 3 / 6) • lie (goodSet_open c.metric) (fX c.metric c.omega) ^ 3 =
        expSer 1 (lie (goodSet_open c.metric) (fX c.metric c.omega)) 3 := by norm_num [expSer, Nat.factorial]
    rw [e]
    rfl
  rw [k3', smul_add, smul_smul, mul_comm (δ ^ 3)]
  show _ = (S.Φ δ (y 0) - _) - (y δ - _)
  abel

/-! ## an explicit example -/

/-- The inverse metric `diag(-x², 1, 1, 1)` where `x` is the second coordinate. -/
noncomputable def exR : MetricFn := fun i j =>
  if i = j then (match i with
    | 0 => .neg (.mul (.var 1) (.var 1))
    | _ => .const 1)
  else .const 0

theorem exR_smooth (x : V4) (i j : Fin 4) : (exR i j).Smooth x := by
  fin_cases i <;> fin_cases j <;> simp [exR, Expr.Smooth]

theorem exR_symm (i j : Fin 4) (y : V4) : (exR i j).den y = (exR j i).den y := by
  fin_cases i <;> fin_cases j <;> simp [exR, Expr.den]

theorem exR_den (i j : Fin 4) (y : V4) : (exR i j).den y = if i = j then (if i = 0 then -(y 1 * y 1) else 1) else 0 := by
  fin_cases i <;> fin_cases j <;> simp [exR, Expr.den]

theorem exR_deriv (y : V4) (k i j : Fin 4) :
    HasDerivAt (fun x => (exR i j).den (Function.update y k x)) (if k = 1 ∧ i = 0 ∧ j = 0 then -(2 * y 1) else 0) (y k) := by
  simp only [exR_den]
  by_cases hij : i = j
  · subst hij
    by_cases hi : i = 0
    · subst hi
      by_cases hk : k = 1
      · subst hk
        simp only [if_true, Function.update_self, and_self]
        exact (((hasDerivAt_id (y 1)).mul (hasDerivAt_id (y 1))).neg).congr_deriv (by simp; ring)
      · simp only [if_true, Function.update_of_ne (Ne.symm hk), hk, false_and, if_false]
        exact hasDerivAt_const _ _
    · simp only [hi, if_false, false_and, and_false]
      exact hasDerivAt_const _ _
  · have : ¬ (k = 1 ∧ i = 0 ∧ j = 0) := by rintro ⟨-, rfl, rfl⟩; exact hij rfl
    simp only [hij, this, if_false]
    exact hasDerivAt_const _ _

/-- A solution of Hamilton's equations for `exR`. -/
noncomputable def exQ (t : ℝ) : V4 := ![-(t / 2 + Real.sinh (2 * t) / 4), Real.cosh t, t, 0]
/-- see `exQ` -/
noncomputable def exP (t : ℝ) : V4 := ![1, Real.sinh t, 1, 0]

theorem ex_hamilton (t : ℝ) : HamiltonAt exR exQ exP t := by
  constructor
  · intro i
    simp only [exR_den]
    fin_cases i
    · have h : HasDerivAt (fun t : ℝ => -(t / 2 + Real.sinh (2 * t) / 4)) (-(1 / 2 + Real.cosh (2 * t) * 2 / 4)) t := by
        have h2 : HasDerivAt (fun t : ℝ => 2 * t) 2 t := by simpa using (hasDerivAt_id t).const_mul 2
        exact (((hasDerivAt_id t).div_const 2).add (h2.sinh.div_const 4)).neg
      refine h.congr_deriv ?_
      rw [Real.cosh_two_mul]
      have := Real.cosh_sq t
      simp [Fin.sum_univ_four, exQ, exP]
      nlinarith
    · refine (Real.hasDerivAt_cosh t).congr_deriv ?_
      simp [Fin.sum_univ_four, exP]
    · refine (hasDerivAt_id t).congr_deriv ?_
      simp [Fin.sum_univ_four, exP]
    · refine (hasDerivAt_const t (0 : ℝ)).congr_deriv ?_
      simp [Fin.sum_univ_four, exP]
  · intro i
    have e : ∀ a b, deriv (fun x => (exR a b).den (Function.update (exQ t) i x)) (exQ t i) =
        if i = 1 ∧ a = 0 ∧ b = 0 then -(2 * exQ t 1) else 0 := fun a b => (exR_deriv (exQ t) i a b).deriv
    simp only [e]
    fin_cases i
    · refine (hasDerivAt_const t (1 : ℝ)).congr_deriv ?_
      simp
    · refine (Real.hasDerivAt_sinh t).congr_deriv ?_
      simp [Fin.sum_univ_four, exP, exQ]
    · refine (hasDerivAt_const t (1 : ℝ)).congr_deriv ?_
      simp
    · refine (hasDerivAt_const t (0 : ℝ)).congr_deriv ?_
      simp

/-- The hypotheses of C104 and C105 hold for this metric and this solution, on `[-1, 2]`. -/
example : (∀ i j (y : V4), (exR i j).den y = (exR j i).den y) ∧
    (∀ t ∈ Set.Icc (-1 : ℝ) 2, ∀ i j, (exR i j).Smooth (exQ t)) ∧
    (∀ t ∈ Set.Icc (-1 : ℝ) 2, ∀ᶠ u in 𝓝 t, HamiltonAt exR exQ exP u) :=
  ⟨exR_symm, fun t _ i j => exR_smooth _ i j, fun t _ => Filter.Eventually.of_forall ex_hamilton⟩

/-! ## the order-2 step of the example -/

theorem exR_gradQ (q p : V4) (k : Fin 4) : gradQ exR (q, p) k = if k = 1 then -(q 1 * p 0 ^ 2) else 0 := by
  have hJ : ∀ a b, HasDerivAt (slice exR q k a b) (if k = 1 ∧ a = 0 ∧ b = 0 then -(2 * q 1) else 0) (q k) := by
    intro a b
    have e : slice exR q k a b = fun x => (exR a b).den (Function.update q k x) := by
      funext x
      unfold slice
      congr 1
      funext k
      simp [Function.update_apply]
    rw [e]; exact exR_deriv q k a b
  rw [gradQ_eq exR q p (exR_smooth q) k _ hJ, dot4_matVec]
  by_cases hk : k = 1
  · simp [hk, Fin.sum_univ_four]; ring
  · simp [hk]

theorem exR_gradP (q p : V4) : gradP exR (q, p) 1 = p 1 := by
  rw [gradP_eq exR q p (exR_smooth q) exR_symm]
  simp [matVec, exR_den, Fin.sum_univ_four]

/-- what the three kinds of sub-steps do to `q1[1]`, `p1[1]`, `p2[0]` when `ω = 0` -/
theorem ex_A (ε : ℝ) (s : PS) : ∃ s', runSub exR 0 (.A ε) s = .ok s' ∧ s'.q1 1 = s.q1 1 ∧
    s'.p1 1 = s.p1 1 + ε * (s.q1 1 * s.p2 0 ^ 2) ∧ s'.p2 0 = s.p2 0 := by
  refine ⟨_, runSub_A_smooth exR exR_symm 0 ε s (exR_smooth _), rfl, ?_, rfl⟩
  show s.2.1 1 - ε * gradQ exR (s.1, s.2.2.2) 1 = s.2.1 1 + ε * (s.1 1 * s.2.2.2 0 ^ 2)
  rw [exR_gradQ, if_pos rfl]; ring

theorem ex_B (ε : ℝ) (s : PS) : ∃ s', runSub exR 0 (.B ε) s = .ok s' ∧ s'.q1 1 = s.q1 1 + ε * s.p1 1 ∧
    s'.p1 1 = s.p1 1 ∧ s'.p2 0 = s.p2 0 := by
  refine ⟨_, runSub_B_swap exR 0 ε s _ (runSub_A_smooth exR exR_symm 0 ε (swapC s) (exR_smooth _)), ?_, rfl, ?_⟩
  · show s.1 1 + ε * gradP exR (s.2.2.1, s.2.1) 1 = s.1 1 + ε * s.2.1 1
    rw [exR_gradP]
  · show s.2.2.2 0 - ε * gradQ exR (s.2.2.1, s.2.1) 0 = s.2.2.2 0
    rw [exR_gradQ, if_neg (by decide)]; ring

theorem ex_M (ε : ℝ) (s : PS) : ∃ s', runSub exR 0 (.M ε) s = .ok s' ∧ s'.q1 1 = s.q1 1 ∧ s'.p1 1 = s.p1 1 ∧ s'.p2 0 = s.p2 0 := by
  refine ⟨_, rfl, ?_, ?_, ?_⟩ <;>
    simp [flowMixed, PS.q1, PS.p1, PS.p2] <;> ring

/-- the order-2 step from `(exQ 0, exP 0)`: the first copy of the momentum component number 1 is `δ + δ³/4` -/
theorem ex_ord2 (δ : ℝ) (s : PS) (h : ord2 ⟨exR, 0, 2⟩ (twin exQ exP 0) δ = .ok s) : s.p1 1 = δ + δ ^ 3 / 4 := by
  rw [ord2_eq] at h
  obtain ⟨s1, a1, b1, c1, d1⟩ := ex_A (0.5 * δ) (twin exQ exP 0)
  obtain ⟨s2, a2, b2, c2, d2⟩ := ex_B (0.5 * δ) s1
  obtain ⟨s3, a3, b3, c3, d3⟩ := ex_M δ s2
  obtain ⟨s4, a4, b4, c4, d4⟩ := ex_B (0.5 * δ) s3
  obtain ⟨s5, a5, b5, c5, d5⟩ := ex_A (0.5 * δ) s4
  simp only [subs2, runSubs, a1, a2, a3, a4, a5, bind, Except.bind] at h
  have := Except.ok.inj h
  subst this
  have q0 : (twin exQ exP 0).q1 1 = 1 := by simp [twin, PS.q1, exQ]
  have p0 : (twin exQ exP 0).p1 1 = 0 := by simp [twin, PS.p1, exP]
  have z0 : (twin exQ exP 0).p2 0 = 1 := by simp [twin, PS.p2, exP]
  rw [q0, p0, z0] at c1
  rw [z0] at d1
  rw [q0] at b1
  rw [b1, c1] at b2
  rw [c5, b4, c4, d4, d3, d2, d1, b3, b2, c3, c2, c1]
  ring

theorem sinh_near {δ : ℝ} (h : |δ| ≤ 1) : |Real.sinh δ - (δ + δ ^ 3 / 6)| ≤ |δ| ^ 4 := by
  have h1 := Real.exp_bound h (n := 4) (by norm_num)
  have h2 := Real.exp_bound (x := -δ) (by rwa [abs_neg]) (n := 4) (by norm_num)
  rw [abs_neg] at h2
  simp only [sum_range_succ, range_zero, sum_empty, Nat.factorial] at h1 h2
  have hp : 0 ≤ |δ| ^ 4 := by positivity
  rw [Real.sinh_eq]
  rw [abs_le] at *
  norm_num at h1 h2
  constructor <;> nlinarith [h1.1, h1.2, h2.1, h2.2]

theorem cube_zero {v C : ℝ} (h : ∀ᶠ δ in 𝓝 (0 : ℝ), |v * δ ^ 3| ≤ C * |δ| ^ 4) : v = 0 := by
  by_contra hv
  have hv' : 0 < |v| := abs_pos.mpr hv
  obtain ⟨ε, hε, hb⟩ := Metric.eventually_nhds_iff.mp h
  let d := min (ε / 2) (|v| / (2 * (|C| + 1)))
  have hd : 0 < d := lt_min (by positivity) (by positivity)
  have hd1 : d ≤ ε / 2 := min_le_left _ _
  have hd2 : d ≤ |v| / (2 * (|C| + 1)) := min_le_right _ _
  have hb' := hb (y := d) (by rw [Real.dist_eq, sub_zero, abs_of_pos hd]; linarith)
  rw [abs_mul, abs_of_pos hd, abs_of_pos (pow_pos hd 3), show C * d ^ 4 = C * d * d ^ 3 by ring] at hb'
  have h3 := le_of_mul_le_mul_right hb' (pow_pos hd 3)
  rw [le_div_iff₀ (by positivity)] at hd2
  have := le_abs_self C
  nlinarith [mul_le_mul_of_nonneg_right this hd.le, abs_nonneg C]

/-- **C104** (refuted for orders 6 and 8).  For the metric `diag(-x², 1, 1, 1)`, the explicit solution `exQ`, `exP` and
`ω = 0` the error of one step of order 6 or 8 is *not* bounded by a multiple of `|δ|⁴`: these orders have the same order
of accuracy as order 2. -/
theorem C104_order6_8_refuted (order : Int) (ho : order = 6 ∨ order = 8) :
    ¬ ∃ C : ℝ, ∀ᶠ δ in 𝓝 (0 : ℝ), ∃ s, orderStep ⟨exR, 0, order⟩ (exQ 0, exP 0, exQ 0, exP 0) δ = .ok s ∧
      ‖s - (exQ δ, exP δ, exQ δ, exP δ)‖ ≤ C * |δ| ^ 4 := by
  rintro ⟨C, hC⟩
  have hgood : twin exQ exP 0 ∈ goodSet exR := ⟨fun i j => exR_smooth _ i j, fun i j => exR_smooth _ i j⟩
  have hsol := twin_solves_near 0 exR_symm (fun i j => exR_smooth (exQ 0) i j) (Filter.Eventually.of_forall ex_hamilton)
  have hcomp : ∀ s : PS, |s.2.1 1| ≤ ‖s‖ := fun s => (norm_le_pi_norm s.2.1 1).trans ((norm_fst_le s.2).trans (norm_snd_le s))
  obtain ⟨C2, h2⟩ := error_lead ⟨exR, 0, 2⟩ (Or.inl rfl) exR_symm (twin exQ exP) hgood hsol
  obtain ⟨C6, h6⟩ := error_lead ⟨exR, 0, order⟩ (Or.inr (Or.inr ho)) exR_symm (twin exQ exP) hgood hsol
  have hκ := usedWeights_cubes ⟨exR, 0, order⟩ ho
  simp only at h2 h6 hκ
  generalize ((ser2 exR 0 3 - (1 / 6 : ℝ) • lie (goodSet_open exR) (fX exR 0) ^ 3) (idFn _)).1 (twin exQ exP 0) = v at h2 h6
  generalize ((usedWeights order).map (· ^ 3)).sum = κ at h6 hκ
  have hsmall : ∀ᶠ δ in 𝓝 (0 : ℝ), |δ| ≤ 1 := by
    filter_upwards [Metric.ball_mem_nhds (0 : ℝ) one_pos] with t ht
    rw [Metric.mem_ball, Real.dist_eq, sub_zero] at ht
    exact ht.le
  -- the leading coefficient is 1/12
  have hv : v.2.1 1 = 1 / 12 := by
    have : 1 / 12 - v.2.1 1 = 0 := by
      refine cube_zero (C := C2 + 1) ?_
      filter_upwards [h2, hsmall] with δ ⟨s, e1, e2⟩ hδ
      have e3 : ord2 ⟨exR, 0, 2⟩ (twin exQ exP 0) δ = .ok s := e1
      have e4 := ex_ord2 δ s e3
      have e5 := (hcomp _).trans e2
      have hw : ((usedWeights 2).map (· ^ 3)).sum = 1 := by simp [usedWeights]
      rw [hw] at e5
      have e6 : (s - twin exQ exP δ - (1 * δ ^ 3) • v).2.1 1 = s.p1 1 - Real.sinh δ - (1 * δ ^ 3) * v.2.1 1 := rfl
      rw [e6, e4] at e5
      have e7 := sinh_near hδ
      rw [abs_le] at *
      constructor <;> nlinarith [e5.1, e5.2, e7.1, e7.2]
    linarith
  have : κ * (1 / 12) = 0 := by
    refine cube_zero (C := C6 + C) ?_
    filter_upwards [h6, hC] with δ ⟨s, e1, e2⟩ ⟨s', e3, e4⟩
    have hss : s = s' := Except.ok.inj (e1.symm.trans e3)
    subst hss
    have e5 := (hcomp _).trans e2
    have e6 : (s - twin exQ exP δ - (κ * δ ^ 3) • v).2.1 1 = (s - twin exQ exP δ).2.1 1 - (κ * δ ^ 3) * v.2.1 1 := rfl
    have e7 : |(s - twin exQ exP δ).2.1 1| ≤ C * |δ| ^ 4 := (hcomp _).trans e4
    rw [e6, hv] at e5
    rw [abs_le] at *
    constructor <;> nlinarith [e5.1, e5.2, e7.1, e7.2]
  exact hκ (by linarith)

end Einpy
