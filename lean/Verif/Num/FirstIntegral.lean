import Verif.Num.Agree
import Verif.Integ.Shell

/-!
# C137: conserved quantities of the exact motion drift by no more than the order of the method
-/

namespace Einpy
open Classical
open scoped Topology

/-- A function that is `C¹` along a compact piece of a curve is Lipschitz near it. -/
theorem lip_near {E : Type*} [NormedAddCommGroup E] [NormedSpace ℝ E] {F : E → ℝ} {γ : ℝ → E} {K : Set ℝ} (hK : IsCompact K)
    (hF : ∀ t ∈ K, ContDiffAt ℝ 1 F (γ t)) (hγ : ∀ t ∈ K, ContinuousAt γ t) :
    ∃ L ρ : ℝ, 0 ≤ L ∧ 0 < ρ ∧ ∀ t ∈ K, ∀ z, dist z (γ t) < ρ → |F z - F (γ t)| ≤ L * dist z (γ t) := by
  refine hK.induction_on (p := fun K => ∃ L ρ : ℝ, 0 ≤ L ∧ 0 < ρ ∧ ∀ t ∈ K, ∀ z, dist z (γ t) < ρ →
    |F z - F (γ t)| ≤ L * dist z (γ t)) ?_ ?_ ?_ ?_
  · exact ⟨0, 1, le_refl 0, one_pos, fun t ht => absurd ht (Set.notMem_empty t)⟩
  · rintro A B hAB ⟨L, ρ, h1, h2, h3⟩
    exact ⟨L, ρ, h1, h2, fun t ht => h3 t (hAB ht)⟩
  · rintro A B ⟨L, ρ, h1, h2, h3⟩ ⟨L', ρ', h1', h2', h3'⟩
    refine ⟨max L L', min ρ ρ', le_max_of_le_left h1, lt_min h2 h2', fun t ht z hz => ?_⟩
    obtain ⟨d1, d2⟩ := lt_min_iff.mp hz
    rcases ht with ht | ht
    · exact (h3 t ht z d1).trans (by gcongr; exact le_max_left _ _)
    · exact (h3' t ht z d2).trans (by gcongr; exact le_max_right _ _)
  · intro t₀ ht₀
    obtain ⟨L, T, hT, hL⟩ := (hF t₀ ht₀).exists_lipschitzOnWith
    obtain ⟨r, hr, hball⟩ := Metric.eventually_nhds_iff.mp (Filter.eventually_mem_set.mpr hT)
    refine ⟨{t | dist (γ t) (γ t₀) < r / 2}, mem_nhdsWithin_of_mem_nhds ((hγ t₀ ht₀).eventually (Metric.ball_mem_nhds _ (half_pos hr))),
      L, r / 2, L.2, half_pos hr, fun t ht z hz => ?_⟩
    have ht' : dist (γ t) (γ t₀) < r / 2 := ht
    have d1 : dist z (γ t₀) < r := by
      have := dist_triangle z (γ t) (γ t₀)
      linarith
    have := hL.dist_le_mul _ (hball d1) _ (hball (show dist (γ t) (γ t₀) < r by linarith))
    rwa [Real.dist_eq] at this

/-- Points within `C·δ^m` of the curve have nearly the value of the curve. -/
theorem tube_near {E : Type*} [NormedAddCommGroup E] [NormedSpace ℝ E] {F : E → ℝ} {γ : ℝ → E} {K : Set ℝ} (hK : IsCompact K)
    (hF : ∀ t ∈ K, ContDiffAt ℝ 1 F (γ t)) (hγ : ∀ t ∈ K, ContinuousAt γ t) {m : ℕ} (hm : 0 < m) (C : ℝ) :
    ∃ K' δ₀ : ℝ, 0 < δ₀ ∧ ∀ δ : ℝ, |δ| < δ₀ → ∀ t ∈ K, ∀ z, dist z (γ t) ≤ |C| * |δ| ^ m → |F z - F (γ t)| ≤ K' * |δ| ^ m := by
  obtain ⟨L, ρ, hL, hρ, hl⟩ := lip_near hK hF hγ
  refine ⟨L * |C|, min 1 (ρ / (|C| + 1)), lt_min one_pos (by positivity), fun δ hδ t ht z hz => ?_⟩
  obtain ⟨d2, d3⟩ := lt_min_iff.mp hδ
  have hδm : |δ| ^ m ≤ |δ| := by
    calc |δ| ^ m ≤ |δ| ^ 1 := pow_le_pow_of_le_one (abs_nonneg _) d2.le hm
      _ = |δ| := pow_one _
  have hlt : dist z (γ t) < ρ := by
    refine hz.trans_lt ?_
    have e1 : |C| * |δ| ^ m ≤ |C| * |δ| := by gcongr
    have e2 : |C| * |δ| ≤ (|C| + 1) * |δ| := by nlinarith [abs_nonneg δ]
    have e3 : (|C| + 1) * |δ| < ρ := by
      rw [lt_div_iff₀ (by positivity)] at d3
      linarith
    linarith
  calc |F z - F (γ t)| ≤ L * dist z (γ t) := hl t ht z hlt
    _ ≤ L * (|C| * |δ| ^ m) := by gcongr
    _ = L * |C| * |δ| ^ m := by ring

/-! ## the exact motion -/

/-- Covariant velocity of a curve. -/
noncomputable def covVel (a Q : ℝ) (q v : ℝ → V4) (t : ℝ) : V4 := fun i => ∑ j, blCov a Q i j (q t) * v t j

/-- The metric function behind a named space-time and Hamilton's equations for its geodesics -/
theorem named_hamilton {s : String} {ps : List ℝ} {a Q : ℝ} (hn : NamedMetric s ps a Q) :
    ∃ g : MetricFn, (∀ y, Exterior a Q y → ∀ i j, (g i j).Smooth y) ∧
      (∀ y, Exterior a Q y → ∀ i j, (g i j).den y = knContra a Q (y 1) (y 2) i j) ∧
      (∀ i j (y : V4), (g i j).den y = (g j i).den y) ∧
      ∀ (q v : ℝ → V4) (t : ℝ), Exterior a Q (q t) → IsGeodesicAt (blCov a Q) q v t → HamiltonAt g q (covVel a Q q v) t := by
  obtain ⟨g, -, hsm, hden, hsym⟩ := named_fn hn
  have hinvm : ∀ y, Exterior a Q y → knContra a Q (y 1) (y 2) * knCov a Q (y 1) (y 2) = 1 := fun y hy =>
    knContra_inverse a Q _ _ hy.1 hy.2.1 hy.2.2
  have hdij : ∀ y, Exterior a Q y → ∀ i j, (g i j).den y = knContra a Q (y 1) (y 2) i j := fun y hy i j =>
    congrFun (congrFun (hden y hy) i) j
  have hcsym : ∀ (y : V4) i j, blCov a Q i j y = blCov a Q j i y := by
    intro y i j; fin_cases i <;> fin_cases j <;> rfl
  have hI : ∀ y, Exterior a Q y → InverseOf g (blCov a Q) y := by
    intro y hy
    refine ⟨hsm y hy, blCov_diff a Q y hy, fun i j => Filter.Eventually.of_forall fun z => hcsym z i j, fun i k => ?_⟩
    filter_upwards [exterior_open a Q y hy] with z hz
    have e := congrFun (congrFun (hinvm z hz) i) k
    rw [Matrix.mul_apply, Matrix.one_apply] at e
    rw [← e]
    exact Finset.sum_congr rfl fun b _ => by rw [hdij z hz]; rfl
  have hG : ∀ q v u, Exterior a Q (q u) → IsGeodesicAt (blCov a Q) q v u → GeodesicAt g (blCov a Q) q v u := by
    intro q v u hu h
    refine ⟨h.velocity, fun i => (h.accel i).congr_deriv ?_⟩
    have e : ∀ i j k, christoffelOf (blCov a Q) (q u) i j k = gammaAt g (blCov a Q) (q u) i j k := by
      intro i j k
      unfold christoffelOf gammaAt
      rw [knCov_inv a Q _ hu]
      simp only [hdij _ hu]
    simp only [e]
  exact ⟨g, hsm, hdij, hsym, fun q v t hx h => geodesic_hamilton hsym (hI _ hx) (hG q v t hx h)⟩

/-- Quadratic form of the contravariant metric, separated. -/
theorem knContra_form (a Q r th : ℝ) (hS : r ^ 2 + a ^ 2 * Real.cos th ^ 2 ≠ 0) (hD : r ^ 2 - 2 * r + a ^ 2 + Q ^ 2 ≠ 0)
    (hs : Real.sin th ≠ 0) (u : V4) :
    ∑ i, ∑ j, knContra a Q r th i j * u i * u j =
      ((r ^ 2 - 2 * r + a ^ 2 + Q ^ 2) * u 1 ^ 2 + u 2 ^ 2 - ((r ^ 2 + a ^ 2) * u 0 + a * u 3) ^ 2 / (r ^ 2 - 2 * r + a ^ 2 + Q ^ 2) +
        (a * Real.sin th * u 0 + u 3 / Real.sin th) ^ 2) / (r ^ 2 + a ^ 2 * Real.cos th ^ 2) := by
  have e : ∑ i, ∑ j, knContra a Q r th i j * u i * u j =
      -(((r ^ 2 + a ^ 2) ^ 2 - a ^ 2 * (r ^ 2 - 2 * r + a ^ 2 + Q ^ 2) * Real.sin th ^ 2) /
        ((r ^ 2 + a ^ 2 * Real.cos th ^ 2) * (r ^ 2 - 2 * r + a ^ 2 + Q ^ 2))) * u 0 * u 0 +
      2 * (-(a * (2 * r - Q ^ 2) / ((r ^ 2 + a ^ 2 * Real.cos th ^ 2) * (r ^ 2 - 2 * r + a ^ 2 + Q ^ 2)))) * u 0 * u 3 +
      (r ^ 2 - 2 * r + a ^ 2 + Q ^ 2) / (r ^ 2 + a ^ 2 * Real.cos th ^ 2) * u 1 * u 1 + 1 / (r ^ 2 + a ^ 2 * Real.cos th ^ 2) * u 2 * u 2 +
      ((r ^ 2 - 2 * r + a ^ 2 + Q ^ 2) - a ^ 2 * Real.sin th ^ 2) /
        ((r ^ 2 + a ^ 2 * Real.cos th ^ 2) * (r ^ 2 - 2 * r + a ^ 2 + Q ^ 2) * Real.sin th ^ 2) * u 3 * u 3 := by
    simp [knContra, Fin.sum_univ_four]
    ring
  rw [e]
  have hw : 2 * r - Q ^ 2 = r ^ 2 + a ^ 2 - (r ^ 2 - 2 * r + a ^ 2 + Q ^ 2) := by ring
  rw [hw]
  generalize r ^ 2 + a ^ 2 * Real.cos th ^ 2 = S at *
  generalize r ^ 2 - 2 * r + a ^ 2 + Q ^ 2 = D at *
  generalize Real.sin th = s at *
  field_simp
  ring

/-- **Carter's constant** for a particle of mass squared `mu` at position `x = (t, r, θ, φ)` with covariant momentum `u`. -/
noncomputable def carterQ (a mu : ℝ) (x u : V4) : ℝ :=
  u 2 ^ 2 + Real.cos (x 2) ^ 2 * (a ^ 2 * (mu - u 0 ^ 2) + u 3 ^ 2 / Real.sin (x 2) ^ 2)

theorem carter_deriv {g : MetricFn} {a Q mu t : ℝ} {q p : ℝ → V4}
    (hsm : ∀ y, Exterior a Q y → ∀ i j, (g i j).Smooth y)
    (hden : ∀ y, Exterior a Q y → ∀ i j, (g i j).den y = knContra a Q (y 1) (y 2) i j)
    (hx : Exterior a Q (q t)) (h : HamiltonAt g q p t) (hn : normAt g (q t) (p t) = -mu) :
    HasDerivAt (fun t => carterQ a mu (q t) (p t)) 0 t := by
  have hev : ∀ i, ∀ᶠ x in 𝓝 (q t i), Exterior a Q (Function.update (q t) i x) := by
    intro i
    have hc : Continuous fun x : ℝ => Function.update (q t) i x := by fun_prop
    have h2 := hc.tendsto (q t i)
    rw [Function.update_eq_self] at h2
    exact h2.eventually (exterior_open a Q _ hx)
  have hcyc : ∀ i, i ≠ 1 → i ≠ 2 → HasDerivAt (fun t => p t i) 0 t := by
    intro i h1 h2
    refine (h.dp i).congr_deriv ?_
    have : ∀ A B, deriv (fun x => (g A B).den (Function.update (q t) i x)) (q t i) = 0 := by
      intro A B
      have e : (fun x => (g A B).den (Function.update (q t) i x)) =ᶠ[𝓝 (q t i)] fun _ => knContra a Q (q t 1) (q t 2) A B := by
        filter_upwards [hev i] with x hx
        rw [hden _ hx, Function.update_of_ne (Ne.symm h1), Function.update_of_ne (Ne.symm h2)]
      rw [e.deriv_eq, deriv_const]
    simp [this]
  obtain ⟨hS, hD, hs⟩ := id hx
  set r := q t 1 with hr
  set th := q t 2 with hth
  have hth' : HasDerivAt (fun t => q t 2) (p t 2 / (r ^ 2 + a ^ 2 * Real.cos th ^ 2)) t := by
    refine (h.dq 2).congr_deriv ?_
    simp only [hden _ hx, Fin.sum_univ_four]
    simp [knContra]
    ring
  -- the force in the θ direction
  set N := (fun s : ℝ => (r ^ 2 - 2 * r + a ^ 2 + Q ^ 2) * p t 1 ^ 2 + p t 2 ^ 2 -
    ((r ^ 2 + a ^ 2) * p t 0 + a * p t 3) ^ 2 / (r ^ 2 - 2 * r + a ^ 2 + Q ^ 2) + (a * Real.sin s * p t 0 + p t 3 / Real.sin s) ^ 2) with hN
  have hNd : HasDerivAt N (2 * (a * Real.sin th * p t 0 + p t 3 / Real.sin th) *
      (a * Real.cos th * p t 0 - p t 3 * Real.cos th / Real.sin th ^ 2)) th := by
    have h1 : HasDerivAt (fun s => a * Real.sin s * p t 0 + p t 3 / Real.sin s)
        (a * Real.cos th * p t 0 + -(p t 3 * Real.cos th) / Real.sin th ^ 2) th := by
      have e1 := ((Real.hasDerivAt_sin th).const_mul a).mul_const (p t 0)
      have e2 := (hasDerivAt_const th (p t 3)).div (Real.hasDerivAt_sin th) hs
      exact (e1.add e2).congr_deriv (by ring)
    refine ((h1.pow 2).const_add _).congr_deriv ?_
    push_cast
    ring
  have hSd : HasDerivAt (fun s => r ^ 2 + a ^ 2 * Real.cos s ^ 2) (-(2 * a ^ 2 * Real.cos th * Real.sin th)) th := by
    refine ((((Real.hasDerivAt_cos th).pow 2).const_mul (a ^ 2)).const_add (r ^ 2)).congr_deriv ?_
    push_cast
    ring
  have hκ : N th = -mu * (r ^ 2 + a ^ 2 * Real.cos th ^ 2) := by
    have e : normAt g (q t) (p t) = N th / (r ^ 2 + a ^ 2 * Real.cos th ^ 2) := by
      unfold normAt
      simp only [hden _ hx]
      exact knContra_form a Q r th hS hD hs (p t)
    rw [e, div_eq_iff hS] at hn
    exact hn
  have hforce : ∑ A, ∑ B, deriv (fun x => (g A B).den (Function.update (q t) 2 x)) th * p t A * p t B =
      (2 * (a * Real.sin th * p t 0 + p t 3 / Real.sin th) * (a * Real.cos th * p t 0 - p t 3 * Real.cos th / Real.sin th ^ 2) -
        mu * (2 * a ^ 2 * Real.cos th * Real.sin th)) / (r ^ 2 + a ^ 2 * Real.cos th ^ 2) := by
    have h1 : HasDerivAt (fun x => ∑ A, ∑ B, (g A B).den (Function.update (q t) 2 x) * p t A * p t B)
        (∑ A, ∑ B, deriv (fun x => (g A B).den (Function.update (q t) 2 x)) th * p t A * p t B) th := by
      refine HasDerivAt.fun_sum fun A _ => HasDerivAt.fun_sum fun B _ => ?_
      have hd : DifferentiableAt ℝ (fun x => (g A B).den (Function.update (q t) 2 x)) th := by
        have h0 : DifferentiableAt ℝ (fun y => (g A B).den y) (Function.update (q t) 2 th) := by
          rw [hth, Function.update_eq_self]; exact (hsm _ hx A B).contDiffAt.differentiableAt (by norm_num)
        exact h0.comp th (hasDerivAt_update (q t) 2 th).differentiableAt
      exact (hd.hasDerivAt.mul_const _).mul_const _
    have h2 := hNd.div hSd hS
    have e : (fun x => ∑ A, ∑ B, (g A B).den (Function.update (q t) 2 x) * p t A * p t B) =ᶠ[𝓝 th]
        fun s => N s / (r ^ 2 + a ^ 2 * Real.cos s ^ 2) := by
      filter_upwards [hev 2] with x hx'
      simp only [hden _ hx']
      have hu1 : Function.update (q t) 2 x 1 = r := Function.update_of_ne (by decide) _ _
      have hu2 : Function.update (q t) 2 x 2 = x := Function.update_self _ _ _
      obtain ⟨g1, g2, g3⟩ := hx'
      rw [hu1, hu2] at g1
      rw [hu1] at g2
      rw [hu2] at g3
      rw [hu1, hu2]
      exact knContra_form a Q r x g1 g2 g3 (p t)
    rw [h1.unique (h2.congr_of_eventuallyEq e), hκ]
    field_simp
  have hp2 := (h.dp 2).congr_deriv (congrArg (fun z => -(1 / 2) * z) hforce)
  have h0 := hcyc 0 (by decide) (by decide)
  have h3 := hcyc 3 (by decide) (by decide)
  have hcos := (Real.hasDerivAt_cos th).comp t hth'
  have hsin := (Real.hasDerivAt_sin th).comp t hth'
  have htot := (hp2.pow 2).add ((hcos.pow 2).mul ((((h0.pow 2).const_sub mu).const_mul (a ^ 2)).add
    ((h3.pow 2).div (hsin.pow 2) (pow_ne_zero 2 hs))))
  refine htot.congr_deriv ?_
  simp only [Function.comp, ← hth, Pi.pow_apply, Pi.add_apply, Pi.div_apply]
  push_cast
  have hcs := Real.sin_sq_add_cos_sq th
  generalize r ^ 2 + a ^ 2 * Real.cos th ^ 2 = S at *
  generalize Real.sin th = sn at *
  generalize Real.cos th = cs at *
  field_simp
  ring_nf
  have hc2 : cs ^ 2 = 1 - sn ^ 2 := by linarith
  have hc3 : cs ^ 3 = cs * (1 - sn ^ 2) := by rw [← hc2]; ring
  simp only [hc3]
  ring

theorem carter_const {s : String} {ps : List ℝ} {a Q : ℝ} (hn : NamedMetric s ps a Q) {q v : ℝ → V4} {t₀ t₁ mu : ℝ}
    (h0 : t₀ ≤ 0) (h1 : 0 ≤ t₁)
    (hgeo : ∀ t ∈ Set.Icc t₀ t₁, ∀ᶠ u in 𝓝 t, IsGeodesicAt (blCov a Q) q v u)
    (hext : ∀ t ∈ Set.Icc t₀ t₁, Exterior a Q (q t))
    (hnorm : ∑ i, ∑ j, blCov a Q i j (q 0) * v 0 i * v 0 j = -mu) (t : ℝ) (ht : t ∈ Set.Icc t₀ t₁) :
    carterQ a mu (q t) (covVel a Q q v t) = carterQ a mu (q 0) (covVel a Q q v 0) := by
  obtain ⟨g, hsm, hden, hsym, hH⟩ := named_hamilton hn
  have hHt : ∀ t ∈ Set.Icc t₀ t₁, HamiltonAt g q (covVel a Q q v) t := fun t ht => hH q v t (hext t ht) (hgeo t ht).self_of_nhds
  have z : (0 : ℝ) ∈ Set.Icc t₀ t₁ := ⟨h0, h1⟩
  have const_of : ∀ f : ℝ → ℝ, (∀ t ∈ Set.Icc t₀ t₁, HasDerivAt f 0 t) → ∀ t ∈ Set.Icc t₀ t₁, f t = f 0 := by
    intro f hd t ht
    have e := constant_of_has_deriv_right_zero (f := f) (a := t₀) (b := t₁)
      (fun t ht => (hd t ht).continuousAt.continuousWithinAt) (fun t ht => (hd t (Set.Ico_subset_Icc_self ht)).hasDerivWithinAt)
    exact (e t ht).trans (e 0 z).symm
  have hnm0 : normAt g (q 0) (covVel a Q q v 0) = -mu := by
    rw [← hnorm]
    unfold normAt
    simp only [hden _ (hext 0 z)]
    have hinv := knContra_inverse a Q (q 0 1) (q 0 2) (hext 0 z).1 (hext 0 z).2.1 (hext 0 z).2.2
    have hup : ∀ i, ∑ b, knContra a Q (q 0 1) (q 0 2) i b * covVel a Q q v 0 b = v 0 i := by
      intro i
      have := congrFun (congrArg (fun M : Matrix (Fin 4) (Fin 4) ℝ => M.mulVec (v 0)) hinv) i
      simp only [← Matrix.mulVec_mulVec, Matrix.one_mulVec] at this
      exact this
    refine Finset.sum_congr rfl fun i _ => ?_
    have e : ∀ b, knContra a Q (q 0 1) (q 0 2) i b * covVel a Q q v 0 i * covVel a Q q v 0 b =
        covVel a Q q v 0 i * (knContra a Q (q 0 1) (q 0 2) i b * covVel a Q q v 0 b) := fun b => by ring
    simp only [e]
    rw [← Finset.mul_sum, hup]
    show (∑ j, blCov a Q i j (q 0) * v 0 j) * v 0 i = _
    rw [Finset.sum_mul]
    exact Finset.sum_congr rfl fun j _ => by ring
  have hnm : ∀ t ∈ Set.Icc t₀ t₁, normAt g (q t) (covVel a Q q v t) = -mu := fun t ht =>
    (const_of _ (fun t ht => norm_deriv hsym (fun i j => hsm _ (hext t ht) i j) (hHt t ht)) t ht).trans hnm0
  exact const_of (fun t => carterQ a mu (q t) (covVel a Q q v t))
    (fun t ht => carter_deriv hsm hden (hext t ht) (hHt t ht) (hnm t ht)) t ht

/-! ## the theorems -/

/-- **C137**, general form.  Let `q`, with velocity `v`, be a time-like or null geodesic as in C107 and `p` its covariant velocity.  Let `F` be
any function of position and momentum that is `C¹` along the geodesic and constant on it.  Then every row of the trajectory computed by
`Geodesic` has the value of `F` at the start up to `K·delta²` (`K·delta⁴` for order 4), `K` not depending on the step size or the number of
steps. -/
theorem C137_first_integral (s : String) (ps : List ℝ) (a Q : ℝ) (hn : NamedMetric s ps a Q) (tl : Bool)
    (q v : ℝ → V4) (t₀ t₁ : ℝ) (h0 : t₀ ≤ 0) (h1 : 0 ≤ t₁)
    (hgeo : ∀ t ∈ Set.Icc t₀ t₁, ∀ᶠ u in 𝓝 t, IsGeodesicAt (blCov a Q) q v u)
    (hext : ∀ t ∈ Set.Icc t₀ t₁, Exterior a Q (q t)) (hq0 : q 0 0 = 0)
    (htt : (Matrix.of fun i j => blCov a Q i j (q 0))⁻¹ 0 0 ≠ 0)
    (hnorm : ∑ i, ∑ j, blCov a Q i j (q 0) * v 0 i * v 0 j = if tl then -1 else 0) (hfut : 0 ≤ v 0 0)
    (order : ℤ) (ho : order = 2 ∨ order = 4 ∨ order = 6 ∨ order = 8) (omega : ℝ) (m : ℕ) (hm : m = 2 ∨ (order = 4 ∧ m = 4))
    (F : V4 × V4 → ℝ) (hF : ∀ t ∈ Set.Icc t₀ t₁, ContDiffAt ℝ 1 F (q t, fun i => ∑ j, blCov a Q i j (q t) * v t j))
    (hc : ∀ t ∈ Set.Icc t₀ t₁, F (q t, fun i => ∑ j, blCov a Q i j (q t) * v t j) = F (q 0, fun i => ∑ j, blCov a Q i j (q 0) * v 0 j)) :
    ∃ K δ₀ : ℝ, 0 < δ₀ ∧ ∀ kw : GeoKw, kw.omega = omega → kw.order = order →
      0 < kw.steps → |kw.delta| < δ₀ → kw.steps * kw.delta ∈ Set.Icc t₀ t₁ →
      ∃ o, Geodesic.new (.str s) (some ps) (fun i => q 0 i.succ) (fun i => ∑ j, blCov a Q i.succ j (q 0) * v 0 j) tl false kw = .ok o ∧
        ∀ n : ℕ, (n : ℤ) < kw.steps → ∃ x u : V4, o.rows[n]? = some [x 0, x 1, x 2, x 3, u 0, u 1, u 2, u 3] ∧
          |F (x, u) - F (o.position, o.momentum)| ≤ K * |kw.delta| ^ m := by
  obtain ⟨K₁, δ₁, hδ₁, hK⟩ := C107_named s ps a Q hn tl q v t₀ t₁ h0 h1 hgeo hext hq0 htt hnorm hfut order ho omega m hm
  obtain ⟨g, hsm, hden, hsym, hH⟩ := named_hamilton hn
  have hHt : ∀ t ∈ Set.Icc t₀ t₁, HamiltonAt g q (covVel a Q q v) t := fun t ht => hH q v t (hext t ht) (hgeo t ht).self_of_nhds
  have hcont : ∀ t ∈ Set.Icc t₀ t₁, ContinuousAt (fun t => (q t, covVel a Q q v t)) t := fun t ht =>
    (continuousAt_pi.mpr fun i => ((hHt t ht).dq i).continuousAt).prodMk (continuousAt_pi.mpr fun i => ((hHt t ht).dp i).continuousAt)
  have hm0 : 0 < m := by rcases hm with rfl | ⟨-, rfl⟩ <;> norm_num
  obtain ⟨K₂, δ₂, hδ₂, hK2⟩ := tube_near (γ := fun t => (q t, covVel a Q q v t)) isCompact_Icc hF hcont hm0 K₁
  refine ⟨K₂, min δ₁ δ₂, lt_min hδ₁ hδ₂, fun kw k1 k2 k3 k4 k5 => ?_⟩
  obtain ⟨d1, d2⟩ := lt_min_iff.mp k4
  obtain ⟨o, o1, o2, o3⟩ := hK false kw k1 k2 k3 d1 k5
  have hpos : o.position = q 0 := by
    obtain ⟨-, -, -, -, -, e, -⟩ := geodesic_ok o1
    rw [e]
    funext i
    fin_cases i
    · exact hq0.symm
    · rfl
    · rfl
    · rfl
  refine ⟨o, o1, fun n hn => ?_⟩
  obtain ⟨x, u, x1, x2⟩ := o3 n hn
  refine ⟨x, u, x1, ?_⟩
  have hin : ((n : ℝ) + 1) * kw.delta ∈ Set.Icc t₀ t₁ := by
    have hk' : ((n : ℝ) + 1) ≤ kw.steps := by exact_mod_cast hn
    have hp1 : (0 : ℝ) ≤ (n : ℝ) + 1 := by positivity
    rcases le_total 0 kw.delta with hp | hp
    · have e1 : ((n : ℝ) + 1) * kw.delta ≤ kw.steps * kw.delta := by gcongr
      have e0 : 0 ≤ ((n : ℝ) + 1) * kw.delta := by positivity
      exact ⟨by linarith, e1.trans k5.2⟩
    · have e1 : (kw.steps : ℝ) * kw.delta ≤ ((n : ℝ) + 1) * kw.delta := mul_le_mul_of_nonpos_right hk' hp
      have e0 : ((n : ℝ) + 1) * kw.delta ≤ 0 := mul_nonpos_of_nonneg_of_nonpos hp1 hp
      exact ⟨k5.1.trans e1, by linarith⟩
  have hdist : dist (x, u) (q ((n + 1) * kw.delta), covVel a Q q v ((n + 1) * kw.delta)) ≤ |K₁| * |kw.delta| ^ m := by
    rw [Prod.dist_eq]
    have hnn : 0 ≤ |K₁| * |kw.delta| ^ m := by positivity
    have hle : K₁ * |kw.delta| ^ m ≤ |K₁| * |kw.delta| ^ m := by gcongr; exact le_abs_self _
    refine max_le ((dist_pi_le_iff hnn).mpr fun i => ?_) ((dist_pi_le_iff hnn).mpr fun i => ?_)
    · rw [Real.dist_eq]; exact (x2 i).1.trans hle
    · rw [Real.dist_eq]; exact (x2 i).2.trans hle
  have := hK2 kw.delta d2 _ hin (x, u) hdist
  rw [hpos, o2, ← hc _ hin]
  exact this

/-- **C137** for Carter's constant, with `mu = 1` for time-like and `0` for null geodesics. -/
theorem C137_carter (s : String) (ps : List ℝ) (a Q : ℝ) (hn : NamedMetric s ps a Q) (tl : Bool)
    (q v : ℝ → V4) (t₀ t₁ : ℝ) (h0 : t₀ ≤ 0) (h1 : 0 ≤ t₁)
    (hgeo : ∀ t ∈ Set.Icc t₀ t₁, ∀ᶠ u in 𝓝 t, IsGeodesicAt (blCov a Q) q v u)
    (hext : ∀ t ∈ Set.Icc t₀ t₁, Exterior a Q (q t)) (hq0 : q 0 0 = 0)
    (htt : (Matrix.of fun i j => blCov a Q i j (q 0))⁻¹ 0 0 ≠ 0)
    (hnorm : ∑ i, ∑ j, blCov a Q i j (q 0) * v 0 i * v 0 j = if tl then -1 else 0) (hfut : 0 ≤ v 0 0)
    (order : ℤ) (ho : order = 2 ∨ order = 4 ∨ order = 6 ∨ order = 8) (omega : ℝ) (m : ℕ) (hm : m = 2 ∨ (order = 4 ∧ m = 4)) :
    ∃ K δ₀ : ℝ, 0 < δ₀ ∧ ∀ kw : GeoKw, kw.omega = omega → kw.order = order →
      0 < kw.steps → |kw.delta| < δ₀ → kw.steps * kw.delta ∈ Set.Icc t₀ t₁ →
      ∃ o, Geodesic.new (.str s) (some ps) (fun i => q 0 i.succ) (fun i => ∑ j, blCov a Q i.succ j (q 0) * v 0 j) tl false kw = .ok o ∧
        ∀ n : ℕ, (n : ℤ) < kw.steps → ∃ x u : V4, o.rows[n]? = some [x 0, x 1, x 2, x 3, u 0, u 1, u 2, u 3] ∧
          |carterQ a (if tl then 1 else 0) x u - carterQ a (if tl then 1 else 0) o.position o.momentum| ≤ K * |kw.delta| ^ m := by
  refine C137_first_integral s ps a Q hn tl q v t₀ t₁ h0 h1 hgeo hext hq0 htt hnorm hfut order ho omega m hm
    (fun z => carterQ a (if tl then 1 else 0) z.1 z.2) (fun t ht => ?_) (fun t ht => ?_)
  · have hs := (hext t ht).2.2
    have h1 : ∀ c : Fin 4, ContDiff ℝ 1 (fun z : V4 × V4 => z.1 c) := fun c => (contDiff_apply ℝ ℝ c).comp contDiff_fst
    have h2 : ∀ c : Fin 4, ContDiff ℝ 1 (fun z : V4 × V4 => z.2 c) := fun c => (contDiff_apply ℝ ℝ c).comp contDiff_snd
    unfold carterQ
    refine (((h2 2).pow 2).contDiffAt).add ((((Real.contDiff_cos.comp (h1 2)).pow 2).contDiffAt).mul ?_)
    refine ((contDiff_const.mul (contDiff_const.sub ((h2 0).pow 2))).contDiffAt).add ?_
    exact ((h2 3).pow 2).contDiffAt.div ((Real.contDiff_sin.comp (h1 2)).pow 2).contDiffAt (pow_ne_zero 2 hs)
  · exact carter_const hn h0 h1 hgeo hext (by rw [hnorm]; split_ifs <;> norm_num) t ht

/-- A concrete instance: the circular orbit of radius `4` in the Schwarzschild space-time. -/
example : ∃ K δ₀ : ℝ, 0 < δ₀ ∧ ∀ kw : GeoKw, kw.omega = 1 → kw.order = 4 → 0 < kw.steps → |kw.delta| < δ₀ →
      kw.steps * kw.delta ∈ Set.Icc (0:ℝ) 100 →
      ∃ o, Geodesic.new (.str "Schwarzschild") (some []) (fun i => orbQ 0 i.succ) (fun i => ∑ j, blCov 0 0 i.succ j (orbQ 0) * orbV 0 j) true false kw = .ok o ∧
        ∀ n : ℕ, (n : ℤ) < kw.steps → ∃ x u : V4, o.rows[n]? = some [x 0, x 1, x 2, x 3, u 0, u 1, u 2, u 3] ∧
          |carterQ 0 1 x u - carterQ 0 1 o.position o.momentum| ≤ K * |kw.delta| ^ 4 := by
  obtain ⟨h0, h1, h2, h3, h4, h5, h6⟩ := orb_hyps
  exact C137_carter "Schwarzschild" [] 0 0 (.schwarzschild []) true orbQ orbV 0 100 le_rfl (by norm_num) h1 h2 h3 h4 h5 h6 4
    (Or.inr (Or.inl rfl)) 1 4 (Or.inr ⟨rfl, rfl⟩)

namespace Num
variable (k : PhysConst)

/-- **C137** for `RK4naive` on the right-hand side of `Schwarzschild`: functions of position and velocity that are constant along the geodesic
keep their value up to `K·h⁴`. -/
theorem C137_rk_schwarzschild {M : ℝ} {X V : ℝ → Vec4} {a b t₀ : ℝ} (ht₀ : t₀ ∈ Set.Icc a b)
    (hX : IsGeodesicOn (schwarzschildLineElement k.c (2 * k.G * M / k.c ^ 2)) X V (Set.Icc a b))
    (hr : ∀ t ∈ Set.Icc a b, X t 1 ≠ 0 ∧ X t 1 ≠ 2 * k.G * M / k.c ^ 2 ∧ Real.sin (X t 2) ≠ 0)
    (F : Vec4 × Vec4 → ℝ) (hF : ∀ t ∈ Set.Icc a b, ContDiffAt ℝ 1 F (X t, V t)) (hc : ∀ t ∈ Set.Icc a b, F (X t, V t) = F (X t₀, V t₀)) :
    ∃ K h₀ : ℝ, 0 < h₀ ∧ ∀ tb h, |h| < h₀ → ∀ n : ℕ, t₀ + n * h ∈ Set.Icc a b →
      ∃ s, RK4Py.steps n (RK4Py.new (asRhs (Schwarzschild.fVec k (Schwarzschild.new k "Spherical" M))) t₀ (X t₀, V t₀) tb h) = .ok s ∧
        |F s.y - F (X t₀, V t₀)| ≤ K * |h| ^ 4 := by
  obtain ⟨K₁, h₁, hh₁, hK⟩ := C115_schwarzschild_geodesics k ht₀ hX hr
  have hcont : ∀ t ∈ Set.Icc a b, ContinuousAt (fun t => (X t, V t)) t := fun t ht => by
    obtain ⟨e1, _, _, e2⟩ := (hX t ht).self_of_nhds
    exact e1.continuousAt.prodMk e2.continuousAt
  obtain ⟨K₂, h₂, hh₂, hK2⟩ := tube_near (γ := fun t => (X t, V t)) isCompact_Icc hF hcont (m := 4) (by norm_num) K₁
  refine ⟨K₂, min h₁ h₂, lt_min hh₁ hh₂, fun tb h hh n hn => ?_⟩
  obtain ⟨d1, d2⟩ := lt_min_iff.mp hh
  obtain ⟨s, s1, -, s2, s3⟩ := hK tb h d1 n hn
  refine ⟨s, s1, ?_⟩
  have hle : K₁ * |h| ^ 4 ≤ |K₁| * |h| ^ 4 := by gcongr; exact le_abs_self _
  rw [← hc _ hn]
  refine hK2 h d2 _ hn s.y ?_
  rw [Prod.dist_eq, dist_eq_norm, dist_eq_norm]
  exact max_le (s2.trans hle) (s3.trans hle)

/-- **C137** for `RK4naive` on the right-hand side of `KerrNewman` with a neutral test particle. -/
theorem C137_rk_kn_neutral {M a Q al : ℝ} (hal : alpha k M a = .ok al) {X V : ℝ → Vec4} {p q t₀ : ℝ} (ht₀ : t₀ ∈ Set.Icc p q)
    (hX : IsGeodesicOn (knLineElement k.c (2 * k.G * M / k.c ^ 2) al 0) X V (Set.Icc p q))
    (hr : ∀ t ∈ Set.Icc p q, X t 1 ^ 2 + al ^ 2 * Real.cos (X t 2) ^ 2 ≠ 0 ∧ X t 1 ^ 2 - 2 * k.G * M / k.c ^ 2 * X t 1 + al ^ 2 ≠ 0 ∧
      Real.sin (X t 2) ≠ 0)
    (F : Vec4 × Vec4 → ℝ) (hF : ∀ t ∈ Set.Icc p q, ContDiffAt ℝ 1 F (X t, V t)) (hc : ∀ t ∈ Set.Icc p q, F (X t, V t) = F (X t₀, V t₀)) :
    ∃ K h₀ : ℝ, 0 < h₀ ∧ ∀ tb h, |h| < h₀ → ∀ n : ℕ, t₀ + n * h ∈ Set.Icc p q →
      ∃ s, RK4Py.steps n (RK4Py.new (asRhs (KerrNewman.fVec k (KerrNewman.new k "BoyerLindquist" M a Q 0))) t₀ (X t₀, V t₀) tb h) = .ok s ∧
        |F s.y - F (X t₀, V t₀)| ≤ K * |h| ^ 4 := by
  obtain ⟨K₁, h₁, hh₁, hK⟩ := C115_kn_neutral_geodesics k (Q := Q) hal ht₀ hX hr
  have hcont : ∀ t ∈ Set.Icc p q, ContinuousAt (fun t => (X t, V t)) t := fun t ht => by
    obtain ⟨e1, _, _, e2⟩ := (hX t ht).self_of_nhds
    exact e1.continuousAt.prodMk e2.continuousAt
  obtain ⟨K₂, h₂, hh₂, hK2⟩ := tube_near (γ := fun t => (X t, V t)) isCompact_Icc hF hcont (m := 4) (by norm_num) K₁
  refine ⟨K₂, min h₁ h₂, lt_min hh₁ hh₂, fun tb h hh n hn => ?_⟩
  obtain ⟨d1, d2⟩ := lt_min_iff.mp hh
  obtain ⟨s, s1, -, s2, s3⟩ := hK tb h d1 n hn
  refine ⟨s, s1, ?_⟩
  have hle : K₁ * |h| ^ 4 ≤ |K₁| * |h| ^ 4 := by gcongr; exact le_abs_self _
  rw [← hc _ hn]
  refine hK2 h d2 _ hn s.y ?_
  rw [Prod.dist_eq, dist_eq_norm, dist_eq_norm]
  exact max_le (s2.trans hle) (s3.trans hle)

end Num
end Einpy
