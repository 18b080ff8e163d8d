import Mathlib.Analysis.ODE.ExistUnique
import Mathlib.Analysis.ODE.Gronwall
import Mathlib.Analysis.Calculus.MeanValue
import Mathlib.Analysis.Calculus.ContDiff.RCLike
import Mathlib.Analysis.Calculus.Deriv.Pi
import Mathlib.Analysis.Calculus.Deriv.Mul
import Mathlib.Analysis.Calculus.FDeriv.Bilinear

/-!
# Flat linear connections have parallel sections (used for C145)
-/

set_option maxSynthPendingDepth 3

namespace Einpy.Frob
open scoped Topology ContDiff NNReal

variable {E F : Type*} [NormedAddCommGroup E] [NormedSpace ℝ E] [NormedAddCommGroup F] [NormedSpace ℝ F]

theorem gronwall {f f' : ℝ → F} {K η : ℝ} (hK : 1 ≤ K) (hη : 0 ≤ η) (hf : ∀ t ∈ Set.Icc (0 : ℝ) 1, HasDerivAt f (f' t) t)
    (hb : ∀ t ∈ Set.Icc (0 : ℝ) 1, ‖f' t‖ ≤ K * ‖f t‖ + η) : ∀ t ∈ Set.Icc (0 : ℝ) 1, ‖f t‖ ≤ (‖f 0‖ + η) * Real.exp K := by
  intro t ht
  have h := norm_le_gronwallBound_of_norm_deriv_right_le (f := f) (f' := f') (δ := ‖f 0‖) (K := K) (ε := η) (a := 0) (b := 1)
    (fun t ht => (hf t ht).continuousAt.continuousWithinAt) (fun t ht => (hf t ⟨ht.1, ht.2.le⟩).hasDerivWithinAt) le_rfl
    (fun t ht => hb t ⟨ht.1, ht.2.le⟩) t ht
  refine h.trans ?_
  rw [gronwallBound_of_K_ne_0 (by linarith), sub_zero]
  have e1 : Real.exp (K * t) ≤ Real.exp K := Real.exp_le_exp.mpr (by nlinarith [ht.2])
  have e2 : η / K ≤ η := div_le_self hη hK
  have e3 : Real.exp (K * t) - 1 ≤ Real.exp K := by linarith
  have e4 : 0 ≤ Real.exp (K * t) - 1 := by
    have := Real.one_le_exp (show 0 ≤ K * t by nlinarith [ht.1])
    linarith
  have := mul_le_mul e2 e3 e4 hη
  have := mul_le_mul_of_nonneg_left e1 (norm_nonneg (f 0))
  linarith

/-- ray transport: existence -/
theorem exists_ray [CompleteSpace F] {B : ℝ → F →L[ℝ] F} {M : ℝ} (hM : M ≤ 1 / 4) (hB : ContinuousOn B (Set.Icc (-1) 2))
    (hb : ∀ t ∈ Set.Icc (-1 : ℝ) 2, ‖B t‖ ≤ M) (y0 : F) : ∃ Y : ℝ → F, Y 0 = y0 ∧ ∀ t ∈ Set.Icc (0 : ℝ) 1, HasDerivAt Y (B t (Y t)) t := by
  have hM0 : 0 ≤ M := (norm_nonneg _).trans (hb 0 (by constructor <;> norm_num))
  have h0 : (0 : ℝ) ∈ Set.Icc (-1 : ℝ) 2 := by constructor <;> norm_num
  have hPL : IsPicardLindelof (fun t y => B t y) (tmin := -1) (tmax := 2) ⟨0, h0⟩ y0 ⟨‖y0‖ + 1, by positivity⟩ 0
      (⟨M * (2 * ‖y0‖ + 1), by positivity⟩ : ℝ≥0) ⟨M, hM0⟩ := by
    refine ⟨fun t ht => ?_, fun y _ => hB.clm_apply continuousOn_const, fun t ht y hy => ?_, ?_⟩
    · refine LipschitzOnWith.of_dist_le_mul fun y _ z _ => ?_
      rw [dist_eq_norm, dist_eq_norm, ← map_sub]
      exact (B t).le_of_opNorm_le (hb t ht) _
    · have h1 : ‖y‖ ≤ 2 * ‖y0‖ + 1 := by
        rw [mem_closedBall_iff_norm] at hy
        have := norm_le_insert' y y0
        have hy : ‖y - y0‖ ≤ ‖y0‖ + 1 := hy
        linarith
      exact ((B t).le_of_opNorm_le (hb t ht) y).trans (mul_le_mul_of_nonneg_left h1 hM0)
    · show M * (2 * ‖y0‖ + 1) * max (2 - 0) (0 - -1) ≤ ‖y0‖ + 1 - 0
      have : max (2 - 0 : ℝ) (0 - -1) = 2 := by norm_num
      rw [this]
      have := norm_nonneg y0
      nlinarith
  obtain ⟨Y, hY0, hY⟩ := hPL.exists_eq_forall_mem_Icc_hasDerivWithinAt₀
  exact ⟨Y, hY0, fun t ht => (hY t ⟨by linarith [ht.1], by linarith [ht.2]⟩).hasDerivAt (Icc_mem_nhds (by linarith [ht.1]) (by linarith [ht.2]))⟩

/-- The bounds of a connection in a ball. -/
structure Bounds (A : E → E →L[ℝ] F →L[ℝ] F) (A' : E → E →L[ℝ] E →L[ℝ] F →L[ℝ] F) (x0 : E) (ε M L : ℝ) : Prop where
  pos : 0 < ε
  one : 1 ≤ M
  nn : 0 ≤ L
  small : M * ε ≤ 1 / 4
  bd : ∀ p ∈ Metric.ball x0 (3 * ε), ‖A p‖ ≤ M
  deriv : ∀ p ∈ Metric.ball x0 (3 * ε), HasFDerivAt A (A' p) p
  lip : ∀ p ∈ Metric.ball x0 (3 * ε), ∀ p' ∈ Metric.ball x0 (3 * ε), ‖A p' - A p‖ ≤ L * ‖p' - p‖
  quad : ∀ p ∈ Metric.ball x0 (3 * ε), ∀ p' ∈ Metric.ball x0 (3 * ε), ‖A p' - A p - A' p (p' - p)‖ ≤ L * ‖p' - p‖ ^ 2

/-- a twice continuously differentiable connection has bounds near every point -/
theorem exists_bounds {A : E → E →L[ℝ] F →L[ℝ] F} {x0 : E} (hA : ContDiffAt ℝ 2 A x0) {S : Set E} (hS : S ∈ 𝓝 x0) :
    ∃ ε M L, Bounds A (fderiv ℝ A) x0 ε M L ∧ Metric.ball x0 (3 * ε) ⊆ S := by
  have h1 : ContDiffAt ℝ 1 (fderiv ℝ A) x0 := hA.fderiv_right (by norm_num)
  obtain ⟨L1, s1, hs1, hl1⟩ := h1.exists_lipschitzOnWith
  obtain ⟨L2, s2, hs2, hl2⟩ := (hA.of_le (by norm_num : (1 : WithTop ℕ∞) ≤ 2)).exists_lipschitzOnWith
  have hc : ∀ᶠ p in 𝓝 x0, ‖A p‖ < ‖A x0‖ + 1 := hA.continuousAt.norm.eventually_lt continuousAt_const (by linarith)
  have hd : ∀ᶠ p in 𝓝 x0, HasFDerivAt A (fderiv ℝ A p) p := by
    filter_upwards [hA.eventually (by norm_num)] with p hp using (hp.differentiableAt (by norm_num)).hasFDerivAt
  obtain ⟨r, hr, hball⟩ := Metric.mem_nhds_iff.mp (Filter.inter_mem hS (Filter.inter_mem hs1 (Filter.inter_mem hs2 (Filter.inter_mem hc hd))))
  set M : ℝ := ‖A x0‖ + 1 with hM
  have hM1 : 1 ≤ M := by have := norm_nonneg (A x0); linarith
  set ε : ℝ := min (r / 3) (1 / (4 * M)) with hε
  have hε0 : 0 < ε := lt_min (by positivity) (by positivity)
  have hsub : Metric.ball x0 (3 * ε) ⊆ Metric.ball x0 r := Metric.ball_subset_ball (by have := min_le_left (r / 3) (1 / (4 * M)); rw [← hε] at this; linarith)
  have hin := fun p hp => hball (hsub hp : p ∈ Metric.ball x0 r)
  refine ⟨ε, M, max L1 L2, ⟨hε0, hM1, le_max_of_le_left L1.2, ?_, fun p hp => (hin p hp).2.2.2.1.le, fun p hp => (hin p hp).2.2.2.2, fun p hp p' hp' => ?_,
    fun p hp p' hp' => ?_⟩, fun p hp => (hin p hp).1⟩
  · have := min_le_right (r / 3) (1 / (4 * M))
    rw [← hε] at this
    calc M * ε ≤ M * (1 / (4 * M)) := by gcongr
      _ = 1 / 4 := by field_simp
  · rw [← dist_eq_norm, ← dist_eq_norm]
    exact (hl2.dist_le_mul _ (hin p' hp').2.2.1 _ (hin p hp).2.2.1).trans (mul_le_mul_of_nonneg_right (le_max_right _ _) dist_nonneg)
  · have hseg : segment ℝ p p' ⊆ Metric.ball x0 (3 * ε) := (convex_ball x0 (3 * ε)).segment_subset hp hp'
    have := (convex_segment p p').norm_image_sub_le_of_norm_hasFDerivWithin_le' (f := A) (f' := fderiv ℝ A) (φ := fderiv ℝ A p)
      (C := max L1 L2 * ‖p' - p‖) (fun z hz => (hin z (hseg hz)).2.2.2.2.hasFDerivWithinAt) (fun z hz => by
        rw [← dist_eq_norm]
        refine (hl1.dist_le_mul _ (hin z (hseg hz)).2.1 _ (hin p hp).2.1).trans ?_
        refine mul_le_mul (le_max_left _ _) ?_ dist_nonneg (le_max_of_le_left L1.2)
        rw [dist_eq_norm]
        obtain ⟨a, b, ha, hb, hab, rfl⟩ := hz
        have : a • p + b • p' - p = b • (p' - p) := by
          rw [← eq_sub_iff_add_eq] at hab
          subst hab
          module
        rw [this, norm_smul, Real.norm_of_nonneg hb]
        have : b ≤ 1 := by linarith
        exact mul_le_of_le_one_left (norm_nonneg _) this) (left_mem_segment ℝ p p') (right_mem_segment ℝ p p')
    rwa [mul_assoc, ← pow_two] at this

/-- the curvature of the connection vanishes -/
def Flat (A : E → E →L[ℝ] F →L[ℝ] F) (A' : E → E →L[ℝ] E →L[ℝ] F →L[ℝ] F) (p : E) : Prop :=
  ∀ u v : E, ∀ y : F, A' p u v y + A p v (A p u y) = A' p v u y + A p u (A p v y)

variable {A : E → E →L[ℝ] F →L[ℝ] F} {A' : E → E →L[ℝ] E →L[ℝ] F →L[ℝ] F} {x0 : E} {ε M L : ℝ}

/-- a solution along the ray to `x` -/
def Ray (A : E → E →L[ℝ] F →L[ℝ] F) (x0 x : E) (y0 : F) (Y : ℝ → F) : Prop :=
  Y 0 = y0 ∧ ∀ t ∈ Set.Icc (0 : ℝ) 1, HasDerivAt Y (A (x0 + t • (x - x0)) (x - x0) (Y t)) t

theorem ray_exists [CompleteSpace F] (h : Bounds A A' x0 ε M L) {x : E} (hx : x ∈ Metric.ball x0 ε) (y0 : F) : ∃ Y, Ray A x0 x y0 Y := by
  rw [mem_ball_iff_norm] at hx
  have hp : ∀ t ∈ Set.Icc (-1 : ℝ) 2, x0 + t • (x - x0) ∈ Metric.ball x0 (3 * ε) := fun t ht => by
    rw [mem_ball_iff_norm, add_sub_cancel_left, norm_smul]
    have : ‖t‖ ≤ 2 := abs_le.mpr ⟨by linarith [ht.1], ht.2⟩
    have := mul_le_mul this hx.le (norm_nonneg _) (by norm_num)
    linarith [h.pos]
  refine exists_ray (B := fun t => A (x0 + t • (x - x0)) (x - x0)) (M := M * ε) h.small ?_ (fun t ht => ?_) y0
  · refine ContinuousOn.clm_apply ?_ continuousOn_const
    refine ContinuousOn.comp (g := A) (t := Metric.ball x0 (3 * ε)) (fun p hp => (h.deriv p hp).continuousAt.continuousWithinAt) ?_ hp
    fun_prop
  · exact (le_trans ((A _).le_opNorm _) (mul_le_mul (h.bd _ (hp t ht)) hx.le (norm_nonneg _) (by linarith [h.one])))

theorem ray_bound (h : Bounds A A' x0 ε M L) {x : E} (hx : x ∈ Metric.ball x0 ε) {y0 : F} {Y : ℝ → F} (hY : Ray A x0 x y0 Y) :
    ∀ t ∈ Set.Icc (0 : ℝ) 1, ‖Y t‖ ≤ ‖y0‖ * Real.exp 1 := by
  rw [mem_ball_iff_norm] at hx
  have := gronwall (f := Y) le_rfl le_rfl hY.2 (fun t ht => by
    have hp : x0 + t • (x - x0) ∈ Metric.ball x0 (3 * ε) := by
      rw [mem_ball_iff_norm, add_sub_cancel_left, norm_smul, Real.norm_of_nonneg ht.1]
      nlinarith [ht.1, ht.2, norm_nonneg (x - x0), h.pos]
    refine ((A _ _).le_opNorm _).trans ?_
    rw [add_zero]
    refine mul_le_mul_of_nonneg_right ?_ (norm_nonneg _)
    refine ((A _).le_opNorm _).trans ?_
    have := mul_le_mul (h.bd _ hp) hx.le (norm_nonneg _) (by linarith [h.one])
    linarith [h.small])
  simpa [hY.1] using this

/-- The value at the end of the ray depends differentiably on the end point, and its derivative is given by the connection. -/
theorem ray_deriv (h : Bounds A A' x0 ε M L) (hflat : ∀ p ∈ Metric.ball x0 (3 * ε), Flat A A' p) {y0 : F} : ∃ C : ℝ,
    ∀ {x v : E} {Y Y' : ℝ → F}, x ∈ Metric.ball x0 ε → x + v ∈ Metric.ball x0 ε → Ray A x0 x y0 Y → Ray A x0 (x + v) y0 Y' →
    ‖Y' 1 - Y 1 - A x v (Y 1)‖ ≤ C * ‖v‖ ^ 2 := by
  set c := ‖y0‖ * Real.exp 1 with hc
  have hc0 : 0 ≤ c := by positivity
  have hM := h.one
  have hL := h.nn
  set e := Real.exp 1 with he
  have he0 : 0 ≤ e := (Real.exp_pos _).le
  refine ⟨((L + M) * ((L + M) * c * e) + 2 * L * c) * e, ?_⟩
  intro x v Y Y' hx hxv hY hY'
  have hbY := ray_bound h hx hY
  have hbY' := ray_bound h hxv hY'
  rw [← hc] at hbY hbY'
  rw [mem_ball_iff_norm] at hx hxv
  set w := x - x0 with hw
  have hwv : x + v - x0 = w + v := by rw [hw]; abel
  have hε1 : ε ≤ 1 / 4 := by nlinarith [h.small, h.pos]
  rw [hwv] at hxv
  have hp : ∀ t ∈ Set.Icc (0 : ℝ) 1, x0 + t • w ∈ Metric.ball x0 (3 * ε) := fun t ht => by
    rw [mem_ball_iff_norm, add_sub_cancel_left, norm_smul, Real.norm_of_nonneg ht.1]
    nlinarith [ht.1, ht.2, norm_nonneg w, h.pos]
  have hp' : ∀ t ∈ Set.Icc (0 : ℝ) 1, x0 + t • (w + v) ∈ Metric.ball x0 (3 * ε) := fun t ht => by
    rw [mem_ball_iff_norm, add_sub_cancel_left, norm_smul, Real.norm_of_nonneg ht.1]
    nlinarith [ht.1, ht.2, norm_nonneg (w + v), h.pos]
  have hY2 : ∀ t ∈ Set.Icc (0 : ℝ) 1, HasDerivAt Y (A (x0 + t • w) w (Y t)) t := hY.2
  have hY2' : ∀ t ∈ Set.Icc (0 : ℝ) 1, HasDerivAt Y' (A (x0 + t • (w + v)) (w + v) (Y' t)) t := fun t ht => by
    have := hY'.2 t ht
    rwa [hwv] at this
  -- estimates
  have hdA : ∀ t ∈ Set.Icc (0 : ℝ) 1, ‖A (x0 + t • (w + v)) - A (x0 + t • w)‖ ≤ L * ‖v‖ := fun t ht => by
    refine (h.lip _ (hp t ht) _ (hp' t ht)).trans (mul_le_mul_of_nonneg_left ?_ hL)
    have : x0 + t • (w + v) - (x0 + t • w) = t • v := by module
    rw [this, norm_smul, Real.norm_of_nonneg ht.1]
    exact mul_le_of_le_one_left (norm_nonneg _) ht.2
  have hqA : ∀ t ∈ Set.Icc (0 : ℝ) 1, ‖A (x0 + t • (w + v)) - A (x0 + t • w) - A' (x0 + t • w) (t • v)‖ ≤ L * ‖v‖ ^ 2 := fun t ht => by
    have : x0 + t • (w + v) - (x0 + t • w) = t • v := by module
    have h1 := h.quad _ (hp t ht) _ (hp' t ht)
    rw [this] at h1
    refine h1.trans (mul_le_mul_of_nonneg_left ?_ hL)
    refine pow_le_pow_left₀ (norm_nonneg _) ?_ 2
    rw [norm_smul, Real.norm_of_nonneg ht.1]
    exact mul_le_of_le_one_left (norm_nonneg _) ht.2
  have hBd : ∀ t ∈ Set.Icc (0 : ℝ) 1, ‖A (x0 + t • (w + v)) (w + v) - A (x0 + t • w) w‖ ≤ (L + M) * ‖v‖ := fun t ht => by
    have : A (x0 + t • (w + v)) (w + v) - A (x0 + t • w) w = (A (x0 + t • (w + v)) - A (x0 + t • w)) (w + v) + A (x0 + t • w) v := by
      simp only [map_add, sub_apply]; abel
    rw [this]
    refine (norm_add_le _ _).trans ?_
    have h1 := ((A (x0 + t • (w + v)) - A (x0 + t • w)).le_of_opNorm_le (hdA t ht) (w + v))
    have h2 := (A (x0 + t • w)).le_of_opNorm_le (h.bd _ (hp t ht)) v
    have h3 : L * ‖v‖ * ‖w + v‖ ≤ L * ‖v‖ := mul_le_of_le_one_right (by positivity) (by linarith)
    linarith
  have hsm : ∀ t ∈ Set.Icc (0 : ℝ) 1, ∀ y : F, ‖A (x0 + t • w) w y‖ ≤ 1 * ‖y‖ := fun t ht y => by
    refine ((A _ _).le_opNorm _).trans (mul_le_mul_of_nonneg_right ?_ (norm_nonneg _))
    refine ((A _).le_opNorm _).trans ?_
    have := mul_le_mul (h.bd _ (hp t ht)) hx.le (norm_nonneg _) (by linarith [h.one])
    linarith [h.small]
  -- first order
  have hD : ∀ t ∈ Set.Icc (0 : ℝ) 1, ‖Y' t - Y t‖ ≤ (L + M) * c * e * ‖v‖ := by
    have := gronwall (f := fun t => Y' t - Y t) (η := (L + M) * c * ‖v‖) le_rfl (by positivity)
      (fun t ht => (hY2' t ht).fun_sub (hY2 t ht)) (fun t ht => by
        have e1 : A (x0 + t • (w + v)) (w + v) (Y' t) - A (x0 + t • w) w (Y t) =
            A (x0 + t • w) w (Y' t - Y t) + (A (x0 + t • (w + v)) (w + v) - A (x0 + t • w) w) (Y' t) := by
          simp only [map_sub, sub_apply]; abel
        rw [e1]
        refine (norm_add_le _ _).trans (add_le_add (hsm t ht _) ?_)
        refine (ContinuousLinearMap.le_of_opNorm_le _ (hBd t ht) _).trans ?_
        have := mul_le_mul_of_nonneg_left (hbY' t ht) (show 0 ≤ (L + M) * ‖v‖ by positivity)
        linarith)
    intro t ht
    have := this t ht
    simp only [hY.1, hY'.1, sub_self, norm_zero, zero_add] at this
    rw [← he] at this
    linarith
  -- second order
  have hZ : ∀ t ∈ Set.Icc (0 : ℝ) 1, HasDerivAt (fun t => t • A (x0 + t • w) v (Y t))
      (A (x0 + t • w) v (Y t) + A' (x0 + t • w) (t • v) w (Y t) + A (x0 + t • w) w (t • A (x0 + t • w) v (Y t))) t := fun t ht => by
    have d0 : HasDerivAt (fun t : ℝ => x0 + t • w) w t := by
      have := ((hasDerivAt_id t).smul_const w).const_add x0
      simpa using this
    have d1 : HasDerivAt (fun t => A (x0 + t • w)) (A' (x0 + t • w) w) t := (h.deriv _ (hp t ht)).comp_hasDerivAt t d0
    have d2 : HasDerivAt (fun t => A (x0 + t • w) v) (A' (x0 + t • w) w v) t := by
      have := d1.clm_apply (hasDerivAt_const t v)
      simpa using this
    have d3 := (hasDerivAt_id t).smul (d2.clm_apply (hY2 t ht))
    refine d3.congr_deriv ?_
    have hf := hflat _ (hp t ht) w v (Y t)
    simp only [id, one_smul, map_smul, smul_apply]
    rw [hf, smul_add]
    abel
  have hδ := gronwall (f := fun t => Y' t - Y t - t • A (x0 + t • w) v (Y t)) (η := ((L + M) * ((L + M) * c * e) + 2 * L * c) * ‖v‖ ^ 2) le_rfl (by positivity)
    (fun t ht => ((hY2' t ht).fun_sub (hY2 t ht)).fun_sub (hZ t ht)) (fun t ht => by
      have e1 : A (x0 + t • (w + v)) (w + v) (Y' t) - A (x0 + t • w) w (Y t) - (A (x0 + t • w) v (Y t) + A' (x0 + t • w) (t • v) w (Y t) + A (x0 + t • w) w (t • A (x0 + t • w) v (Y t))) =
          A (x0 + t • w) w (Y' t - Y t - t • A (x0 + t • w) v (Y t)) + (A (x0 + t • (w + v)) (w + v) - A (x0 + t • w) w) (Y' t - Y t) +
          (A (x0 + t • (w + v)) - A (x0 + t • w) - A' (x0 + t • w) (t • v)) w (Y t) + (A (x0 + t • (w + v)) - A (x0 + t • w)) v (Y t) := by
        simp only [map_sub, map_add, sub_apply, add_apply]; abel
      rw [e1]
      have b1 := hsm t ht (Y' t - Y t - t • A (x0 + t • w) v (Y t))
      have b2 : ‖(A (x0 + t • (w + v)) (w + v) - A (x0 + t • w) w) (Y' t - Y t)‖ ≤ (L + M) * ‖v‖ * ((L + M) * c * e * ‖v‖) :=
        (ContinuousLinearMap.le_of_opNorm_le _ (hBd t ht) _).trans (mul_le_mul_of_nonneg_left (hD t ht) (by positivity))
      have b3 : ‖(A (x0 + t • (w + v)) - A (x0 + t • w) - A' (x0 + t • w) (t • v)) w (Y t)‖ ≤ L * ‖v‖ ^ 2 * c := by
        refine (ContinuousLinearMap.le_of_opNorm_le _ (ContinuousLinearMap.le_of_opNorm_le _ (hqA t ht) w) _).trans ?_
        refine mul_le_mul ?_ (hbY t ht) (norm_nonneg _) (by positivity)
        exact mul_le_of_le_one_right (by positivity) (by linarith)
      have b4 : ‖(A (x0 + t • (w + v)) - A (x0 + t • w)) v (Y t)‖ ≤ L * ‖v‖ ^ 2 * c := by
        refine (ContinuousLinearMap.le_of_opNorm_le _ (ContinuousLinearMap.le_of_opNorm_le _ (hdA t ht) v) _).trans ?_
        have := mul_le_mul_of_nonneg_left (hbY t ht) (show 0 ≤ L * ‖v‖ * ‖v‖ by positivity)
        linarith
      refine (norm_add_le _ _).trans ?_
      refine (add_le_add_left (norm_add_le _ _) _).trans ?_
      refine (add_le_add_left (add_le_add_left (norm_add_le _ _) _) _).trans ?_
      linarith) 1 (by simp)
  have e2 : x0 + w = x := by rw [hw]; abel
  simp only [hY.1, hY'.1, one_smul, zero_smul, sub_self, norm_zero, zero_add, e2] at hδ
  rw [← he] at hδ
  linarith

/-- **Frobenius, linear case.**  A flat connection has, near every point, a parallel section through every vector of the fibre. -/
theorem exists_parallel [CompleteSpace F] (h : Bounds A A' x0 ε M L) (hflat : ∀ p ∈ Metric.ball x0 (3 * ε), Flat A A' p) (y0 : F) :
    ∃ e : E → F, e x0 = y0 ∧ ∀ x ∈ Metric.ball x0 ε, HasFDerivAt e ((A x).flip (e x)) x := by
  classical
  have hray : ∀ x, ∃ Y, x ∈ Metric.ball x0 ε → Ray A x0 x y0 Y := fun x => by
    by_cases hx : x ∈ Metric.ball x0 ε
    · obtain ⟨Y, hY⟩ := ray_exists h hx y0
      exact ⟨Y, fun _ => hY⟩
    · exact ⟨0, fun h => absurd h hx⟩
  choose Y hY using hray
  obtain ⟨C, hC⟩ := ray_deriv (y0 := y0) h hflat
  refine ⟨fun x => Y x 1, ?_, fun x hx => ?_⟩
  · have h0 := hY x0 (Metric.mem_ball_self h.pos)
    have hc := gronwall (f := fun t => Y x0 t - y0) (f' := fun t => 0) (K := 1) (η := 0) le_rfl le_rfl (fun t ht => by
      have := (h0.2 t ht).sub_const y0
      simpa using this) (fun t ht => by simp) 1 (by simp)
    simp [h0.1, sub_eq_zero] at hc
    exact hc
  · rw [hasFDerivAt_iff_isLittleO_nhds_zero]
    refine Asymptotics.IsBigO.trans_isLittleO (g := fun v : E => ‖v‖ ^ 2) ?_ (Asymptotics.isLittleO_norm_pow_id (by norm_num))
    refine Asymptotics.IsBigO.of_bound C ?_
    have : ∀ᶠ v in 𝓝 (0 : E), x + v ∈ Metric.ball x0 ε := by
      have hc : ContinuousAt (fun v : E => x + v) 0 := by fun_prop
      exact hc.eventually_mem (by simpa using Metric.isOpen_ball.mem_nhds hx)
    filter_upwards [this] with v hv
    have := hC hx hv (hY x hx) (hY _ hv)
    simpa using this

theorem parallel_smooth {S : Set E} (hS : IsOpen S) (hA : ContDiffOn ℝ ∞ A S) {e : E → F} (he : ∀ x ∈ S, HasFDerivAt e ((A x).flip (e x)) x) :
    ContDiffOn ℝ ∞ e S := by
  rw [contDiffOn_infty]
  intro k
  induction k with
  | zero => exact contDiffOn_zero.mpr fun x hx => (he x hx).continuousAt.continuousWithinAt
  | succ k ih =>
    have : ((k + 1 : ℕ) : WithTop ℕ∞) = (k : WithTop ℕ∞) + 1 := by push_cast; rfl
    rw [this, contDiffOn_succ_iff_fderiv_of_isOpen hS]
    refine ⟨fun x hx => (he x hx).differentiableAt.differentiableWithinAt, by simp, ?_⟩
    have h2 : ContDiffOn ℝ k (fun x => (A x).flip (e x)) S := by
      have h3 : ContDiffOn ℝ k (fun x => (A x).flip) S :=
        ((ContinuousLinearMap.flipₗᵢ ℝ E F F).toContinuousLinearEquiv.contDiff.comp_contDiffOn (contDiffOn_infty.mp hA k))
      exact h3.clm_apply ih
    exact h2.congr fun x hx => (he x hx).fderiv

end Einpy.Frob
