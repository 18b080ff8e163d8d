import Verif.Curv.Tractor
import Verif.Curv.Parallel

/-!
# C146: the Weyl tensor vanishes exactly for conformally flat metrics (in dimension four and more)
-/

namespace Einpy.Fn
open scoped Topology ContDiff

variable {n : ℕ} {U : TopologicalSpace.Opens (Fin n → ℝ)} {m : MetricV (SmoothFn U)} {G : Fin n → Fin n → (Fin n → ℝ) → ℝ}

theorem describes_smooth (h : Describes m G) (i j : Fin n) : ContDiffOn ℝ ∞ (G i j) U := by
  obtain ⟨-, g, -, hG⟩ := h
  exact ContDiffOn.congr (g i j).2 fun x hx => (hG i j ⟨x, hx⟩).symm.trans (ext_of (⟨x, hx⟩ : U)).symm

/-- restriction to an open subset -/
theorem describes_restrict (h : Describes m G) {V : TopologicalSpace.Opens (Fin n → ℝ)} (hV : V ≤ U) : ∃ m' : MetricV (SmoothFn V), Describes m' G :=
  ⟨_, describes_of G (fun i j => (describes_smooth h i j).mono hV) (fun i j _ hx => describes_symm h i j (hV hx)) (fun _ hx => describes_det h (hV hx)) m.syms
    (by obtain ⟨-, g, hS, -⟩ := h; exact hS.syms) h.names⟩

/-- rescaling by a nonvanishing smooth function -/
theorem describes_rescale (h : Describes m G) {u : (Fin n → ℝ) → ℝ} (hu : ContDiffOn ℝ ∞ u U) (h0 : ∀ x ∈ U, u x ≠ 0) :
    ∃ m' : MetricV (SmoothFn U), Describes m' fun i j x => u x * G i j x :=
  ⟨_, describes_of _ (fun i j => hu.mul (describes_smooth h i j)) (fun i j x hx => by rw [describes_symm h i j hx]) (fun x hx => by
      have e : (Matrix.of fun i j => u x * G i j x) = u x • Matrix.of fun i j => G i j x := by ext; rfl
      rw [e, Matrix.det_smul]
      exact mul_ne_zero (pow_ne_zero _ (h0 x hx)) (describes_det h hx)) m.syms
    (by obtain ⟨-, g, hS, -⟩ := h; exact hS.syms) h.names⟩

theorem fn_ext {V : TopologicalSpace.Opens (Fin n → ℝ)} {f g : SmoothFn V} (h : ∀ x : V, ev x f = ev x g) : f = g := Subtype.ext (funext h)

theorem const_of_partialD {V : TopologicalSpace.Opens (Fin n → ℝ)} (hV : IsPreconnected (V : Set (Fin n → ℝ))) (f : SmoothFn V)
    (hf : ∀ i, partialD V i f = 0) (x y : V) : ev x f = ev y f := by
  have hd : ∀ y ∈ V, fderiv ℝ (ext V f.1) y = 0 := fun y hy => by
    have h1 : DifferentiableAt ℝ (ext V f.1) y := (smoothAt f ⟨y, hy⟩).differentiableAt (by simp)
    ext u
    rw [fderiv_pd h1]
    refine Finset.sum_eq_zero fun a _ => ?_
    have h2 := partialD_pd f (ext V f.1) (fun x => (ext_of x).symm) a ⟨y, hy⟩
    rw [hf a] at h2
    have h3 : pd (ext V f.1) a y = 0 := h2.symm
    rw [h3, mul_zero]
  have := V.isOpen.is_const_of_fderiv_eq_zero hV (fun y hy => ((smoothAt f ⟨y, hy⟩).differentiableAt (by simp)).differentiableWithinAt) hd x.2 y.2
  rw [ext_of x, ext_of y] at this
  exact this

/-- the covariant derivative `∇_k S_ij` of the Schouten tensor -/
noncomputable def covSchouten (G : Fin n → Fin n → (Fin n → ℝ) → ℝ) (k i j : Fin n) (y : Fin n → ℝ) : ℝ :=
  pd (schouten G i j) k y - ∑ a, christoffel G a k i y * schouten G a j y - ∑ a, christoffel G a k j y * schouten G i a y

theorem covSchouten_val {g : Matrix (Fin n) (Fin n) (SmoothFn U)} (hu : IsUnit g.det) (hG : ∀ i j (x : U), (g i j).1 x = G i j x) (k i j : Fin n) (x : U) :
    ev x (Geo.cov2 (partialD U) g (Geo.schouten (partialD U) g) k i j) = covSchouten G k i j x := by
  unfold Geo.cov2 covSchouten
  have e : ev x (partialD U k (Geo.schouten (partialD U) g i j)) = pd (schouten G i j) k x := partialD_pd _ _ (fun y => schouten_val hu hG i j y) k x
  have hc : ∀ a b c, ev x (Geo.christoffel (partialD U) g a b c) = christoffel G a b c x := fun a b c => christoffel_val hu hG a b c x
  simp only [map_sub, map_sum, map_mul, e, hc, schouten_val hu hG]

theorem covSchouten_symm (h : Describes m G) (hn : 4 ≤ n) (hW : ∀ y ∈ U, ∀ i k l m, weyl G i k l m y = 0) :
    ∀ y ∈ U, ∀ k i j, covSchouten G k i j y = covSchouten G j i k y := by
  obtain ⟨-, g, hS, hG⟩ := h
  intro y hy k i j
  rw [← covSchouten_val hS.reps.2.1 hG k i j ⟨y, hy⟩, ← covSchouten_val hS.reps.2.1 hG j i k ⟨y, hy⟩,
    Geo.cotton_zero (partialD U) g partialD_comm hS.symm hS.reps.2.1 (by simpa using hn) fun i k l m =>
      Subtype.ext (funext fun x => (weyl_val hS.reps.2.1 hG i k l m x).trans (hW x x.2 i k l m))]

set_option maxHeartbeats 1000000 in
/-- local conformal flatness -/
theorem exists_conformal (h : Describes m G) (hn : 3 ≤ n) (hW : ∀ y ∈ U, ∀ i k l m, weyl G i k l m y = 0)
    (hC : ∀ y ∈ U, ∀ k i j, covSchouten G k i j y = covSchouten G j i k y) {x0 : Fin n → ℝ} (hx0 : x0 ∈ U) :
    ∃ V : TopologicalSpace.Opens (Fin n → ℝ), x0 ∈ V ∧ V ≤ U ∧ ∃ u, ContDiffOn ℝ ∞ u V ∧ (∀ y ∈ V, 0 < u y) ∧
      ∃ φ s, FlatCoordinates (fun i j x => u x * G i j x) V φ s := by
  obtain ⟨-, g, hS, hG⟩ := id h
  have hW' : ∀ i k l m, Geo.weyl (partialD U) g i k l m = 0 := fun i k l m => by
    refine Subtype.ext (funext fun x => ?_)
    exact (weyl_val hS.reps.2.1 hG i k l m x).trans (hW x x.2 i k l m)
  have hC' : ∀ k j i, Geo.cov2 (partialD U) g (Geo.schouten (partialD U) g) k i j = Geo.cov2 (partialD U) g (Geo.schouten (partialD U) g) j i k := fun k j i => by
    refine fn_ext fun x => ?_
    rw [covSchouten_val hS.reps.2.1 hG, covSchouten_val hS.reps.2.1 hG, hC x x.2]
  set Ω : Fin n → Unit ⊕ Fin n ⊕ Unit → Unit ⊕ Fin n ⊕ Unit → (Fin n → ℝ) → ℝ := fun i α β => ext U (Geo.tractor (partialD U) g i α β).1 with hΩ
  have hv : ∀ i α β (x : U), Ω i α β x = ev x (Geo.tractor (partialD U) g i α β) := fun i α β x => ext_of x
  have hF : ∀ p ∈ U, ∀ i j α β, pd (Ω j α β) i p + ∑ γ, Ω j α γ p * Ω i γ β p = pd (Ω i α β) j p + ∑ γ, Ω i α γ p * Ω j γ β p := fun p hp i j α β => by
    have e := congrArg (ev (⟨p, hp⟩ : U)) (Geo.tractor_flat (partialD U) g partialD_comm hS.symm hS.reps.2.1 hW' hC' i j α β)
    have e1 : ∀ i j, ev (⟨p, hp⟩ : U) (partialD U i (Geo.tractor (partialD U) g j α β)) = pd (Ω j α β) i p := fun i j =>
      partialD_pd _ _ (fun x => (ext_of x).symm) i ⟨p, hp⟩
    simp only [map_add, map_sum, map_mul, e1, ← hv] at e
    exact e
  obtain ⟨ε, hε, hbU, e, hes, he0, he⟩ := exists_section (Ω := Ω) (fun i α β => (Geo.tractor (partialD U) g i α β).2) hF hx0
    (Sum.elim (fun _ => 1) (fun _ => 0))
  -- shrink the ball to make `σ` positive
  obtain ⟨δ, hδ, hδε, hpos⟩ : ∃ δ > 0, δ ≤ ε ∧ ∀ x ∈ Metric.ball x0 δ, 0 < e (.inl ()) x := by
    have hc : ContinuousAt (e (.inl ())) x0 := ((hes (.inl ())).contDiffAt (Metric.isOpen_ball.mem_nhds (Metric.mem_ball_self hε))).continuousAt
    have h1 : ∀ᶠ x in 𝓝 x0, 0 < e (.inl ()) x := hc.eventually (lt_mem_nhds (by rw [he0]; exact one_pos))
    obtain ⟨δ, hδ, hb⟩ := Metric.eventually_nhds_iff_ball.mp h1
    exact ⟨min δ ε, lt_min hδ hε, min_le_right _ _, fun x hx => hb x (Metric.ball_subset_ball (min_le_left _ _) hx)⟩
  have hsub : Metric.ball x0 δ ⊆ Metric.ball x0 ε := Metric.ball_subset_ball hδε
  set V : TopologicalSpace.Opens (Fin n → ℝ) := ⟨Metric.ball x0 δ, Metric.isOpen_ball⟩ with hVdef
  have hVU : V ≤ U := fun x hx => hbU (hsub hx)
  obtain ⟨mV, hmV⟩ := describes_restrict h hVU
  obtain ⟨-, gV, hSV, hGV⟩ := id hmV
  have huV := hSV.reps.2.1
  set σ : SmoothFn V := ofFn (e (.inl ())) ((hes _).mono hsub) with hσ
  set μ : Fin n → SmoothFn V := fun a => ofFn (e (.inr (.inl a))) ((hes _).mono hsub) with hμ
  set ρ : SmoothFn V := ofFn (e (.inr (.inr ()))) ((hes _).mono hsub) with hρ
  set τ : SmoothFn V := ofFn (fun x => (e (.inl ()) x)⁻¹) (((hes _).mono hsub).inv fun x hx => (hpos x hx).ne') with hτ
  have hgv : ∀ (x : V) i j, ev x (gV i j) = G i j x := fun x i j => hGV i j x
  have hgu : ∀ (x : V) i j, ev (⟨x, hVU x.2⟩ : U) (g i j) = G i j x := fun x i j => hG i j ⟨x, hVU x.2⟩
  have hcv : ∀ (x : V) i j k, ev x (Geo.christoffel (partialD V) gV i j k) = christoffel G i j k x := fun x i j k => christoffel_val huV hGV i j k x
  have hcu : ∀ (x : V) i j k, ev (⟨x, hVU x.2⟩ : U) (Geo.christoffel (partialD U) g i j k) = christoffel G i j k x := fun x i j k => christoffel_val hS.reps.2.1 hG i j k ⟨x, hVU x.2⟩
  have hpv : ∀ (x : V) i j, ev x (Geo.schouten (partialD V) gV i j) = schouten G i j x := fun x i j => schouten_val huV hGV i j x
  have hpu : ∀ (x : V) i j, ev (⟨x, hVU x.2⟩ : U) (Geo.schouten (partialD U) g i j) = schouten G i j x := fun x i j => schouten_val hS.reps.2.1 hG i j ⟨x, hVU x.2⟩
  have hiv : ∀ (x : V) i j, ev x (gV⁻¹ i j) = (Matrix.of fun a b => G a b x)⁻¹ i j := fun x i j => inv_val huV hGV i j x
  have hiu : ∀ (x : V) i j, ev (⟨x, hVU x.2⟩ : U) (g⁻¹ i j) = (Matrix.of fun a b => G a b x)⁻¹ i j := fun x i j => inv_val hS.reps.2.1 hG i j ⟨x, hVU x.2⟩
  have hσv : ∀ x : V, ev x σ = e (.inl ()) x := fun x => rfl
  have hμv : ∀ (x : V) a, ev x (μ a) = e (.inr (.inl a)) x := fun x a => rfl
  have hρv : ∀ x : V, ev x ρ = e (.inr (.inr ())) x := fun x => rfl
  have hd : ∀ (α) (i : Fin n) (x : V), ev x (partialD V i (ofFn (e α) ((hes α).mono hsub))) = ∑ β, ev (⟨x, hVU x.2⟩ : U) (Geo.tractor (partialD U) g i α β) * e β x := fun α i x => by
    refine (partialD_pd _ (e α) (fun _ => rfl) i x).trans ?_
    rw [he α i x (hsub x.2)]
    exact Finset.sum_congr rfl fun β _ => by rw [← hv i α β ⟨x, hVU x.2⟩]
  have hT : Geo.TractorParallel (partialD V) gV σ μ ρ := by
    refine ⟨fun i => ?_, fun i a => ?_, fun i => ?_⟩
    · refine fn_ext fun x => ?_
      rw [hd, Geo.sum_tr]
      simp only [Geo.tractor, map_zero, zero_mul, zero_add, add_zero, hμv, Matrix.one_apply, apply_ite (ev _), map_one, ite_mul, one_mul, Finset.sum_ite_eq, Finset.mem_univ, if_true]
    · refine fn_ext fun x => ?_
      rw [hd, Geo.sum_tr]
      simp only [Geo.tractor, map_neg, map_sub, map_sum, map_mul, hcv, hcu, hpv, hpu, hgv, hgu, hσv, hμv, hρv]
      ring
    · refine fn_ext fun x => ?_
      rw [hd, Geo.sum_tr]
      simp only [Geo.tractor, Geo.schoutenUp, map_zero, map_sum, map_mul, hpv, hpu, hiv, hiu, hμv, zero_mul, zero_add, add_zero]
  have hN : Geo.tractorSq gV σ μ ρ = 0 := by
    refine fn_ext fun x => ?_
    rw [const_of_partialD (convex_ball x0 δ).isPreconnected _ (Geo.tractor_sq_const hSV.symm huV hT) x ⟨x0, Metric.mem_ball_self hδ⟩, map_zero]
    unfold Geo.tractorSq Geo.tr2
    simp only [map_add, map_mul, map_sum, hσv, hμv, hρv, he0, Sum.elim_inr, mul_zero, zero_add, Finset.sum_const_zero]
  have hστ : σ * τ = 1 := by
    refine Subtype.ext (funext fun x => ?_)
    exact mul_inv_cancel₀ (hpos x x.2).ne'
  have hR := Geo.tractor_riemann partialD_comm hSV.symm huV (by simpa using hn) (fun i k l m => by
    refine Subtype.ext (funext fun x => ?_)
    exact (weyl_val huV hGV i k l m x).trans (hW x (hVU x.2) i k l m)) hT hN hστ
  set u : (Fin n → ℝ) → ℝ := fun x => (e (.inl ()) x)⁻¹ * (e (.inl ()) x)⁻¹ with hu
  have hus : ContDiffOn ℝ ∞ u V := (((hes _).mono hsub).inv fun x hx => (hpos x hx).ne').mul (((hes _).mono hsub).inv fun x hx => (hpos x hx).ne')
  have hu0 : ∀ y ∈ V, 0 < u y := fun y hy => mul_pos (inv_pos.mpr (hpos y hy)) (inv_pos.mpr (hpos y hy))
  obtain ⟨m', hm'⟩ := describes_rescale hmV hus fun x hx => (hu0 x hx).ne'
  obtain ⟨W, hxW, hWV, φ, s, hfl⟩ := exists_flat hm' (Metric.mem_ball_self hδ : x0 ∈ V) (fun y hy t s r k => by
    have huu : IsUnit ((τ * τ) • gV).det := by
      rw [Matrix.det_smul]
      have : IsUnit τ := IsUnit.of_mul_eq_one σ (by rw [mul_comm]; exact hστ)
      exact ((this.mul this).pow _).mul huV
    rw [← riemann_val huu (G := fun i j x => u x * G i j x) (fun i j x => congrArg (u x * ·) (hGV i j x)) t s r k ⟨y, hy⟩, hR, map_zero])
  exact ⟨W, hxW, hWV.trans hVU, u, hus.mono hWV, fun y hy => hu0 y (hWV hy), φ, s, hfl⟩

/-- the Weyl tensor of a metric that is conformal to a flat one vanishes -/
theorem conformal_weyl (h : Describes m G) (hn : 3 ≤ n) {u : (Fin n → ℝ) → ℝ} (hu : ContDiffOn ℝ ∞ u U) (h0 : ∀ y ∈ U, 0 < u y)
    (hR : ∀ y ∈ U, ∀ t s r k, riemann (fun i j x => u x * G i j x) t s r k y = 0) : ∀ y ∈ U, ∀ i k l m, weyl G i k l m y = 0 := by
  obtain ⟨-, g, hS, hG⟩ := h
  have hu' := hS.reps.2.1
  set a : SmoothFn U := ofFn u hu with ha
  have hun : IsUnit a := isUnit_of a fun x => (h0 x x.2).ne'
  obtain ⟨b, hab⟩ := hun.exists_right_inv
  have hdb : ∀ i, partialD U i b = -(b * b * partialD U i a) := fun i => by
    have e := congrArg (partialD U i) hab
    simp only [Derivation.leibniz, smul_eq_mul, Derivation.map_one_eq_zero] at e
    linear_combination b * e - (partialD U i b) * hab
  have huu : IsUnit (a • g).det := by rw [Matrix.det_smul]; exact (hun.pow _).mul hu'
  have hR' : ∀ t s r k, Geo.riemann (partialD U) (a • g) t s r k = 0 := fun t s r k => by
    refine Subtype.ext (funext fun x => ?_)
    exact (riemann_val huu (G := fun i j x => u x * G i j x) (fun i j x => congrArg (u x * ·) (hG i j x)) t s r k x).trans (hR x x.2 t s r k)
  have hw : ∀ i, partialD U i a = 2 * (a * Geo.half (b * partialD U i a)) := fun i => by
    have t := Geo.two_half (b * partialD U i a)
    linear_combination (-a) * t - (partialD U i a) * hab
  have hc : ∀ i j, partialD U i (Geo.half (b * partialD U j a)) = partialD U j (Geo.half (b * partialD U i a)) := fun i j => by
    unfold Geo.half
    rw [Derivation.map_smul, Derivation.map_smul]
    simp only [Derivation.leibniz, smul_eq_mul, hdb, partialD_comm i j a]
    congr 1
    ring
  intro y hy i k l m
  have e := Geo.conf_weyl (partialD U) g _ hS.symm hu' a hun hw hc (by simpa using hn) i k l m
  have e0 : Geo.weyl (partialD U) (a • g) i k l m = 0 := by
    simp [Geo.weyl, Geo.riemannLow, Geo.ricci, Geo.scalar, hR']
  rw [e0] at e
  have e1 : Geo.weyl (partialD U) g i k l m = 0 := (hun.mul_right_eq_zero).mp e.symm
  rw [← weyl_val hu' hG i k l m ⟨y, hy⟩, e1, map_zero]

/-- **C146.**  In dimension four and more all components of `WeylTensor.from_metric(m)` vanish on `U` exactly when every point of `U` has a neighbourhood with a
positive function `u` and coordinates in which `u` times the metric is a diagonal matrix of signs. -/
theorem C146_conformally_flat_iff (m : MetricV (SmoothFn U)) (G : Fin n → Fin n → (Fin n → ℝ) → ℝ) (h : Describes m G) (hn : 4 ≤ n) :
    Returns (weylFromMetric (diffD U m.syms) m) fun w =>
      (∀ i j k l : Fin n, ∀ y ∈ U, value w [(i : ℕ), j, k, l] y = 0) ↔
        ∀ x ∈ U, ∃ V : TopologicalSpace.Opens (Fin n → ℝ), x ∈ V ∧ V ≤ U ∧ ∃ u, ContDiffOn ℝ ∞ u V ∧ (∀ y ∈ V, 0 < u y) ∧
          ∃ φ s, FlatCoordinates (fun i j x => u x * G i j x) V φ s := by
  obtain ⟨w, e, hw⟩ := (C139_functions m G h).2.2.2.2.2.2 (by omega)
  have hv : ∀ i j k l : Fin n, ∀ y ∈ U, value w [(i : ℕ), j, k, l] y = weyl G i j k l y := fun i j k l y hy =>
    (ext_of (⟨y, hy⟩ : U)).trans (hw i j k l ⟨y, hy⟩)
  refine ⟨w, e, fun hW x hx => by
    have hW' : ∀ y ∈ U, ∀ i k l m, weyl G i k l m y = 0 := fun y hy i k l m => by rw [← hv _ _ _ _ y hy]; exact hW i k l m y hy
    exact exists_conformal h (by omega) hW' (covSchouten_symm h hn hW') hx, fun hF i j k l y hy => ?_⟩
  obtain ⟨V, hyV, hVU, u, hus, hu0, φ, s, hc⟩ := hF y hy
  obtain ⟨m', hm'⟩ := describes_restrict h hVU
  rw [hv i j k l y hy]
  exact conformal_weyl hm' (by omega) hus hu0 (flat_riemann V hc).1 y hyV i j k l

/-! ## the hypotheses are met: hyperbolic space `(Σ dx_i²)/x_0²` in dimension four -/

/-- the upper half space -/
def hypOpen : TopologicalSpace.Opens (Fin 4 → ℝ) := ⟨{x | 0 < x 0}, isOpen_lt continuous_const (continuous_apply 0)⟩

/-- the hyperbolic metric -/
noncomputable def hypG (i j : Fin 4) (x : Fin 4 → ℝ) : ℝ := if i = j then (x 0 ^ 2)⁻¹ else 0

theorem hypG_smooth (i j : Fin 4) : ContDiffOn ℝ ∞ (hypG i j) hypOpen := by
  unfold hypG
  by_cases h : i = j
  · simp only [h, if_true]
    refine ContDiffOn.inv (by fun_prop) fun x hx => ?_
    exact pow_ne_zero _ (show 0 < x 0 from hx).ne'
  · simp only [h, if_false]
    exact contDiffOn_const

/-- the metric object -/
noncomputable def hypMetric : MetricV (SmoothFn hypOpen) :=
  ⟨NDArr.ofMatrix (Matrix.of fun i j => ofFn (hypG i j) (hypG_smooth i j)), ['l', 'l'], ["x", "y", "z", "w"], none⟩

theorem hypMetric_describes : Describes hypMetric hypG := by
  refine describes_of hypG hypG_smooth (fun i j x _ => ?_) (fun x hx => ?_) _ rfl (by decide)
  · simp only [hypG, eq_comm]
  · have hx : 0 < x 0 := hx
    have e : (Matrix.of fun i j => hypG i j x) = Matrix.diagonal fun _ => (x 0 ^ 2)⁻¹ := by
      ext i j
      simp only [Matrix.of_apply, hypG, Matrix.diagonal_apply]
    rw [e, Matrix.det_diagonal, Finset.prod_const]
    positivity

/-- the Cartesian coordinates and the factor `x_0²` -/
theorem hyp_conformal : FlatCoordinates (fun i j x => x 0 ^ 2 * hypG i j x) hypOpen (fun a x => x a) (fun _ => 1) := by
  have hp : ∀ (a i : Fin 4) (x : Fin 4 → ℝ), pd (fun x => x a) i x = if a = i then 1 else 0 := fun a i x => by
    unfold pd
    by_cases h : a = i
    · subst h; simp
    · simp [h]
  refine ⟨fun a => by fun_prop, fun x _ y _ h => h, fun x _ => ?_, fun _ => Or.inr rfl, fun x hx i j => ?_⟩
  · have : (Matrix.of fun a i => pd (fun x : Fin 4 → ℝ => x a) i x) = 1 := by
      ext a i; simp [hp, Matrix.one_apply]
    rw [this, Matrix.det_one]
    exact one_ne_zero
  · have hx : 0 < x 0 := hx
    simp only [hp, hypG, one_mul]
    by_cases h : i = j
    · subst h
      simp [hx.ne']
    · simp [h, Ne.symm h]

/-- every component of the Weyl tensor the library returns for hyperbolic space is zero -/
theorem hyp_weyl : Returns (weylFromMetric (diffD hypOpen hypMetric.syms) hypMetric) fun w =>
    ∀ i j k l : Fin 4, ∀ y ∈ hypOpen, value w [(i : ℕ), j, k, l] y = 0 := by
  obtain ⟨w, e, hw⟩ := C146_conformally_flat_iff hypMetric hypG hypMetric_describes le_rfl
  exact ⟨w, e, hw.mpr fun x hx => ⟨hypOpen, hx, le_rfl, fun x => x 0 ^ 2, by fun_prop, fun y hy => pow_pos (show 0 < y 0 from hy) 2, _, _, hyp_conformal⟩⟩

end Einpy.Fn
