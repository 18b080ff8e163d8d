import Verif.Curv.FlatPaths
import Verif.Curv.Frobenius
import Verif.Curv.Covariance
import Mathlib.LinearAlgebra.QuadraticForm.Real
import Mathlib.LinearAlgebra.Matrix.BilinearForm
import Mathlib.Analysis.Calculus.InverseFunctionTheorem.ContDiff

/-!
# C145: the Riemann tensor vanishes exactly for flat metrics
-/

set_option maxSynthPendingDepth 3

namespace Einpy.Fn
open scoped Topology ContDiff

variable {n : ℕ}

/-- the fibre: a covector and a number -/
abbrev Fib (n : ℕ) := (Fin n → ℝ) × ℝ

noncomputable def flT (j k : Fin n) : Fib n →L[ℝ] Fib n :=
  ((ContinuousLinearMap.proj k).comp (ContinuousLinearMap.fst ℝ (Fin n → ℝ) ℝ)).smulRight ((Pi.single j 1, 0) : Fib n)

noncomputable def flB (i j k : Fin n) : (Fin n → ℝ) →L[ℝ] Fib n →L[ℝ] Fib n := (ContinuousLinearMap.proj i : (Fin n → ℝ) →L[ℝ] ℝ).smulRight (flT j k)

noncomputable def flB0 (n : ℕ) : (Fin n → ℝ) →L[ℝ] Fib n →L[ℝ] Fib n :=
  ∑ j, (ContinuousLinearMap.proj j : (Fin n → ℝ) →L[ℝ] ℝ).smulRight
    (((ContinuousLinearMap.proj j).comp (ContinuousLinearMap.fst ℝ (Fin n → ℝ) ℝ)).smulRight ((0, 1) : Fib n))

/-- the connection on covectors with symbols `Γ`, with a primitive added -/
noncomputable def flA (Γ : Fin n → Fin n → Fin n → (Fin n → ℝ) → ℝ) (p : Fin n → ℝ) : (Fin n → ℝ) →L[ℝ] Fib n →L[ℝ] Fib n :=
  (∑ i, ∑ j, ∑ k, Γ k i j p • flB i j k) + flB0 n

theorem flSum_fst (c : Fin n → Fin n → Fin n → ℝ) (v : Fin n → ℝ) (y : Fib n) (j : Fin n) :
    ((∑ i, ∑ j, ∑ k, c i j k • flB i j k) v y).1 j = ∑ i, ∑ k, c i j k * v i * y.1 k := by
  simp only [sum_apply, Prod.fst_sum, Finset.sum_apply, smul_apply, flB, flT, ContinuousLinearMap.smulRight_apply,
    ContinuousLinearMap.proj_apply, ContinuousLinearMap.comp_apply, ContinuousLinearMap.coe_fst', Prod.smul_fst, Pi.smul_apply, Pi.single_apply, smul_eq_mul]
  refine Finset.sum_congr rfl fun i _ => ?_
  rw [Finset.sum_eq_single j]
  · simp [mul_assoc]
  · intro b _ hb; simp [hb.symm]
  · simp

theorem flSum_snd (c : Fin n → Fin n → Fin n → ℝ) (v : Fin n → ℝ) (y : Fib n) :
    ((∑ i, ∑ j, ∑ k, c i j k • flB i j k) v y).2 = 0 := by
  simp only [sum_apply, Prod.snd_sum, smul_apply, flB, flT, ContinuousLinearMap.smulRight_apply,
    Prod.smul_snd, smul_zero, Finset.sum_const_zero]

theorem flB0_fst (v : Fin n → ℝ) (y : Fib n) : (flB0 n v y).1 = 0 := by
  simp only [flB0, sum_apply, Prod.fst_sum, smul_apply, ContinuousLinearMap.smulRight_apply,
    Prod.smul_fst, smul_zero, Finset.sum_const_zero]

theorem flB0_snd (v : Fin n → ℝ) (y : Fib n) : (flB0 n v y).2 = ∑ j, v j * y.1 j := by
  simp only [flB0, sum_apply, Prod.snd_sum, smul_apply, ContinuousLinearMap.smulRight_apply,
    Prod.smul_snd, smul_eq_mul, mul_one, ContinuousLinearMap.proj_apply, ContinuousLinearMap.comp_apply, ContinuousLinearMap.coe_fst']

variable {Γ : Fin n → Fin n → Fin n → (Fin n → ℝ) → ℝ}

theorem flA_fst (p v : Fin n → ℝ) (y : Fib n) (j : Fin n) : (flA Γ p v y).1 j = ∑ i, ∑ k, Γ k i j p * v i * y.1 k := by
  simp only [flA, add_apply, Prod.fst_add, Pi.add_apply, flB0_fst, Pi.zero_apply, add_zero]
  exact flSum_fst (fun i j k => Γ k i j p) v y j

theorem flA_snd (p v : Fin n → ℝ) (y : Fib n) : (flA Γ p v y).2 = ∑ j, v j * y.1 j := by
  simp only [flA, add_apply, Prod.snd_add, flB0_snd]
  rw [flSum_snd (fun i j k => Γ k i j p) v y, zero_add]

theorem flA_smooth {S : Set (Fin n → ℝ)} (h : ∀ k i j, ContDiffOn ℝ ∞ (Γ k i j) S) : ContDiffOn ℝ ∞ (flA Γ) S := by
  unfold flA
  exact ContDiffOn.add (ContDiffOn.sum fun i _ => ContDiffOn.sum fun j _ => ContDiffOn.sum fun k _ => (h k i j).smul contDiffOn_const) contDiffOn_const

theorem flA_deriv {p : Fin n → ℝ} (h : ∀ k i j, DifferentiableAt ℝ (Γ k i j) p) (u : Fin n → ℝ) :
    fderiv ℝ (flA Γ) p u = ∑ i, ∑ j, ∑ k, (fderiv ℝ (Γ k i j) p u) • flB i j k := by
  have : HasFDerivAt (flA Γ) (∑ i, ∑ j, ∑ k, (fderiv ℝ (Γ k i j) p).smulRight (flB i j k)) p := by
    unfold flA
    refine HasFDerivAt.add_const _ (HasFDerivAt.fun_sum fun i _ => HasFDerivAt.fun_sum fun j _ => HasFDerivAt.fun_sum fun k _ => ?_)
    exact (h k i j).hasFDerivAt.smul_const _
  rw [this.fderiv]
  simp only [sum_apply, ContinuousLinearMap.smulRight_apply]

theorem fderiv_pd {F : (Fin n → ℝ) → ℝ} {x : Fin n → ℝ} (h : DifferentiableAt ℝ F x) (u : Fin n → ℝ) : fderiv ℝ F x u = ∑ a, u a * pd F a x := by
  have hv' : u = ∑ l, u l • (Pi.single l (1 : ℝ) : Fin n → ℝ) := by
    funext i
    simp [Finset.sum_apply, Pi.single_apply]
  conv_lhs => rw [hv']
  rw [map_sum]
  exact Finset.sum_congr rfl fun a _ => by rw [map_smul, smul_eq_mul, pd_fderiv h]

/-- vanishing curvature -/
theorem flA_flat {p : Fin n → ℝ} (h : ∀ k i j, DifferentiableAt ℝ (Γ k i j) p) (hs : ∀ k i j, Γ k i j p = Γ k j i p)
    (hR : ∀ t s r k, pd (Γ t s k) r p - pd (Γ t s r) k p + ∑ q, (Γ q s k p * Γ t q r p - Γ q s r p * Γ t q k p) = 0)
    (hsd : ∀ k i j a, pd (Γ k i j) a p = pd (Γ k j i) a p) :
    Frob.Flat (flA Γ) (fderiv ℝ (flA Γ)) p := by
  -- symmetric form
  have key : ∀ (u v : Fin n → ℝ) (y : Fib n) (j : Fin n), (fderiv ℝ (flA Γ) p u v y + flA Γ p v (flA Γ p u y)).1 j =
      ∑ a, ∑ b, ∑ k, u a * v b * y.1 k * (pd (Γ k b j) a p + ∑ q, Γ q b j p * Γ k a q p) := by
    intro u v y j
    rw [flA_deriv h]
    simp only [Prod.fst_add, Pi.add_apply, flA_fst]
    rw [flSum_fst (fun i j k => fderiv ℝ (Γ k i j) p u) v y j]
    simp only [mul_add, Finset.sum_add_distrib]
    congr 1
    · simp only [fderiv_pd (h _ _ _), Finset.sum_mul]
      conv_rhs => rw [Finset.sum_comm]
      refine Finset.sum_congr rfl fun b _ => ?_
      rw [Finset.sum_comm]
      exact Finset.sum_congr rfl fun a _ => Finset.sum_congr rfl fun k _ => by ring
    · conv_rhs => rw [Finset.sum_comm]
      simp only [Finset.mul_sum]
      refine Finset.sum_congr rfl fun b _ => ?_
      rw [Finset.sum_comm]
      refine Finset.sum_congr rfl fun a _ => ?_
      rw [Finset.sum_comm]
      exact Finset.sum_congr rfl fun k _ => Finset.sum_congr rfl fun q _ => by ring
  intro u v y
  refine Prod.ext ?_ ?_
  · funext j
    rw [key u v y j, key v u y j, Finset.sum_comm]
    refine Finset.sum_congr rfl fun b _ => Finset.sum_congr rfl fun a _ => Finset.sum_congr rfl fun k _ => ?_
    have h1 : ∑ q, Γ q b j p * Γ k a q p = ∑ q, Γ q j b p * Γ k q a p := Finset.sum_congr rfl fun q _ => by rw [hs q b j, hs k a q]
    have h2 : ∑ q, Γ q a j p * Γ k b q p = ∑ q, Γ q j a p * Γ k q b p := Finset.sum_congr rfl fun q _ => by rw [hs q a j, hs k b q]
    have h3 := hR k j a b
    rw [Finset.sum_sub_distrib] at h3
    rw [h1, h2, hsd k b j, hsd k a j]
    linear_combination (u a * v b * y.1 k) * h3
  · have key2 : ∀ (u v : Fin n → ℝ) (y : Fib n), (fderiv ℝ (flA Γ) p u v y + flA Γ p v (flA Γ p u y)).2 = ∑ j, ∑ i, v j * u i * ∑ k, Γ k i j p * y.1 k := by
      intro u v y
      rw [flA_deriv h]
      simp only [Prod.snd_add, flA_snd, flA_fst]
      rw [flSum_snd (fun i j k => fderiv ℝ (Γ k i j) p u) v y, zero_add]
      simp only [Finset.mul_sum]
      refine Finset.sum_congr rfl fun j _ => Finset.sum_congr rfl fun i _ => Finset.sum_congr rfl fun k _ => by ring
    rw [key2, key2, Finset.sum_comm]
    refine Finset.sum_congr rfl fun j _ => Finset.sum_congr rfl fun i _ => ?_
    simp only [hs _ i j]
    ring
section
open Matrix
/-- Sylvester: a symmetric invertible real matrix is congruent to a diagonal matrix of signs. -/
theorem sylvester {n : ℕ} (η : Matrix (Fin n) (Fin n) ℝ) (hs : ∀ i j, η i j = η j i) (hd : η.det ≠ 0) :
    ∃ (s : Fin n → ℝ) (P : Matrix (Fin n) (Fin n) ℝ), (∀ a, s a = -1 ∨ s a = 1) ∧ ∀ i j, η i j = ∑ a, s a * P a i * P a j := by
  have hsym : η.toBilin'.IsSymm := by
    refine ⟨fun x y => ?_⟩
    simp only [Matrix.toBilin'_apply]
    rw [Finset.sum_comm]
    refine Finset.sum_congr rfl fun i _ => Finset.sum_congr rfl fun j _ => ?_
    rw [hs i j]; ring
  have hass : QuadraticMap.associated (R := ℝ) (LinearMap.BilinMap.toQuadraticMap η.toBilin') = η.toBilin' :=
    QuadraticMap.associated_left_inverse ℝ hsym.eq
  obtain ⟨w, hw, ⟨e⟩⟩ := QuadraticForm.equivalent_one_neg_one_weighted_sum_squared (LinearMap.BilinMap.toQuadraticMap η.toBilin') (by
    rw [hass]
    exact (Matrix.separatingLeft_iff_det_ne_zero.mpr hd).toBilin')
  have hk : Module.finrank ℝ (Fin n → ℝ) = n := by simp
  generalize Module.finrank ℝ (Fin n → ℝ) = k at *
  subst hk
  have hq : ∀ x, ∑ a, w a * (e x a * e x a) = η.toBilin' x x := fun x => by
    have := e.map_app x
    rw [QuadraticMap.weightedSumSquares_apply, LinearMap.BilinMap.toQuadraticMap_apply] at this
    simpa only [smul_eq_mul] using this
  have hb : ∀ x y, ∑ a, w a * (e x a * e y a) = η.toBilin' x y := fun x y => by
    have h1 := hq (x + y)
    have h2 := hq x
    have h3 := hq y
    have h4 : η.toBilin' y x = η.toBilin' x y := hsym.eq y x
    simp only [map_add, Pi.add_apply, LinearMap.add_apply, h4] at h1
    have h5 : ∑ a, w a * ((e x a + e y a) * (e x a + e y a)) = ∑ a, w a * (e x a * e x a) + 2 * ∑ a, w a * (e x a * e y a) + ∑ a, w a * (e y a * e y a) := by
      rw [Finset.mul_sum, ← Finset.sum_add_distrib, ← Finset.sum_add_distrib]
      exact Finset.sum_congr rfl fun a _ => by ring
    rw [h5] at h1
    linarith
  refine ⟨w, Matrix.of fun a i => e (Pi.single i 1) a, hw, fun i j => ?_⟩
  have := hb (Pi.single i 1) (Pi.single j 1)
  rw [Matrix.toBilin'_single] at this
  rw [← this]
  exact Finset.sum_congr rfl fun a _ => by simp [mul_assoc]
end

/-- Flat coordinates on `V`: smooth functions `φ^a`, one to one and with invertible Jacobian matrix, in which the metric is `Σ_a s_a (dφ^a)²` with signs `s_a`. -/
structure FlatCoordinates (G : Fin n → Fin n → (Fin n → ℝ) → ℝ) (V : Set (Fin n → ℝ)) (φ : Fin n → (Fin n → ℝ) → ℝ) (s : Fin n → ℝ) : Prop where
  smooth : ∀ a, ContDiffOn ℝ ∞ (φ a) V
  inj : Set.InjOn (fun x a => φ a x) V
  jacobian : ∀ x ∈ V, (Matrix.of fun a i => pd (φ a) i x).det ≠ 0
  sign : ∀ a, s a = -1 ∨ s a = 1
  metric : ∀ x ∈ V, ∀ i j, G i j x = ∑ a, s a * pd (φ a) i x * pd (φ a) j x

variable {U : TopologicalSpace.Opens (Fin n → ℝ)} {m : MetricV (SmoothFn U)} {G : Fin n → Fin n → (Fin n → ℝ) → ℝ}

theorem christoffel_smooth (h : Describes m G) (i j k : Fin n) : ContDiffOn ℝ ∞ (christoffel G i j k) U := by
  obtain ⟨-, g, hS, hG⟩ := h
  exact (Geo.christoffel (partialD U) g i j k).2.congr fun x hx => (christoffel_val hS.reps.2.1 hG i j k ⟨x, hx⟩).symm.trans (ext_of (⟨x, hx⟩ : U)).symm

theorem christoffel_symm_val (h : Describes m G) (i j k : Fin n) {x : Fin n → ℝ} (hx : x ∈ U) : christoffel G i j k x = christoffel G i k j x := by
  obtain ⟨-, g, hS, hG⟩ := h
  rw [← christoffel_val hS.reps.2.1 hG i j k ⟨x, hx⟩, ← christoffel_val hS.reps.2.1 hG i k j ⟨x, hx⟩, Geo.christoffel_symm _ _ hS.symm]

theorem describes_det (h : Describes m G) {x : Fin n → ℝ} (hx : x ∈ U) : (Matrix.of fun i j => G i j x).det ≠ 0 := by
  obtain ⟨-, g, hS, hG⟩ := h
  have h1 := hS.reps.2.1.map (ev (⟨x, hx⟩ : U))
  rw [RingHom.map_det] at h1
  have e : (ev (⟨x, hx⟩ : U)).mapMatrix g = Matrix.of fun i j => G i j x := by ext a b; exact hG a b ⟨x, hx⟩
  rw [e] at h1
  exact h1.ne_zero

/-- local existence of a parallel coframe with primitives -/
theorem exists_frame (h : Describes m G) {x0 : Fin n → ℝ} (hx0 : x0 ∈ U) (hR : ∀ y ∈ U, ∀ t s r k, riemann G t s r k y = 0) :
    ∃ ε > 0, Metric.ball x0 ε ⊆ U ∧ ∃ φ : Fin n → (Fin n → ℝ) → ℝ, (∀ a, ContDiffOn ℝ ∞ (φ a) (Metric.ball x0 ε)) ∧
      (∀ a i, pd (φ a) i x0 = if i = a then 1 else 0) ∧
      ∀ a j i, ∀ x ∈ Metric.ball x0 ε, pd (pd (φ a) j) i x = ∑ k, christoffel G k i j x * pd (φ a) k x := by
  have hsm := flA_smooth (Γ := christoffel G) (S := U) fun k i j => christoffel_smooth h k i j
  have hUn : (U : Set (Fin n → ℝ)) ∈ 𝓝 x0 := U.isOpen.mem_nhds hx0
  obtain ⟨ε, M, L, hB, hsub⟩ := Frob.exists_bounds (contDiffAt_infty.mp (hsm.contDiffAt hUn) 2) hUn
  have hd : ∀ p ∈ U, ∀ k i j, DifferentiableAt ℝ (christoffel G k i j) p := fun p hp k i j =>
    ((christoffel_smooth h k i j).contDiffAt (U.isOpen.mem_nhds hp)).differentiableAt (by simp)
  have hflat : ∀ p ∈ Metric.ball x0 (3 * ε), Frob.Flat (flA (christoffel G)) (fderiv ℝ (flA (christoffel G))) p := fun p hp =>
    flA_flat (hd p (hsub hp)) (fun k i j => christoffel_symm_val h k i j (hsub hp)) (fun t s r k => hR p (hsub hp) t s r k) (fun k i j a =>
      pd_congr (by filter_upwards [U.isOpen.mem_nhds (hsub hp)] with y hy using christoffel_symm_val h k i j hy) a)
  have hbU : Metric.ball x0 ε ⊆ U := fun x hx => hsub (Metric.ball_subset_ball (by linarith [hB.pos]) hx)
  choose e he0 he using fun a : Fin n => Frob.exists_parallel hB hflat ((Pi.single a 1, 0) : Fib n)
  have hes : ∀ a, ContDiffOn ℝ ∞ (e a) (Metric.ball x0 ε) := fun a => Frob.parallel_smooth Metric.isOpen_ball (hsm.mono hbU) (he a)
  have hφ : ∀ a, ∀ x ∈ Metric.ball x0 ε, ∀ i, pd (fun x => (e a x).2) i x = (e a x).1 i := fun a x hx i => by
    have h1 : HasFDerivAt (fun x => (e a x).2) ((ContinuousLinearMap.snd ℝ (Fin n → ℝ) ℝ).comp ((flA (christoffel G) x).flip (e a x))) x := (he a x hx).snd
    rw [pd_fderiv h1.differentiableAt, h1.fderiv]
    show (flA (christoffel G) x (Pi.single i 1) (e a x)).2 = _
    rw [flA_snd]
    simp [Pi.single_apply]
  have hw : ∀ a, ∀ x ∈ Metric.ball x0 ε, ∀ i j, pd (fun x => (e a x).1 j) i x = ∑ k, christoffel G k i j x * (e a x).1 k := fun a x hx i j => by
    have h1 : HasFDerivAt (fun x => (e a x).1 j) ((ContinuousLinearMap.proj j).comp ((ContinuousLinearMap.fst ℝ (Fin n → ℝ) ℝ).comp ((flA (christoffel G) x).flip (e a x)))) x :=
      hasFDerivAt_pi'.mp (he a x hx).fst j
    rw [pd_fderiv h1.differentiableAt, h1.fderiv]
    show (flA (christoffel G) x (Pi.single i 1) (e a x)).1 j = _
    rw [flA_fst, Finset.sum_eq_single i]
    · simp
    · intro b _ hb; simp [hb]
    · simp
  refine ⟨ε, hB.pos, hbU, fun a x => (e a x).2, fun a => contDiff_snd.comp_contDiffOn (hes a), fun a i => ?_, fun a j i x hx => ?_⟩
  · rw [hφ a x0 (Metric.mem_ball_self hB.pos), he0]
    simp [Pi.single_apply]
  · rw [pd_congr (G := fun x => (e a x).1 j) (by filter_upwards [Metric.isOpen_ball.mem_nhds hx] with y hy using hφ a y hy j), hw a x hx]
    exact Finset.sum_congr rfl fun k _ => by rw [hφ a x hx]

theorem pd_smooth {S : Set (Fin n → ℝ)} (hS : IsOpen S) {F : (Fin n → ℝ) → ℝ} (hF : ContDiffOn ℝ ∞ F S) (a : Fin n) : ContDiffOn ℝ ∞ (pd F a) S := by
  have h1 : ContDiffOn ℝ ∞ (fderiv ℝ F) S := ContDiffOn.fderiv_of_isOpen hF hS (by simp)
  refine (h1.clm_apply (contDiffOn_const (c := (Pi.single a 1 : Fin n → ℝ)))).congr fun z hz => ?_
  exact pd_fderiv ((hF.contDiffAt (hS.mem_nhds hz)).differentiableAt (by simp)) a

/-- two symmetric tensors with the same covariant derivative law agree on a ball -/
theorem tensor_unique (h : Describes m G) {x0 : Fin n → ℝ} {ε : ℝ} (hU : Metric.ball x0 ε ⊆ U) (D : Fin n → Fin n → (Fin n → ℝ) → ℝ)
    (hD : ∀ i j, ∀ x ∈ Metric.ball x0 ε, DifferentiableAt ℝ (D i j) x) (h0 : ∀ i j, D i j x0 = 0)
    (hpd : ∀ i j k, ∀ x ∈ Metric.ball x0 ε, pd (D i j) k x = ∑ a, (christoffel G a k i x * D a j x + christoffel G a k j x * D i a x)) :
    ∀ x ∈ Metric.ball x0 ε, ∀ i j, D i j x = 0 := by
  intro x hx i j
  set v := x - x0 with hv
  have hp : ∀ t ∈ Set.Icc (0 : ℝ) 1, x0 + t • v ∈ Metric.ball x0 ε := fun t ht => by
    rw [mem_ball_iff_norm] at hx ⊢
    rw [add_sub_cancel_left, norm_smul, Real.norm_of_nonneg ht.1]
    nlinarith [ht.1, ht.2, norm_nonneg v]
  have hc : Continuous fun t : ℝ => x0 + t • v := by fun_prop
  have hΓ : ∀ a k i, ContinuousOn (fun t : ℝ => christoffel G a k i (x0 + t • v)) (Set.Icc 0 1) := fun a k i =>
    ContinuousOn.comp (g := christoffel G a k i) (t := Metric.ball x0 ε) ((christoffel_smooth h a k i).continuousOn.mono hU) hc.continuousOn hp
  have key := linear_unique (ι := Fin n × Fin n) (fun ij kl t => ∑ k, v k * ((if kl.2 = ij.2 then christoffel G kl.1 k ij.1 (x0 + t • v) else 0) +
      (if kl.1 = ij.1 then christoffel G kl.2 k ij.2 (x0 + t • v) else 0)))
    (fun ij kl => by
      refine continuousOn_finsetSum _ fun k _ => continuousOn_const.mul (ContinuousOn.add ?_ ?_)
      · split_ifs
        · exact hΓ _ _ _
        · exact continuousOn_const
      · split_ifs
        · exact hΓ _ _ _
        · exact continuousOn_const)
    (fun t ij => D ij.1 ij.2 (x0 + t • v)) (fun t ht ij => by
      have hq : ∀ i, HasDerivAt (fun t : ℝ => (x0 + t • v) i) (v i) t := fun i => by
        have := ((hasDerivAt_id t).mul_const (v i)).const_add (x0 i)
        simpa using this
      have := along_curve (q := fun t => x0 + t • v) (hD ij.1 ij.2 _ (hp t ht)) fun i => (hq i).differentiableAt
      refine this.congr_deriv ?_
      simp only [(hq _).deriv, hpd _ _ _ _ (hp t ht), Fintype.sum_prod_type]
      have hk : ∀ k, ∑ a, ∑ b, ((if b = ij.2 then christoffel G a k ij.1 (x0 + t • v) else 0) + (if a = ij.1 then christoffel G b k ij.2 (x0 + t • v) else 0)) * D a b (x0 + t • v) =
          ∑ a, (christoffel G a k ij.1 (x0 + t • v) * D a ij.2 (x0 + t • v) + christoffel G a k ij.2 (x0 + t • v) * D ij.1 a (x0 + t • v)) := fun k => by
        simp only [add_mul, Finset.sum_add_distrib, ite_mul, zero_mul, Finset.sum_ite_eq', Finset.mem_univ, if_true]
        congr 1
        rw [Finset.sum_comm]
        simp only [Finset.sum_ite_eq', Finset.mem_univ, if_true]
      simp only [← hk]
      simp only [Finset.sum_mul]
      rw [Finset.sum_comm]
      refine Finset.sum_congr rfl fun a _ => ?_
      rw [Finset.sum_comm]
      exact Finset.sum_congr rfl fun b _ => Finset.sum_congr rfl fun k _ => by ring)
    (by funext ij; simpa using h0 ij.1 ij.2)
  have := congrFun key (i, j)
  simpa [hv] using this

/-- a region where the Riemann tensor vanishes has flat coordinates near every point -/
theorem exists_flat (h : Describes m G) {x0 : Fin n → ℝ} (hx0 : x0 ∈ U) (hR : ∀ y ∈ U, ∀ t s r k, riemann G t s r k y = 0) :
    ∃ V : TopologicalSpace.Opens (Fin n → ℝ), x0 ∈ V ∧ V ≤ U ∧ ∃ φ s, FlatCoordinates G V φ s := by
  obtain ⟨ε, hε, hbU, ψ, hψ, hψ0, hψ2⟩ := exists_frame h hx0 hR
  obtain ⟨s, P, hs, hP⟩ := sylvester (Matrix.of fun i j => G i j x0) (fun i j => describes_symm h i j hx0) (describes_det h hx0)
  have hPs : ∀ i j, G i j x0 = ∑ a, s a * P a i * P a j := fun i j => hP i j
  set φ : Fin n → (Fin n → ℝ) → ℝ := fun a x => ∑ b, P a b * ψ b x with hφdef
  have hψd : ∀ b, ∀ x ∈ Metric.ball x0 ε, DifferentiableAt ℝ (ψ b) x := fun b x hx => ((hψ b).contDiffAt (Metric.isOpen_ball.mem_nhds hx)).differentiableAt (by simp)
  have hφs : ∀ a, ContDiffOn ℝ ∞ (φ a) (Metric.ball x0 ε) := fun a => ContDiffOn.sum fun b _ => contDiffOn_const.mul (hψ b)
  have hφd : ∀ b, ∀ x ∈ Metric.ball x0 ε, DifferentiableAt ℝ (φ b) x := fun b x hx => ((hφs b).contDiffAt (Metric.isOpen_ball.mem_nhds hx)).differentiableAt (by simp)
  have hφ1 : ∀ a i, ∀ x ∈ Metric.ball x0 ε, pd (φ a) i x = ∑ b, P a b * pd (ψ b) i x := fun a i x hx => by
    have : HasFDerivAt (φ a) (∑ b, P a b • fderiv ℝ (ψ b) x) x := HasFDerivAt.fun_sum fun b _ => ((hψd b x hx).hasFDerivAt.const_mul (P a b))
    rw [pd_fderiv (hφd a x hx), this.fderiv]
    simp only [sum_apply, smul_apply, smul_eq_mul, pd_fderiv (hψd _ x hx)]
  have hφ0 : ∀ a i, pd (φ a) i x0 = P a i := fun a i => by
    rw [hφ1 a i x0 (Metric.mem_ball_self hε)]
    simp [hψ0]
  have hφ2 : ∀ a j i, ∀ x ∈ Metric.ball x0 ε, HasFDerivAt (pd (φ a) j) (fderiv ℝ (pd (φ a) j) x) x ∧ pd (pd (φ a) j) i x = ∑ k, christoffel G k i j x * pd (φ a) k x := fun a j i x hx => by
    have hsmooth := fun b => pd_smooth Metric.isOpen_ball (hψ b) j
    have hd : ∀ b, DifferentiableAt ℝ (pd (ψ b) j) x := fun b => ((hsmooth b).contDiffAt (Metric.isOpen_ball.mem_nhds hx)).differentiableAt (by simp)
    have hev : pd (φ a) j =ᶠ[𝓝 x] fun x => ∑ b, P a b * pd (ψ b) j x := by
      filter_upwards [Metric.isOpen_ball.mem_nhds hx] with y hy using hφ1 a j y hy
    have h1 : HasFDerivAt (fun x => ∑ b, P a b * pd (ψ b) j x) (∑ b, P a b • fderiv ℝ (pd (ψ b) j) x) x := HasFDerivAt.fun_sum fun b _ => ((hd b).hasFDerivAt.const_mul (P a b))
    refine ⟨(h1.congr_of_eventuallyEq hev).differentiableAt.hasFDerivAt, ?_⟩
    rw [pd_congr hev, pd_fderiv h1.differentiableAt, h1.fderiv]
    simp only [sum_apply, smul_apply, smul_eq_mul]
    have h2 : ∀ b, (fderiv ℝ (pd (ψ b) j) x) (Pi.single i 1) = ∑ k, christoffel G k i j x * pd (ψ b) k x := fun b => by rw [← pd_fderiv (hd b), hψ2 b j i x hx]
    simp only [h2, hφ1 a _ x hx, Finset.mul_sum]
    rw [Finset.sum_comm]
    exact Finset.sum_congr rfl fun k _ => Finset.sum_congr rfl fun b _ => by ring
  -- the metric
  have hmet : ∀ x ∈ Metric.ball x0 ε, ∀ i j, G i j x = ∑ a, s a * pd (φ a) i x * pd (φ a) j x := by
    have hH : ∀ i j, ∀ x ∈ Metric.ball x0 ε, HasFDerivAt (fun x => G i j x - ∑ a, s a * pd (φ a) i x * pd (φ a) j x)
        (fderiv ℝ (G i j) x - ∑ a, ((s a * pd (φ a) i x) • fderiv ℝ (pd (φ a) j) x + pd (φ a) j x • (s a • fderiv ℝ (pd (φ a) i) x))) x := fun i j x hx =>
      (describes_differentiable h i j (hbU hx)).hasFDerivAt.fun_sub (HasFDerivAt.fun_sum fun a _ => (((hφ2 a i i x hx).1.const_mul (s a)).mul (hφ2 a j j x hx).1))
    have := tensor_unique h hbU (fun i j x => G i j x - ∑ a, s a * pd (φ a) i x * pd (φ a) j x) (fun i j x hx => (hH i j x hx).differentiableAt)
      (fun i j => by simp only [hφ0, hPs]; exact sub_self _) (fun i j k x hx => by
        rw [pd_fderiv (hH i j x hx).differentiableAt, (hH i j x hx).fderiv]
        have e : ∀ a j, fderiv ℝ (pd (φ a) j) x (Pi.single k 1) = ∑ l, christoffel G l k j x * pd (φ a) l x := fun a j => by
          rw [← pd_fderiv (hφ2 a j k x hx).1.differentiableAt, (hφ2 a j k x hx).2]
        simp only [sub_apply, sum_apply, add_apply, smul_apply, smul_eq_mul, e,
          ← pd_fderiv (describes_differentiable h i j (hbU hx)), compat_val h i j k (hbU hx), mul_sub, Finset.sum_add_distrib, Finset.sum_sub_distrib, Finset.mul_sum]
        rw [Finset.sum_comm (f := fun a l => s a * pd (φ a) i x * (christoffel G l k j x * pd (φ a) l x)),
          Finset.sum_comm (f := fun a l => pd (φ a) j x * (s a * (christoffel G l k i x * pd (φ a) l x)))]
        have q1 : ∀ l a, pd (φ a) j x * (s a * (christoffel G l k i x * pd (φ a) l x)) = christoffel G l k i x * (s a * pd (φ a) l x * pd (φ a) j x) := fun l a => by ring
        have q2 : ∀ l a, s a * pd (φ a) i x * (christoffel G l k j x * pd (φ a) l x) = christoffel G l k j x * (s a * pd (φ a) i x * pd (φ a) l x) := fun l a => by ring
        simp only [q1, q2]
        ring)
    intro x hx i j
    exact sub_eq_zero.mp (this x hx i j)
  have hjac : ∀ x ∈ Metric.ball x0 ε, (Matrix.of fun a i => pd (φ a) i x).det ≠ 0 := fun x hx h0 => by
    refine describes_det h (hbU hx) ?_
    have : (Matrix.of fun i j => G i j x) = (Matrix.of fun a i => pd (φ a) i x).transpose * (Matrix.diagonal s * Matrix.of fun a i => pd (φ a) i x) := by
      ext i j
      rw [Matrix.mul_apply]
      simp only [Matrix.diagonal_mul, Matrix.transpose_apply, Matrix.of_apply, hmet x hx i j]
      exact Finset.sum_congr rfl fun a _ => by ring
    rw [this, Matrix.det_mul, Matrix.det_transpose, h0, zero_mul]
  -- injectivity
  have hcd : ContDiffAt ℝ ∞ (fun x a => φ a x) x0 := (contDiffOn_pi.mpr hφs).contDiffAt (Metric.isOpen_ball.mem_nhds (Metric.mem_ball_self hε))
  set J := Matrix.of fun a i => pd (φ a) i x0 with hJ
  have hJd : J.det ≠ 0 := hjac x0 (Metric.mem_ball_self hε)
  have hfd : HasFDerivAt (fun x a => φ a x) (Matrix.toLin' J).toContinuousLinearMap x0 := by
    refine hasFDerivAt_pi'.mpr fun a => ?_
    have h1 := (hφd a x0 (Metric.mem_ball_self hε)).hasFDerivAt
    refine h1.congr_fderiv (ContinuousLinearMap.ext fun u => ?_)
    rw [fderiv_pd h1.differentiableAt]
    simp [Matrix.mulVec, dotProduct, hJ, mul_comm]
  set L : (Fin n → ℝ) ≃L[ℝ] (Fin n → ℝ) := ContinuousLinearEquiv.equivOfInverse (Matrix.toLin' J).toContinuousLinearMap (Matrix.toLin' J⁻¹).toContinuousLinearMap
    (fun u => by simp [Matrix.nonsing_inv_mul J (isUnit_iff_ne_zero.mpr hJd)]) (fun u => by simp [Matrix.mul_nonsing_inv J (isUnit_iff_ne_zero.mpr hJd)]) with hL
  have hst : HasStrictFDerivAt (fun x a => φ a x) (L : (Fin n → ℝ) →L[ℝ] (Fin n → ℝ)) x0 := hcd.hasStrictFDerivAt' (hfd.congr_fderiv (ContinuousLinearMap.ext fun u => by simp [hL])) (by simp)
  refine ⟨⟨Metric.ball x0 ε ∩ hst.toOpenPartialHomeomorph.source, Metric.isOpen_ball.inter hst.toOpenPartialHomeomorph.open_source⟩,
    ⟨Metric.mem_ball_self hε, hst.mem_toOpenPartialHomeomorph_source⟩, fun x hx => hbU hx.1, φ, s, ?_⟩
  exact ⟨fun a => (hφs a).mono fun x hx => hx.1, hst.toOpenPartialHomeomorph.injOn.mono fun x hx => hx.2, fun x hx => hjac x hx.1, hs, fun x hx => hmet x hx.1⟩

/-- where there are flat coordinates the Riemann tensor vanishes -/
theorem flat_riemann (V : TopologicalSpace.Opens (Fin n → ℝ)) {φ : Fin n → (Fin n → ℝ) → ℝ} {s : Fin n → ℝ} (hF : FlatCoordinates G V φ s) :
    (∀ y ∈ V, ∀ t u r k, riemann G t u r k y = 0) ∧
      ∀ y ∈ V, ∀ t b c, pd (pd (φ t) b) c y = ∑ a, pd (φ t) a y * christoffel G a b c y := by
  set cst : ℝ →+* SmoothFn V := RingHom.codRestrict (Pi.constRingHom V ℝ) (SmoothFn V).toSubring fun c => by
    show ContDiffOn ℝ ∞ (ext V _) V
    exact contDiffOn_const (c := c) |>.congr fun x hx => ext_of (⟨x, hx⟩ : V) with hcst
  have hcv : ∀ c (x : V), (cst c).1 x = c := fun c x => rfl
  set X : Fin n → SmoothFn V := fun a => ofFn (φ a) (hF.smooth a) with hX
  have hXd : ∀ a i (x : V), (partialD V i (X a)).1 x = pd (φ a) i x := fun a i x => partialD_pd (X a) (φ a) (fun x => rfl) i x
  have hch : Geo.CoordChange (fun _ => (0 : Derivation ℚ ℝ ℝ)) (partialD V) cst X := by
    refine ⟨fun a b y => partialD_comm a b y, fun a f => ?_, ?_⟩
    · have : partialD V a (cst f) = 0 := by
        ext x
        rw [partialD_pd (cst f) (fun _ => f) (fun x => rfl) a x]
        simp [pd]
      rw [this]
      simp
    · refine isUnit_of _ fun x => ?_
      have h1 := RingHom.map_det (ev x) (Matrix.of fun i a => partialD V a (X i))
      have e : ((Matrix.of fun i a => partialD V a (X i)).det).1 x = (Matrix.of fun a i => pd (φ a) i x).det := by
        refine Eq.trans h1 (congrArg Matrix.det ?_)
        ext a i
        exact hXd a i x
      rw [e]
      exact hF.jacobian x x.2
  have hs : (Matrix.diagonal s).transpose = Matrix.diagonal s := Matrix.diagonal_transpose s
  have hu : IsUnit (Matrix.diagonal s).det := by
    rw [Matrix.det_diagonal, isUnit_iff_ne_zero, Finset.prod_ne_zero_iff]
    intro a _
    rcases hF.sign a with h | h <;> rw [h] <;> norm_num
  have hval : ∀ i j (x : V), (Geo.pullMetric (partialD V) cst X (Matrix.diagonal s) i j).1 x = G i j x := fun i j x => by
    show ev x _ = _
    unfold Geo.pullMetric
    simp only [map_sum, map_mul]
    have e1 : ∀ a i, ev x (partialD V i (X a)) = pd (φ a) i x := fun a i => hXd a i x
    have e2 : ∀ c, ev x (cst c) = c := fun c => hcv c x
    simp only [e1, e2, Matrix.diagonal_apply, hF.metric x x.2 i j]
    refine Finset.sum_congr rfl fun a _ => ?_
    rw [Finset.sum_eq_single a]
    · rw [if_pos rfl]; ring
    · intro b _ hb; simp [hb.symm]
    · simp
  have hu' := Geo.pull_det hch hu
  constructor
  · intro y hy t u r k
    have hz : Geo.riemann (partialD V) (Geo.pullMetric (partialD V) cst X (Matrix.diagonal s)) t u r k = 0 := by
      have h0 : ∀ k l, Geo.F (fun _ => (0 : Derivation ℚ ℝ ℝ)) (Matrix.diagonal s) k l = 0 := fun k l => by
        ext a b
        simp [Geo.F, Geo.riemann, Geo.christoffel, Geo.half]
      have := Geo.curvature_change hch hs hu r k
      simp only [h0] at this
      have h2 := congrFun (congrFun this t) u
      simpa [Geo.F] using h2
    rw [← riemann_val hu' hval t u r k ⟨y, hy⟩, hz, map_zero]
  · intro y hy t b c
    have h1 := congrArg (ev (⟨y, hy⟩ : V)) (Geo.christoffel_change hch hs hu t b c)
    have h0 : ∀ t j k, Geo.christoffel (fun _ => (0 : Derivation ℚ ℝ ℝ)) (Matrix.diagonal s) t j k = 0 := fun t j k => by
      simp [Geo.christoffel, Geo.half]
    have e1 : ∀ a i, ev (⟨y, hy⟩ : V) (partialD V i (X a)) = pd (φ a) i y := fun a i => hXd a i ⟨y, hy⟩
    have e2 : ∀ a b c, ev (⟨y, hy⟩ : V) (Geo.christoffel (partialD V) (Geo.pullMetric (partialD V) cst X (Matrix.diagonal s)) a b c) = christoffel G a b c y :=
      fun a b c => christoffel_val hu' hval a b c ⟨y, hy⟩
    have e3 : ev (⟨y, hy⟩ : V) (partialD V c (partialD V b (X t))) = pd (pd (φ t) b) c y := partialD_pd _ _ (fun x => hXd t b x) c ⟨y, hy⟩
    simp only [h0, map_zero, mul_zero, Finset.sum_const_zero, add_zero, map_sum, map_mul, e1, e2, e3] at h1
    exact h1.symm

/-- **C145.**  All components of `RiemannCurvatureTensor.from_metric(m)` vanish on `U` exactly when every point of `U` has a neighbourhood with coordinates in
which the metric is a diagonal matrix of signs. -/
theorem C145_flat_iff (m : MetricV (SmoothFn U)) (G : Fin n → Fin n → (Fin n → ℝ) → ℝ) (h : Describes m G) :
    Returns (riemannFromMetric (diffD U m.syms) m) fun r =>
      (∀ i j k l : Fin n, ∀ y ∈ U, value r [(i : ℕ), j, k, l] y = 0) ↔
        ∀ x ∈ U, ∃ V : TopologicalSpace.Opens (Fin n → ℝ), x ∈ V ∧ V ≤ U ∧ ∃ φ s, FlatCoordinates G V φ s := by
  obtain ⟨r, e, hr⟩ := (C139_functions m G h).2.1
  have hv : ∀ i j k l : Fin n, ∀ y ∈ U, value r [(i : ℕ), j, k, l] y = riemann G i j k l y := fun i j k l y hy =>
    (ext_of (⟨y, hy⟩ : U)).trans (hr i j k l ⟨y, hy⟩)
  refine ⟨r, e, fun hR x hx => exists_flat h hx fun y hy t s r k => by rw [← hv _ _ _ _ y hy]; exact hR t s r k y hy, fun hF i j k l y hy => ?_⟩
  obtain ⟨V, hxV, -, φ, s, hc⟩ := hF y hy
  rw [hv i j k l y hy]
  exact (flat_riemann V hc).1 y hxV i j k l

/-- **C145** (transport).  In flat coordinates a vector field along a curve is parallel exactly when its components are constant. -/
theorem C145_transport (m : MetricV (SmoothFn U)) (G : Fin n → Fin n → (Fin n → ℝ) → ℝ) (h : Describes m G) (V : TopologicalSpace.Opens (Fin n → ℝ)) (hV : V ≤ U)
    (φ : Fin n → (Fin n → ℝ) → ℝ) (s : Fin n → ℝ) (hF : FlatCoordinates G V φ s) (I : Set ℝ) (q X : ℝ → Fin n → ℝ) (hqV : ∀ t ∈ I, q t ∈ V)
    (hq : ∀ t ∈ I, ∀ i, DifferentiableAt ℝ (fun t => q t i) t) (hX : ∀ t ∈ I, ∀ i, DifferentiableAt ℝ (fun t => X t i) t) :
    Returns (christoffelFromMetric (diffD U m.syms) m) fun c =>
      IsParallel (symbols c) q X I ↔ ∀ t ∈ I, ∀ a, HasDerivAt (fun t => ∑ i, pd (φ a) i (q t) * X t i) 0 t := by
  obtain ⟨c, e, hΓ⟩ := (C139_functions m G h).1
  refine ⟨c, e, ?_⟩
  have hs : ∀ t ∈ I, ∀ i j k, symbols c i j k (q t) = christoffel G i j k (q t) := fun t ht i j k => (ext_of ⟨q t, hV (hqV t ht)⟩).trans (hΓ i j k ⟨q t, hV (hqV t ht)⟩)
  have hder : ∀ t ∈ I, ∀ a, HasDerivAt (fun t => ∑ i, pd (φ a) i (q t) * X t i)
      (∑ l, pd (φ a) l (q t) * (deriv (fun t => X t l) t + ∑ j, ∑ k, christoffel G l j k (q t) * deriv (fun t => q t j) t * X t k)) t := fun t ht a => by
    have hd : ∀ i, DifferentiableAt ℝ (pd (φ a) i) (q t) := fun i => ((pd_smooth V.isOpen (hF.smooth a) i).contDiffAt (V.isOpen.mem_nhds (hqV t ht))).differentiableAt (by simp)
    have h1 := HasDerivAt.fun_sum (u := Finset.univ) fun i _ => (along_curve (hd i) (hq t ht)).fun_mul (hX t ht i).hasDerivAt
    refine h1.congr_deriv ?_
    simp only [mul_add, Finset.sum_add_distrib, (flat_riemann V hF).2 (q t) (hqV t ht)]
    rw [add_comm]
    congr 1
    simp only [Finset.sum_mul, Finset.mul_sum]
    rw [Finset.sum_congr rfl fun i _ => Finset.sum_comm, Finset.sum_comm]
    refine Finset.sum_congr rfl fun l _ => ?_
    rw [Finset.sum_comm]
    refine Finset.sum_congr rfl fun j _ => Finset.sum_congr rfl fun k _ => ?_
    rw [christoffel_symm_val h l k j (hV (hqV t ht))]
    ring
  constructor
  · intro hp t ht a
    refine (hder t ht a).congr_deriv (Finset.sum_eq_zero fun l _ => ?_)
    rw [(hp t ht l).deriv]
    simp only [hs t ht]
    ring
  · intro hc t ht
    set Z : Fin n → ℝ := fun l => deriv (fun t => X t l) t + ∑ j, ∑ k, christoffel G l j k (q t) * deriv (fun t => q t j) t * X t k with hZ
    have hz : (Matrix.of fun a i => pd (φ a) i (q t)).mulVec Z = 0 := by
      funext a
      exact (hder t ht a).unique (hc t ht a)
    have hz0 := Matrix.eq_zero_of_mulVec_eq_zero (hF.jacobian (q t) (hqV t ht)) hz
    intro i
    have h1 : deriv (fun t => X t i) t = -∑ j, ∑ k, symbols c i j k (q t) * deriv (fun t => q t j) t * X t k := by
      have := congrFun hz0 i
      simp only [hs t ht]
      exact eq_neg_of_add_eq_zero_left this
    rw [← h1]
    exact (hX t ht i).hasDerivAt

/-- **C145** (geodesics).  In flat coordinates the geodesics are the straight lines. -/
theorem C145_geodesics (m : MetricV (SmoothFn U)) (G : Fin n → Fin n → (Fin n → ℝ) → ℝ) (h : Describes m G) (V : TopologicalSpace.Opens (Fin n → ℝ)) (hV : V ≤ U)
    (φ : Fin n → (Fin n → ℝ) → ℝ) (s : Fin n → ℝ) (hF : FlatCoordinates G V φ s) (I : Set ℝ) (hI : IsOpen I) (hIc : IsPreconnected I) (q : ℝ → Fin n → ℝ)
    (hqV : ∀ t ∈ I, q t ∈ V) (hq : ∀ t ∈ I, ∀ i, DifferentiableAt ℝ (fun t => q t i) t)
    (hq2 : ∀ t ∈ I, ∀ i, DifferentiableAt ℝ (deriv fun t => q t i) t) :
    Returns (christoffelFromMetric (diffD U m.syms) m) fun c =>
      IsParallel (symbols c) q (fun t i => deriv (fun t => q t i) t) I ↔ ∀ a, ∃ v w : ℝ, ∀ t ∈ I, φ a (q t) = v + w * t := by
  obtain ⟨c, e, hp⟩ := C145_transport m G h V hV φ s hF I q (fun t i => deriv (fun t => q t i) t) hqV hq hq2
  refine ⟨c, e, hp.trans ?_⟩
  have hd : ∀ t ∈ I, ∀ a, HasDerivAt (fun t => φ a (q t)) (∑ i, pd (φ a) i (q t) * deriv (fun t => q t i) t) t := fun t ht a =>
    along_curve (((hF.smooth a).contDiffAt (V.isOpen.mem_nhds (hqV t ht))).differentiableAt (by simp)) (hq t ht)
  constructor
  · intro h0 a
    rcases I.eq_empty_or_nonempty with rfl | ⟨t0, ht0⟩
    · exact ⟨0, 0, fun t ht => absurd ht (Set.notMem_empty t)⟩
    · set w := ∑ i, pd (φ a) i (q t0) * deriv (fun t => q t i) t0 with hw
      have hc : ∀ t ∈ I, ∑ i, pd (φ a) i (q t) * deriv (fun t => q t i) t = w := fun t ht =>
        const_on (f := fun t => ∑ i, pd (φ a) i (q t) * deriv (fun t => q t i) t) hI hIc (fun t ht => h0 t ht a) ht ht0
      refine ⟨φ a (q t0) - w * t0, w, fun t ht => ?_⟩
      have := const_on (f := fun t => φ a (q t) - w * t) hI hIc (fun t ht => by
        refine ((hd t ht a).fun_sub ((hasDerivAt_id t).const_mul w)).congr_deriv ?_
        rw [hc t ht]
        simp) ht ht0
      linarith
  · intro hv t ht a
    obtain ⟨v, w, hvw⟩ := hv a
    have hc : ∀ t ∈ I, ∑ i, pd (φ a) i (q t) * deriv (fun t => q t i) t = w := fun t ht => by
      refine (hd t ht a).unique ?_
      have h1 : HasDerivAt (fun t => v + w * t) w t := by simpa using ((hasDerivAt_id t).const_mul w).const_add v
      refine h1.congr_of_eventuallyEq ?_
      filter_upwards [hI.mem_nhds ht] with u hu using hvw u hu
    refine (hasDerivAt_const t w).congr_of_eventuallyEq ?_
    filter_upwards [hI.mem_nhds ht] with u hu using hc u hu

/-! ## the hypotheses are met: the plane is flat in polar coordinates, the sphere is not -/

/-- the plane in polar coordinates has flat coordinates near every point -/
theorem polar_flat : ∀ x ∈ polOpen, ∃ V : TopologicalSpace.Opens (Fin 2 → ℝ), x ∈ V ∧ V ≤ polOpen ∧ ∃ φ s, FlatCoordinates polG V φ s := by
  obtain ⟨r, e, hr⟩ := C145_flat_iff polMetric polG polMetric_describes
  refine hr.mp fun i j k l y hy => ?_
  obtain ⟨r', e', hr'⟩ := (C139_functions polMetric polG polMetric_describes).2.1
  have : r = r' := by rw [e] at e'; exact Except.ok.inj e'
  subst this
  exact (ext_of (⟨y, hy⟩ : polOpen)).trans ((hr' i j k l ⟨y, hy⟩).trans (pol_riemann i j k l y hy))

/-- the Cartesian coordinates of the half plane `0 < φ < π` -/
def halfPlane : TopologicalSpace.Opens (Fin 2 → ℝ) := ⟨{x | 0 < x 0 ∧ 0 < x 1 ∧ x 1 < Real.pi},
  (isOpen_lt continuous_const (continuous_apply 0)).inter ((isOpen_lt continuous_const (continuous_apply 1)).inter (isOpen_lt (continuous_apply 1) continuous_const))⟩

/-- `x = r cos φ`, `y = r sin φ` are flat coordinates. -/
theorem cartesian_flat : halfPlane ≤ polOpen ∧ FlatCoordinates polG halfPlane (fun a x => ![x 0 * Real.cos (x 1), x 0 * Real.sin (x 1)] a) (fun _ => 1) := by
  have p0 : ∀ x : Fin 2 → ℝ, pd (fun x => x 0 * Real.cos (x 1)) 0 x = Real.cos (x 1) := fun x => by simp [pd]
  have p1 : ∀ x : Fin 2 → ℝ, pd (fun x => x 0 * Real.cos (x 1)) 1 x = -(x 0 * Real.sin (x 1)) := fun x => by simp [pd]
  have p2 : ∀ x : Fin 2 → ℝ, pd (fun x => x 0 * Real.sin (x 1)) 0 x = Real.sin (x 1) := fun x => by simp [pd]
  have p3 : ∀ x : Fin 2 → ℝ, pd (fun x => x 0 * Real.sin (x 1)) 1 x = x 0 * Real.cos (x 1) := fun x => by simp [pd]
  refine ⟨fun x hx => hx.1.ne', ⟨fun a => ?_, fun x hx y hy hxy => ?_, fun x hx => ?_, fun a => Or.inr rfl, fun x hx i j => ?_⟩⟩
  · fin_cases a <;> simp <;> fun_prop
  · have h0 : x 0 * Real.cos (x 1) = y 0 * Real.cos (y 1) := congrFun hxy 0
    have h1 : x 0 * Real.sin (x 1) = y 0 * Real.sin (y 1) := congrFun hxy 1
    have hr : x 0 = y 0 := by
      have h2 : x 0 ^ 2 = y 0 ^ 2 := by
        have a1 := Real.sin_sq_add_cos_sq (x 1)
        have a2 := Real.sin_sq_add_cos_sq (y 1)
        calc x 0 ^ 2 = (x 0 * Real.cos (x 1)) ^ 2 + (x 0 * Real.sin (x 1)) ^ 2 := by linear_combination (-(x 0) ^ 2) * a1
          _ = y 0 ^ 2 := by rw [h0, h1]; linear_combination (y 0 ^ 2) * a2
      exact (pow_left_inj₀ hx.1.le hy.1.le (by norm_num)).mp h2
    have hc : Real.cos (x 1) = Real.cos (y 1) := by
      rw [hr] at h0
      exact mul_left_cancel₀ hy.1.ne' h0
    have hφ : x 1 = y 1 := Real.injOn_cos ⟨hx.2.1.le, hx.2.2.le⟩ ⟨hy.2.1.le, hy.2.2.le⟩ hc
    ext i
    fin_cases i
    · exact hr
    · exact hφ
  · rw [Matrix.det_fin_two]
    have := p0 x
    simp only [Matrix.of_apply, Matrix.cons_val_zero, Matrix.cons_val_one, p0, p1, p2, p3]
    have a1 := Real.sin_sq_add_cos_sq (x 1)
    have : Real.cos (x 1) * (x 0 * Real.cos (x 1)) - -(x 0 * Real.sin (x 1)) * Real.sin (x 1) = x 0 := by linear_combination (x 0) * a1
    rw [this]
    exact hx.1.ne'
  · have a1 := Real.sin_sq_add_cos_sq (x 1)
    rw [Fin.sum_univ_two]
    simp only [Matrix.cons_val_zero, Matrix.cons_val_one]
    fin_cases i <;> fin_cases j <;> simp only [polG, Fin.zero_eta, Fin.mk_one, p0, p1, p2, p3] <;> simp
    · linarith
    · ring
    · ring
    · linear_combination (-(x 0 ^ 2)) * a1

/-- the sphere has no flat coordinates anywhere -/
theorem sphere_not_flat : ∀ (V : TopologicalSpace.Opens (Fin 2 → ℝ)) (φ : Fin 2 → (Fin 2 → ℝ) → ℝ) (s : Fin 2 → ℝ), V ≤ sphOpen → FlatCoordinates sphG V φ s → ∀ x, x ∉ V := by
  intro V φ s hV hF x hx
  have hR := (flat_riemann V hF).1 x hx 0 1 0 1
  have hp1 : ∀ x : Fin 2 → ℝ, pd (sphG 1 1) 0 x = 2 * Real.sin (x 0) * Real.cos (x 0) := fun x => by
    simp [pd, sphG]
  have hp0 : ∀ i j k (x : Fin 2 → ℝ), (i, j, k) ≠ (1, 1, 0) → pd (sphG i j) k x = 0 := fun i j k x hk => by
    unfold pd sphG
    fin_cases i <;> fin_cases j <;> fin_cases k <;> simp at hk ⊢
  have hinv : ∀ x ∈ sphOpen, (Matrix.of fun a b => sphG a b x)⁻¹ = !![1, 0; 0, (Real.sin (x 0) ^ 2)⁻¹] := fun x hx => by
    have hx : Real.sin (x 0) ≠ 0 := hx
    refine Matrix.inv_eq_right_inv ?_
    ext a b
    fin_cases a <;> fin_cases b <;> simp [Matrix.mul_apply, sphG, hx]
  have h011 : ∀ x ∈ sphOpen, christoffel sphG 0 1 1 x = -(Real.sin (x 0) * Real.cos (x 0)) := fun x hx => by
    unfold christoffel
    rw [hinv x hx, Fin.sum_univ_two]
    simp [hp1, hp0 0 1 1 x (by decide)]
    ring
  have h010 : ∀ x ∈ sphOpen, christoffel sphG 0 1 0 x = 0 := fun x hx => by
    unfold christoffel
    rw [hinv x hx, Fin.sum_univ_two]
    simp [hp0 0 1 0 x (by decide), hp0 0 0 1 x (by decide), hp0 1 0 0 x (by decide)]
  have h110 : ∀ x ∈ sphOpen, christoffel sphG 1 1 0 x = Real.cos (x 0) / Real.sin (x 0) := fun x hx => by
    have hx' : Real.sin (x 0) ≠ 0 := hx
    unfold christoffel
    rw [hinv x hx, Fin.sum_univ_two]
    simp [hp1, hp0 1 0 1 x (by decide)]
    field_simp
  have hxs : Real.sin (x 0) ≠ 0 := hV hx
  have d0 : pd (christoffel sphG 0 1 1) 0 x = -(Real.cos (x 0) * Real.cos (x 0) - Real.sin (x 0) * Real.sin (x 0)) := by
    rw [pd_congr (G := fun x => -(Real.sin (x 0) * Real.cos (x 0))) (by filter_upwards [sphOpen.isOpen.mem_nhds (hV hx)] with y hy using h011 y hy)]
    have e : pd (fun x : Fin 2 → ℝ => -(Real.sin (x 0) * Real.cos (x 0))) 0 x = deriv (fun t => -(Real.sin t * Real.cos t)) (x 0) := by simp [pd]
    rw [e, (((Real.hasDerivAt_sin (x 0)).fun_mul (Real.hasDerivAt_cos (x 0))).fun_neg).deriv]
    ring
  have d1 : pd (christoffel sphG 0 1 0) 1 x = 0 := by
    rw [pd_congr (G := fun x => 0) (by filter_upwards [sphOpen.isOpen.mem_nhds (hV hx)] with y hy using h010 y hy)]
    simp [pd]
  unfold riemann at hR
  rw [d0, d1, Fin.sum_univ_two, h011 x (hV hx), h110 x (hV hx), h010 x (hV hx), sph_christoffel] at hR
  have : Real.cos (x 0) / Real.sin (x 0) * -(Real.sin (x 0) * Real.cos (x 0)) = -(Real.cos (x 0) * Real.cos (x 0)) := by field_simp
  rw [this] at hR
  have : Real.sin (x 0) * Real.sin (x 0) = 0 := by linarith
  exact hxs (mul_self_eq_zero.mp this)

end Einpy.Fn
