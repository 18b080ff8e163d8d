import Verif.Curv.Flat

/-!
# Local existence of parallel sections of a flat connection given by its coefficient functions (used for C146)
-/

set_option maxSynthPendingDepth 3

namespace Einpy.Fn
open scoped Topology ContDiff

variable {n : ℕ} {κ : Type*} [Fintype κ] [DecidableEq κ]

noncomputable def secB (i : Fin n) (α β : κ) : (Fin n → ℝ) →L[ℝ] (κ → ℝ) →L[ℝ] (κ → ℝ) :=
  (ContinuousLinearMap.proj i : (Fin n → ℝ) →L[ℝ] ℝ).smulRight ((ContinuousLinearMap.proj β : (κ → ℝ) →L[ℝ] ℝ).smulRight (Pi.single α 1 : κ → ℝ))

/-- the connection with coefficients `Ω` -/
noncomputable def secA (Ω : Fin n → κ → κ → (Fin n → ℝ) → ℝ) (p : Fin n → ℝ) : (Fin n → ℝ) →L[ℝ] (κ → ℝ) →L[ℝ] (κ → ℝ) :=
  ∑ i, ∑ α, ∑ β, Ω i α β p • secB i α β

theorem secSum_apply (c : Fin n → κ → κ → ℝ) (v : Fin n → ℝ) (y : κ → ℝ) (α : κ) :
    ((∑ i, ∑ α, ∑ β, c i α β • secB i α β) v y) α = ∑ i, ∑ β, c i α β * v i * y β := by
  simp only [sum_apply, Finset.sum_apply, smul_apply, secB, ContinuousLinearMap.smulRight_apply,
    ContinuousLinearMap.proj_apply, Pi.smul_apply, Pi.single_apply, smul_eq_mul]
  refine Finset.sum_congr rfl fun i _ => ?_
  rw [Finset.sum_eq_single α]
  · simp [mul_assoc]
  · intro b _ hb; simp [hb.symm]
  · simp

variable {Ω : Fin n → κ → κ → (Fin n → ℝ) → ℝ}

theorem secA_apply (p v : Fin n → ℝ) (y : κ → ℝ) (α : κ) : secA Ω p v y α = ∑ i, ∑ β, Ω i α β p * v i * y β :=
  secSum_apply (fun i α β => Ω i α β p) v y α

theorem secA_smooth {S : Set (Fin n → ℝ)} (h : ∀ i α β, ContDiffOn ℝ ∞ (Ω i α β) S) : ContDiffOn ℝ ∞ (secA Ω) S := by
  unfold secA
  exact ContDiffOn.sum fun i _ => ContDiffOn.sum fun j _ => ContDiffOn.sum fun k _ => (h i j k).smul contDiffOn_const

theorem secA_deriv {p : Fin n → ℝ} (h : ∀ i α β, DifferentiableAt ℝ (Ω i α β) p) (u : Fin n → ℝ) :
    fderiv ℝ (secA Ω) p u = ∑ i, ∑ α, ∑ β, (fderiv ℝ (Ω i α β) p u) • secB i α β := by
  have : HasFDerivAt (secA Ω) (∑ i, ∑ α, ∑ β, (fderiv ℝ (Ω i α β) p).smulRight (secB i α β)) p := by
    unfold secA
    refine HasFDerivAt.fun_sum fun i _ => HasFDerivAt.fun_sum fun j _ => HasFDerivAt.fun_sum fun k _ => ?_
    exact (h i j k).hasFDerivAt.smul_const _
  rw [this.fderiv]
  simp only [sum_apply, ContinuousLinearMap.smulRight_apply]

theorem secA_flat {p : Fin n → ℝ} (h : ∀ i α β, DifferentiableAt ℝ (Ω i α β) p)
    (hF : ∀ i j α β, pd (Ω j α β) i p + ∑ γ, Ω j α γ p * Ω i γ β p = pd (Ω i α β) j p + ∑ γ, Ω i α γ p * Ω j γ β p) :
    Frob.Flat (secA Ω) (fderiv ℝ (secA Ω)) p := by
  have key : ∀ (u v : Fin n → ℝ) (y : κ → ℝ) (α : κ), (fderiv ℝ (secA Ω) p u v y + secA Ω p v (secA Ω p u y)) α =
      ∑ a, ∑ b, ∑ β, u a * v b * y β * (pd (Ω b α β) a p + ∑ γ, Ω b α γ p * Ω a γ β p) := by
    intro u v y α
    rw [secA_deriv h]
    simp only [Pi.add_apply, secA_apply]
    rw [secSum_apply (fun i α β => fderiv ℝ (Ω i α β) p u) v y α]
    simp only [mul_add, Finset.sum_add_distrib]
    congr 1
    · simp only [fderiv_pd (h _ _ _), Finset.sum_mul]
      conv_rhs => rw [Finset.sum_comm]
      refine Finset.sum_congr rfl fun b _ => ?_
      rw [Finset.sum_comm]
      exact Finset.sum_congr rfl fun a _ => Finset.sum_congr rfl fun k _ => by ring
    · conv_rhs => rw [Finset.sum_comm]
      simp only [Finset.mul_sum]
      refine Finset.sum_congr rfl fun b _ => ?_
      rw [Finset.sum_comm]
      refine Finset.sum_congr rfl fun a _ => ?_
      rw [Finset.sum_comm]
      exact Finset.sum_congr rfl fun k _ => Finset.sum_congr rfl fun q _ => by ring
  intro u v y
  funext α
  rw [key u v y α, key v u y α, Finset.sum_comm]
  refine Finset.sum_congr rfl fun b _ => Finset.sum_congr rfl fun a _ => Finset.sum_congr rfl fun k _ => ?_
  rw [hF a b α k]
  ring

/-- parallel sections with any value at a point exist near the point -/
theorem exists_section {U : TopologicalSpace.Opens (Fin n → ℝ)} (hs : ∀ i α β, ContDiffOn ℝ ∞ (Ω i α β) U)
    (hF : ∀ p ∈ U, ∀ i j α β, pd (Ω j α β) i p + ∑ γ, Ω j α γ p * Ω i γ β p = pd (Ω i α β) j p + ∑ γ, Ω i α γ p * Ω j γ β p)
    {x0 : Fin n → ℝ} (hx0 : x0 ∈ U) (y0 : κ → ℝ) :
    ∃ ε > 0, Metric.ball x0 ε ⊆ U ∧ ∃ e : κ → (Fin n → ℝ) → ℝ, (∀ α, ContDiffOn ℝ ∞ (e α) (Metric.ball x0 ε)) ∧ (∀ α, e α x0 = y0 α) ∧
      ∀ α i, ∀ x ∈ Metric.ball x0 ε, pd (e α) i x = ∑ β, Ω i α β x * e β x := by
  have hsm := secA_smooth (Ω := Ω) (S := U) hs
  have hUn : (U : Set (Fin n → ℝ)) ∈ 𝓝 x0 := U.isOpen.mem_nhds hx0
  obtain ⟨ε, M, L, hB, hsub⟩ := Frob.exists_bounds (contDiffAt_infty.mp (hsm.contDiffAt hUn) 2) hUn
  have hd : ∀ p ∈ U, ∀ i α β, DifferentiableAt ℝ (Ω i α β) p := fun p hp i α β =>
    ((hs i α β).contDiffAt (U.isOpen.mem_nhds hp)).differentiableAt (by simp)
  have hflat : ∀ p ∈ Metric.ball x0 (3 * ε), Frob.Flat (secA Ω) (fderiv ℝ (secA Ω)) p := fun p hp => secA_flat (hd p (hsub hp)) (hF p (hsub hp))
  have hbU : Metric.ball x0 ε ⊆ U := fun x hx => hsub (Metric.ball_subset_ball (by linarith [hB.pos]) hx)
  obtain ⟨e, he0, he⟩ := Frob.exists_parallel hB hflat y0
  have hes : ContDiffOn ℝ ∞ e (Metric.ball x0 ε) := Frob.parallel_smooth Metric.isOpen_ball (hsm.mono hbU) he
  refine ⟨ε, hB.pos, hbU, fun α x => e x α, fun α => contDiffOn_pi.mp hes α, fun α => congrFun he0 α, fun α i x hx => ?_⟩
  have h1 : HasFDerivAt (fun x => e x α) ((ContinuousLinearMap.proj α).comp ((secA Ω x).flip (e x))) x := hasFDerivAt_pi'.mp (he x hx) α
  rw [pd_fderiv h1.differentiableAt, h1.fderiv]
  show secA Ω x (Pi.single i 1) (e x) α = _
  rw [secA_apply, Finset.sum_eq_single i]
  · simp
  · intro b _ hb; simp [hb]
  · simp

end Einpy.Fn
