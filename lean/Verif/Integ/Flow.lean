import Mathlib.Analysis.Calculus.ContDiff.Operations
import Mathlib.Analysis.Calculus.ContDiff.FTaylorSeries
import Mathlib.Analysis.Calculus.MeanValue
import Mathlib.Analysis.Calculus.Deriv.Pow
import Mathlib.Analysis.Asymptotics.Lemmas
import Mathlib.RingTheory.PowerSeries.Exp
import Mathlib.Algebra.Module.LinearMap.End

/-!
# Taylor expansions of composed flows (the analysis behind C104, C105)

`f(Φ_δ(s))` is expanded in powers of `δ`, uniformly near a point, with coefficients that are linear operators applied to
`f`.  Composition of maps multiplies the operator series, so order conditions become algebra in a non-commutative ring.
Nothing in this file is about einsteinpy.
-/

namespace Einpy.Flow
open Topology Asymptotics Finset
open scoped ContDiff

variable {E : Type*} [NormedAddCommGroup E] [NormedSpace ℝ E]

/-- Functions that are smooth on `U`. -/
def SmoothFn (U : Set E) : Submodule ℝ (E → E) where
  carrier := {f | ContDiffOn ℝ ∞ f U}
  add_mem' h k := ContDiffOn.add h k
  zero_mem' := contDiffOn_const
  smul_mem' _ _ h := contDiffOn_const.smul h

theorem smooth_at {U : Set E} (hU : IsOpen U) (f : SmoothFn U) {s : E} (hs : s ∈ U) : ContDiffAt ℝ ∞ f.1 s :=
  (ContDiffOn.contDiffAt f.2 (hU.mem_nhds hs))

theorem diff_at {U : Set E} (hU : IsOpen U) (f : SmoothFn U) {s : E} (hs : s ∈ U) :
    DifferentiableAt ℝ f.1 s := (smooth_at hU f hs).differentiableAt (by simp)

/-- The derivative of `f` along `A`, put to zero outside `U`. -/
noncomputable def lieFn (U : Set E) (A f : E → E) : E → E := U.indicator fun s => fderiv ℝ f s (A s)

theorem lieFn_in {U : Set E} (A f : E → E) {s : E} (hs : s ∈ U) : lieFn U A f s = fderiv ℝ f s (A s) :=
  Set.indicator_of_mem hs _

theorem lieFn_out {U : Set E} (A f : E → E) {s : E} (hs : s ∉ U) : lieFn U A f s = 0 := Set.indicator_of_notMem hs _

theorem lieFn_smooth {U : Set E} (hU : IsOpen U) (A f : SmoothFn U) : lieFn U A.1 f.1 ∈ SmoothFn U := by
  have h : ContDiffOn ℝ ∞ (fun s => fderiv ℝ f.1 s (A.1 s)) U :=
    (ContDiffOn.fderiv_of_isOpen f.2 hU (by simp)).clm_apply A.2
  exact h.congr fun s hs => lieFn_in _ _ hs

/-- The derivative of smooth functions along the vector field `A`. -/
noncomputable def lie {U : Set E} (hU : IsOpen U) (A : SmoothFn U) : Module.End ℝ (SmoothFn U) where
  toFun f := ⟨lieFn U A.1 f.1, lieFn_smooth hU A f⟩
  map_add' f g := by
    refine Subtype.ext (funext fun s => ?_)
    show lieFn U A.1 (f.1 + g.1) s = lieFn U A.1 f.1 s + lieFn U A.1 g.1 s
    by_cases hs : s ∈ U
    · rw [lieFn_in _ _ hs, lieFn_in _ _ hs, lieFn_in _ _ hs, fderiv_add (diff_at hU f hs) (diff_at hU g hs)]
      rfl
    · rw [lieFn_out _ _ hs, lieFn_out _ _ hs, lieFn_out _ _ hs, add_zero]
  map_smul' c f := by
    refine Subtype.ext (funext fun s => ?_)
    show lieFn U A.1 (c • f.1) s = c • lieFn U A.1 f.1 s
    by_cases hs : s ∈ U
    · rw [lieFn_in _ _ hs, lieFn_in _ _ hs, fderiv_const_smul (diff_at hU f hs)]
      rfl
    · rw [lieFn_out _ _ hs, lieFn_out _ _ hs, smul_zero]

theorem lie_apply {U : Set E} (hU : IsOpen U) (A f : SmoothFn U) {s : E} (hs : s ∈ U) :
    (lie hU A f).1 s = fderiv ℝ f.1 s (A.1 s) := lieFn_in _ _ hs

theorem lie_add {U : Set E} (hU : IsOpen U) (A B : SmoothFn U) : lie hU (A + B) = lie hU A + lie hU B := by
  refine LinearMap.ext fun f => Subtype.ext (funext fun s => ?_)
  show lieFn U (A.1 + B.1) f.1 s = lieFn U A.1 f.1 s + lieFn U B.1 f.1 s
  by_cases hs : s ∈ U
  · rw [lieFn_in _ _ hs, lieFn_in _ _ hs, lieFn_in _ _ hs]
    exact map_add _ _ _
  · rw [lieFn_out _ _ hs, lieFn_out _ _ hs, lieFn_out _ _ hs, add_zero]

/-! ## expansion along one vector field -/

/-- coefficients of `exp(c δ a)` -/
noncomputable def expSer {R : Type*} [Ring R] [Algebra ℝ R] (c : ℝ) (a : R) : ℕ → R := fun k => (c ^ k / k.factorial) • a ^ k

/-- A family of curves `t ↦ Φ t λ` starting at `σ λ`, all following the vector field `A`: `f` along the curves is given
by the exponential series of the Lie derivative, uniformly in `λ`. -/
theorem expand_along {U : Set E} (hU : IsOpen U) (A : SmoothFn U) {Λ : Type*} (l : Filter Λ) (Φ : ℝ → Λ → E) (σ : Λ → E)
    {s₀ : E} (hs₀ : s₀ ∈ U) (hc : Filter.Tendsto (fun x : ℝ × Λ => Φ x.1 x.2) (𝓝 0 ×ˢ l) (𝓝 s₀))
    (h0 : ∀ᶠ a in l, Φ 0 a = σ a) (hσ : ∀ᶠ a in l, σ a ∈ U)
    (hd : ∀ᶠ x in 𝓝 (0 : ℝ) ×ˢ l, HasDerivAt (fun t => Φ t x.2) (A.1 (Φ x.1 x.2)) x.1) (n : ℕ) (f : SmoothFn U) :
    (fun x : ℝ × Λ => f.1 (Φ x.1 x.2) - ∑ k ∈ range n, x.1 ^ k • (expSer 1 (lie hU A) k f).1 (σ x.2))
      =O[𝓝 0 ×ˢ l] fun x => x.1 ^ n := by
  induction n generalizing f with
  | zero =>
    simp only [range_zero, sum_empty, sub_zero, pow_zero]
    exact ((smooth_at hU f hs₀).continuousAt.tendsto.comp hc).isBigO_one ℝ
  | succ n ih =>
    obtain ⟨C, hC0, hC'⟩ := (ih (lie hU A f)).exists_nonneg
    have hC := hC'.bound
    have hmem : ∀ᶠ x in 𝓝 (0 : ℝ) ×ˢ l, Φ x.1 x.2 ∈ U := hc.eventually (hU.mem_nhds hs₀)
    obtain ⟨pa, hpa, pb, hpb, hall⟩ := Filter.eventually_prod_iff.mp ((hC.and hd).and hmem)
    obtain ⟨ε, hε, hball⟩ := Metric.eventually_nhds_iff.mp hpa
    refine IsBigO.of_bound C (Filter.eventually_prod_iff.mpr ⟨fun t => dist t 0 < ε, Metric.ball_mem_nhds 0 hε,
      fun a => (pb a ∧ Φ 0 a = σ a) ∧ σ a ∈ U, (hpb.and h0).and hσ, ?_⟩)
    rintro δ hδ a ⟨⟨ha, h0a⟩, hσa⟩
    let G : ℝ → E := fun t => f.1 (Φ t a) - ∑ k ∈ range (n + 1), t ^ k • (expSer 1 (lie hU A) k f).1 (σ a)
    let F : ℝ → E := fun t => (lie hU A f).1 (Φ t a) - ∑ k ∈ range n, t ^ k • (expSer 1 (lie hU A) k (lie hU A f)).1 (σ a)
    have hin : ∀ t ∈ Set.uIcc 0 δ, dist t 0 < ε ∧ |t| ≤ |δ| := by
      intro t ht
      have h1 : |t - 0| ≤ |δ - 0| := Set.abs_sub_left_of_mem_uIcc ht
      rw [sub_zero, sub_zero] at h1
      refine ⟨?_, h1⟩
      rw [Real.dist_eq, sub_zero] at hδ ⊢
      linarith
    have hG : ∀ t ∈ Set.uIcc 0 δ, HasDerivWithinAt G (F t) (Set.uIcc 0 δ) t := by
      intro t ht
      obtain ⟨⟨-, hd'⟩, hm⟩ := hall (hball (hin t ht).1) ha
      have h1 : HasDerivAt (fun t => f.1 (Φ t a)) ((lie hU A f).1 (Φ t a)) t := by
        rw [lie_apply hU A f hm]
        exact (diff_at hU f hm).hasFDerivAt.comp_hasDerivAt t hd'
      have h2 : HasDerivAt (fun t : ℝ => ∑ k ∈ range (n + 1), t ^ k • (expSer 1 (lie hU A) k f).1 (σ a))
          (∑ k ∈ range n, t ^ k • (expSer 1 (lie hU A) k (lie hU A f)).1 (σ a)) t := by
        have h3 : HasDerivAt (fun t : ℝ => ∑ k ∈ range (n + 1), t ^ k • (expSer 1 (lie hU A) k f).1 (σ a))
            (∑ k ∈ range (n + 1), ((k : ℝ) * t ^ (k - 1)) • (expSer 1 (lie hU A) k f).1 (σ a)) t :=
          HasDerivAt.fun_sum fun k _ => (hasDerivAt_pow k t).smul_const _
        refine h3.congr_deriv ?_
        rw [sum_range_succ']
        simp only [Nat.cast_zero, zero_mul, zero_smul, add_zero, Nat.add_sub_cancel]
        refine sum_congr rfl fun k _ => ?_
        have e1 : (expSer 1 (lie hU A) (k + 1) f).1 (σ a) = (1 / ((k + 1 : ℕ) : ℝ)) • (expSer 1 (lie hU A) k (lie hU A f)).1 (σ a) := by
          have e2 : expSer 1 (lie hU A) (k + 1) f = (1 / ((k + 1 : ℕ) : ℝ)) • expSer 1 (lie hU A) k (lie hU A f) := by
            simp only [expSer, one_pow, LinearMap.smul_apply, smul_smul, pow_succ, Module.End.mul_apply, Nat.factorial_succ]
            congr 1
            push_cast
            field_simp
          rw [e2]; rfl
        rw [e1, smul_smul]
        congr 1
        push_cast
        field_simp
      exact (h1.sub h2).hasDerivWithinAt
    have hF : ∀ t ∈ Set.uIcc 0 δ, ‖F t‖ ≤ C * ‖δ ^ n‖ := by
      intro t ht
      obtain ⟨⟨hb, -⟩, -⟩ := hall (hball (hin t ht).1) ha
      refine hb.trans ?_
      simp only [norm_pow, Real.norm_eq_abs]
      exact mul_le_mul_of_nonneg_left (pow_le_pow_left₀ (abs_nonneg _) (hin t ht).2 n) hC0
    have key := (convex_uIcc 0 δ).norm_image_sub_le_of_norm_hasDerivWithin_le hG hF Set.left_mem_uIcc Set.right_mem_uIcc
    have hG0 : G 0 = 0 := by
      show f.1 (Φ 0 a) - ∑ k ∈ range (n + 1), (0 : ℝ) ^ k • (expSer 1 (lie hU A) k f).1 (σ a) = 0
      rw [sum_range_succ', sum_eq_zero fun k _ => by rw [pow_succ, mul_zero, zero_smul], h0a]
      simp [expSer]
    rw [hG0, sub_zero, sub_zero] at key
    refine key.trans (le_of_eq ?_)
    show C * ‖δ ^ n‖ * ‖δ‖ = C * ‖δ ^ (n + 1)‖
    rw [pow_succ, norm_mul, mul_assoc]

/-! ## expansions of maps near the identity -/

/-- `Φ δ s` is near `s` for small `δ`, and `f(Φ δ s)` has the expansion `Σ δ^k (P k f)(s)` to every order, uniformly near
every point of `U`. -/
structure Expands (U : Set E) (Φ : ℝ → E → E) (P : ℕ → Module.End ℝ (SmoothFn U)) : Prop where
  near : ∀ s₀ ∈ U, Filter.Tendsto (fun x : ℝ × E => Φ x.1 x.2) (𝓝 0 ×ˢ 𝓝 s₀) (𝓝 s₀)
  exp : ∀ s₀ ∈ U, ∀ (f : SmoothFn U) (n : ℕ),
    (fun x : ℝ × E => f.1 (Φ x.1 x.2) - ∑ k ∈ range n, x.1 ^ k • (P k f).1 x.2) =O[𝓝 0 ×ˢ 𝓝 s₀] fun x => x.1 ^ n

/-- The flow of a vector field expands in the exponential series. -/
theorem expands_flow {U : Set E} (hU : IsOpen U) (A : SmoothFn U) (Φ : ℝ → E → E)
    (hc : ∀ s₀ ∈ U, Filter.Tendsto (fun x : ℝ × E => Φ x.1 x.2) (𝓝 0 ×ˢ 𝓝 s₀) (𝓝 s₀)) (h0 : ∀ s, Φ 0 s = s)
    (hd : ∀ s₀ ∈ U, ∀ᶠ x in 𝓝 (0 : ℝ) ×ˢ 𝓝 s₀, HasDerivAt (fun t => Φ t x.2) (A.1 (Φ x.1 x.2)) x.1) :
    Expands U Φ (expSer 1 (lie hU A)) :=
  ⟨hc, fun s₀ hs f n => expand_along hU A (𝓝 s₀) Φ id hs (hc s₀ hs) (Filter.Eventually.of_forall h0)
    (hU.mem_nhds hs) (hd s₀ hs) n f⟩

/-- A solution of `y' = A(y)` expands in the exponential series. -/
theorem expand_solution {U : Set E} (hU : IsOpen U) (A : SmoothFn U) (y : ℝ → E) (hs : y 0 ∈ U)
    (hd : ∀ᶠ t in 𝓝 (0 : ℝ), HasDerivAt y (A.1 (y t)) t) (n : ℕ) (f : SmoothFn U) :
    (fun t : ℝ => f.1 (y t) - ∑ k ∈ range n, t ^ k • (expSer 1 (lie hU A) k f).1 (y 0)) =O[𝓝 0] fun t => t ^ n := by
  have hp : Filter.Tendsto (fun x : ℝ × Unit => x.1) (𝓝 0 ×ˢ pure ()) (𝓝 (0 : ℝ)) := Filter.tendsto_fst
  have hy : ContinuousAt y 0 := hd.self_of_nhds.continuousAt
  have h := expand_along hU A (pure ()) (fun t _ => y t) (fun _ => y 0) hs (hy.tendsto.comp hp)
    (Filter.Eventually.of_forall fun _ => rfl) (Filter.Eventually.of_forall fun _ => hs) (hp.eventually hd) n f
  have hq : Filter.Tendsto (fun t : ℝ => (t, ())) (𝓝 0) (𝓝 0 ×ˢ pure ()) :=
    Filter.tendsto_id.prodMk (Filter.tendsto_pure.mpr (Filter.Eventually.of_forall fun _ => rfl))
  exact h.comp_tendsto hq

/-- product of two operator series -/
noncomputable def mulSer {R : Type*} [Ring R] (P Q : ℕ → R) : ℕ → R := fun n => ∑ k ∈ range (n + 1), P k * Q (n - k)

omit [NormedSpace ℝ E] in
theorem tendsto_pair {Φ : ℝ → E → E} {s₀ : E}
    (h : Filter.Tendsto (fun x : ℝ × E => Φ x.1 x.2) (𝓝 0 ×ˢ 𝓝 s₀) (𝓝 s₀)) :
    Filter.Tendsto (fun x : ℝ × E => (x.1, Φ x.1 x.2)) (𝓝 0 ×ˢ 𝓝 s₀) (𝓝 0 ×ˢ 𝓝 s₀) :=
  Filter.tendsto_fst.prodMk h

/-- Composition of maps (first `Φ`, then `Ψ`) multiplies the series. -/
theorem Expands.comp {U : Set E} {Φ Ψ : ℝ → E → E} {P Q : ℕ → Module.End ℝ (SmoothFn U)} (hΦ : Expands U Φ P)
    (hΨ : Expands U Ψ Q) : Expands U (fun δ s => Ψ δ (Φ δ s)) (mulSer P Q) := by
  refine ⟨fun s₀ hs => (hΨ.near s₀ hs).comp (tendsto_pair (hΦ.near s₀ hs)), fun s₀ hs f n => ?_⟩
  have h1 := (hΨ.exp s₀ hs f n).comp_tendsto (tendsto_pair (hΦ.near s₀ hs))
  have h2 : ∀ j ∈ range n, (fun x : ℝ × E => x.1 ^ j • ((Q j f).1 (Φ x.1 x.2) -
      ∑ k ∈ range (n - j), x.1 ^ k • (P k (Q j f)).1 x.2)) =O[𝓝 0 ×ˢ 𝓝 s₀] fun x => x.1 ^ n := by
    intro j hj
    have hj' : j + (n - j) = n := by have := mem_range.mp hj; omega
    have h3 := (isBigO_refl (fun x : ℝ × E => x.1 ^ j) (𝓝 0 ×ˢ 𝓝 s₀)).smul (hΦ.exp s₀ hs (Q j f) (n - j))
    refine h3.congr_right fun x => ?_
    rw [smul_eq_mul, ← pow_add, hj']
  have h4 := h1.add (IsBigO.sum h2)
  refine h4.congr_left fun x => ?_
  simp only [Function.comp, Finset.sum_apply, smul_sub, sum_sub_distrib]
  have e : ∑ k ∈ range n, x.1 ^ k • (mulSer P Q k f).1 x.2 =
      ∑ j ∈ range n, x.1 ^ j • ∑ k ∈ range (n - j), x.1 ^ k • (P k (Q j f)).1 x.2 := by
    have e1 : ∀ k, x.1 ^ k • (mulSer P Q k f).1 x.2 =
        ∑ j ∈ range (k + 1), x.1 ^ j • x.1 ^ (k - j) • (P (k - j) (Q j f)).1 x.2 := by
      intro k
      have e2 : (mulSer P Q k f).1 x.2 = ∑ j ∈ range (k + 1), (P (k - j) (Q j f)).1 x.2 := by
        have e3 : mulSer P Q k f = ∑ j ∈ range (k + 1), P (k - j) (Q j f) := by
          simp only [mulSer, LinearMap.sum_apply, Module.End.mul_apply]
          rw [← sum_range_reflect]
          refine sum_congr rfl fun j hj => ?_
          have := mem_range.mp hj
          rw [show k + 1 - 1 - j = k - j by omega, show k - (k - j) = j by omega]
        rw [e3, Submodule.coe_sum, Finset.sum_apply]
      rw [e2, smul_sum]
      refine sum_congr rfl fun j hj => ?_
      have := mem_range.mp hj
      rw [smul_smul, ← pow_add, show j + (k - j) = k by omega]
    simp only [e1]
    rw [sum_range_diag_flip n fun j k => x.1 ^ j • x.1 ^ k • (P k (Q j f)).1 x.2]
    simp only [smul_sum]
  rw [e]
  abel

/-- coefficients of the series at `c δ` -/
noncomputable def scaleSer {R : Type*} [Ring R] [Algebra ℝ R] (c : ℝ) (P : ℕ → R) : ℕ → R := fun k => c ^ k • P k

omit [NormedSpace ℝ E] in
theorem tendsto_scale (c : ℝ) (s₀ : E) :
    Filter.Tendsto (fun x : ℝ × E => (x.1 * c, x.2)) (𝓝 0 ×ˢ 𝓝 s₀) (𝓝 0 ×ˢ 𝓝 s₀) := by
  refine Filter.Tendsto.prodMk ?_ Filter.tendsto_snd
  have : Filter.Tendsto (fun t : ℝ => t * c) (𝓝 0) (𝓝 0) := by
    have h : Filter.Tendsto (fun t : ℝ => t * c) (𝓝 0) (𝓝 (0 * c)) := Filter.Tendsto.mul_const c Filter.tendsto_id
    rwa [zero_mul] at h
  exact this.comp Filter.tendsto_fst

theorem Expands.scale {U : Set E} {Φ : ℝ → E → E} {P : ℕ → Module.End ℝ (SmoothFn U)} (hΦ : Expands U Φ P) (c : ℝ) :
    Expands U (fun δ s => Φ (δ * c) s) (scaleSer c P) := by
  refine ⟨fun s₀ hs => (hΦ.near s₀ hs).comp (tendsto_scale c s₀), fun s₀ hs f n => ?_⟩
  have h1 := (hΦ.exp s₀ hs f n).comp_tendsto (tendsto_scale c s₀)
  have h2 : (fun x : ℝ × E => (x.1 * c) ^ n) =O[𝓝 0 ×ˢ 𝓝 s₀] fun x => x.1 ^ n :=
    IsBigO.of_bound ‖c ^ n‖ (Filter.Eventually.of_forall fun x => by rw [mul_pow, norm_mul, mul_comm])
  refine (h1.trans h2).congr_left fun x => ?_
  simp only [Function.comp]
  congr 1
  refine sum_congr rfl fun k _ => ?_
  show (x.1 * c) ^ k • (P k f).1 x.2 = x.1 ^ k • (c ^ k • (P k f).1 x.2)
  rw [smul_smul, mul_pow]

theorem expands_id {U : Set E} (hU : IsOpen U) : Expands U (fun _ s => s) (fun k => if k = 0 then 1 else 0) := by
  refine ⟨fun s₀ _ => Filter.tendsto_snd, fun s₀ hs f n => ?_⟩
  cases n with
  | zero =>
    simp only [range_zero, sum_empty, sub_zero, pow_zero]
    exact ((smooth_at hU f hs).continuousAt.tendsto.comp Filter.tendsto_snd).isBigO_one ℝ
  | succ n =>
    refine (isBigO_zero _ _).congr_left fun x => ?_
    rw [sum_range_succ', sum_eq_zero fun k _ => by rw [if_neg (Nat.succ_ne_zero k)]; exact smul_zero _]
    simp

end Einpy.Flow
