import Mathlib.Analysis.Calculus.ContDiff.RCLike
import Mathlib.Analysis.SpecialFunctions.Exp
import Mathlib.Analysis.Calculus.Deriv.Shift
import Verif.Integ.Flow

/-!
# Convergence of one-step methods (the analysis behind C105)

Nothing in this file is about einsteinpy.
-/

namespace Einpy.Flow
open Topology Asymptotics Finset
open scoped ContDiff

variable {E : Type*} [NormedAddCommGroup E] [NormedSpace ℝ E]

/-- `Φ δ` is Lipschitz with a constant `1 + L|δ|`, near every point of `U`. -/
def LocLip (U : Set E) (Φ : ℝ → E → E) : Prop :=
  ∀ s₀ ∈ U, ∃ L : ℝ, 0 ≤ L ∧ ∀ᶠ x in 𝓝 (0 : ℝ) ×ˢ (𝓝 s₀ ×ˢ 𝓝 s₀),
    ‖Φ x.1 x.2.1 - Φ x.1 x.2.2‖ ≤ (1 + L * |x.1|) * ‖x.2.1 - x.2.2‖

omit [NormedSpace ℝ E] in
theorem locLip_id (U : Set E) : LocLip U fun _ s => s :=
  fun _ _ => ⟨0, le_refl 0, Filter.Eventually.of_forall fun x => by simp⟩

omit [NormedSpace ℝ E] in
theorem LocLip.scale {U : Set E} {Φ : ℝ → E → E} (h : LocLip U Φ) (c : ℝ) : LocLip U fun δ s => Φ (δ * c) s := by
  intro s₀ hs
  obtain ⟨L, hL, h1⟩ := h s₀ hs
  refine ⟨L * |c|, by positivity, ?_⟩
  have ht : Filter.Tendsto (fun x : ℝ × E × E => (x.1 * c, x.2)) (𝓝 0 ×ˢ (𝓝 s₀ ×ˢ 𝓝 s₀)) (𝓝 0 ×ˢ (𝓝 s₀ ×ˢ 𝓝 s₀)) := by
    refine Filter.Tendsto.prodMk ?_ Filter.tendsto_snd
    have h : Filter.Tendsto (fun t : ℝ => t * c) (𝓝 0) (𝓝 (0 * c)) := Filter.Tendsto.mul_const c Filter.tendsto_id
    rw [zero_mul] at h
    exact h.comp Filter.tendsto_fst
  filter_upwards [ht.eventually h1] with x hx
  simp only [abs_mul] at hx
  calc _ ≤ _ := hx
    _ = _ := by ring

omit [NormedSpace ℝ E] in
theorem LocLip.comp {U : Set E} {Φ Ψ : ℝ → E → E}
    (hn : ∀ s₀ ∈ U, Filter.Tendsto (fun x : ℝ × E => Φ x.1 x.2) (𝓝 0 ×ˢ 𝓝 s₀) (𝓝 s₀)) (hΦ : LocLip U Φ) (hΨ : LocLip U Ψ) :
    LocLip U fun δ s => Ψ δ (Φ δ s) := by
  intro s₀ hs
  obtain ⟨L, hL, h1⟩ := hΦ s₀ hs
  obtain ⟨M, hM, h2⟩ := hΨ s₀ hs
  refine ⟨L + M + L * M, by positivity, ?_⟩
  have t1 : Filter.Tendsto (fun x : ℝ × E × E => Φ x.1 x.2.1) (𝓝 0 ×ˢ (𝓝 s₀ ×ˢ 𝓝 s₀)) (𝓝 s₀) :=
    (hn s₀ hs).comp (Filter.tendsto_fst.prodMk (Filter.tendsto_fst.comp Filter.tendsto_snd))
  have t2 : Filter.Tendsto (fun x : ℝ × E × E => Φ x.1 x.2.2) (𝓝 0 ×ˢ (𝓝 s₀ ×ˢ 𝓝 s₀)) (𝓝 s₀) :=
    (hn s₀ hs).comp (Filter.tendsto_fst.prodMk (Filter.tendsto_snd.comp Filter.tendsto_snd))
  have t3 : Filter.Tendsto (fun x : ℝ × E × E => (x.1, Φ x.1 x.2.1, Φ x.1 x.2.2)) (𝓝 0 ×ˢ (𝓝 s₀ ×ˢ 𝓝 s₀))
      (𝓝 0 ×ˢ (𝓝 s₀ ×ˢ 𝓝 s₀)) := Filter.tendsto_fst.prodMk (t1.prodMk t2)
  have hsm : ∀ᶠ x : ℝ × E × E in 𝓝 (0 : ℝ) ×ˢ (𝓝 s₀ ×ˢ 𝓝 s₀), |x.1| < 1 := by
    have : ∀ᶠ t : ℝ in 𝓝 0, |t| < 1 := by
      have := Metric.ball_mem_nhds (0 : ℝ) one_pos
      filter_upwards [this] with t ht
      rwa [Metric.mem_ball, Real.dist_eq, sub_zero] at ht
    exact Filter.tendsto_fst.eventually this
  filter_upwards [h1, t3.eventually h2, hsm] with x k1 k2 k3
  have e0 := abs_nonneg x.1
  have e1 : (1 + M * |x.1|) * (1 + L * |x.1|) ≤ 1 + (L + M + L * M) * |x.1| := by
    have : L * M * |x.1| * |x.1| ≤ L * M * |x.1| := by
      have h : 0 ≤ L * M * |x.1| := by positivity
      nlinarith
    nlinarith
  calc _ ≤ (1 + M * |x.1|) * ‖Φ x.1 x.2.1 - Φ x.1 x.2.2‖ := k2
    _ ≤ (1 + M * |x.1|) * ((1 + L * |x.1|) * ‖x.2.1 - x.2.2‖) := by gcongr
    _ = ((1 + M * |x.1|) * (1 + L * |x.1|)) * ‖x.2.1 - x.2.2‖ := by ring
    _ ≤ _ := by gcongr

/-- A step along a vector field. -/
theorem locLip_euler {U : Set E} (hU : IsOpen U) (A : SmoothFn U) {Φ : ℝ → E → E} (h : ∀ δ s, Φ δ s = s + δ • A.1 s) :
    LocLip U Φ := by
  intro s₀ hs
  obtain ⟨K, t, ht, hK⟩ := ((smooth_at hU A hs).of_le (m := 1) (by norm_cast)).exists_lipschitzOnWith
  refine ⟨K, K.2, ?_⟩
  have hm : ∀ᶠ x : ℝ × E × E in 𝓝 (0 : ℝ) ×ˢ (𝓝 s₀ ×ˢ 𝓝 s₀), x.2.1 ∈ t ∧ x.2.2 ∈ t :=
    ((Filter.tendsto_fst.comp Filter.tendsto_snd).eventually ht).and ((Filter.tendsto_snd.comp Filter.tendsto_snd).eventually ht)
  filter_upwards [hm] with x ⟨h1, h2⟩
  have h3 := hK.norm_sub_le h1 h2
  rw [h, h, show x.2.1 + x.1 • A.1 x.2.1 - (x.2.2 + x.1 • A.1 x.2.2) = (x.2.1 - x.2.2) + x.1 • (A.1 x.2.1 - A.1 x.2.2) by
    rw [smul_sub]; abel]
  calc _ ≤ ‖x.2.1 - x.2.2‖ + ‖x.1 • (A.1 x.2.1 - A.1 x.2.2)‖ := norm_add_le _ _
    _ = ‖x.2.1 - x.2.2‖ + |x.1| * ‖A.1 x.2.1 - A.1 x.2.2‖ := by rw [norm_smul, Real.norm_eq_abs]
    _ ≤ ‖x.2.1 - x.2.2‖ + |x.1| * (K * ‖x.2.1 - x.2.2‖) := by gcongr
    _ = _ := by ring

/-! ## convergence -/

/-- One step started at any point near `y t`: stability and local error together. -/
def OneStep (Good : ℝ → E → Prop) (Φ : ℝ → E → E) (y : ℝ → E) (n : ℕ) (A : Set ℝ) : Prop :=
  ∃ C L ρ δ₀ : ℝ, 0 ≤ C ∧ 0 ≤ L ∧ 0 < ρ ∧ 0 < δ₀ ∧ ∀ t ∈ A, ∀ δ, |δ| < δ₀ → ∀ s, ‖s - y t‖ < ρ →
    Good δ s ∧ ‖Φ δ s - y (t + δ)‖ ≤ (1 + L * |δ|) * ‖s - y t‖ + C * |δ| ^ n

theorem oneStep_near {U : Set E} (hU : IsOpen U) (X : SmoothFn U) {Good : ℝ → E → Prop} {Φ : ℝ → E → E}
    {P : ℕ → Module.End ℝ (SmoothFn U)} (hΦ : Expands U Φ P) (hL : LocLip U Φ)
    (hG : ∀ s₀ ∈ U, ∀ᶠ x in 𝓝 (0 : ℝ) ×ˢ 𝓝 s₀, Good x.1 x.2) (n : ℕ)
    (hP : ∀ k < n, P k = expSer 1 (lie hU X) k) (y : ℝ → E) (t₀ : ℝ) (hy : y t₀ ∈ U)
    (hd : ∀ᶠ t in 𝓝 t₀, HasDerivAt y (X.1 (y t)) t) : ∃ V ∈ 𝓝 t₀, OneStep Good Φ y n V := by
  have hyc : ContinuousAt y t₀ := hd.self_of_nhds.continuousAt
  -- local error
  have tsum : Filter.Tendsto (fun x : ℝ × ℝ => x.2 + x.1) (𝓝 0 ×ˢ 𝓝 t₀) (𝓝 t₀) := by
    have h := (Filter.tendsto_snd (f := 𝓝 (0 : ℝ)) (g := 𝓝 t₀)).add (Filter.tendsto_fst (f := 𝓝 (0 : ℝ)) (g := 𝓝 t₀))
    rwa [add_zero] at h
  have h1 := expand_along hU X (𝓝 t₀) (fun t a => y (a + t)) y hy (hyc.tendsto.comp tsum)
    (Filter.Eventually.of_forall fun a => by simp) (hyc.eventually (hU.mem_nhds hy))
    (by
      filter_upwards [tsum.eventually hd] with x hx
      exact HasDerivAt.comp_const_add x.2 x.1 hx) n ⟨id, contDiff_id.contDiffOn⟩
  have tp : Filter.Tendsto (fun x : ℝ × ℝ => (x.1, y x.2)) (𝓝 0 ×ˢ 𝓝 t₀) (𝓝 0 ×ˢ 𝓝 (y t₀)) :=
    Filter.tendsto_fst.prodMk (hyc.tendsto.comp Filter.tendsto_snd)
  have h2 := (hΦ.exp (y t₀) hy ⟨id, contDiff_id.contDiffOn⟩ n).comp_tendsto tp
  obtain ⟨C, hC0, hC⟩ := (h2.sub h1).exists_nonneg
  have hC' := hC.bound
  obtain ⟨L, hL0, hL'⟩ := hL (y t₀) hy
  -- everything as a statement about (δ, t, s)
  let F : Filter (ℝ × ℝ × E) := 𝓝 (0 : ℝ) ×ˢ (𝓝 t₀ ×ˢ 𝓝 (y t₀))
  have f1 : Filter.Tendsto (fun x : ℝ × ℝ × E => x.1) F (𝓝 0) := Filter.tendsto_fst
  have f2 : Filter.Tendsto (fun x : ℝ × ℝ × E => x.2.1) F (𝓝 t₀) := Filter.tendsto_fst.comp Filter.tendsto_snd
  have f3 : Filter.Tendsto (fun x : ℝ × ℝ × E => x.2.2) F (𝓝 (y t₀)) := Filter.tendsto_snd.comp Filter.tendsto_snd
  have ev : ∀ᶠ x in F, Good x.1 x.2.2 ∧
      ‖Φ x.1 x.2.2 - y (x.2.1 + x.1)‖ ≤ (1 + L * |x.1|) * ‖x.2.2 - y x.2.1‖ + C * |x.1| ^ n := by
    filter_upwards [(f1.prodMk f3).eventually (hG (y t₀) hy), (f1.prodMk f2).eventually hC',
      (f1.prodMk (f3.prodMk (hyc.tendsto.comp f2))).eventually hL'] with x a1 a2 a3
    refine ⟨a1, ?_⟩
    have e : ∑ k ∈ range n, x.1 ^ k • (P k (⟨id, contDiff_id.contDiffOn⟩ : SmoothFn U)).1 (y x.2.1) =
        ∑ k ∈ range n, x.1 ^ k • (expSer 1 (lie hU X) k (⟨id, contDiff_id.contDiffOn⟩ : SmoothFn U)).1 (y x.2.1) :=
      sum_congr rfl fun k hk => by rw [hP k (mem_range.mp hk)]
    simp only [Function.comp, id] at a2 a3 e
    rw [e, sub_sub_sub_cancel_right, norm_pow, Real.norm_eq_abs] at a2
    calc _ ≤ ‖Φ x.1 x.2.2 - Φ x.1 (y x.2.1)‖ + ‖Φ x.1 (y x.2.1) - y (x.2.1 + x.1)‖ := norm_sub_le_norm_sub_add_norm_sub _ _ _
      _ ≤ _ := add_le_add a3 a2
  obtain ⟨pa, hpa, pb, hpb, hall⟩ := Filter.eventually_prod_iff.mp ev
  obtain ⟨pc, hpc, pd, hpd, hall2⟩ := Filter.eventually_prod_iff.mp hpb
  obtain ⟨δ₀, hδ, hδ'⟩ := Metric.eventually_nhds_iff.mp hpa
  obtain ⟨r, hr, hr'⟩ := Metric.eventually_nhds_iff.mp hpd
  refine ⟨{t | pc t ∧ dist (y t) (y t₀) < r / 2}, hpc.and (hyc.eventually (Metric.ball_mem_nhds _ (half_pos hr))), C, L, r / 2, δ₀,
    hC0, hL0, half_pos hr, hδ, ?_⟩
  rintro t ⟨ht1, ht2⟩ δ hδ1 s hs
  refine hall (hδ' (by rwa [Real.dist_eq, sub_zero])) (hall2 ht1 (hr' ?_))
  have := dist_triangle s (y t) (y t₀)
  rw [dist_eq_norm s (y t)] at this
  linarith

omit [NormedSpace ℝ E] in
theorem oneStep_compact {Good : ℝ → E → Prop} {Φ : ℝ → E → E} {y : ℝ → E} {n : ℕ} {K : Set ℝ} (hK : IsCompact K)
    (h : ∀ t ∈ K, ∃ V ∈ 𝓝 t, OneStep Good Φ y n V) : OneStep Good Φ y n K := by
  refine hK.induction_on ?_ ?_ ?_ ?_
  · exact ⟨0, 0, 1, 1, le_refl 0, le_refl 0, one_pos, one_pos, fun t ht => absurd ht (Set.notMem_empty t)⟩
  · rintro A B hAB ⟨C, L, ρ, δ₀, h1, h2, h3, h4, h5⟩
    exact ⟨C, L, ρ, δ₀, h1, h2, h3, h4, fun t ht => h5 t (hAB ht)⟩
  · rintro A B ⟨C, L, ρ, δ₀, h1, h2, h3, h4, h5⟩ ⟨C', L', ρ', δ₀', h1', h2', h3', h4', h5'⟩
    refine ⟨max C C', max L L', min ρ ρ', min δ₀ δ₀', le_max_of_le_left h1, le_max_of_le_left h2, lt_min h3 h3', lt_min h4 h4', ?_⟩
    intro t ht δ hδ s hs
    obtain ⟨d1, d2⟩ := lt_min_iff.mp hδ
    obtain ⟨s1, s2⟩ := lt_min_iff.mp hs
    rcases ht with ht | ht
    · obtain ⟨k1, k2⟩ := h5 t ht δ d1 s s1
      refine ⟨k1, k2.trans ?_⟩
      gcongr
      · exact le_max_left _ _
      · exact le_max_left _ _
    · obtain ⟨k1, k2⟩ := h5' t ht δ d2 s s2
      refine ⟨k1, k2.trans ?_⟩
      gcongr
      · exact le_max_right _ _
      · exact le_max_right _ _
  · intro t ht
    obtain ⟨V, hV, h1⟩ := h t ht
    exact ⟨V, mem_nhdsWithin_of_mem_nhds hV, h1⟩

omit [NormedSpace ℝ E] in
/-- Discrete Grönwall: the iterates of the step stay close to the solution. -/
theorem converges {Good : ℝ → E → Prop} {Φ : ℝ → E → E} {y : ℝ → E} {m : ℕ} {a b : ℝ} (ha : a ≤ 0) (hb : 0 ≤ b)
    (hm : 0 < m) (h : OneStep Good Φ y (m + 1) (Set.Icc a b)) :
    ∃ K δ₀ : ℝ, 0 < δ₀ ∧ ∀ δ, |δ| < δ₀ → ∀ k : ℕ, k * δ ∈ Set.Icc a b →
      ‖(Φ δ)^[k] (y 0) - y (k * δ)‖ ≤ K * |δ| ^ m ∧ ∀ j < k, Good δ ((Φ δ)^[j] (y 0)) := by
  obtain ⟨C, L, ρ, δ₀, hC, hL, hρ, hδ₀, hst⟩ := h
  let T := max (-a) b
  have hT : 0 ≤ T := le_max_of_le_right hb
  let K := C * T * Real.exp (L * T)
  have hK : 0 ≤ K := by positivity
  refine ⟨K, min δ₀ (min 1 (ρ / (K + 1))), lt_min hδ₀ (lt_min one_pos (by positivity)), ?_⟩
  intro δ hδ k hk
  obtain ⟨d1, d2⟩ := lt_min_iff.mp hδ
  obtain ⟨d3, d4⟩ := lt_min_iff.mp d2
  have dn := abs_nonneg δ
  have hpow : |δ| ^ m ≤ |δ| := pow_le_of_le_one dn d3.le hm.ne'
  have hKρ : K * |δ| ^ m < ρ := by
    rw [lt_div_iff₀ (by positivity)] at d4
    have : K * |δ| ^ m ≤ K * |δ| := by gcongr
    nlinarith
  have hin : ∀ j : ℕ, j ≤ k → (j : ℝ) * δ ∈ Set.Icc a b ∧ (j : ℝ) * |δ| ≤ T := by
    intro j hj
    have hj' : (j : ℝ) ≤ k := by exact_mod_cast hj
    have j0 : (0 : ℝ) ≤ j := by positivity
    rcases le_total 0 δ with hp | hp
    · have h1 : (j : ℝ) * δ ≤ k * δ := by gcongr
      have h0 : 0 ≤ (j : ℝ) * δ := by positivity
      refine ⟨⟨by linarith, h1.trans hk.2⟩, ?_⟩
      rw [abs_of_nonneg hp]
      exact (h1.trans hk.2).trans (le_max_right _ _)
    · have h1 : (k : ℝ) * δ ≤ j * δ := mul_le_mul_of_nonpos_right hj' hp
      have h0 : (j : ℝ) * δ ≤ 0 := mul_nonpos_of_nonneg_of_nonpos j0 hp
      refine ⟨⟨hk.1.trans h1, by linarith⟩, ?_⟩
      rw [abs_of_nonpos hp]
      refine le_trans ?_ (le_max_left _ _)
      have := hk.1
      linarith
  -- the bound with the exact growth factor
  have main : ∀ j : ℕ, j ≤ k → ‖(Φ δ)^[j] (y 0) - y (j * δ)‖ ≤ C * (j * |δ|) * Real.exp (L * (j * |δ|)) * |δ| ^ m ∧
      ∀ i < j, Good δ ((Φ δ)^[i] (y 0)) := by
    intro j
    induction j with
    | zero => intro _; simp
    | succ j ih =>
      intro hj
      obtain ⟨i1, i2⟩ := ih (by omega)
      have hjT := (hin j (by omega)).2
      have hbd : C * (j * |δ|) * Real.exp (L * (j * |δ|)) * |δ| ^ m ≤ K * |δ| ^ m := by
        show _ ≤ C * T * Real.exp (L * T) * |δ| ^ m
        gcongr
      obtain ⟨g1, g2⟩ := hst (j * δ) (hin j (by omega)).1 δ d1 _ (lt_of_le_of_lt (i1.trans hbd) hKρ)
      refine ⟨?_, fun i hi => ?_⟩
      · rw [Function.iterate_succ_apply', show ((j + 1 : ℕ) : ℝ) * δ = j * δ + δ by push_cast; ring]
        refine g2.trans ?_
        have e1 : 1 + L * |δ| ≤ Real.exp (L * |δ|) := by linarith [Real.add_one_le_exp (L * |δ|)]
        have e2 : Real.exp (L * |δ|) * Real.exp (L * (j * |δ|)) = Real.exp (L * ((j + 1 : ℕ) * |δ|)) := by
          rw [← Real.exp_add]; congr 1; push_cast; ring
        have e3 : 1 ≤ Real.exp (L * ((j + 1 : ℕ) * |δ|)) := Real.one_le_exp (by positivity)
        calc (1 + L * |δ|) * ‖(Φ δ)^[j] (y 0) - y (j * δ)‖ + C * |δ| ^ (m + 1)
            ≤ Real.exp (L * |δ|) * (C * (j * |δ|) * Real.exp (L * (j * |δ|)) * |δ| ^ m) + C * |δ| ^ (m + 1) := by gcongr
          _ = C * (j * |δ|) * (Real.exp (L * |δ|) * Real.exp (L * (j * |δ|))) * |δ| ^ m + C * |δ| * |δ| ^ m * 1 := by ring
          _ ≤ C * (j * |δ|) * Real.exp (L * ((j + 1 : ℕ) * |δ|)) * |δ| ^ m + C * |δ| * |δ| ^ m * Real.exp (L * ((j + 1 : ℕ) * |δ|)) := by
            rw [e2]; gcongr
          _ = _ := by push_cast; ring
      · rcases Nat.lt_succ_iff_lt_or_eq.mp hi with h | h
        · exact i2 i h
        · rw [h]; exact g1
  obtain ⟨m1, m2⟩ := main k le_rfl
  refine ⟨m1.trans ?_, m2⟩
  have hkT := (hin k le_rfl).2
  show _ ≤ C * T * Real.exp (L * T) * |δ| ^ m
  gcongr

end Einpy.Flow
