import Mathlib.Analysis.ODE.ExistUnique
import Mathlib.Geometry.Manifold.PartitionOfUnity
import Mathlib.Analysis.Calculus.ContDiff.RCLike

/-!
# Solutions of autonomous differential equations that cannot leave a compact set
-/

namespace Einpy
open scoped Topology ContDiff Manifold NNReal

variable {E : Type*} [NormedAddCommGroup E] [NormedSpace ℝ E] [FiniteDimensional ℝ E]

/-- A field that is `C¹` near a compact set agrees near it with one that is `C¹` everywhere and has compact support. -/
theorem cutoff {U : Set E} (hU : IsOpen U) {X : E → E} (hX : ∀ x ∈ U, ContDiffAt ℝ 1 X x) {C : Set E} (hC : IsCompact C) (hCU : C ⊆ U) :
    ∃ Y : E → E, ContDiff ℝ 1 Y ∧ HasCompactSupport Y ∧ ∀ x ∈ C, Y x = X x := by
  obtain ⟨t, ht, h1, h2⟩ := exists_compact_between hC hU hCU
  obtain ⟨f, f1, f2, -⟩ := exists_contMDiffMap_one_nhds_of_subset_interior 𝓘(ℝ, E) (n := 1) hC.isClosed h1
  refine ⟨fun x => f x • X x, ?_, ?_, ?_⟩
  · rw [contDiff_iff_contDiffAt]
    intro x
    by_cases hx : x ∈ U
    · exact (f.contMDiff.contDiff.contDiffAt).smul (hX x hx)
    · have hz : (fun x => f x • X x) =ᶠ[𝓝 x] fun _ => 0 := by
        filter_upwards [ht.isClosed.isOpen_compl.mem_nhds (fun h => hx (h2 h))] with y hy
        rw [f2 y hy, zero_smul]
      exact contDiffAt_const.congr_of_eventuallyEq hz
  · refine HasCompactSupport.intro ht fun x hx => ?_
    show f x • X x = 0
    rw [f2 x hx, zero_smul]
  · intro x hx
    show f x • X x = X x
    rw [f1.self_of_nhdsSet x hx, one_smul]

/-- Compactly supported fields have solutions on every interval. -/
theorem global_solution {Y : E → E} (hY : ContDiff ℝ 1 Y) (hs : HasCompactSupport Y) (z₀ : E) {T : ℝ} (hT : 0 < T) :
    ∃ z : ℝ → E, z 0 = z₀ ∧ ∀ t ∈ Set.Ioo (-T) T, HasDerivAt z (Y (z t)) t := by
  obtain ⟨K, hK⟩ := hY.lipschitzWith_of_hasCompactSupport hs one_ne_zero
  obtain ⟨L, hL⟩ := hs.exists_bound_of_continuous hY.continuous
  have hL0 : 0 ≤ L := (norm_nonneg _).trans (hL 0)
  have h0 : (0 : ℝ) ∈ Set.Icc (-T) T := ⟨by linarith, hT.le⟩
  have hPL : IsPicardLindelof (fun _ => Y) (tmin := -T) (tmax := T) ⟨0, h0⟩ z₀ (⟨L, hL0⟩ * ⟨T, hT.le⟩ : ℝ≥0) 0 ⟨L, hL0⟩ K := by
    refine ⟨fun _ _ => hK.lipschitzOnWith, fun _ _ => continuousOn_const, fun _ _ x _ => hL x, ?_⟩
    simp
    rfl
  obtain ⟨z, z0, hz⟩ := hPL.exists_eq_forall_mem_Icc_hasDerivWithinAt₀
  exact ⟨z, z0, fun t ht => (hz t (Set.Ioo_subset_Icc_self ht)).hasDerivAt (Icc_mem_nhds ht.1 ht.2)⟩

/-- If a solution that has stayed in the compact set `C` up to time `τ` is at time `τ` in its open part `O`, then there is a solution on all of
`[-T, T]`, and it stays in `O`. -/
theorem trapped_solution {U : Set E} (hU : IsOpen U) {X : E → E} (hX : ∀ x ∈ U, ContDiffAt ℝ 1 X x) {C O : Set E} (hC : IsCompact C) (hCU : C ⊆ U)
    (hO : IsOpen O) (hOC : O ⊆ C) {z₀ : E} (hz₀ : z₀ ∈ O) {T : ℝ} (hT : 0 < T)
    (htrap : ∀ (z : ℝ → E) (τ : ℝ), z 0 = z₀ → |τ| ≤ T → (∀ t, |t| ≤ |τ| → z t ∈ C ∧ HasDerivAt z (X (z t)) t) → z τ ∈ O) :
    ∃ z : ℝ → E, z 0 = z₀ ∧ ∀ t ∈ Set.Icc (-T) T, z t ∈ O ∧ ∀ᶠ u in 𝓝 t, HasDerivAt z (X (z u)) u := by
  obtain ⟨Y, hY, hYs, hYX⟩ := cutoff hU hX hC hCU
  obtain ⟨z, z0, hz⟩ := global_solution hY hYs z₀ (T := T + 1) (by linarith)
  have hin : ∀ t, |t| ≤ T → t ∈ Set.Ioo (-(T + 1)) (T + 1) := fun t ht => by
    obtain ⟨h1, h2⟩ := abs_le.mp ht
    exact ⟨by linarith, by linarith⟩
  have hcont : ContinuousOn z (Set.Icc (-T) T) := fun t ht =>
    (hz t (hin t (abs_le.mpr ht))).continuousAt.continuousWithinAt
  -- no bad times
  have hgood : ∀ t ∈ Set.Icc (-T) T, z t ∈ O := by
    by_contra hcon
    push Not at hcon
    obtain ⟨s, hs, hsO⟩ := hcon
    have hB : IsCompact (Set.Icc (-T) T ∩ z ⁻¹' Oᶜ) :=
      isCompact_Icc.of_isClosed_subset (hcont.preimage_isClosed_of_isClosed isClosed_Icc hO.isClosed_compl) Set.inter_subset_left
    obtain ⟨τ, ⟨hτ, hτO⟩, hmin⟩ := hB.exists_isMinOn ⟨s, hs, hsO⟩ (continuous_abs.continuousOn (s := Set.Icc (-T) T ∩ z ⁻¹' Oᶜ))
    have hτT : |τ| ≤ T := abs_le.mpr hτ
    have hlt : ∀ t, |t| < |τ| → z t ∈ O := by
      intro t ht
      by_contra h
      have : |τ| ≤ |t| := hmin ⟨abs_le.mp (ht.le.trans hτT), h⟩
      linarith
    have hτ0 : τ ≠ 0 := by
      rintro rfl
      exact hτO (by rw [z0]; exact hz₀)
    have hle : ∀ t, |t| ≤ |τ| → z t ∈ C := by
      intro t ht
      rcases ht.lt_or_eq with h | h
      · exact hOC (hlt t h)
      · -- a limit of earlier points
        have hct : ContinuousAt z t := (hz t (hin t (ht.trans hτT))).continuousAt
        have hlim : Filter.Tendsto (fun s : ℝ => z (s * t)) (𝓝[<] 1) (𝓝 (z t)) := by
          have h1 : Filter.Tendsto (fun s : ℝ => s * t) (𝓝[<] 1) (𝓝 t) := by
            have : Continuous fun s : ℝ => s * t := by fun_prop
            have h2 := this.tendsto 1
            rw [one_mul] at h2
            exact h2.mono_left nhdsWithin_le_nhds
          exact hct.tendsto.comp h1
        refine hC.isClosed.mem_of_tendsto hlim ?_
        have hpos : ∀ᶠ s : ℝ in 𝓝[<] 1, s ∈ Set.Ioo (0 : ℝ) 1 := Ioo_mem_nhdsLT one_pos
        filter_upwards [hpos] with s hs
        refine hOC (hlt _ ?_)
        rw [abs_mul, h, abs_of_pos hs.1]
        have : 0 < |τ| := abs_pos.mpr hτ0
        nlinarith [hs.2]
    refine hτO (htrap z τ z0 hτT fun t ht => ⟨hle t ht, ?_⟩)
    rw [← hYX _ (hle t ht)]
    exact hz t (hin t (ht.trans hτT))
  refine ⟨z, z0, fun t ht => ⟨hgood t ht, ?_⟩⟩
  have h1 : ∀ᶠ u in 𝓝 t, u ∈ Set.Ioo (-(T + 1)) (T + 1) := Ioo_mem_nhds (hin t (abs_le.mpr ht)).1 (hin t (abs_le.mpr ht)).2
  have h2 : ∀ᶠ u in 𝓝 t, z u ∈ O := (hz t (hin t (abs_le.mpr ht))).continuousAt.eventually (hO.mem_nhds (hgood t ht))
  filter_upwards [h1, h2] with u hu hu'
  rw [← hYX _ (hOC hu')]
  exact hz u hu

end Einpy
