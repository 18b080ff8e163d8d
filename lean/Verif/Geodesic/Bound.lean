import Verif.Num.FirstIntegral
import Verif.Geodesic.Trap
import Verif.Geodesic.Symmetry

/-!
# C138: bound orbits
-/

namespace Einpy
open Classical
open scoped Topology

/-! ## specification -/

/-- Radial potential: `Δ² p_r²` along a geodesic with energy `En`, axial angular momentum `L` and Carter constant `C`. -/
def radialPot (a Q mu En L C r : ℝ) : ℝ :=
  ((r ^ 2 + a ^ 2) * En - a * L) ^ 2 - (r ^ 2 - 2 * r + a ^ 2 + Q ^ 2) * (mu * r ^ 2 + (L - a * En) ^ 2 + C)

/-- Polar potential: `p_θ²` along a geodesic. -/
noncomputable def polarPot (a mu En L C th : ℝ) : ℝ := C - Real.cos th ^ 2 * (a ^ 2 * (mu - En ^ 2) + L ^ 2 / Real.sin th ^ 2)

/-! ## the potentials -/

theorem polar_of_carter (a mu : ℝ) (x u : V4) : u 2 ^ 2 = polarPot a mu (-u 0) (u 3) (carterQ a mu x u) (x 2) := by
  unfold polarPot carterQ; ring

theorem radial_of_norm {g : MetricFn} {a Q mu : ℝ} {x u : V4} (hden : ∀ y, Exterior a Q y → ∀ i j, (g i j).den y = knContra a Q (y 1) (y 2) i j)
    (hx : Exterior a Q x) (hn : normAt g x u = -mu) :
    u 1 ^ 2 = radialPot a Q mu (-u 0) (u 3) (carterQ a mu x u) (x 1) / (x 1 ^ 2 - 2 * x 1 + a ^ 2 + Q ^ 2) ^ 2 := by
  obtain ⟨hS, hD, hs⟩ := id hx
  unfold normAt at hn
  simp only [hden _ hx] at hn
  rw [knContra_form a Q (x 1) (x 2) hS hD hs u, div_eq_iff hS] at hn
  rw [eq_div_iff (pow_ne_zero 2 hD)]
  unfold radialPot carterQ
  have hc : Real.cos (x 2) ^ 2 = 1 - Real.sin (x 2) ^ 2 := by rw [← Real.sin_sq_add_cos_sq (x 2)]; ring
  rw [hc] at hn ⊢
  generalize Real.sin (x 2) = s at *
  generalize hr : x 1 = r at *
  generalize hDD : r ^ 2 - 2 * r + a ^ 2 + Q ^ 2 = D at *
  field_simp at hn ⊢
  linear_combination hn

/-- Hamilton's equations from the gradient form -/
theorem hamilton_of_grad {g : MetricFn} (hs : ∀ i j (y : V4), (g i j).den y = (g j i).den y) {q p : ℝ → V4} {t : ℝ}
    (hsm : ∀ i j, (g i j).Smooth (q t)) (h1 : HasDerivAt q (gradP g (q t, p t)) t) (h2 : HasDerivAt p (-gradQ g (q t, p t)) t) :
    HamiltonAt g q p t := by
  rw [hasDerivAt_pi] at h1 h2
  refine ⟨fun i => ?_, fun i => ?_⟩
  · have := h1 i
    rwa [gradP_eq g (q t) (p t) hsm hs i] at this
  · have hJ : ∀ a b, HasDerivAt (slice g (q t) i a b) (deriv (fun x => (g a b).den (Function.update (q t) i x)) (q t i)) (q t i) := by
      intro a b
      have e : slice g (q t) i a b = fun x => (g a b).den (Function.update (q t) i x) := by
        funext x
        unfold slice
        congr 1
        funext k
        simp [Function.update_apply]
      rw [e]
      refine DifferentiableAt.hasDerivAt ?_
      have h1 : DifferentiableAt ℝ (g a b).den (Function.update (q t) i (q t i)) := by
        rw [Function.update_eq_self]
        exact (hsm a b).contDiffAt.differentiableAt (by norm_num)
      exact DifferentiableAt.comp (g := (g a b).den) (q t i) h1 (hasDerivAt_update (q t) i (q t i)).differentiableAt
    have e := gradQ_eq g (q t) (p t) hsm i _ hJ
    have e2 : (-gradQ g (q t, p t)) i = -(1 / 2) * ∑ a, ∑ b,
        deriv (fun x => (g a b).den (Function.update (q t) i x)) (q t i) * p t a * p t b := by
      rw [Pi.neg_apply, e, dot4_matVec]; ring
    have := h2 i
    rwa [e2] at this

theorem cyclic_deriv {g : MetricFn} {a Q t : ℝ} {q p : ℝ → V4}
    (hden : ∀ y, Exterior a Q y → ∀ i j, (g i j).den y = knContra a Q (y 1) (y 2) i j)
    (hx : Exterior a Q (q t)) (h : HamiltonAt g q p t) (i : Fin 4) (h1 : i ≠ 1) (h2 : i ≠ 2) : HasDerivAt (fun t => p t i) 0 t := by
  refine (h.dp i).congr_deriv ?_
  have : ∀ A B, deriv (fun x => (g A B).den (Function.update (q t) i x)) (q t i) = 0 := by
    intro A B
    have hc : Continuous fun x : ℝ => Function.update (q t) i x := by fun_prop
    have h3 := hc.tendsto (q t i)
    rw [Function.update_eq_self] at h3
    have e : (fun x => (g A B).den (Function.update (q t) i x)) =ᶠ[𝓝 (q t i)] fun _ => knContra a Q (q t 1) (q t 2) A B := by
      filter_upwards [h3.eventually (exterior_open a Q _ hx)] with x hx
      rw [hden _ hx, Function.update_of_ne (Ne.symm h1), Function.update_of_ne (Ne.symm h2)]
    rw [e.deriv_eq, deriv_const]
  simp [this]

theorem const_on {f : ℝ → ℝ} {τ : ℝ} (h : ∀ t, |t| ≤ |τ| → HasDerivAt f 0 t) : f τ = f 0 := by
  have e := constant_of_has_deriv_right_zero (f := f) (a := -|τ|) (b := |τ|)
    (fun t ht => (h t (abs_le.mpr ht)).continuousAt.continuousWithinAt)
    (fun t ht => (h t (abs_le.mpr (Set.Ico_subset_Icc_self ht))).hasDerivWithinAt)
  exact (e τ (abs_le.mp le_rfl)).trans (e 0 ⟨by linarith [abs_nonneg τ], abs_nonneg τ⟩).symm

set_option maxHeartbeats 1000000 in
/-- A motion between potential barriers exists for all times and stays between them. -/
theorem bound_solution {g : MetricFn} {a Q mu : ℝ} (hsm : ∀ y, Exterior a Q y → ∀ i j, (g i j).Smooth y)
    (hden : ∀ y, Exterior a Q y → ∀ i j, (g i j).den y = knContra a Q (y 1) (y 2) i j) (hsym : ∀ i j (y : V4), (g i j).den y = (g j i).den y)
    {r₁ r₂ θ₁ θ₂ : ℝ} (x P : V4) (hr : r₁ < x 1 ∧ x 1 < r₂) (hθ : θ₁ < x 2 ∧ x 2 < θ₂)
    (hbox : ∀ r ∈ Set.Icc r₁ r₂, ∀ th ∈ Set.Icc θ₁ θ₂, r ^ 2 + a ^ 2 * Real.cos th ^ 2 ≠ 0 ∧ r ^ 2 - 2 * r + a ^ 2 + Q ^ 2 ≠ 0 ∧ Real.sin th ≠ 0)
    (hn : normAt g x P = -mu)
    (hR1 : radialPot a Q mu (-P 0) (P 3) (carterQ a mu x P) r₁ < 0) (hR2 : radialPot a Q mu (-P 0) (P 3) (carterQ a mu x P) r₂ < 0)
    (hP1 : polarPot a mu (-P 0) (P 3) (carterQ a mu x P) θ₁ < 0) (hP2 : polarPot a mu (-P 0) (P 3) (carterQ a mu x P) θ₂ < 0)
    {T : ℝ} (hT : 0 < T) :
    ∃ q p : ℝ → V4, q 0 = x ∧ p 0 = P ∧ ∀ t ∈ Set.Icc (-T) T, (r₁ < q t 1 ∧ q t 1 < r₂ ∧ θ₁ < q t 2 ∧ q t 2 < θ₂) ∧
      ∀ᶠ u in 𝓝 t, HamiltonAt g q p u := by
  have hθ0 : x 2 ∈ Set.Icc θ₁ θ₂ := ⟨hθ.1.le, hθ.2.le⟩
  set C₀ := carterQ a mu x P with hC₀
  -- bounds on the momenta
  obtain ⟨b1, hb1⟩ := isCompact_Icc.exists_bound_of_continuousOn (s := Set.Icc r₁ r₂)
    (f := fun r => radialPot a Q mu (-P 0) (P 3) C₀ r / (r ^ 2 - 2 * r + a ^ 2 + Q ^ 2) ^ 2) (by
      refine ContinuousOn.div ?_ ?_ fun r hr => pow_ne_zero 2 (hbox r hr _ hθ0).2.1
      · unfold radialPot; fun_prop
      · fun_prop)
  obtain ⟨b2, hb2⟩ := isCompact_Icc.exists_bound_of_continuousOn (s := Set.Icc θ₁ θ₂) (f := fun th => polarPot a mu (-P 0) (P 3) C₀ th) (by
      unfold polarPot
      refine continuousOn_const.sub ((Real.continuous_cos.pow 2).continuousOn.mul (continuousOn_const.add (ContinuousOn.div ?_ ?_ ?_)))
      · fun_prop
      · fun_prop
      · exact fun th hth => pow_ne_zero 2 (hbox (x 1) ⟨hr.1.le, hr.2.le⟩ th hth).2.2)
  have hb1' : 0 ≤ b1 := (norm_nonneg _).trans (hb1 (x 1) ⟨hr.1.le, hr.2.le⟩)
  have hb2' : 0 ≤ b2 := (norm_nonneg _).trans (hb2 (x 2) hθ0)
  set Bp := 1 + b1 + b2 + |P 0| + |P 3| with hBp
  have hBp0 : 0 < Bp := by positivity
  have hBp1 : 1 + b1 + b2 ≤ Bp := by linarith [abs_nonneg (P 0), abs_nonneg (P 3)]
  have hBsq : Bp ≤ Bp ^ 2 := le_self_pow₀ (by linarith) two_ne_zero
  -- the contravariant metric is bounded
  have hM : ∀ i j, ∃ M : ℝ, 0 ≤ M ∧ ∀ r ∈ Set.Icc r₁ r₂, ∀ th ∈ Set.Icc θ₁ θ₂, |knContra a Q r th i j| ≤ M := by
    intro i j
    obtain ⟨M, hM⟩ := (isCompact_Icc.prod isCompact_Icc).exists_bound_of_continuousOn (s := Set.Icc r₁ r₂ ×ˢ Set.Icc θ₁ θ₂)
      (f := fun w : ℝ × ℝ => (g i j).den ![0, w.1, w.2, 0]) (by
        intro w hw
        have hE : Exterior a Q ![0, w.1, w.2, 0] := hbox _ hw.1 _ hw.2
        have h1 : ContinuousAt (fun y : V4 => (g i j).den y) ![0, w.1, w.2, 0] := (hsm _ hE i j).contDiffAt.continuousAt
        have h2 : Continuous fun w : ℝ × ℝ => (![0, w.1, w.2, 0] : V4) := by
          refine continuous_pi fun k => ?_
          fin_cases k
          · exact continuous_const
          · exact continuous_fst
          · exact continuous_snd
          · exact continuous_const
        exact (ContinuousAt.comp (f := fun w : ℝ × ℝ => (![0, w.1, w.2, 0] : V4)) h1 h2.continuousAt).continuousWithinAt)
    refine ⟨|M|, abs_nonneg _, fun r hr' th hth => ?_⟩
    have hE : Exterior a Q ![0, r, th, 0] := hbox _ hr' _ hth
    have := hM (r, th) ⟨hr', hth⟩
    rw [hden _ hE] at this
    exact this.trans (le_abs_self _)
  choose M hM0 hM using hM
  set M0 := ∑ i, ∑ j, M i j with hM0'
  have hM0n : 0 ≤ M0 := Finset.sum_nonneg fun i _ => Finset.sum_nonneg fun j _ => hM0 i j
  set B := M0 * Bp * T + 1 with hB
  have hB0 : 0 < B := by positivity
  -- the sets
  set Cs : Set (V4 × V4) := {z | (r₁ ≤ z.1 1 ∧ z.1 1 ≤ r₂) ∧ (θ₁ ≤ z.1 2 ∧ z.1 2 ≤ θ₂) ∧ (|z.1 0 - x 0| ≤ B ∧ |z.1 3 - x 3| ≤ B) ∧
    ∀ i, |z.2 i| ≤ Bp} with hCs
  set Os : Set (V4 × V4) := {z | (r₁ < z.1 1 ∧ z.1 1 < r₂) ∧ (θ₁ < z.1 2 ∧ z.1 2 < θ₂) ∧ (|z.1 0 - x 0| < B ∧ |z.1 3 - x 3| < B) ∧
    ∀ i, |z.2 i| < Bp} with hOs
  have hCE : ∀ z ∈ Cs, Exterior a Q z.1 := fun z hz => hbox _ hz.1 _ hz.2.1
  have c1 : ∀ i, Continuous fun z : V4 × V4 => z.1 i := fun i => (continuous_apply i).comp continuous_fst
  have c2 : ∀ i, Continuous fun z : V4 × V4 => z.2 i := fun i => (continuous_apply i).comp continuous_snd
  have hCcl : IsClosed Cs := by
    refine ((isClosed_le continuous_const (c1 1)).inter (isClosed_le (c1 1) continuous_const)).inter
      (((isClosed_le continuous_const (c1 2)).inter (isClosed_le (c1 2) continuous_const)).inter
      (((isClosed_le ((c1 0).sub continuous_const).abs continuous_const).inter (isClosed_le ((c1 3).sub continuous_const).abs continuous_const)).inter ?_))
    have : {z : V4 × V4 | ∀ i, |z.2 i| ≤ Bp} = ⋂ i, {z : V4 × V4 | |z.2 i| ≤ Bp} := by ext z; simp
    show IsClosed {z : V4 × V4 | ∀ i, |z.2 i| ≤ Bp}
    rw [this]
    exact isClosed_iInter fun i => isClosed_le (c2 i).abs continuous_const
  have hOop : IsOpen Os := by
    refine ((isOpen_lt continuous_const (c1 1)).inter (isOpen_lt (c1 1) continuous_const)).inter
      (((isOpen_lt continuous_const (c1 2)).inter (isOpen_lt (c1 2) continuous_const)).inter
      (((isOpen_lt ((c1 0).sub continuous_const).abs continuous_const).inter (isOpen_lt ((c1 3).sub continuous_const).abs continuous_const)).inter ?_))
    have : {z : V4 × V4 | ∀ i, |z.2 i| < Bp} = ⋂ i, {z : V4 × V4 | |z.2 i| < Bp} := by ext z; simp
    show IsOpen {z : V4 × V4 | ∀ i, |z.2 i| < Bp}
    rw [this]
    exact isOpen_iInter_of_finite fun i => isOpen_lt (c2 i).abs continuous_const
  have hCc : IsCompact Cs := by
    have hbig : IsCompact (Set.Icc (![x 0 - B, r₁, θ₁, x 3 - B] : V4) ![x 0 + B, r₂, θ₂, x 3 + B] ×ˢ Set.Icc (fun _ => -Bp : V4) (fun _ => Bp)) :=
      isCompact_Icc.prod isCompact_Icc
    refine hbig.of_isClosed_subset hCcl ?_
    rintro z ⟨h1, h2, ⟨h3, h4⟩, h5⟩
    obtain ⟨h3a, h3b⟩ := abs_le.mp h3
    obtain ⟨h4a, h4b⟩ := abs_le.mp h4
    refine ⟨⟨?_, ?_⟩, ⟨fun i => (abs_le.mp (h5 i)).1, fun i => (abs_le.mp (h5 i)).2⟩⟩
    · intro i; fin_cases i
      · show x 0 - B ≤ z.1 0; linarith
      · exact h1.1
      · exact h2.1
      · show x 3 - B ≤ z.1 3; linarith
    · intro i; fin_cases i
      · show z.1 0 ≤ x 0 + B; linarith
      · exact h1.2
      · exact h2.2
      · show z.1 3 ≤ x 3 + B; linarith
  have hOC : Os ⊆ Cs := fun z hz => ⟨⟨hz.1.1.le, hz.1.2.le⟩, ⟨hz.2.1.1.le, hz.2.1.2.le⟩, ⟨hz.2.2.1.1.le, hz.2.2.1.2.le⟩, fun i => (hz.2.2.2 i).le⟩
  -- the barriers
  have hin : ∀ z : V4 × V4, (r₁ ≤ z.1 1 ∧ z.1 1 ≤ r₂) → (θ₁ ≤ z.1 2 ∧ z.1 2 ≤ θ₂) → z.2 0 = P 0 → z.2 3 = P 3 →
      carterQ a mu z.1 z.2 = C₀ → normAt g z.1 z.2 = -mu →
      (r₁ < z.1 1 ∧ z.1 1 < r₂) ∧ (θ₁ < z.1 2 ∧ z.1 2 < θ₂) ∧ ∀ i, |z.2 i| < Bp := by
    intro z h1 h2 e0 e3 eC eN
    have hE : Exterior a Q z.1 := hbox _ h1 _ h2
    have hrad := radial_of_norm hden hE eN
    have hpol := polar_of_carter a mu z.1 z.2
    rw [e0, e3, eC] at hrad hpol
    have hRnn : 0 ≤ radialPot a Q mu (-P 0) (P 3) C₀ (z.1 1) := by
      rw [eq_div_iff (pow_ne_zero 2 hE.2.1)] at hrad
      rw [← hrad]; positivity
    have hPnn : 0 ≤ polarPot a mu (-P 0) (P 3) C₀ (z.1 2) := by rw [← hpol]; positivity
    refine ⟨⟨lt_of_le_of_ne h1.1 ?_, lt_of_le_of_ne h1.2 ?_⟩, ⟨lt_of_le_of_ne h2.1 ?_, lt_of_le_of_ne h2.2 ?_⟩, ?_⟩
    · intro h; rw [← h] at hRnn; linarith
    · intro h; rw [h] at hRnn; linarith
    · intro h; rw [← h] at hPnn; linarith
    · intro h; rw [h] at hPnn; linarith
    · have a0 := abs_nonneg (P 0)
      have a3 := abs_nonneg (P 3)
      intro i
      fin_cases i
      · show |z.2 0| < Bp
        rw [e0]; linarith
      · show |z.2 1| < Bp
        refine abs_lt_of_sq_lt_sq ?_ hBp0.le
        have := (le_abs_self _).trans (hb1 _ h1)
        rw [← hrad] at this
        linarith
      · show |z.2 2| < Bp
        refine abs_lt_of_sq_lt_sq ?_ hBp0.le
        have := (le_abs_self _).trans (hb2 _ h2)
        rw [← hpol] at this
        linarith
      · show |z.2 3| < Bp
        rw [e3]; linarith
  have hx0 : (x, P) ∈ Os := by
    obtain ⟨k1, k2, k3⟩ := hin (x, P) ⟨hr.1.le, hr.2.le⟩ ⟨hθ.1.le, hθ.2.le⟩ rfl rfl rfl hn
    exact ⟨k1, k2, ⟨by simpa using hB0, by simpa using hB0⟩, k3⟩
  obtain ⟨z, z0, hz⟩ := trapped_solution (U := {z : V4 × V4 | Exterior a Q z.1}) (X := fun z => (gradP g z, -gradQ g z))
    ((Num.exterior_open a Q).preimage continuous_fst)
    (fun z hz => ((gradP_smooth g z (hsm _ hz)).prodMk (gradQ_smooth g z (hsm _ hz)).neg).of_le (by simp))
    hCc hCE hOop hOC hx0 hT (by
      intro z τ z0 hτ h
      have hH : ∀ t, |t| ≤ |τ| → HamiltonAt g (fun t => (z t).1) (fun t => (z t).2) t := fun t ht =>
        hamilton_of_grad hsym (hsm _ (hCE _ (h t ht).1)) (h t ht).2.fst (h t ht).2.snd
      have hE : ∀ t, |t| ≤ |τ| → Exterior a Q (z t).1 := fun t ht => hCE _ (h t ht).1
      have e0 : (z τ).2 0 = P 0 := by
        have := const_on (f := fun t => (z t).2 0) (τ := τ) fun t ht =>
          cyclic_deriv (q := fun t => (z t).1) (p := fun t => (z t).2) hden (hE t ht) (hH t ht) 0 (by decide) (by decide)
        rw [this, z0]
      have e3 : (z τ).2 3 = P 3 := by
        have := const_on (f := fun t => (z t).2 3) (τ := τ) fun t ht =>
          cyclic_deriv (q := fun t => (z t).1) (p := fun t => (z t).2) hden (hE t ht) (hH t ht) 3 (by decide) (by decide)
        rw [this, z0]
      have eN : ∀ t, |t| ≤ |τ| → normAt g (z t).1 (z t).2 = -mu := by
        intro t ht
        have := const_on (f := fun t => normAt g (z t).1 (z t).2) (τ := t) fun s hs =>
          norm_deriv (q := fun t => (z t).1) (p := fun t => (z t).2) hsym (hsm _ (hE s (hs.trans ht))) (hH s (hs.trans ht))
        rw [this, z0]; exact hn
      have eC : carterQ a mu (z τ).1 (z τ).2 = C₀ := by
        have := const_on (f := fun t => carterQ a mu (z t).1 (z t).2) (τ := τ) fun t ht =>
          carter_deriv (q := fun t => (z t).1) (p := fun t => (z t).2) hsm hden (hE t ht) (hH t ht) (eN t ht)
        rw [this, z0]
      obtain ⟨hC1, hC2, -, -⟩ := (h τ le_rfl).1
      obtain ⟨k1, k2, k3⟩ := hin (z τ) hC1 hC2 e0 e3 eC (eN τ le_rfl)
      have hmove : ∀ i, |(z τ).1 i - x i| < B := by
        intro i
        have hd : ∀ t ∈ Set.Icc (-|τ|) |τ|, HasDerivWithinAt (fun t => (z t).1 i) (∑ b, (g i b).den (z t).1 * (z t).2 b) (Set.Icc (-|τ|) |τ|) t :=
          fun t ht => ((hH t (abs_le.mpr ht)).dq i).hasDerivWithinAt
        have hbd : ∀ t ∈ Set.Icc (-|τ|) |τ|, ‖∑ b, (g i b).den (z t).1 * (z t).2 b‖ ≤ M0 * Bp := by
          intro t ht
          obtain ⟨hC1, hC2, -, hC4⟩ := (h t (abs_le.mpr ht)).1
          calc ‖∑ b, (g i b).den (z t).1 * (z t).2 b‖ ≤ ∑ b, ‖(g i b).den (z t).1 * (z t).2 b‖ := norm_sum_le _ _
            _ ≤ ∑ b, M i b * Bp := by
              refine Finset.sum_le_sum fun b _ => ?_
              rw [norm_mul, hden _ (hE t (abs_le.mpr ht))]
              exact mul_le_mul (hM i b _ hC1 _ hC2) (hC4 b) (norm_nonneg _) (hM0 i b)
            _ = (∑ b, M i b) * Bp := by rw [Finset.sum_mul]
            _ ≤ M0 * Bp := by
              refine mul_le_mul_of_nonneg_right ?_ hBp0.le
              exact Finset.single_le_sum (f := fun i => ∑ b, M i b) (fun i _ => Finset.sum_nonneg fun j _ => hM0 i j) (Finset.mem_univ i)
        have := (convex_Icc (-|τ|) |τ|).norm_image_sub_le_of_norm_hasDerivWithin_le hd hbd
          (x := 0) (y := τ) ⟨by linarith [abs_nonneg τ], abs_nonneg τ⟩ (abs_le.mp le_rfl)
        rw [Real.norm_eq_abs, Real.norm_eq_abs, sub_zero, z0] at this
        calc |(z τ).1 i - x i| ≤ M0 * Bp * |τ| := this
          _ ≤ M0 * Bp * T := by gcongr
          _ < B := by rw [hB]; linarith
      exact ⟨k1, k2, ⟨hmove 0, hmove 3⟩, k3⟩)
  refine ⟨fun t => (z t).1, fun t => (z t).2, by simp [z0], by simp [z0], fun t ht => ?_⟩
  obtain ⟨h1, h2⟩ := hz t ht
  refine ⟨⟨h1.1.1, h1.1.2, h1.2.1.1, h1.2.1.2⟩, ?_⟩
  have h3 : ∀ᶠ u in 𝓝 t, z u ∈ Os := h2.self_of_nhds.continuousAt.eventually (hOop.mem_nhds h1)
  filter_upwards [h2, h3] with u hu hu'
  exact hamilton_of_grad hsym (hsm _ (hCE _ (hOC hu'))) hu.fst hu.snd

/-! ## the theorem -/

/-- The stored four-momentum of a named space-time -/
theorem named_momentum {g : MetricFn} {a Q : ℝ} (hsm : ∀ y, Exterior a Q y → ∀ i j, (g i j).Smooth y)
    (hden : ∀ y, Exterior a Q y → (fun i j => (g i j).den y) = knContra a Q (y 1) (y 2)) {x P : V4} (hx : Exterior a Q x) (tl : Bool)
    (htt : (Matrix.of fun i j => blCov a Q i j x)⁻¹ 0 0 ≠ 0)
    (hnorm : ∑ i, ∑ j, (Matrix.of fun i j => blCov a Q i j x)⁻¹ i j * P i * P j = if tl then -1 else 0)
    (hfut : 0 ≤ ∑ j, (Matrix.of fun i j => blCov a Q i j x)⁻¹ 0 j * P j) :
    fourMomentum g x (fun i => P i.succ) tl = .ok P := by
  rw [knCov_inv a Q _ hx] at htt hnorm hfut
  have hev : evalMetric g x = .ok (knContra a Q (x 1) (x 2)) := by
    rw [← hden _ hx]
    exact evalMetric_regular fun i j => (hsm _ hx i j).regular
  exact fourMomentum_of hev (knContra_shape _ _ _ _) htt P tl hnorm hfut

/-- **C138**.  Let `x` (with `t = 0`) be a position and `P` a covariant four-momentum in the space-time named by `s`, `ps`, on the mass shell
(`g^ij P_i P_j` is `-1` for time-like, `0` for null geodesics) and future directed (`g^0j P_j ≥ 0`).  Let `r₁ < r < r₂` and `θ₁ < θ < θ₂` be
barriers: the radial potential is negative at `r₁`, `r₂`, the polar potential is negative at `θ₁`, `θ₂`, and the box between them contains no point
of ring, horizons or axis.  Then for every duration `T` there is a step size `δ₀` such that `Geodesic`, started with these data, succeeds for all
`|delta| < δ₀` and all numbers of steps with `steps·|delta| ≤ T`, stores `P`, and every row lies strictly between the barriers. -/
theorem C138_bound (s : String) (ps : List ℝ) (a Q : ℝ) (hn : NamedMetric s ps a Q) (tl : Bool) (x P : V4) (hx0 : x 0 = 0)
    (htt : (Matrix.of fun i j => blCov a Q i j x)⁻¹ 0 0 ≠ 0)
    (hnorm : ∑ i, ∑ j, (Matrix.of fun i j => blCov a Q i j x)⁻¹ i j * P i * P j = if tl then -1 else 0)
    (hfut : 0 ≤ ∑ j, (Matrix.of fun i j => blCov a Q i j x)⁻¹ 0 j * P j)
    (mu C : ℝ) (hmu : mu = if tl then 1 else 0) (hC : C = carterQ a mu x P)
    {r₁ r₂ θ₁ θ₂ : ℝ} (hr : r₁ < x 1 ∧ x 1 < r₂) (hθ : θ₁ < x 2 ∧ x 2 < θ₂)
    (hbox : ∀ r ∈ Set.Icc r₁ r₂, ∀ th ∈ Set.Icc θ₁ θ₂, r ^ 2 + a ^ 2 * Real.cos th ^ 2 ≠ 0 ∧ r ^ 2 - 2 * r + a ^ 2 + Q ^ 2 ≠ 0 ∧ Real.sin th ≠ 0)
    (hR1 : radialPot a Q mu (-P 0) (P 3) C r₁ < 0) (hR2 : radialPot a Q mu (-P 0) (P 3) C r₂ < 0)
    (hP1 : polarPot a mu (-P 0) (P 3) C θ₁ < 0) (hP2 : polarPot a mu (-P 0) (P 3) C θ₂ < 0)
    (order : ℤ) (ho : order = 2 ∨ order = 4 ∨ order = 6 ∨ order = 8) (omega T : ℝ) :
    ∃ δ₀ : ℝ, 0 < δ₀ ∧ ∀ (rc : Bool) (kw : GeoKw), kw.omega = omega → kw.order = order → 0 < kw.steps → |kw.delta| < δ₀ →
      kw.steps * |kw.delta| ≤ T →
      ∃ o, Geodesic.new (.str s) (some ps) (fun i => x i.succ) (fun i => P i.succ) tl rc kw = .ok o ∧ o.momentum = P ∧
        (o.rows.length : ℤ) = kw.steps ∧
        ∀ row ∈ o.rows, ∃ y u : V4, row = rowOf (if rc then "Cartesian" else "Spherical Polar") y u ∧
          (r₁ < y 1 ∧ y 1 < r₂) ∧ θ₁ < y 2 ∧ y 2 < θ₂ := by
  obtain ⟨g, hnew, hsm, hden, hsym⟩ := named_fn hn
  have hdij : ∀ y, Exterior a Q y → ∀ i j, (g i j).den y = knContra a Q (y 1) (y 2) i j := fun y hy i j =>
    congrFun (congrFun (hden y hy) i) j
  have hE : Exterior a Q x := hbox _ ⟨hr.1.le, hr.2.le⟩ _ ⟨hθ.1.le, hθ.2.le⟩
  have hmom := named_momentum hsm hden hE tl htt hnorm hfut
  have hna : normAt g x P = -mu := by
    unfold normAt
    simp only [hdij _ hE]
    rw [knCov_inv a Q _ hE] at hnorm
    rw [hnorm, hmu]
    split_ifs <;> simp
  subst hC
  set T' := |T| + 1 with hT'
  have hT0 : 0 < T' := by positivity
  obtain ⟨q, p, q0, p0, hqp⟩ := bound_solution hsm hdij hsym x P hr hθ hbox hna hR1 hR2 hP1 hP2 hT0
  have hEq : ∀ t ∈ Set.Icc (-T') T', Exterior a Q (q t) := fun t ht => by
    obtain ⟨h1, h2, h3, h4⟩ := (hqp t ht).1
    exact hbox _ ⟨h1.le, h2.le⟩ _ ⟨h3.le, h4.le⟩
  obtain ⟨K, δ₁, hδ₁, hK⟩ := C105_converges ⟨g, omega, order⟩ ho hsym q p (-T') T' (by linarith) hT0.le
    (fun t ht i j => hsm _ (hEq t ht) i j) (fun t ht => (hqp t ht).2)
  -- room between the orbit and the barriers
  have hcq : ∀ i, ContinuousOn (fun t => q t i) (Set.Icc (-T') T') := fun i t ht =>
    ((hqp t ht).2.self_of_nhds.dq i).continuousAt.continuousWithinAt
  have hroom : ∃ ρ : ℝ, 0 < ρ ∧ ∀ t ∈ Set.Icc (-T') T', ρ < q t 1 - r₁ ∧ ρ < r₂ - q t 1 ∧ ρ < q t 2 - θ₁ ∧ ρ < θ₂ - q t 2 := by
    have hpos : ∀ t ∈ Set.Icc (-T') T', 0 < min (min (q t 1 - r₁) (r₂ - q t 1)) (min (q t 2 - θ₁) (θ₂ - q t 2)) := fun t ht => by
      obtain ⟨h1, h2, h3, h4⟩ := (hqp t ht).1
      exact lt_min (lt_min (by linarith) (by linarith)) (lt_min (by linarith) (by linarith))
    have hc : ContinuousOn (fun t => min (min (q t 1 - r₁) (r₂ - q t 1)) (min (q t 2 - θ₁) (θ₂ - q t 2))) (Set.Icc (-T') T') :=
      fun t ht => (((hcq 1 t ht).sub continuousWithinAt_const).min (continuousWithinAt_const.sub (hcq 1 t ht))).min
        (((hcq 2 t ht).sub continuousWithinAt_const).min (continuousWithinAt_const.sub (hcq 2 t ht)))
    obtain ⟨t, ht, hmin⟩ := isCompact_Icc.exists_isMinOn ⟨0, by constructor <;> linarith⟩ hc
    refine ⟨_, half_pos (hpos t ht), fun u hu => ?_⟩
    have h1 := hmin hu
    have h2 := half_lt_self (hpos t ht)
    have h3 := lt_of_lt_of_le h2 h1
    obtain ⟨h4, h5⟩ := lt_min_iff.mp h3
    exact ⟨(lt_min_iff.mp h4).1, (lt_min_iff.mp h4).2, (lt_min_iff.mp h5).1, (lt_min_iff.mp h5).2⟩
  obtain ⟨ρ, hρ, hroom⟩ := hroom
  refine ⟨min δ₁ (min 1 (ρ / (|K| + 1))), lt_min hδ₁ (lt_min one_pos (by positivity)), fun rc kw k1 k2 k3 k4 k5 => ?_⟩
  obtain ⟨d1, d2⟩ := lt_min_iff.mp k4
  obtain ⟨d2, d3⟩ := lt_min_iff.mp d2
  have hst : (0 : ℝ) < kw.steps := by exact_mod_cast k3
  have hT1 : kw.steps * |kw.delta| ≤ T' := k5.trans ((le_abs_self T).trans (by linarith))
  have habs : ∀ c : ℝ, 0 ≤ c → c ≤ kw.steps → c * kw.delta ∈ Set.Icc (-T') T' := fun c hc0 hc => by
    refine abs_le.mp ?_
    rw [abs_mul, abs_of_nonneg hc0]
    exact (mul_le_mul_of_nonneg_right hc (abs_nonneg _)).trans hT1
  obtain ⟨st, rows, hr', hrow⟩ := hK tl (if rc then "Cartesian" else "Spherical Polar") kw k1 k2 k3 d1 (habs _ hst.le le_rfl)
  have hx : x = ![0, x 1, x 2, x 3] := by
    funext i; fin_cases i
    · exact hx0
    · rfl
    · rfl
    · rfl
  rw [q0, p0] at hr'
  have hlen := (C34_trajectory _ _ _ _ _ _ _ _ hr').2.1
  obtain ⟨o, ho1, ho2, ho3⟩ := hnew (fun i => x i.succ) (fun i => P i.succ) tl rc kw P st rows
    (by rw [hx] at hmom; exact hmom) (by rw [hx] at hr'; exact hr')
  refine ⟨o, ho1, ho2, by rw [ho3]; exact hlen, fun row hrw => ?_⟩
  rw [ho3] at hrw
  obtain ⟨k, hk, rfl⟩ := List.mem_iff_getElem.mp hrw
  have hk' : (k : ℤ) < kw.steps := by rw [← hlen]; exact_mod_cast hk
  obtain ⟨y, u, hyu, hclose⟩ := hrow k hk'
  rw [List.getElem?_eq_getElem hk] at hyu
  refine ⟨y, u, Option.some.inj hyu, ?_⟩
  have hk1 : ((k : ℝ) + 1) ≤ kw.steps := by exact_mod_cast hk'
  obtain ⟨g1, g2, g3, g4⟩ := hroom _ (habs ((k : ℝ) + 1) (by positivity) hk1)
  have hsmall : K * |kw.delta| ^ 2 < ρ := by
    have e1 : K * |kw.delta| ^ 2 ≤ |K| * |kw.delta| := by
      have h1 : |kw.delta| ^ 2 ≤ |kw.delta| := by
        rw [sq]; exact mul_le_of_le_one_left (abs_nonneg _) d2.le
      exact mul_le_mul (le_abs_self K) h1 (by positivity) (abs_nonneg K)
    have e2 : |K| * |kw.delta| ≤ (|K| + 1) * |kw.delta| := by nlinarith [abs_nonneg kw.delta]
    have e3 : (|K| + 1) * |kw.delta| < ρ := by
      rw [lt_div_iff₀ (by positivity)] at d3
      linarith
    linarith
  have c1 := abs_le.mp ((hclose 1).1.trans hsmall.le)
  have c2 := abs_le.mp ((hclose 2).1.trans hsmall.le)
  exact ⟨⟨by linarith [c1.1], by linarith [c1.2]⟩, by linarith [c2.1], by linarith [c2.2]⟩

/-! ## the example of the package -/

/-- examples.py:8-36 `precession`, `np.pi / 2` being the real number; `return_cartesian` has its default. -/
noncomputable def precession : Py GeodesicObj :=
  Timelike.new (.str "Schwarzschild") (some []) ![40, Real.pi / 2, 0] ![0, 0, 3.83405] true { steps := 5500, delta := 1 }

/-- Energy of the example's particle. -/
noncomputable def precE : ℝ := Real.sqrt (19 / 20 * (1 + 3.83405 ^ 2 / 1600))

theorem precE_sq : precE ^ 2 = 19 / 20 * (1 + 3.83405 ^ 2 / 1600) := Real.sq_sqrt (by norm_num)

theorem precE_pos : 0 < precE := Real.sqrt_pos.mpr (by norm_num)

theorem prec_exterior : Exterior 0 0 ![0, 40, Real.pi / 2, 0] := by
  refine ⟨by simp, by simp; norm_num, by simp⟩

theorem prec_sin {th : ℝ} (h : th ∈ Set.Icc (1 : ℝ) 2) : Real.sin th ≠ 0 :=
  (Real.sin_pos_of_pos_of_lt_pi (by linarith [h.1]) (by linarith [h.2, Real.pi_gt_three])).ne'

theorem prec_polar {th : ℝ} (h : th = 1 ∨ th = 2) : polarPot 0 1 precE 3.83405 0 th < 0 := by
  have hs : Real.sin th ≠ 0 := prec_sin (by rcases h with rfl | rfl <;> constructor <;> norm_num)
  have hc : Real.cos th ≠ 0 := by
    rcases h with rfl | rfl
    · exact Real.cos_one_pos.ne'
    · exact Real.cos_two_neg.ne
  have : 0 < Real.cos th ^ 2 * (3.83405 ^ 2 / Real.sin th ^ 2) := by positivity
  unfold polarPot
  linarith

theorem prec_data : (Matrix.of fun i j => blCov 0 0 i j ![0, 40, Real.pi / 2, 0])⁻¹ 0 0 ≠ 0 ∧
    (∑ i, ∑ j, (Matrix.of fun i j => blCov 0 0 i j ![0, 40, Real.pi / 2, 0])⁻¹ i j * (![-precE, 0, 0, 3.83405] : V4) i *
      (![-precE, 0, 0, 3.83405] : V4) j = if true then -1 else 0) ∧
    0 ≤ ∑ j, (Matrix.of fun i j => blCov 0 0 i j ![0, 40, Real.pi / 2, 0])⁻¹ 0 j * (![-precE, 0, 0, 3.83405] : V4) j := by
  have hsq := precE_sq
  have hE := precE_pos
  rw [knCov_inv _ _ _ prec_exterior]
  refine ⟨?_, ?_, ?_⟩
  · simp [knContra]; norm_num
  · simp [Fin.sum_univ_four, knContra]
    norm_num at hsq ⊢
    linear_combination (-20 / 19) * hsq
  · simp [Fin.sum_univ_four, knContra]
    norm_num
    positivity

/-- The data of the example satisfy the hypotheses of `C138_bound`: the orbit is bound between `r = 4.2 M` and `r = 41 M`, and between the
polar angles `1` and `2`. -/
theorem C138_precession_bound (T : ℝ) : ∃ δ₀ : ℝ, 0 < δ₀ ∧ ∀ (rc : Bool) (kw : GeoKw), kw.omega = 1 → kw.order = 2 → 0 < kw.steps →
    |kw.delta| < δ₀ → kw.steps * |kw.delta| ≤ T →
      ∃ o, Timelike.new (.str "Schwarzschild") (some []) ![40, Real.pi / 2, 0] ![0, 0, 3.83405] rc kw = .ok o ∧
        o.momentum = ![-precE, 0, 0, 3.83405] ∧ (o.rows.length : ℤ) = kw.steps ∧
        ∀ row ∈ o.rows, ∃ y u : V4, row = rowOf (if rc then "Cartesian" else "Spherical Polar") y u ∧
          (4.2 < y 1 ∧ y 1 < 41) ∧ 1 < y 2 ∧ y 2 < 2 := by
  have hsq := precE_sq
  have hE := precE_pos
  have hcar : (0 : ℝ) = carterQ 0 1 ![0, 40, Real.pi / 2, 0] ![-precE, 0, 0, 3.83405] := by simp [carterQ]
  obtain ⟨δ₀, h0, h⟩ := C138_bound "Schwarzschild" [] 0 0 (.schwarzschild []) true ![0, 40, Real.pi / 2, 0] ![-precE, 0, 0, 3.83405] rfl
    prec_data.1 prec_data.2.1 prec_data.2.2
    1 0 (by simp) hcar (r₁ := 4.2) (r₂ := 41) (θ₁ := 1) (θ₂ := 2)
    ⟨by show (4.2 : ℝ) < 40; norm_num, by show (40 : ℝ) < 41; norm_num⟩
    ⟨by show (1 : ℝ) < Real.pi / 2; linarith [Real.pi_gt_three], by show Real.pi / 2 < (2 : ℝ); linarith [Real.pi_lt_four]⟩
    (fun r hr th hth => by
      have hr1 : (4 : ℝ) < r := lt_of_lt_of_le (by norm_num) hr.1
      refine ⟨?_, ?_, prec_sin hth⟩
      · have : 0 < r ^ 2 := by positivity
        simpa using this.ne'
      · have : 0 < r ^ 2 - 2 * r := by nlinarith
        simpa using this.ne')
    (by
      show radialPot 0 0 1 (- -precE) 3.83405 0 4.2 < 0
      unfold radialPot
      rw [neg_neg]
      nlinarith [hsq])
    (by
      show radialPot 0 0 1 (- -precE) 3.83405 0 41 < 0
      unfold radialPot
      rw [neg_neg]
      nlinarith [hsq])
    (by
      show polarPot 0 1 (- -precE) 3.83405 0 1 < 0
      rw [neg_neg]; exact prec_polar (.inl rfl))
    (by
      show polarPot 0 1 (- -precE) 3.83405 0 2 < 0
      rw [neg_neg]; exact prec_polar (.inr rfl))
    2 (.inl rfl) 1 T
  refine ⟨δ₀, h0, fun rc kw k1 k2 k3 k4 k5 => ?_⟩
  obtain ⟨o, ho, hrest⟩ := h rc kw k1 k2 k3 k4 k5
  refine ⟨o, ?_, hrest⟩
  rw [← ho]
  rfl

/-- **C138** (the shipped example).  Whatever the example of the package returns, with any number and size of steps, is a time-like geodesic with the
energy `precE` and the angular momentum of its initial data and the requested number of rows, all of which lie in the equatorial plane: `z = 0` and
`p_θ = 0`. -/
theorem C138_precession (kw : GeoKw) (o : GeodesicObj)
    (h : Timelike.new (.str "Schwarzschild") (some []) ![40, Real.pi / 2, 0] ![0, 0, 3.83405] true kw = .ok o) :
    o.timeLike = true ∧ o.kind = "Time-like" ∧ o.momentum = ![-precE, 0, 0, 3.83405] ∧ (o.rows.length : ℤ) = kw.steps ∧
      ∀ row ∈ o.rows, row[3]? = some 0 ∧ row[6]? = some 0 := by
  obtain ⟨k1, k2, -⟩ := (C39_kind _ _ _ _ _ _ o).1 h
  have heq := (C116_equatorial "Schwarzschild" [] 0 0 (.schwarzschild []) ![40, Real.pi / 2, 0] ![0, 0, 3.83405] rfl rfl true true _ o h)
  have hmom : fourMomentum schFn ![0, 40, Real.pi / 2, 0] ![0, 0, 3.83405] true = .ok ![-precE, 0, 0, 3.83405] :=
    named_momentum (a := 0) (Q := 0) (P := ![-precE, 0, 0, 3.83405]) sch_smooth (fun y hy => by
      obtain ⟨hr, h2, hs⟩ := exterior_sch hy
      exact sch_den y hr h2 hs) prec_exterior true prec_data.1 prec_data.2.1 prec_data.2.2
  refine ⟨k1, k2, ?_, ?_, fun row hr => ⟨(heq row hr).2.2 rfl, (heq row hr).1⟩⟩
  · change (fourMomentum schFn ![0, 40, Real.pi / 2, 0] ![0, 0, 3.83405] true >>= fun P => _) = _ at h
    rw [hmom] at h
    simp only [bind, Except.bind, pure, Except.pure] at h
    split at h
    · cases h
    · rw [← Except.ok.inj h]
  · obtain ⟨g, g', P, h1, h2, h3, h4, h5, h6, h7⟩ := geodesic_ok h
    exact (C34_trajectory _ _ _ _ _ _ _ _ h2).2.1

/-- The parameters hard-wired in `precession()`. -/
theorem C138_precession_shipped (o : GeodesicObj) (h : precession = .ok o) :
    o.momentum = ![-precE, 0, 0, 3.83405] ∧ o.rows.length = 5500 ∧ ∀ row ∈ o.rows, row[3]? = some 0 ∧ row[6]? = some 0 := by
  obtain ⟨-, -, h1, h2, h3⟩ := C138_precession _ o h
  exact ⟨h1, by exact_mod_cast (show (o.rows.length : ℤ) = 5500 from h2), h3⟩

/-- Non-vacuity: a successful run of the example, with the same data and a million units of parameter time, exists. -/
example : ∃ δ₀ : ℝ, 0 < δ₀ ∧ ∀ n : ℕ, ∀ d : ℝ, 0 < n → |d| < δ₀ → n * |d| ≤ 1000000 → ∃ o,
    Timelike.new (.str "Schwarzschild") (some []) ![40, Real.pi / 2, 0] ![0, 0, 3.83405] true { steps := n, delta := d } = .ok o := by
  obtain ⟨δ₀, h0, h⟩ := C138_precession_bound 1000000
  refine ⟨δ₀, h0, fun n d hn hd ht => ?_⟩
  obtain ⟨o, ho, -⟩ := h true { steps := n, delta := d } rfl rfl (Int.natCast_pos.mpr hn) hd (by exact_mod_cast ht)
  exact ⟨o, ho⟩

end Einpy
