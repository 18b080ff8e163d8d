import Mathlib.Analysis.SpecialFunctions.Trigonometric.Bounds
import Verif.Integ.FlowAlg
import Verif.Integ.Converge
import Verif.Integ.Symplectic
import Verif.Integ.Props2

/-!
# Order of accuracy of the geodesic integrator: C104
-/

namespace Einpy
open Classical Topology Asymptotics Finset Einpy.Flow
open scoped ContDiff

/-! ## specification -/

/-- `q`, `p` satisfy Hamilton's equations of `H = ½ Σ g^{ab}(q) p_a p_b` at parameter `t`:
`dq^i/dt = Σ_b g^{ib} p_b` and `dp_i/dt = -½ Σ_ab (∂g^{ab}/∂q^i) p_a p_b`. -/
structure HamiltonAt (g : MetricFn) (q p : ℝ → V4) (t : ℝ) : Prop where
  dq : ∀ i, HasDerivAt (fun t => q t i) (∑ b, (g i b).den (q t) * p t b) t
  dp : ∀ i, HasDerivAt (fun t => p t i)
    (-(1 / 2) * ∑ a, ∑ b, deriv (fun x => (g a b).den (Function.update (q t) i x)) (q t i) * p t a * p t b) t

/-! ## the vector fields -/

/-- states at which the metric is smooth for both copies -/
def goodSet (g : MetricFn) : Set PS := {s | (∀ i j, (g i j).Smooth s.q1) ∧ ∀ i j, (g i j).Smooth s.q2}

theorem goodSet_open (g : MetricFn) : IsOpen (goodSet g) := by
  rw [isOpen_iff_mem_nhds]
  rintro s ⟨h1, h2⟩
  have e1 : ∀ᶠ q in 𝓝 s.q1, ∀ i j, (g i j).Smooth q :=
    Filter.eventually_all.mpr fun i => Filter.eventually_all.mpr fun j => (h1 i j).eventually
  have e2 : ∀ᶠ q in 𝓝 s.q2, ∀ i j, (g i j).Smooth q :=
    Filter.eventually_all.mpr fun i => Filter.eventually_all.mpr fun j => (h2 i j).eventually
  have t1 : Filter.Tendsto (fun t : PS => t.q1) (𝓝 s) (𝓝 s.q1) := continuous_fst.continuousAt
  have t2 : Filter.Tendsto (fun t : PS => t.q2) (𝓝 s) (𝓝 s.q2) :=
    (continuous_fst.comp (continuous_snd.comp continuous_snd)).continuousAt
  exact (t1.eventually e1).and (t2.eventually e2)

theorem gradQ_smooth (g : MetricFn) (x : V4 × V4) (h : ∀ i j, (g i j).Smooth x.1) : ContDiffAt ℝ ∞ (gradQ g) x := by
  rw [contDiffAt_pi]
  intro i
  exact ((ham_contDiffAt_n ∞ g x h).fderiv_right (m := ∞) (by simp)).clm_apply contDiffAt_const

theorem gradP_smooth (g : MetricFn) (x : V4 × V4) (h : ∀ i j, (g i j).Smooth x.1) : ContDiffAt ℝ ∞ (gradP g) x := by
  rw [contDiffAt_pi]
  intro i
  exact ((ham_contDiffAt_n ∞ g x h).fderiv_right (m := ∞) (by simp)).clm_apply contDiffAt_const

/-- vector field of `H(q1, p2)` -/
noncomputable def vfA (g : MetricFn) (s : PS) : PS := (0, -gradQ g (s.1, s.2.2.2), gradP g (s.1, s.2.2.2), 0)

/-- vector field of `H(q2, p1)` -/
noncomputable def vfB (g : MetricFn) (s : PS) : PS := swapC (vfA g (swapC s))

/-- vector field of the coupling `½w(|q1-q2|² + |p1-p2|²)` -/
noncomputable def vfC (w : ℝ) (s : PS) : PS :=
  (w • (s.2.1 - s.2.2.2), -(w • (s.1 - s.2.2.1)), -(w • (s.2.1 - s.2.2.2)), w • (s.1 - s.2.2.1))

theorem proj14 : ContDiff ℝ ∞ fun s : PS => (s.1, s.2.2.2) :=
  contDiff_fst.prodMk (contDiff_snd.comp (contDiff_snd.comp contDiff_snd))

theorem vfA_smoothAt (g : MetricFn) (s : PS) (h : ∀ i j, (g i j).Smooth s.q1) : ContDiffAt ℝ ∞ (vfA g) s := by
  have h1 : ContDiffAt ℝ ∞ (fun s : PS => gradQ g (s.1, s.2.2.2)) s :=
    ContDiffAt.comp (g := gradQ g) s (gradQ_smooth g (s.1, s.2.2.2) h) proj14.contDiffAt
  have h2 : ContDiffAt ℝ ∞ (fun s : PS => gradP g (s.1, s.2.2.2)) s :=
    ContDiffAt.comp (g := gradP g) s (gradP_smooth g (s.1, s.2.2.2) h) proj14.contDiffAt
  exact contDiffAt_const.prodMk (h1.neg.prodMk (h2.prodMk contDiffAt_const))

theorem vfA_mem (g : MetricFn) : vfA g ∈ SmoothFn (goodSet g) := fun s hs => (vfA_smoothAt g s hs.1).contDiffWithinAt

theorem vfB_mem (g : MetricFn) : vfB g ∈ SmoothFn (goodSet g) := fun s hs =>
  (ContDiffAt.comp s (swapC.contDiff.contDiffAt (x := vfA g (swapC s)))
    (ContDiffAt.comp s (vfA_smoothAt g (swapC s) hs.2) swapC.contDiff.contDiffAt)).contDiffWithinAt

theorem vfC_mem (g : MetricFn) (w : ℝ) : vfC w ∈ SmoothFn (goodSet g) := by
  have h1 : ContDiff ℝ ∞ fun s : PS => s.2.1 - s.2.2.2 :=
    (contDiff_fst.comp contDiff_snd).sub (contDiff_snd.comp (contDiff_snd.comp contDiff_snd))
  have h2 : ContDiff ℝ ∞ fun s : PS => s.1 - s.2.2.1 :=
    contDiff_fst.sub (contDiff_fst.comp (contDiff_snd.comp contDiff_snd))
  have h3 : ContDiff ℝ ∞ (vfC w) :=
    (h1.const_smul w).prodMk ((h2.const_smul w).neg.prodMk ((h1.const_smul w).neg.prodMk (h2.const_smul w)))
  exact h3.contDiffOn

/-! ## elementary flows -/

/-- the step, as a partial function, has a given expansion -/
structure StepExp (U : Set PS) (st : PS → ℝ → Py PS) (P : ℕ → Module.End ℝ (SmoothFn U)) where
  Φ : ℝ → PS → PS
  expands : Expands U Φ P
  lip : LocLip U Φ
  runs : ∀ s₀ ∈ U, ∀ᶠ x in 𝓝 (0 : ℝ) ×ˢ 𝓝 s₀, st x.2 x.1 = .ok (Φ x.1 x.2)

/-- one step after the other -/
noncomputable def StepExp.comp {U : Set PS} {st st' : PS → ℝ → Py PS} {P Q} (h : StepExp U st P) (k : StepExp U st' Q) :
    StepExp U (fun s δ => do st' (← st s δ) δ) (mulSer P Q) where
  Φ := fun δ s => k.Φ δ (h.Φ δ s)
  expands := h.expands.comp k.expands
  lip := LocLip.comp h.expands.near h.lip k.lip
  runs := fun s₀ hs => by
    filter_upwards [h.runs s₀ hs, (tendsto_pair (h.expands.near s₀ hs)).eventually (k.runs s₀ hs)] with x h1 h2
    simp only [h1, bind, Except.bind]
    exact h2

/-- a step with a rescaled step size -/
noncomputable def StepExp.scale {U : Set PS} {st : PS → ℝ → Py PS} {P} (h : StepExp U st P) (c : ℝ) :
    StepExp U (fun s δ => st s (δ * c)) (scaleSer c P) where
  Φ := fun δ s => h.Φ (δ * c) s
  expands := h.expands.scale c
  lip := h.lip.scale c
  runs := fun s₀ hs => (tendsto_scale c s₀).eventually (h.runs s₀ hs)

theorem phiA_hasDerivAt (g : MetricFn) (s : PS) (t : ℝ) : HasDerivAt (fun t => phiA g t s) (vfA g (phiA g t s)) t := by
  have h1 : HasDerivAt (fun t : ℝ => s.2.1 - t • gradQ g (s.1, s.2.2.2)) (-gradQ g (s.1, s.2.2.2)) t := by
    have := ((hasDerivAt_id t).smul_const (gradQ g (s.1, s.2.2.2))).const_sub s.2.1
    simpa using this
  have h2 : HasDerivAt (fun t : ℝ => s.2.2.1 + t • gradP g (s.1, s.2.2.2)) (gradP g (s.1, s.2.2.2)) t := by
    have := ((hasDerivAt_id t).smul_const (gradP g (s.1, s.2.2.2))).const_add s.2.2.1
    simpa using this
  exact (hasDerivAt_const _ _).prodMk (h1.prodMk (h2.prodMk (hasDerivAt_const _ _)))

theorem phiA_near (g : MetricFn) (s₀ : PS) (h : ∀ i j, (g i j).Smooth s₀.q1) :
    Filter.Tendsto (fun x : ℝ × PS => phiA g x.1 x.2) (𝓝 0 ×ˢ 𝓝 s₀) (𝓝 s₀) := by
  have hQ : ContinuousAt (fun s : PS => gradQ g (s.1, s.2.2.2)) s₀ :=
    (ContDiffAt.comp (g := gradQ g) s₀ (gradQ_smooth g (s₀.1, s₀.2.2.2) h) proj14.contDiffAt).continuousAt
  have hP : ContinuousAt (fun s : PS => gradP g (s.1, s.2.2.2)) s₀ :=
    (ContDiffAt.comp (g := gradP g) s₀ (gradP_smooth g (s₀.1, s₀.2.2.2) h) proj14.contDiffAt).continuousAt
  have t1 : Filter.Tendsto (fun x : ℝ × PS => x.1) (𝓝 0 ×ˢ 𝓝 s₀) (𝓝 0) := Filter.tendsto_fst
  have t2 : Filter.Tendsto (fun x : ℝ × PS => x.2) (𝓝 0 ×ˢ 𝓝 s₀) (𝓝 s₀) := Filter.tendsto_snd
  have c1 : Filter.Tendsto (fun s : PS => s.1) (𝓝 s₀) (𝓝 s₀.1) := continuous_fst.continuousAt
  have c2 : Filter.Tendsto (fun s : PS => s.2.1) (𝓝 s₀) (𝓝 s₀.2.1) := (continuous_fst.comp continuous_snd).continuousAt
  have c3 : Filter.Tendsto (fun s : PS => s.2.2.1) (𝓝 s₀) (𝓝 s₀.2.2.1) :=
    (continuous_fst.comp (continuous_snd.comp continuous_snd)).continuousAt
  have c4 : Filter.Tendsto (fun s : PS => s.2.2.2) (𝓝 s₀) (𝓝 s₀.2.2.2) :=
    (continuous_snd.comp (continuous_snd.comp continuous_snd)).continuousAt
  have k2 := (c2.comp t2).sub (t1.smul (hQ.tendsto.comp t2))
  have k3 := (c3.comp t2).add (t1.smul (hP.tendsto.comp t2))
  rw [zero_smul, sub_zero] at k2
  rw [zero_smul, add_zero] at k3
  exact (c1.comp t2).prodMk_nhds (k2.prodMk_nhds (k3.prodMk_nhds (c4.comp t2)))

theorem phiA_zero (g : MetricFn) (s : PS) : phiA g 0 s = s := by
  unfold phiA
  simp

theorem phiA_euler (g : MetricFn) (δ : ℝ) (s : PS) : phiA g δ s = s + δ • vfA g s := by
  refine Prod.ext ?_ (Prod.ext ?_ (Prod.ext ?_ ?_))
  · show s.1 = s.1 + δ • (0 : V4); simp
  · show s.2.1 - δ • gradQ g (s.1, s.2.2.2) = s.2.1 + δ • -gradQ g (s.1, s.2.2.2)
    rw [smul_neg, sub_eq_add_neg]
  · rfl
  · show s.2.2.2 = s.2.2.2 + δ • (0 : V4); simp

variable (g : MetricFn) (w : ℝ)

/-- the three vector fields as smooth functions -/
noncomputable def fA : SmoothFn (goodSet g) := ⟨vfA g, vfA_mem g⟩
/-- see `fA` -/
noncomputable def fB : SmoothFn (goodSet g) := ⟨vfB g, vfB_mem g⟩
/-- see `fA` -/
noncomputable def fC : SmoothFn (goodSet g) := ⟨vfC w, vfC_mem g w⟩

/-- `_flow_A` -/
noncomputable def stepA (hs : ∀ i j (y : V4), (g i j).den y = (g j i).den y) :
    StepExp (goodSet g) (fun s δ => runSub g w (.A δ) s) (expSer 1 (lie (goodSet_open g) (fA g))) where
  Φ := phiA g
  expands := expands_flow (goodSet_open g) (fA g) (phiA g) (fun s₀ h => phiA_near g s₀ h.1) (phiA_zero g)
    fun s₀ _ => Filter.Eventually.of_forall fun x => phiA_hasDerivAt g x.2 x.1
  lip := locLip_euler (goodSet_open g) (fA g) fun δ s => phiA_euler g δ s
  runs := fun s₀ h => by
    have h1 : ∀ᶠ x in 𝓝 (0 : ℝ) ×ˢ 𝓝 s₀, x.2 ∈ goodSet g :=
      Filter.tendsto_snd.eventually ((goodSet_open g).mem_nhds h)
    filter_upwards [h1] with x hx
    exact runSub_A_smooth g hs w x.1 x.2 hx.1

/-- `_flow_B` -/
noncomputable def stepB (hs : ∀ i j (y : V4), (g i j).den y = (g j i).den y) :
    StepExp (goodSet g) (fun s δ => runSub g w (.B δ) s) (expSer 1 (lie (goodSet_open g) (fB g))) where
  Φ := fun δ s => swapC (phiA g δ (swapC s))
  expands := expands_flow (goodSet_open g) (fB g) _
    (fun s₀ h => by
      have h1 : Filter.Tendsto (fun x : ℝ × PS => (x.1, swapC x.2)) (𝓝 0 ×ˢ 𝓝 s₀) (𝓝 0 ×ˢ 𝓝 (swapC s₀)) :=
        Filter.tendsto_fst.prodMk (swapC.continuous.continuousAt.tendsto.comp Filter.tendsto_snd)
      exact (swapC.continuous.tendsto (swapC s₀)).comp ((phiA_near g (swapC s₀) h.2).comp h1))
    (fun s => by rw [phiA_zero]; rfl)
    fun s₀ _ => Filter.Eventually.of_forall fun x => swapC.hasFDerivAt.comp_hasDerivAt x.1 (phiA_hasDerivAt g (swapC x.2) x.1)
  lip := locLip_euler (goodSet_open g) (fB g) fun δ s => by
    rw [phiA_euler, map_add, map_smul]; rfl
  runs := fun s₀ h => by
    have h1 : ∀ᶠ x in 𝓝 (0 : ℝ) ×ˢ 𝓝 s₀, x.2 ∈ goodSet g :=
      Filter.tendsto_snd.eventually ((goodSet_open g).mem_nhds h)
    filter_upwards [h1] with x hx
    exact runSub_B_swap g w x.1 x.2 _ (runSub_A_smooth g hs w x.1 (swapC x.2) hx.2)

theorem mix_hasDerivAt (s : PS) (t : ℝ) :
    HasDerivAt (fun t => flowMixed s.q1 s.p1 s.q2 s.p2 t w) (vfC w (flowMixed s.q1 s.p1 s.q2 s.p2 t w)) t := by
  have ha : HasDerivAt (fun t : ℝ => 2 * w * t) (2 * w) t := by simpa using (hasDerivAt_id t).const_mul (2 * w)
  have hc := ha.cos
  have hsn := ha.sin
  have key : ∀ (σ a b : ℝ), HasDerivAt (fun t : ℝ => 0.5 * (σ + a * Real.cos (2 * w * t) + b * Real.sin (2 * w * t)))
      (w * (b * Real.cos (2 * w * t) - a * Real.sin (2 * w * t))) t := by
    intro σ a b
    have h := (((hc.const_mul a).const_add σ).add (hsn.const_mul b)).const_mul 0.5
    refine h.congr_deriv ?_
    ring
  refine HasDerivAt.prodMk ?_ (HasDerivAt.prodMk ?_ (HasDerivAt.prodMk ?_ ?_)) <;> rw [hasDerivAt_pi] <;> intro i
  · refine ((key (s.q1 i + s.q2 i) (s.q1 i - s.q2 i) (s.p1 i - s.p2 i)).congr_deriv ?_).congr_of_eventuallyEq
      (Filter.Eventually.of_forall fun t => ?_)
    · show _ = w * ((flowMixed s.q1 s.p1 s.q2 s.p2 t w).2.1 i - (flowMixed s.q1 s.p1 s.q2 s.p2 t w).2.2.2 i)
      simp only [flowMixed]; ring
    · simp only; try ring
  · refine ((key (s.p1 i + s.p2 i) (s.p1 i - s.p2 i) (-(s.q1 i - s.q2 i))).congr_deriv ?_).congr_of_eventuallyEq
      (Filter.Eventually.of_forall fun t => ?_)
    · show _ = -(w * ((flowMixed s.q1 s.p1 s.q2 s.p2 t w).1 i - (flowMixed s.q1 s.p1 s.q2 s.p2 t w).2.2.1 i))
      simp only [flowMixed]; ring
    · simp only; try ring
  · refine ((key (s.q1 i + s.q2 i) (-(s.q1 i - s.q2 i)) (-(s.p1 i - s.p2 i))).congr_deriv ?_).congr_of_eventuallyEq
      (Filter.Eventually.of_forall fun t => ?_)
    · show _ = -(w * ((flowMixed s.q1 s.p1 s.q2 s.p2 t w).2.1 i - (flowMixed s.q1 s.p1 s.q2 s.p2 t w).2.2.2 i))
      simp only [flowMixed]; ring
    · simp only; try ring
  · refine ((key (s.p1 i + s.p2 i) (-(s.p1 i - s.p2 i)) (s.q1 i - s.q2 i)).congr_deriv ?_).congr_of_eventuallyEq
      (Filter.Eventually.of_forall fun t => ?_)
    · show _ = w * ((flowMixed s.q1 s.p1 s.q2 s.p2 t w).1 i - (flowMixed s.q1 s.p1 s.q2 s.p2 t w).2.2.1 i)
      simp only [flowMixed]; ring
    · simp only; try ring

theorem mix_zero (s : PS) : flowMixed s.q1 s.p1 s.q2 s.p2 0 w = s := by
  simp only [flowMixed, mul_zero, Real.cos_zero, Real.sin_zero]
  refine Prod.ext ?_ (Prod.ext ?_ (Prod.ext ?_ ?_)) <;> funext i <;> simp only [PS.q1, PS.p1, PS.q2, PS.p2] <;> ring

theorem mix_continuous : Continuous fun x : ℝ × PS => flowMixed x.2.q1 x.2.p1 x.2.q2 x.2.p2 x.1 w := by
  unfold flowMixed PS.q1 PS.p1 PS.q2 PS.p2
  fun_prop

theorem mix_sub (δ : ℝ) (s s' : PS) : flowMixed s.q1 s.p1 s.q2 s.p2 δ w - flowMixed s'.q1 s'.p1 s'.q2 s'.p2 δ w =
    flowMixed (s - s').q1 (s - s').p1 (s - s').q2 (s - s').p2 δ w := by
  have e : ∀ a b c d : ℝ, a - b + (c - d) = a + c - (b + d) := fun a b c d => by ring
  refine Prod.ext ?_ (Prod.ext ?_ (Prod.ext ?_ ?_)) <;> funext i <;>
    simp only [flowMixed, PS.q1, PS.p1, PS.q2, PS.p2, Prod.fst_sub, Prod.snd_sub, Pi.sub_apply] <;> ring

theorem mix_lip (δ : ℝ) (s s' : PS) : ‖flowMixed s.q1 s.p1 s.q2 s.p2 δ w - flowMixed s'.q1 s'.p1 s'.q2 s'.p2 δ w‖ ≤
    (1 + 4 * |w| * |δ|) * ‖s - s'‖ := by
  rw [mix_sub]
  generalize s - s' = d
  have hq1 : ∀ i, |d.q1 i| ≤ ‖d‖ := fun i => (norm_le_pi_norm d.1 i).trans (norm_fst_le d)
  have hp1 : ∀ i, |d.p1 i| ≤ ‖d‖ := fun i => (norm_le_pi_norm d.2.1 i).trans ((norm_fst_le d.2).trans (norm_snd_le d))
  have hq2 : ∀ i, |d.q2 i| ≤ ‖d‖ := fun i =>
    (norm_le_pi_norm d.2.2.1 i).trans ((norm_fst_le d.2.2).trans ((norm_snd_le d.2).trans (norm_snd_le d)))
  have hp2 : ∀ i, |d.p2 i| ≤ ‖d‖ := fun i =>
    (norm_le_pi_norm d.2.2.2 i).trans ((norm_snd_le d.2.2).trans ((norm_snd_le d.2).trans (norm_snd_le d)))
  have hn := norm_nonneg d
  generalize ‖d‖ = D at *
  have hs : |Real.sin (2 * w * δ)| ≤ 2 * (|w| * |δ|) := by
    have := Real.abs_sin_le_abs (x := 2 * w * δ)
    rw [abs_mul, abs_mul, abs_two] at this; linarith
  have hc : |Real.cos (2 * w * δ) - 1| ≤ 2 * (|w| * |δ|) := by
    have := Real.abs_cos_sub_cos_le (2 * w * δ) 0
    rw [Real.cos_zero, sub_zero, abs_mul, abs_mul, abs_two] at this; linarith
  rw [show 4 * |w| * |δ| = 4 * (|w| * |δ|) by ring]
  have hW : 0 ≤ |w| * |δ| := by positivity
  generalize |w| * |δ| = W at *
  have key : ∀ x y u v c' s' : ℝ, |x| ≤ D → |y| ≤ D → |u| ≤ D → |v| ≤ D → |c'| ≤ 2 * W → |s'| ≤ 2 * W →
      |x + 0.5 * (y * c') - 0.5 * (x * c') + 0.5 * (u * s') - 0.5 * (v * s')| ≤ (1 + 4 * W) * D := by
    intro x y u v c' s' h1 h2 h3 h4 h5 h6
    have p : ∀ a b : ℝ, |a| ≤ D → |b| ≤ 2 * W → |a * b| ≤ D * (2 * W) := fun a b ha hb => by
      rw [abs_mul]; exact mul_le_mul ha hb (abs_nonneg _) hn
    have k1 := abs_le.mp (p y c' h2 h5)
    have k2 := abs_le.mp (p x c' h1 h5)
    have k3 := abs_le.mp (p u s' h3 h6)
    have k4 := abs_le.mp (p v s' h4 h6)
    have k0 := abs_le.mp h1
    rw [abs_le]
    constructor <;> nlinarith [k1.1, k1.2, k2.1, k2.2, k3.1, k3.2, k4.1, k4.2, k0.1, k0.2]
  have hb : 0 ≤ (1 + 4 * W) * D := by positivity
  have hneg : ∀ x : ℝ, |x| ≤ 2 * W → |(-x)| ≤ 2 * W := fun x h => by rwa [abs_neg]
  refine norm_prod_le_iff.mpr ⟨?_, norm_prod_le_iff.mpr ⟨?_, norm_prod_le_iff.mpr ⟨?_, ?_⟩⟩⟩ <;>
    refine (pi_norm_le_iff_of_nonneg hb).mpr fun i => ?_ <;> rw [Real.norm_eq_abs]
  · refine (le_of_eq (congrArg abs ?_)).trans (key (d.q1 i) (d.q2 i) (d.p1 i) (d.p2 i) (-(Real.cos (2 * w * δ) - 1))
      (Real.sin (2 * w * δ)) (hq1 i) (hq2 i) (hp1 i) (hp2 i) (hneg _ hc) hs)
    simp only [flowMixed]; ring
  · refine (le_of_eq (congrArg abs ?_)).trans (key (d.p1 i) (d.p2 i) (d.q1 i) (d.q2 i) (-(Real.cos (2 * w * δ) - 1))
      (-Real.sin (2 * w * δ)) (hp1 i) (hp2 i) (hq1 i) (hq2 i) (hneg _ hc) (hneg _ hs))
    simp only [flowMixed]; ring
  · refine (le_of_eq (congrArg abs ?_)).trans (key (d.q2 i) (d.q1 i) (d.p1 i) (d.p2 i) (-(Real.cos (2 * w * δ) - 1))
      (-Real.sin (2 * w * δ)) (hq2 i) (hq1 i) (hp1 i) (hp2 i) (hneg _ hc) (hneg _ hs))
    simp only [flowMixed]; ring
  · refine (le_of_eq (congrArg abs ?_)).trans (key (d.p2 i) (d.p1 i) (d.q1 i) (d.q2 i) (-(Real.cos (2 * w * δ) - 1))
      (Real.sin (2 * w * δ)) (hp2 i) (hp1 i) (hq1 i) (hq2 i) (hneg _ hc) hs)
    simp only [flowMixed]; ring

/-- `_flow_mixed` -/
noncomputable def stepC : StepExp (goodSet g) (fun s δ => runSub g w (.M δ) s) (expSer 1 (lie (goodSet_open g) (fC g w))) where
  Φ := fun δ s => flowMixed s.q1 s.p1 s.q2 s.p2 δ w
  expands := expands_flow (goodSet_open g) (fC g w) _
    (fun s₀ h => by
      have h1 := (mix_continuous w).tendsto ((0 : ℝ), s₀)
      rw [nhds_prod_eq] at h1
      simpa only [mix_zero] using h1)
    (mix_zero w)
    fun s₀ _ => Filter.Eventually.of_forall fun x => mix_hasDerivAt w x.2 x.1
  lip := fun s₀ _ => ⟨4 * |w|, by positivity, Filter.Eventually.of_forall fun x => mix_lip w x.1 x.2.1 x.2.2⟩
  runs := fun s₀ h => Filter.Eventually.of_forall fun x => rfl

/-! ## the steps -/

/-- the series of the order-2 step -/
noncomputable def ser2 : ℕ → Module.End ℝ (SmoothFn (goodSet g)) :=
  let A := scaleSer 0.5 (expSer 1 (lie (goodSet_open g) (fA g)))
  let B := scaleSer 0.5 (expSer 1 (lie (goodSet_open g) (fB g)))
  let C := expSer 1 (lie (goodSet_open g) (fC g w))
  mulSer A (mulSer (mulSer B (mulSer C B)) A)

/-- the vector field of the whole doubled Hamiltonian -/
noncomputable def fX : SmoothFn (goodSet g) := fA g + fB g + fC g w

theorem StepExp.congr {U : Set PS} {st st' : PS → ℝ → Py PS} {P Q} (h : Nonempty (StepExp U st P)) (e : ∀ s δ, st s δ = st' s δ)
    (eP : P = Q) : Nonempty (StepExp U st' Q) := by
  have : st = st' := funext fun s => funext fun δ => e s δ
  rw [← this, ← eP]; exact h

theorem step2 (c : IntegCfg) (hs : ∀ i j (y : V4), (c.metric i j).den y = (c.metric j i).den y) :
    Nonempty (StepExp (goodSet c.metric) (ord2 c) (ser2 c.metric c.omega)) := by
  have A := (stepA c.metric c.omega hs).scale 0.5
  have B := (stepB c.metric c.omega hs).scale 0.5
  have C := stepC c.metric c.omega
  refine StepExp.congr ⟨A.comp ((B.comp (C.comp B)).comp A)⟩ (fun s δ => ?_) rfl
  rw [ord2_eq]
  simp only [subs2, runSubs, mul_comm (0.5 : ℝ)]
  cases runSub c.metric c.omega (.A (δ * 0.5)) s with
  | error e => rfl
  | ok s1 =>
    simp only [bind, Except.bind]
    cases runSub c.metric c.omega (.B (δ * 0.5)) s1 with
    | error e => rfl
    | ok s2 =>
      simp only
      cases runSub c.metric c.omega (.M δ) s2 with
      | error e => rfl
      | ok s3 =>
        simp only
        cases runSub c.metric c.omega (.B (δ * 0.5)) s3 with
        | error e => rfl
        | ok s4 =>
          simp only
          cases runSub c.metric c.omega (.A (δ * 0.5)) s4 with
          | error e => rfl
          | ok s5 => rfl

theorem ser2_symm : Symm (ser2 g w) := by
  unfold ser2
  simp only
  exact ((expSer_symm 1 _).scale _).sandwich (((expSer_symm 1 _).scale _).sandwich (expSer_symm 1 _))

theorem ser2_coeffs : ser2 g w 0 = 1 ∧ ser2 g w 1 = lie (goodSet_open g) (fX g w) ∧
    ser2 g w 2 = (1 / 2 : ℝ) • lie (goodSet_open g) (fX g w) ^ 2 := by
  have h0 : ser2 g w 0 = 1 := by simp [ser2, mulSer, scaleSer, expSer]
  have h1 : ser2 g w 1 = lie (goodSet_open g) (fX g w) := by
    rw [fX, lie_add, lie_add]
    simp only [ser2, mulSer, scaleSer, expSer, sum_range_succ, range_zero, sum_empty, zero_add, Nat.sub_self, Nat.sub_zero,
      pow_zero, pow_one, one_smul, Nat.factorial, Nat.cast_one, div_one, mul_one, one_mul]
    module
  refine ⟨h0, h1, ?_⟩
  rw [((ser2_symm g w).even h0).1, h1, pow_two]

theorem stepList (c : IntegCfg) (hs : ∀ i j (y : V4), (c.metric i j).den y = (c.metric j i).den y) (ws : List ℝ) :
    Nonempty (StepExp (goodSet c.metric) (fun s δ => runOrd2 c (ws.map (δ * ·)) s) (listSer (ser2 c.metric c.omega) ws)) := by
  induction ws with
  | nil =>
    exact ⟨⟨fun _ s => s, expands_id (goodSet_open _), locLip_id _, fun s₀ _ => Filter.Eventually.of_forall fun _ => rfl⟩⟩
  | cons u ws ih =>
    obtain ⟨h1⟩ := step2 c hs
    obtain ⟨h2⟩ := ih
    exact StepExp.congr ⟨(h1.scale u).comp h2⟩ (fun s δ => rfl) rfl

/-! ## one step against the exact solution -/

/-- the doubled curve that starts with two equal copies -/
noncomputable def twin (q p : ℝ → V4) (t : ℝ) : PS := (q t, p t, q t, p t)

theorem hamilton_grad {g : MetricFn} (hs : ∀ i j (y : V4), (g i j).den y = (g j i).den y) {q p : ℝ → V4} {t : ℝ}
    (hsm : ∀ i j, (g i j).Smooth (q t)) (h : HamiltonAt g q p t) :
    HasDerivAt q (gradP g (q t, p t)) t ∧ HasDerivAt p (-gradQ g (q t, p t)) t := by
  rw [hasDerivAt_pi, hasDerivAt_pi]
  refine ⟨fun i => ?_, fun i => ?_⟩
  · rw [gradP_eq g (q t) (p t) hsm hs i]
    exact h.dq i
  · have hJ : ∀ a b, HasDerivAt (slice g (q t) i a b) (deriv (fun x => (g a b).den (Function.update (q t) i x)) (q t i)) (q t i) := by
      intro a b
      have e : slice g (q t) i a b = fun x => (g a b).den (Function.update (q t) i x) := by
        funext x
        unfold slice
        congr 1
        funext k
        simp [Function.update_apply]
      rw [e]
      refine DifferentiableAt.hasDerivAt ?_
      have h1 : DifferentiableAt ℝ (g a b).den (Function.update (q t) i (q t i)) := by
        rw [Function.update_eq_self]
        exact (hsm a b).contDiffAt.differentiableAt (by norm_num)
      have h2 : DifferentiableAt ℝ (fun x => Function.update (q t) i x) (q t i) := by
        have e3 : (fun x => Function.update (q t) i x) = repl (q t) i := by
          funext x k; simp [repl, Function.update_apply]
        rw [e3]; exact (hasDerivAt_repl (q t) i).differentiableAt
      exact DifferentiableAt.comp (g := (g a b).den) (q t i) h1 h2
    have e := gradQ_eq g (q t) (p t) hsm i _ hJ
    have e2 : (-gradQ g (q t, p t)) i = -(1 / 2) * ∑ a, ∑ b,
        deriv (fun x => (g a b).den (Function.update (q t) i x)) (q t i) * p t a * p t b := by
      rw [Pi.neg_apply, e, dot4_matVec]; ring
    rw [e2]
    exact h.dp i

theorem twin_solves {g : MetricFn} (w : ℝ) (hs : ∀ i j (y : V4), (g i j).den y = (g j i).den y) {q p : ℝ → V4} {t : ℝ}
    (hsm : ∀ i j, (g i j).Smooth (q t)) (h : HamiltonAt g q p t) :
    HasDerivAt (twin q p) ((fX g w).1 (twin q p t)) t := by
  obtain ⟨h1, h2⟩ := hamilton_grad hs hsm h
  refine (h1.prodMk (h2.prodMk (h1.prodMk h2))).congr_deriv ?_
  show _ = vfA g (twin q p t) + vfB g (twin q p t) + vfC w (twin q p t)
  refine Prod.ext ?_ (Prod.ext ?_ (Prod.ext ?_ ?_))
  · show gradP g (q t, p t) = 0 + gradP g (q t, p t) + w • (p t - p t)
    simp
  · show -gradQ g (q t, p t) = -gradQ g (q t, p t) + 0 + -(w • (q t - q t))
    simp
  · show gradP g (q t, p t) = gradP g (q t, p t) + 0 + -(w • (p t - p t))
    simp
  · show -gradQ g (q t, p t) = 0 + -gradQ g (q t, p t) + w • (q t - q t)
    simp

theorem twin_solves_near {g : MetricFn} (w : ℝ) (hs : ∀ i j (y : V4), (g i j).den y = (g j i).den y) {q p : ℝ → V4} {t₀ : ℝ}
    (hsm : ∀ i j, (g i j).Smooth (q t₀)) (h : ∀ᶠ t in 𝓝 t₀, HamiltonAt g q p t) :
    ∀ᶠ t in 𝓝 t₀, HasDerivAt (twin q p) ((fX g w).1 (twin q p t)) t := by
  have hc : ContinuousAt q t₀ := (hamilton_grad hs hsm h.self_of_nhds).1.continuousAt
  have e1 : ∀ᶠ t in 𝓝 t₀, ∀ i j, (g i j).Smooth (q t) :=
    hc.eventually (Filter.eventually_all.mpr fun i => Filter.eventually_all.mpr fun j => (hsm i j).eventually)
  filter_upwards [e1, h] with t h1 h2 using twin_solves w hs h1 h2

/-- the identity as a smooth function -/
noncomputable def idFn (U : Set PS) : SmoothFn U := ⟨id, contDiff_id.contDiffOn⟩

theorem localError_of {U : Set PS} (hU : IsOpen U) (X : SmoothFn U) {st : PS → ℝ → Py PS} {P} (h : StepExp U st P) (n : ℕ)
    (hP : ∀ k < n, P k = expSer 1 (lie hU X) k) (y : ℝ → PS) (hy : y 0 ∈ U) (hd : ∀ᶠ t in 𝓝 (0 : ℝ), HasDerivAt y (X.1 (y t)) t) :
    ∃ C : ℝ, ∀ᶠ δ in 𝓝 (0 : ℝ), ∃ s, st (y 0) δ = .ok s ∧ ‖s - y δ‖ ≤ C * |δ| ^ n := by
  have h1 := expand_solution hU X y hy hd n (idFn U)
  have hq : Filter.Tendsto (fun t : ℝ => (t, y 0)) (𝓝 0) (𝓝 0 ×ˢ 𝓝 (y 0)) :=
    Filter.tendsto_id.prodMk tendsto_const_nhds
  have h2 := (h.expands.exp (y 0) hy (idFn U) n).comp_tendsto hq
  have h3 := h2.sub h1
  obtain ⟨C, hC⟩ := h3.bound
  refine ⟨C, ?_⟩
  filter_upwards [hC, hq.eventually (h.runs (y 0) hy)] with δ hδ hr
  refine ⟨_, hr, ?_⟩
  have e : ∑ k ∈ range n, δ ^ k • (P k (idFn U)).1 (y 0) = ∑ k ∈ range n, δ ^ k • (expSer 1 (lie hU X) k (idFn U)).1 (y 0) :=
    sum_congr rfl fun k hk => by rw [hP k (mem_range.mp hk)]
  simp only [Function.comp, idFn, id] at hδ e
  rw [e, sub_sub_sub_cancel_right, norm_pow, Real.norm_eq_abs] at hδ
  exact hδ

theorem orderStep_series (c : IntegCfg) (ho : Supported c.order)
    (hs : ∀ i j (y : V4), (c.metric i j).den y = (c.metric j i).den y) :
    Nonempty (StepExp (goodSet c.metric) (orderStep c) (listSer (ser2 c.metric c.omega) (usedWeights c.order))) :=
  StepExp.congr (stepList c hs _) (fun s δ => (orderStep_weights c ho s δ).symm) rfl

/-- the step of the given order agrees with the flow up to the given power of the step size -/
theorem orderStep_agrees (c : IntegCfg) (ho : Supported c.order) :
    ∀ k < 3, listSer (ser2 c.metric c.omega) (usedWeights c.order) k = expSer 1 (lie (goodSet_open c.metric) (fX c.metric c.omega)) k := by
  obtain ⟨h0, h1, h2⟩ := ser2_coeffs c.metric c.omega
  obtain ⟨k0, k1, k2, -⟩ := listSer_coeffs h0 h1 h2 (usedWeights c.order)
  rw [usedWeights_sum c ho] at k1 k2
  intro k hk
  interval_cases k
  · rw [k0]; simp [expSer]
  · rw [k1]; simp [expSer]
  · rw [k2]; simp [expSer]

theorem orderStep_agrees4 (c : IntegCfg) (ho : c.order = 4) :
    ∀ k < 5, listSer (ser2 c.metric c.omega) (usedWeights c.order) k = expSer 1 (lie (goodSet_open c.metric) (fX c.metric c.omega)) k := by
  obtain ⟨h0, h1, h2⟩ := ser2_coeffs c.metric c.omega
  obtain ⟨k0, k1, k2, k3⟩ := listSer_coeffs h0 h1 h2 (usedWeights c.order)
  have hu : usedWeights c.order = [(yoshidaZ 4).2, (yoshidaZ 4).1, (yoshidaZ 4).2] := by simp [usedWeights, ho]
  have hc : ((usedWeights c.order).map (· ^ 3)).sum = 0 := by
    obtain ⟨x, hx, -, -, h3⟩ := yoshida_sums 4 3 3 (by norm_num) (by norm_num) (by decide)
    rw [hu, h3, hx, sub_self, zero_div]
  rw [usedWeights_sum c (by unfold Supported; omega)] at k1 k2 k3
  rw [hc] at k3
  have hsy : Symm (listSer (ser2 c.metric c.omega) (usedWeights c.order)) := by
    rw [hu]; exact listSer_symm_triple (ser2_symm _ _) _ _
  refine hsy.order4 k0 (by rw [k1, one_smul]) ?_
  rw [k3]; simp

/-- **C104** (orders 2, 6, 8 — and 4).  Let `q`, `p` solve Hamilton's equations of the metric near `t = 0`, starting where
the metric is smooth.  One step of size `δ` from `(q(0), p(0))`, both copies equal, succeeds for small `δ` and differs from
`(q(δ), p(δ))`, in both copies, by at most `C |δ|³`. -/
theorem C104_second_order (c : IntegCfg) (ho : c.order = 2 ∨ c.order = 4 ∨ c.order = 6 ∨ c.order = 8)
    (hs : ∀ i j (y : V4), (c.metric i j).den y = (c.metric j i).den y) (q p : ℝ → V4)
    (hsm : ∀ i j, (c.metric i j).Smooth (q 0)) (h : ∀ᶠ t in 𝓝 (0 : ℝ), HamiltonAt c.metric q p t) :
    ∃ C : ℝ, ∀ᶠ δ in 𝓝 (0 : ℝ), ∃ s, orderStep c (q 0, p 0, q 0, p 0) δ = .ok s ∧
      ‖s - (q δ, p δ, q δ, p δ)‖ ≤ C * |δ| ^ 3 := by
  obtain ⟨st⟩ := orderStep_series c ho hs
  exact localError_of _ _ st 3 (orderStep_agrees c ho) (twin q p) ⟨hsm, hsm⟩ (twin_solves_near c.omega hs hsm h)

/-- **C104** (order 4).  With `order = 4` the error of one step is at most `C |δ|⁵`. -/
theorem C104_fourth_order (c : IntegCfg) (ho : c.order = 4)
    (hs : ∀ i j (y : V4), (c.metric i j).den y = (c.metric j i).den y) (q p : ℝ → V4)
    (hsm : ∀ i j, (c.metric i j).Smooth (q 0)) (h : ∀ᶠ t in 𝓝 (0 : ℝ), HamiltonAt c.metric q p t) :
    ∃ C : ℝ, ∀ᶠ δ in 𝓝 (0 : ℝ), ∃ s, orderStep c (q 0, p 0, q 0, p 0) δ = .ok s ∧
      ‖s - (q δ, p δ, q δ, p δ)‖ ≤ C * |δ| ^ 5 := by
  obtain ⟨st⟩ := orderStep_series c (by unfold Supported; omega) hs
  exact localError_of _ _ st 5 (orderStep_agrees4 c ho) (twin q p) ⟨hsm, hsm⟩ (twin_solves_near c.omega hs hsm h)


/-! ## the whole trajectory -/

theorem iterPy_of_iterate {α : Type*} (f : α → Py α) (F : α → α) (a : α) (k : ℕ) (h : ∀ j < k, f (F^[j] a) = .ok (F^[j] a |> F)) :
    iterPy f k a = .ok (F^[k] a) := by
  induction k with
  | zero => rfl
  | succ k ih =>
    simp only [iterPy, ih fun j hj => h j (by omega), bind, Except.bind]
    rw [h k (by omega), Function.iterate_succ_apply']

/-- A fresh integrator takes `N` steps when the step map is defined along the way and ends where the metric can be
evaluated. -/
theorem runN_iterate (N : ℕ) (I : Integ) (F : PS → PS)
    (h : ∀ j < N, orderStep I.cfg (F^[j] I.resList) I.delta = .ok (F^[j + 1] I.resList) ∧
      ∃ G, evalMetric I.cfg.metric (F^[j + 1] I.resList).q1 = .ok G) : ∃ I', I.runN N = .ok I' := by
  induction N generalizing I with
  | zero => exact ⟨I, rfl⟩
  | succ N ih =>
    obtain ⟨h1, G, h2⟩ := h 0 (by omega)
    simp only [Function.iterate_zero, id, zero_add, Function.iterate_one] at h1 h2
    have hst : ∃ I1, I.step = .ok I1 ∧ I1.cfg = I.cfg ∧ I1.delta = I.delta ∧ I1.resList = F I.resList := by
      unfold Integ.step
      simp only [h1, bind, Except.bind, pure, Except.pure]
      by_cases hw : I.suppressWarnings
      · rw [if_pos hw]; exact ⟨_, rfl, rfl, rfl, rfl⟩
      · rw [if_neg hw]
        simp only [h2]
        split_ifs <;> exact ⟨_, rfl, rfl, rfl, rfl⟩
    obtain ⟨I1, e1, e2, e3, e4⟩ := hst
    simp only [Integ.runN, e1, bind, Except.bind]
    refine ih I1 fun j hj => ?_
    rw [e2, e3, e4]
    simpa only [← Function.iterate_succ_apply] using h (j + 1) (by omega)

/-- The row of the trajectory that shows position `x` and momentum `u`. -/
noncomputable def rowOf (coords : String) (x u : V4) : List ℝ :=
  if coords = "Cartesian" then
    [x 0, x 1 * Real.sin (x 2) * Real.cos (x 3), x 1 * Real.sin (x 2) * Real.sin (x 3), x 1 * Real.cos (x 2), u 0, u 1, u 2, u 3]
  else [x 0, x 1, x 2, x 3, u 0, u 1, u 2, u 3]

theorem trajectory_of (c : IntegCfg) (ho : Supported c.order)
    (hs : ∀ i j (y : V4), (c.metric i j).den y = (c.metric j i).den y) (m : ℕ) (hm : 0 < m)
    (hP : ∀ k < m + 1, listSer (ser2 c.metric c.omega) (usedWeights c.order) k =
      expSer 1 (lie (goodSet_open c.metric) (fX c.metric c.omega)) k)
    (q p : ℝ → V4) (a b : ℝ) (ha : a ≤ 0) (hb : 0 ≤ b)
    (hsm : ∀ t ∈ Set.Icc a b, ∀ i j, (c.metric i j).Smooth (q t))
    (h : ∀ t ∈ Set.Icc a b, ∀ᶠ u in 𝓝 t, HamiltonAt c.metric q p u) :
    ∃ K δ₀ : ℝ, 0 < δ₀ ∧ ∀ (tl : Bool) (coords : String) (kw : GeoKw), kw.omega = c.omega → kw.order = c.order →
      0 < kw.steps → |kw.delta| < δ₀ → kw.steps * kw.delta ∈ Set.Icc a b →
      ∃ st rows, calculateTrajectory c.metric (q 0) (p 0) tl coords kw = .ok (st, rows) ∧
        ∀ k : ℕ, (k : ℤ) < kw.steps → ∃ x u : V4, rows[k]? = some (rowOf coords x u) ∧
          ∀ i, |x i - q ((k + 1) * kw.delta) i| ≤ K * |kw.delta| ^ m ∧ |u i - p ((k + 1) * kw.delta) i| ≤ K * |kw.delta| ^ m := by
  obtain ⟨S⟩ := orderStep_series c ho hs
  let Good : ℝ → PS → Prop := fun δ s => orderStep c s δ = .ok (S.Φ δ s) ∧ S.Φ δ s ∈ goodSet c.metric
  have hG : ∀ s₀ ∈ goodSet c.metric, ∀ᶠ x in 𝓝 (0 : ℝ) ×ˢ 𝓝 s₀, Good x.1 x.2 := fun s₀ h0 =>
    (S.runs s₀ h0).and ((S.expands.near s₀ h0).eventually ((goodSet_open c.metric).mem_nhds h0))
  have h1 : OneStep Good S.Φ (twin q p) (m + 1) (Set.Icc a b) :=
    oneStep_compact isCompact_Icc fun t ht =>
      oneStep_near (goodSet_open c.metric) (fX c.metric c.omega) S.expands S.lip hG (m + 1) hP (twin q p) t
        ⟨hsm t ht, hsm t ht⟩ (twin_solves_near c.omega hs (hsm t ht) (h t ht))
  obtain ⟨K, δ₀, hδ₀, hK⟩ := converges ha hb hm h1
  refine ⟨K, δ₀, hδ₀, ?_⟩
  intro tl coords kw hw hor hN hδ hin
  have hc : (⟨c.metric, kw.omega, kw.order⟩ : IntegCfg) = c := by rw [hw, hor]
  obtain ⟨N, hN'⟩ : ∃ N : ℕ, kw.steps = N := ⟨kw.steps.toNat, by omega⟩
  have hNr : (kw.steps : ℝ) = N := by rw [hN']; norm_cast
  have hall : ∀ k ≤ N, (k : ℝ) * kw.delta ∈ Set.Icc a b := by
    intro k hk
    have hk' : (k : ℝ) ≤ N := by exact_mod_cast hk
    rw [hNr] at hin
    rcases le_total 0 kw.delta with hp | hp
    · have e1 : (k : ℝ) * kw.delta ≤ N * kw.delta := by gcongr
      have e0 : 0 ≤ (k : ℝ) * kw.delta := by positivity
      exact ⟨by linarith, e1.trans hin.2⟩
    · have e1 : (N : ℝ) * kw.delta ≤ k * kw.delta := mul_le_mul_of_nonpos_right hk' hp
      have e0 : (k : ℝ) * kw.delta ≤ 0 := mul_nonpos_of_nonneg_of_nonpos (by positivity) hp
      exact ⟨hin.1.trans e1, by linarith⟩
  have hgood := (hK kw.delta hδ N (hall N le_rfl)).2
  have hI0 : Integ.new ⟨c.metric, kw.omega, kw.order⟩ (q 0) (p 0) tl kw.delta kw.rtol kw.atol kw.suppressWarnings =
      .ok ⟨c, kw.delta, tl, kw.rtol, kw.atol, kw.suppressWarnings, 0, (q 0, p 0, q 0, p 0), [], []⟩ := by
    rw [hc]
    unfold Integ.new
    exact if_neg (by rcases ho with e | e | e | e <;> rw [e] <;> decide)
  obtain ⟨I, hI⟩ := runN_iterate N ⟨c, kw.delta, tl, kw.rtol, kw.atol, kw.suppressWarnings, 0, (q 0, p 0, q 0, p 0), [], []⟩
    (S.Φ kw.delta) (fun j hj => by
      obtain ⟨g1, g2⟩ := hgood j hj
      rw [Function.iterate_succ_apply']
      exact ⟨g1, _, evalMetric_regular fun i j => (g2.1 i j).regular⟩)
  obtain ⟨r1, r2, r3⟩ := C34_rows _ _ _ _ _ _ _ _ N _ I hI0 hI
  have hne : I.results ≠ [] := by
    intro he
    rw [he] at r1
    simp only [List.length_nil] at r1
    omega
  have htr : calculateTrajectory c.metric (q 0) (p 0) tl coords kw =
      .ok (List.range N, I.results.map fun s => rowOf coords s.q1 s.p1) := by
    have e : kw.steps.toNat = N := by omega
    unfold calculateTrajectory
    simp only [hI0, bind, Except.bind, e, hI, if_neg hne]
    by_cases hcart : coords = "Cartesian"
    · simp only [hcart, if_true, rowOf]; rfl
    · simp only [hcart, if_false, rowOf]; rfl
  refine ⟨_, _, htr, ?_⟩
  intro k hk
  have hk' : k < N := by omega
  obtain ⟨s, s1, s2⟩ := r3 k hk'
  rw [hc] at s2
  have s3 := iterPy_of_iterate (fun s => orderStep c s kw.delta) (S.Φ kw.delta) (q 0, p 0, q 0, p 0) (k + 1)
    (fun j hj => (hgood j (by omega)).1)
  have hse : s = (S.Φ kw.delta)^[k + 1] (q 0, p 0, q 0, p 0) := Except.ok.inj (s2.symm.trans s3)
  refine ⟨s.q1, s.p1, by rw [List.getElem?_map, s1]; rfl, ?_⟩
  have hb' := (hK kw.delta hδ (k + 1) (hall (k + 1) (by omega))).1
  rw [show (S.Φ kw.delta)^[k + 1] (twin q p 0) = s from hse.symm] at hb'
  push_cast at hb'
  intro i
  exact ⟨((norm_le_pi_norm _ i).trans (norm_fst_le _)).trans hb',
    ((norm_le_pi_norm _ i).trans ((norm_fst_le _).trans (norm_snd_le _))).trans hb'⟩

/-- **C105** (all orders).  Let `q`, `p` solve Hamilton's equations of the metric near every parameter in `[a, b] ∋ 0`,
where the metric is smooth along `q`.  There are `K` and `δ₀ > 0` such that every trajectory computed from `(q(0), p(0))` with
`|delta| < δ₀` and `steps * delta` in `[a, b]` is returned without an error, and its row number `k` shows a position and a
momentum that differ from `q((k+1)·delta)` and `p((k+1)·delta)` by at most `K·delta²` in every component. -/
theorem C105_converges (c : IntegCfg) (ho : c.order = 2 ∨ c.order = 4 ∨ c.order = 6 ∨ c.order = 8)
    (hs : ∀ i j (y : V4), (c.metric i j).den y = (c.metric j i).den y)
    (q p : ℝ → V4) (a b : ℝ) (ha : a ≤ 0) (hb : 0 ≤ b)
    (hsm : ∀ t ∈ Set.Icc a b, ∀ i j, (c.metric i j).Smooth (q t))
    (h : ∀ t ∈ Set.Icc a b, ∀ᶠ u in 𝓝 t, HamiltonAt c.metric q p u) :
    ∃ K δ₀ : ℝ, 0 < δ₀ ∧ ∀ (tl : Bool) (coords : String) (kw : GeoKw), kw.omega = c.omega → kw.order = c.order →
      0 < kw.steps → |kw.delta| < δ₀ → kw.steps * kw.delta ∈ Set.Icc a b →
      ∃ st rows, calculateTrajectory c.metric (q 0) (p 0) tl coords kw = .ok (st, rows) ∧
        ∀ k : ℕ, (k : ℤ) < kw.steps → ∃ x u : V4, rows[k]? = some (rowOf coords x u) ∧
          ∀ i, |x i - q ((k + 1) * kw.delta) i| ≤ K * |kw.delta| ^ 2 ∧ |u i - p ((k + 1) * kw.delta) i| ≤ K * |kw.delta| ^ 2 :=
  trajectory_of c ho hs 2 (by norm_num) (orderStep_agrees c ho) q p a b ha hb hsm h

/-- **C105** (order 4).  With `order = 4` the bound is `K·delta⁴`. -/
theorem C105_converges_order4 (c : IntegCfg) (ho : c.order = 4)
    (hs : ∀ i j (y : V4), (c.metric i j).den y = (c.metric j i).den y)
    (q p : ℝ → V4) (a b : ℝ) (ha : a ≤ 0) (hb : 0 ≤ b)
    (hsm : ∀ t ∈ Set.Icc a b, ∀ i j, (c.metric i j).Smooth (q t))
    (h : ∀ t ∈ Set.Icc a b, ∀ᶠ u in 𝓝 t, HamiltonAt c.metric q p u) :
    ∃ K δ₀ : ℝ, 0 < δ₀ ∧ ∀ (tl : Bool) (coords : String) (kw : GeoKw), kw.omega = c.omega → kw.order = c.order →
      0 < kw.steps → |kw.delta| < δ₀ → kw.steps * kw.delta ∈ Set.Icc a b →
      ∃ st rows, calculateTrajectory c.metric (q 0) (p 0) tl coords kw = .ok (st, rows) ∧
        ∀ k : ℕ, (k : ℤ) < kw.steps → ∃ x u : V4, rows[k]? = some (rowOf coords x u) ∧
          ∀ i, |x i - q ((k + 1) * kw.delta) i| ≤ K * |kw.delta| ^ 4 ∧ |u i - p ((k + 1) * kw.delta) i| ≤ K * |kw.delta| ^ 4 :=
  trajectory_of c (by unfold Supported; omega) hs 4 (by norm_num) (orderStep_agrees4 c ho) q p a b ha hb hsm h

end Einpy
