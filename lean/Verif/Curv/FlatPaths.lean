import Verif.Curv.Transport
import Mathlib.Analysis.ODE.Gronwall

/-!
# C144: where the Riemann tensor vanishes, parallel transport does not depend on the path
-/

namespace Einpy.Fn
open scoped Topology ContDiff

/-- a linear homogeneous system with zero initial value has only the zero solution -/
theorem linear_unique {ι : Type*} [Fintype ι] (M : ι → ι → ℝ → ℝ) (hM : ∀ i k, ContinuousOn (M i k) (Set.Icc 0 1)) (Y : ℝ → ι → ℝ)
    (hY : ∀ t ∈ Set.Icc (0 : ℝ) 1, ∀ i, HasDerivAt (fun t => Y t i) (∑ k, M i k t * Y t k) t) (h0 : Y 0 = 0) : Y 1 = 0 := by
  have hc : ContinuousOn (fun t => ∑ i, ∑ k, |M i k t|) (Set.Icc 0 1) :=
    continuousOn_finsetSum _ fun i _ => continuousOn_finsetSum _ fun k _ => (hM i k).abs
  obtain ⟨K, hK⟩ := isCompact_Icc.exists_bound_of_continuousOn hc
  have hd : ∀ t ∈ Set.Icc (0 : ℝ) 1, HasDerivAt Y (fun i => ∑ k, M i k t * Y t k) t := fun t ht => hasDerivAt_pi.mpr (hY t ht)
  have := norm_le_gronwallBound_of_norm_deriv_right_le (f := Y) (f' := fun t i => ∑ k, M i k t * Y t k) (δ := 0) (K := K) (ε := 0) (a := 0) (b := 1)
    (fun t ht => (hd t ht).continuousAt.continuousWithinAt) (fun t ht => (hd t ⟨ht.1, ht.2.le⟩).hasDerivWithinAt) (by simp [h0]) (fun t ht => by
      have hb := hK t ⟨ht.1, ht.2.le⟩
      have hpos : 0 ≤ ∑ i, ∑ k, |M i k t| := Finset.sum_nonneg fun i _ => Finset.sum_nonneg fun k _ => abs_nonneg _
      rw [Real.norm_of_nonneg hpos] at hb
      rw [add_zero, pi_norm_le_iff_of_nonneg (mul_nonneg (hpos.trans hb) (norm_nonneg _))]
      intro i
      calc ‖∑ k, M i k t * Y t k‖ ≤ ∑ k, ‖M i k t * Y t k‖ := norm_sum_le _ _
        _ ≤ ∑ k, |M i k t| * ‖Y t‖ := Finset.sum_le_sum fun k _ => by
            rw [norm_mul]
            exact mul_le_mul_of_nonneg_left (norm_le_pi_norm _ k) (norm_nonneg _)
        _ = (∑ k, |M i k t|) * ‖Y t‖ := by rw [Finset.sum_mul]
        _ ≤ (∑ i, ∑ k, |M i k t|) * ‖Y t‖ := by
            refine mul_le_mul_of_nonneg_right ?_ (norm_nonneg _)
            exact Finset.single_le_sum (f := fun i => ∑ k, |M i k t|) (fun i _ => Finset.sum_nonneg fun k _ => abs_nonneg _) (Finset.mem_univ i)
        _ ≤ K * ‖Y t‖ := by gcongr) 1 (by simp)
  rw [gronwallBound_ε0] at this
  simpa using this

variable {n : ℕ} {U : TopologicalSpace.Opens (Fin n → ℝ)} {W : TopologicalSpace.Opens (Fin 2 → ℝ)} {q : (Fin 2 → ℝ) → Fin n → ℝ}

theorem pd_line {F : (Fin 2 → ℝ) → ℝ} (a : Fin 2) {z : Fin 2 → ℝ} (h : DifferentiableAt ℝ F z) : HasDerivAt (fun s => F (Function.update z a s)) (pd F a z) (z a) := by
  have h1 : HasDerivAt (fun s => Function.update z a s) (Pi.single a 1) (z a) := hasDerivAt_update z a (z a)
  have h2 : HasFDerivAt F (fderiv ℝ F z) (Function.update z a (z a)) := by rw [Function.update_eq_self]; exact h.hasFDerivAt
  exact (h2.comp_hasDerivAt (z a) h1).differentiableAt.hasDerivAt

/-- **C144.**  `q(t, s)` is a smooth family of curves (one for every `s ∈ J`) with fixed end points `q(0, s) = A`, `q(1, s) = B`, in a region where all components
of `RiemannCurvatureTensor.from_metric(m)` vanish; `V(t, s)` is a smooth field that is parallel along each of them for `ChristoffelSymbols.from_metric(m)` and
starts with the same vector for all.  Then the vector transported to `B` is the same for all curves of the family. -/
theorem C144_path_independent (m : MetricV (SmoothFn U)) (G : Fin n → Fin n → (Fin n → ℝ) → ℝ) (h : Describes m G)
    (hq : ∀ i, ContDiffOn ℝ ∞ (fun z => q z i) W) (hU : ∀ z ∈ W, q z ∈ U) (V : Fin n → (Fin 2 → ℝ) → ℝ) (hV : ∀ i, ContDiffOn ℝ ∞ (V i) W)
    (J : Set ℝ) (hJ : IsOpen J) (hJc : IsPreconnected J) (hW : ∀ t ∈ Set.Icc (0 : ℝ) 1, ∀ s ∈ J, ![t, s] ∈ W)
    (A B v : Fin n → ℝ) (hA : ∀ s ∈ J, q ![0, s] = A) (hB : ∀ s ∈ J, q ![1, s] = B) (hv : ∀ s ∈ J, ∀ i, V i ![0, s] = v i) :
    Returns (christoffelFromMetric (diffD U m.syms) m) fun c => Returns (riemannFromMetric (diffD U m.syms) m) fun r =>
      (∀ i j k l : Fin n, ∀ y ∈ U, value r [(i : ℕ), j, k, l] y = 0) → (∀ z ∈ W, ∀ i, covDeriv (symbols c) q 0 V i z = 0) →
      ∀ s ∈ J, ∀ s' ∈ J, ∀ i, V i ![1, s] = V i ![1, s'] := by
  obtain ⟨c, e, r, e', hcom⟩ := C141_commutator m G h hq hU V hV
  refine ⟨c, e, r, e', fun hR hpar => ?_⟩
  -- smoothness of the pieces
  obtain ⟨c', ec, hΓ⟩ := (C139_functions m G h).1
  have : c = c' := by rw [e] at ec; exact Except.ok.inj ec
  subst this
  have hsym : ∀ i j k, ContDiffOn ℝ ∞ (fun z => symbols c i j k (q z)) W := fun i j k =>
    ContDiffOn.comp (t := (U : Set (Fin n → ℝ))) (g := symbols c i j k) (f := q) (c.arr.get [(i : ℕ), j, k]).2 (contDiffOn_pi.mpr hq) hU
  have hpd : ∀ (F : (Fin 2 → ℝ) → ℝ), ContDiffOn ℝ ∞ F W → ∀ a, ContDiffOn ℝ ∞ (pd F a) W := fun F hF a => by
    have h1 : ContDiffOn ℝ ∞ (fderiv ℝ F) W := ContDiffOn.fderiv_of_isOpen hF W.isOpen (by simp)
    refine (h1.clm_apply (contDiffOn_const (c := (Pi.single a 1 : Fin 2 → ℝ)))).congr fun z hz => ?_
    exact pd_fderiv ((hF.contDiffAt (W.isOpen.mem_nhds hz)).differentiableAt (by simp)) a
  have hcov : ∀ a i, ContDiffOn ℝ ∞ (covDeriv (symbols c) q a V i) W := fun a i =>
    (hpd _ (hV i) a).add (ContDiffOn.sum fun j _ => ContDiffOn.sum fun k _ => ((hsym i j k).mul (hpd _ (hq j) a)).mul (hV k))
  have hdiff : ∀ (F : (Fin 2 → ℝ) → ℝ), ContDiffOn ℝ ∞ F W → ∀ z ∈ W, DifferentiableAt ℝ F z := fun F hF z hz =>
    (hF.contDiffAt (W.isOpen.mem_nhds hz)).differentiableAt (by simp)
  have up0 : ∀ t s u : ℝ, Function.update (![t, s] : Fin 2 → ℝ) 0 u = ![u, s] := fun t s u => by ext i; fin_cases i <;> simp
  have up1 : ∀ t s u : ℝ, Function.update (![t, s] : Fin 2 → ℝ) 1 u = ![t, u] := fun t s u => by ext i; fin_cases i <;> simp
  -- derivatives along a side where the function is constant
  have hside : ∀ (F : (Fin 2 → ℝ) → ℝ) (t x : ℝ), (∀ s ∈ J, F ![t, s] = x) → ∀ s ∈ J, pd F 1 ![t, s] = 0 := fun F t x hF s hs => by
    unfold pd
    have : (fun u => F (Function.update ![t, s] 1 u)) =ᶠ[𝓝 ((![t, s] : Fin 2 → ℝ) 1)] fun _ => x := by
      filter_upwards [hJ.mem_nhds (show ((![t, s] : Fin 2 → ℝ) 1) ∈ J from hs)] with u hu
      rw [up1]
      exact hF u hu
    rw [this.deriv_eq, deriv_const]
  have hend : ∀ s ∈ J, ∀ i, pd (V i) 1 ![1, s] = 0 := by
    intro s hs i
    have key := linear_unique (fun i k t => -∑ j, symbols c i j k (q ![t, s]) * pd (fun z => q z j) 0 ![t, s])
      (fun i k => by
        have hc : Continuous fun t : ℝ => (![t, s] : Fin 2 → ℝ) := by
          refine continuous_pi fun a => ?_
          fin_cases a
          · exact continuous_id
          · exact continuous_const
        refine ContinuousOn.neg (continuousOn_finsetSum _ fun j _ => ?_)
        exact ContinuousOn.comp (g := fun z => symbols c i j k (q z) * pd (fun z => q z j) 0 z) (t := W)
          ((hsym i j k).mul (hpd _ (hq j) 0)).continuousOn hc.continuousOn fun t ht => hW t ht s hs)
      (fun t i => covDeriv (symbols c) q 1 V i ![t, s]) (fun t ht i => by
        have hz := hW t ht s hs
        have h1 := pd_line 0 (hdiff _ (hcov 1 i) ![t, s] hz)
        simp only [up0] at h1
        refine h1.congr_deriv ?_
        have h2 := hcom ![t, s] hz i
        have h3 : covDeriv (symbols c) q 1 (covDeriv (symbols c) q 0 V) i ![t, s] = 0 := by
          unfold covDeriv
          have z1 : pd (fun z => covDeriv (symbols c) q 0 V i z) 1 ![t, s] = 0 := by
            rw [pd_congr (G := fun _ => 0) (by filter_upwards [W.isOpen.mem_nhds hz] with z hz using hpar z hz i)]
            simp [pd]
          have z2 : ∀ k, covDeriv (symbols c) q 0 V k ![t, s] = 0 := hpar _ hz
          unfold covDeriv at z1 z2
          rw [z1]
          simp [z2]
        rw [h3, sub_zero] at h2
        have h4 : covDeriv (symbols c) q 0 (covDeriv (symbols c) q 1 V) i ![t, s] = 0 := by
          rw [h2]
          simp [hR _ _ _ _ _ (hU _ hz)]
        have h5 : pd (covDeriv (symbols c) q 1 V i) 0 ![t, s] =
            -∑ j, ∑ k, symbols c i j k (q ![t, s]) * pd (fun z => q z j) 0 ![t, s] * covDeriv (symbols c) q 1 V k ![t, s] := eq_neg_of_add_eq_zero_left h4
        rw [h5, Finset.sum_comm, ← Finset.sum_neg_distrib]
        exact Finset.sum_congr rfl fun k _ => by rw [neg_mul, Finset.sum_mul])
      (by
        funext i
        show covDeriv (symbols c) q 1 V i ![0, s] = 0
        unfold covDeriv
        rw [hside (V i) 0 (v i) (fun s hs => hv s hs i) s hs]
        have : ∀ j, pd (fun z => q z j) 1 ![0, s] = 0 := fun j => hside _ 0 (A j) (fun s hs => congrFun (hA s hs) j) s hs
        simp [this])
    have key : covDeriv (symbols c) q 1 V i ![1, s] = 0 := congrFun key i
    unfold covDeriv at key
    have : ∀ j, pd (fun z => q z j) 1 ![1, s] = 0 := fun j => hside _ 1 (B j) (fun s hs => congrFun (hB s hs) j) s hs
    simpa [this] using key
  intro s hs s' hs' i
  refine const_on (f := fun s => V i ![1, s]) hJ hJc (fun s hs => ?_) hs hs'
  have h1 := pd_line 1 (hdiff _ (hV i) ![1, s] (hW 1 (by simp) s hs))
  simp only [up1, hend s hs i] at h1
  exact h1

/-! ## the hypotheses are met: the plane in polar coordinates -/

/-- the plane without its origin -/
def polOpen : TopologicalSpace.Opens (Fin 2 → ℝ) := ⟨{x | x 0 ≠ 0}, isOpen_ne_fun (by fun_prop) (by fun_prop)⟩

/-- `dr² + r² dφ²` -/
noncomputable def polG (i j : Fin 2) (x : Fin 2 → ℝ) : ℝ := !![1, 0; 0, x 0 ^ 2] i j

theorem polG_smooth (i j : Fin 2) : ContDiffOn ℝ ∞ (polG i j) polOpen := by
  unfold polG
  fin_cases i <;> fin_cases j <;> simp <;> fun_prop

/-- the metric object -/
noncomputable def polMetric : MetricV (SmoothFn polOpen) :=
  ⟨NDArr.ofMatrix (Matrix.of fun i j => ofFn (polG i j) (polG_smooth i j)), ['l', 'l'], ["r", "phi"], none⟩

theorem polMetric_describes : Describes polMetric polG := by
  refine describes_of _ _ ?_ ?_ _ rfl (by decide)
  · intro i j x _
    fin_cases i <;> fin_cases j <;> rfl
  · intro x hx
    have hx : x 0 ≠ 0 := hx
    simp [Matrix.det_fin_two, polG, hx]

/-- the symbols -/
noncomputable def polΓ (i j k : Fin 2) (r : ℝ) : ℝ := if i = 0 then (if j = 1 ∧ k = 1 then -r else 0) else if j ≠ k then r⁻¹ else 0

theorem pol_christoffel (i j k : Fin 2) (x : Fin 2 → ℝ) (hx : x 0 ≠ 0) : christoffel polG i j k x = polΓ i j k (x 0) := by
  have hp1 : pd (polG 1 1) 0 x = 2 * x 0 := by simp [pd, polG]
  have hp0 : ∀ i j k, (i, j, k) ≠ (1, 1, 0) → pd (polG i j) k x = 0 := fun i j k hk => by
    unfold pd polG
    fin_cases i <;> fin_cases j <;> fin_cases k <;> simp at hk ⊢
  have hinv : (Matrix.of fun a b => polG a b x)⁻¹ = !![1, 0; 0, (x 0 ^ 2)⁻¹] := by
    refine Matrix.inv_eq_right_inv ?_
    ext a b
    fin_cases a <;> fin_cases b <;> simp [Matrix.mul_apply, polG, hx]
  unfold christoffel
  rw [hinv, Fin.sum_univ_two]
  have q0 := hp0 0 0 0 (by decide)
  have q1 := hp0 0 0 1 (by decide)
  have q2 := hp0 0 1 0 (by decide)
  have q3 := hp0 0 1 1 (by decide)
  have q4 := hp0 1 0 0 (by decide)
  have q5 := hp0 1 0 1 (by decide)
  have q6 := hp0 1 1 1 (by decide)
  fin_cases i <;> fin_cases j <;> fin_cases k <;> simp [q0, q1, q2, q3, q4, q5, q6, hp1, polΓ] <;> field_simp

theorem pol_riemann (t s r k : Fin 2) (x : Fin 2 → ℝ) (hx : x 0 ≠ 0) : riemann polG t s r k x = 0 := by
  have hd : ∀ i j k l, pd (christoffel polG i j k) l x = pd (fun x => polΓ i j k (x 0)) l x := fun i j k l =>
    pd_congr (by
      have : {x : Fin 2 → ℝ | x 0 ≠ 0} ∈ 𝓝 x := polOpen.isOpen.mem_nhds hx
      filter_upwards [this] with y hy using pol_christoffel i j k y hy) l
  have h1 : ∀ i j k, pd (fun x => polΓ i j k (x 0)) 1 x = 0 := fun i j k => by simp [pd]
  have h0 : ∀ i j k, pd (fun x => polΓ i j k (x 0)) 0 x = if i = 0 then (if j = 1 ∧ k = 1 then -1 else 0) else if j ≠ k then -(x 0 ^ 2)⁻¹ else 0 := fun i j k => by
    have e : pd (fun x => polΓ i j k (x 0)) 0 x = deriv (fun s => polΓ i j k s) (x 0) := by simp [pd]
    rw [e]
    unfold polΓ
    split_ifs <;> simp
  have hd' : ∀ i j k l, pd (christoffel polG i j k) l x =
      if l = 0 then (if i = 0 then (if j = 1 ∧ k = 1 then -1 else 0) else if j ≠ k then -(x 0 ^ 2)⁻¹ else 0) else 0 := fun i j k l => by
    rw [hd]
    fin_cases l
    · exact h0 i j k
    · exact h1 i j k
  unfold riemann
  simp only [hd', pol_christoffel _ _ _ x hx, Fin.sum_univ_two]
  fin_cases t <;> fin_cases s <;> fin_cases r <;> fin_cases k <;> simp [polΓ, hx, pow_two]

/-- the curves `r = 1 + s t (1 - t), φ = t` from `(1, 0)` to `(1, 1)` -/
noncomputable def polQ (z : Fin 2 → ℝ) : Fin 2 → ℝ := ![1 + z 1 * (z 0 * (1 - z 0)), z 0]

/-- the unit vector in the direction of the axis `φ = 0` -/
noncomputable def polV (i : Fin 2) (z : Fin 2 → ℝ) : ℝ := ![Real.cos (z 0), -Real.sin (z 0) / (1 + z 1 * (z 0 * (1 - z 0)))] i

/-- parameters for which the curve avoids the origin -/
def polW : TopologicalSpace.Opens (Fin 2 → ℝ) := ⟨{z | 1 + z 1 * (z 0 * (1 - z 0)) ≠ 0}, isOpen_ne_fun (by fun_prop) (by fun_prop)⟩

/-- All hypotheses of `C144_path_independent` hold for these curves and the field `polV`. -/
theorem polar_example : Returns (christoffelFromMetric (diffD polOpen polMetric.syms) polMetric) fun c =>
    Returns (riemannFromMetric (diffD polOpen polMetric.syms) polMetric) fun r =>
    (∀ i, ContDiffOn ℝ ∞ (fun z => polQ z i) polW) ∧ (∀ z ∈ polW, polQ z ∈ polOpen) ∧ (∀ i, ContDiffOn ℝ ∞ (polV i) polW) ∧
    (∀ t ∈ Set.Icc (0 : ℝ) 1, ∀ s ∈ Set.Ioo (-1 : ℝ) 1, (![t, s] : Fin 2 → ℝ) ∈ polW) ∧
    (∀ s : ℝ, polQ ![0, s] = ![1, 0] ∧ polQ ![1, s] = ![1, 1] ∧ ∀ i, polV i ![0, s] = (![1, 0] : Fin 2 → ℝ) i) ∧
    (∀ i j k l : Fin 2, ∀ y ∈ polOpen, value r [(i : ℕ), j, k, l] y = 0) ∧ ∀ z ∈ polW, ∀ i, covDeriv (symbols c) polQ 0 polV i z = 0 := by
  obtain ⟨c, e, hΓ⟩ := (C139_functions polMetric polG polMetric_describes).1
  obtain ⟨r, er, hR⟩ := (C139_functions polMetric polG polMetric_describes).2.1
  have hin : ∀ z ∈ polW, polQ z ∈ polOpen := fun z hz => hz
  refine ⟨c, e, r, er, fun i => ?_, hin, fun i => ?_, fun t ht s hs => ?_, fun s => ⟨?_, ?_, fun i => ?_⟩, fun i j k l y hy => ?_, fun z hz i => ?_⟩
  · fin_cases i <;> simp [polQ] <;> fun_prop
  · have hz : ∀ z ∈ (polW : Set (Fin 2 → ℝ)), 1 + z 1 * (z 0 * (1 - z 0)) ≠ 0 := fun z hz => hz
    fin_cases i
    · show ContDiffOn ℝ ∞ (fun z : Fin 2 → ℝ => Real.cos (z 0)) polW
      fun_prop
    · show ContDiffOn ℝ ∞ (fun z : Fin 2 → ℝ => -Real.sin (z 0) / (1 + z 1 * (z 0 * (1 - z 0)))) polW
      fun_prop (disch := assumption)
  · show 1 + s * (t * (1 - t)) ≠ 0
    have h1 : 0 ≤ t * (1 - t) := mul_nonneg ht.1 (by linarith [ht.2])
    have h2 : t * (1 - t) ≤ 1 / 4 := by nlinarith [sq_nonneg (t - 1 / 2)]
    have : -(1 / 4) ≤ s * (t * (1 - t)) := by nlinarith [hs.1, hs.2]
    linarith
  · ext i; fin_cases i <;> simp [polQ]
  · ext i; fin_cases i <;> simp [polQ]
  · fin_cases i <;> simp [polV]
  · show ext polOpen _ y = 0
    rw [ext_of ⟨y, hy⟩]
    exact (hR i j k l ⟨y, hy⟩).trans (pol_riemann i j k l y hy)
  · have hz' : 1 + z 1 * (z 0 * (1 - z 0)) ≠ 0 := hz
    have hs : ∀ i j k, symbols c i j k (polQ z) = polΓ i j k (1 + z 1 * (z 0 * (1 - z 0))) := fun i j k =>
      (ext_of ⟨polQ z, hin z hz⟩).trans ((hΓ i j k ⟨polQ z, hin z hz⟩).trans (pol_christoffel i j k (polQ z) hz'))
    have d0 : pd (fun z => polQ z 0) 0 z = z 1 * (1 - 2 * z 0) := by
      have e : pd (fun z => polQ z 0) 0 z = deriv (fun t => 1 + z 1 * (t * (1 - t))) (z 0) := by simp [pd, polQ]
      have h := ((((hasDerivAt_id (z 0)).fun_mul ((hasDerivAt_id (z 0)).const_sub 1)).const_mul (z 1)).const_add 1).deriv
      rw [e]
      refine h.trans ?_
      simp only [id]
      ring
    have d1 : pd (fun z => polQ z 1) 0 z = 1 := by simp [pd, polQ]
    have d2 : pd (polV 0) 0 z = -Real.sin (z 0) := by simp [pd, polV]
    have d3 : pd (polV 1) 0 z = (-Real.cos (z 0) * (1 + z 1 * (z 0 * (1 - z 0))) + Real.sin (z 0) * (z 1 * (1 - 2 * z 0))) / (1 + z 1 * (z 0 * (1 - z 0))) ^ 2 := by
      have e : pd (polV 1) 0 z = deriv (fun t => -Real.sin t / (1 + z 1 * (t * (1 - t)))) (z 0) := by simp [pd, polV]
      have h := (((Real.hasDerivAt_sin (z 0)).fun_neg).fun_div ((((hasDerivAt_id (z 0)).fun_mul ((hasDerivAt_id (z 0)).const_sub 1)).const_mul (z 1)).const_add 1) hz').deriv
      rw [e]
      refine h.trans ?_
      simp only [id]
      ring
    have v0 : polV 0 z = Real.cos (z 0) := rfl
    have v1 : polV 1 z = -Real.sin (z 0) / (1 + z 1 * (z 0 * (1 - z 0))) := rfl
    unfold covDeriv
    simp only [hs, Fin.sum_univ_two, d0, d1]
    generalize 1 + z 1 * (z 0 * (1 - z 0)) = ρ at hz' d3 v1 ⊢
    generalize z 1 * (1 - 2 * z 0) = ρ' at d3 ⊢
    fin_cases i
    · simp [d2, polΓ, v0, v1]
      field_simp
      ring
    · simp [d3, polΓ, v0, v1]
      field_simp
      ring

end Einpy.Fn
