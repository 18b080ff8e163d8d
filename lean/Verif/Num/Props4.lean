import Verif.Num.Props3

/-!
# Properties C70, C71: charged test particles, user-defined metrics and perturbations
-/

set_option linter.unusedSimpArgs false
set_option linter.unusedVariables false

namespace Einpy.Num
open Classical Topology

variable (k : PhysConst)

/-! ## C70 -/

/-- `g_{ij} v^i w^j` -/
noncomputable def inner4 (g : Mat4) (v w : Vec4) : ℝ := ∑ i, ∑ j, g i j * v i * w j

theorem kn_em_contra {M a Q q : ℝ} {x : Vec4} (h : Reg k M a x) :
    KerrNewman.emTensorContra k (KerrNewman.new k "BoyerLindquist" M a Q q) x =
      .ok (kerrI k.c (schwarzschildRadius k M) (alF k M a) (x 1) (x 2) * emF (alF k M a) (rQF k Q) (x 1) (x 2)
        * kerrI k.c (schwarzschildRadius k M) (alF k M a) (x 1) (x 2)) := by
  unfold KerrNewman.emTensorContra
  rw [kn_em, kn_metric_eq, kerr_contra, if_pos h.1, if_neg h.2.1, if_pos h.1, if_neg (by push Not; exact ⟨h.2.1, h.2.2.1⟩),
    if_neg h.2.2.2]
  rfl

theorem kn_metric_reg {M a Q q : ℝ} {x : Vec4} (h : Reg k M a x) :
    KerrNewman.metricCovariant k (KerrNewman.new k "BoyerLindquist" M a Q q) x =
      .ok (kerrT k.c (schwarzschildRadius k M) (alF k M a) (x 1) (x 2)) := by
  rw [kn_metric_eq]
  exact (kerr_near k h.1 h.2.1 h.2.2.1).self_of_nhds

/-- **C70**: what the Kerr-Newman right-hand side computes, for every charge: the geodesic acceleration of the symbols it
computes, minus `q (F v)^i g_{ij}` for the contravariant Maxwell tensor and the covariant metric it computes. -/
theorem C70_kn_rhs {M a Q q : ℝ} {x : Vec4} {Γ : Tab3}
    (h : KerrNewman.christoffels k (KerrNewman.new k "BoyerLindquist" M a Q q) x = .ok Γ) :
    ∃ F g, KerrNewman.emTensorContra k (KerrNewman.new k "BoyerLindquist" M a Q q) x = .ok F ∧
      KerrNewman.metricCovariant k (KerrNewman.new k "BoyerLindquist" M a Q q) x = .ok g ∧
      ∀ v, KerrNewman.fVec k (KerrNewman.new k "BoyerLindquist" M a Q q) x v =
        .ok (v, fun j => geodesicAccel Γ v j - q * ∑ i, (∑ l, F i l * v l) * g i j) := by
  have e : (KerrNewman.new k "BoyerLindquist" M a Q q).system = "BoyerLindquist" := rfl
  obtain ⟨hr, hΓ⟩ := (kn_christoffels_iff k).mp h
  refine ⟨_, _, kn_em_contra k hr, kn_metric_reg k hr, ?_⟩
  intro v
  unfold KerrNewman.fVec KerrNewman.fVecBl
  rw [if_pos e, h, kn_em_contra k hr, kn_metric_reg k hr]
  simp only [bind, Except.bind, pure, Except.pure]
  refine congrArg Except.ok (Prod.ext rfl ?_)
  rw [hΓ, accel_eq]
  rfl

/-- **C70**: without charge on the test particle it is the geodesic equation, whatever the charge of the body. -/
theorem C70_kn_rhs_neutral {M a Q : ℝ} {x : Vec4} {Γ : Tab3}
    (h : KerrNewman.christoffels k (KerrNewman.new k "BoyerLindquist" M a Q 0) x = .ok Γ) (v : Vec4) :
    KerrNewman.fVec k (KerrNewman.new k "BoyerLindquist" M a Q 0) x v = .ok (v, geodesicAccel Γ v) := by
  obtain ⟨F, g, _, _, hf⟩ := C70_kn_rhs k h
  rw [hf]
  refine congrArg Except.ok (Prod.ext rfl ?_)
  funext j
  show _ - 0 * _ = _
  rw [zero_mul, sub_zero]

theorem kn_fvec_christoffels {M a Q q : ℝ} {x v : Vec4} {y : Vec4 × Vec4}
    (h : KerrNewman.fVec k (KerrNewman.new k "BoyerLindquist" M a Q q) x v = .ok y) :
    ∃ Γ, KerrNewman.christoffels k (KerrNewman.new k "BoyerLindquist" M a Q q) x = .ok Γ := by
  have e : (KerrNewman.new k "BoyerLindquist" M a Q q).system = "BoyerLindquist" := rfl
  unfold KerrNewman.fVec KerrNewman.fVecBl at h
  rw [if_pos e] at h
  cases hc : KerrNewman.christoffels k (KerrNewman.new k "BoyerLindquist" M a Q q) x with
  | error e' => rw [hc] at h; cases h
  | ok Γ => exact ⟨Γ, rfl⟩

/-- **C70 (neutral test particles only)**: along every exact solution of the right-hand side with `q = 0` the norm `g(v,v)`
in the metric the object returns has the same value at all times. -/
theorem C70_kn_norm_conserved_partial {M a Q : ℝ} {X V : ℝ → Vec4}
    (h : Solves (KerrNewman.fVec k (KerrNewman.new k "BoyerLindquist" M a Q 0)) X V) (s t : ℝ) :
    ∃ gs gt, KerrNewman.metricCovariant k (KerrNewman.new k "BoyerLindquist" M a Q 0) (X s) = .ok gs ∧
      KerrNewman.metricCovariant k (KerrNewman.new k "BoyerLindquist" M a Q 0) (X t) = .ok gt ∧
      normSq gs (V s) = normSq gt (V t) := by
  have key : ∀ t, (KerrNewman.metricCovariant k (KerrNewman.new k "BoyerLindquist" M a Q 0) (X t)
        = .ok (kerrT k.c (schwarzschildRadius k M) (alF k M a) (X t 1) (X t 2))) ∧
      HasDerivAt (fun s => normSq (kerrT k.c (schwarzschildRadius k M) (alF k M a) (X s 1) (X s 2)) (V s)) 0 t := by
    intro t
    obtain ⟨dX, dV, hf, hX, hV⟩ := h t
    obtain ⟨Γ, hΓ⟩ := kn_fvec_christoffels k hf
    rw [C70_kn_rhs_neutral k hΓ] at hf
    obtain ⟨rfl, rfl⟩ := Prod.mk.inj (Except.ok.inj hf)
    obtain ⟨hr, rfl⟩ := (kn_christoffels_iff k).mp hΓ
    refine ⟨kn_metric_reg k hr, ?_⟩
    exact normSq_const (G := fun y => kerrT k.c (schwarzschildRadius k M) (alF k M a) (y 1) (y 2)) (axi_symm _ _ _ _ _)
      (kerrT_diff _ _ _ hr.2.1 hr.2.2.1) (kerr_lc k hr) hX hV
  refine ⟨_, _, (key s).1, (key t).1, ?_⟩
  exact is_const_of_deriv_eq_zero (fun t => (key t).2.differentiableAt) (fun t => (key t).2.deriv) s t

/-- The Lorentz force with the index lowered correctly, `F^{ij} g_{jl} v^l`, does no work. -/
theorem lorentz_orthogonal {g F : Mat4} (hg : ∀ i j, g i j = g j i) (hF : ∀ i j, F i j = -F j i) (v : Vec4) :
    inner4 g v (fun i => ∑ j, F i j * ∑ l, g j l * v l) = 0 := by
  have e : ∀ w : Vec4, (∑ i, ∑ j, F i j * w i * w j) = 0 := by
    intro w
    have : (∑ i, ∑ j, F i j * w i * w j) = -∑ i, ∑ j, F i j * w i * w j := by
      conv_lhs => rw [Finset.sum_comm]
      rw [← Finset.sum_neg_distrib]
      refine Finset.sum_congr rfl fun i _ => ?_
      rw [← Finset.sum_neg_distrib]
      refine Finset.sum_congr rfl fun j _ => ?_
      rw [hF j i]; ring
    linarith
  rw [← e (fun i => ∑ l, g i l * v l)]
  unfold inner4
  rw [Finset.sum_comm]
  refine Finset.sum_congr rfl fun i _ => ?_
  simp only [Finset.mul_sum, Finset.sum_mul]
  rw [Finset.sum_comm]
  refine Finset.sum_congr rfl fun j _ => ?_
  rw [Finset.sum_comm]
  refine Finset.sum_congr rfl fun l _ => ?_
  refine Finset.sum_congr rfl fun m _ => ?_
  rw [hg m i]; ring

/-- Derivative of `g(V,V)` along a curve that obeys the geodesic equation with an extra acceleration `W`. -/
theorem normSq_force {G : Vec4 → Mat4} {Γ : Tab3} {X V : ℝ → Vec4} {W : Vec4} {t : ℝ}
    (hs : ∀ i j, G (X t) i j = G (X t) j i) (hd : ∀ i j, DifferentiableAt ℝ (fun y => G y i j) (X t))
    (hG : IsLeviCivita G (X t) Γ) (hX : HasDerivAt X (V t) t)
    (hV : HasDerivAt V (fun j => geodesicAccel Γ (V t) j + W j) t) :
    HasDerivAt (fun s => normSq (G (X s)) (V s)) (2 * inner4 (G (X t)) (V t) W) t := by
  have h0 : HasDerivAt (fun s => V s - (s - t) • W) (geodesicAccel Γ (V t - (t - t) • W)) t := by
    have := hV.sub (((hasDerivAt_id t).sub_const t).smul_const W)
    refine this.congr_deriv ?_
    rw [sub_self, zero_smul, sub_zero]
    funext j
    simp
  have hX' : HasDerivAt X (V t - (t - t) • W) t := by rw [sub_self, zero_smul, sub_zero]; exact hX
  have h1 := normSq_const (V := fun s => V s - (s - t) • W) hs hd hG hX' h0
  have hg : ∀ i j, DifferentiableAt ℝ (fun s => G (X s) i j) t := by
    intro i j
    exact (hd i j).comp t hX.differentiableAt
  have hv : ∀ i, DifferentiableAt ℝ (fun s => V s i) t := fun i => (hasDerivAt_pi.mp hV i).differentiableAt
  have h2 : DifferentiableAt ℝ (fun s => ∑ i, ∑ j, G (X s) i j * (V s i * W j + W i * V s j - (s - t) * W i * W j)) t := by
    refine DifferentiableAt.fun_sum fun i _ => DifferentiableAt.fun_sum fun j _ => ?_
    have hst : DifferentiableAt ℝ (fun s : ℝ => s - t) t := (hasDerivAt_id t).differentiableAt.sub_const t
    exact (hg i j).mul ((((hv i).mul_const _).add ((hv j).const_mul _)).sub ((hst.mul_const _).mul_const _))
  have h3 := h1.add (((hasDerivAt_id t).sub_const t).mul h2.hasDerivAt)
  have e : (fun s => normSq (G (X s)) (V s)) =
      (fun s => normSq (G (X s)) (V s - (s - t) • W)) + ((fun s => id s - t) * fun s =>
        ∑ i, ∑ j, G (X s) i j * (V s i * W j + W i * V s j - (s - t) * W i * W j)) := by
    funext s
    simp only [Pi.add_apply, Pi.mul_apply, id]
    unfold normSq
    rw [Finset.mul_sum, ← Finset.sum_add_distrib]
    refine Finset.sum_congr rfl fun i _ => ?_
    rw [Finset.mul_sum, ← Finset.sum_add_distrib]
    refine Finset.sum_congr rfl fun j _ => ?_
    simp only [Pi.sub_apply, Pi.smul_apply, smul_eq_mul]
    ring
  rw [e]
  refine h3.congr_deriv ?_
  simp only [id, sub_self, zero_mul, zero_add, one_mul, add_zero, sub_zero]
  unfold inner4
  have s1 : (∑ i, ∑ j, G (X t) i j * (V t i * W j + W i * V t j)) =
      (∑ i, ∑ j, G (X t) i j * V t i * W j) + ∑ i, ∑ j, G (X t) i j * W i * V t j := by
    rw [← Finset.sum_add_distrib]
    refine Finset.sum_congr rfl fun i _ => ?_
    rw [← Finset.sum_add_distrib]
    exact Finset.sum_congr rfl fun j _ => by ring
  have s2 : (∑ i, ∑ j, G (X t) i j * W i * V t j) = ∑ i, ∑ j, G (X t) i j * V t i * W j := by
    rw [Finset.sum_comm]
    refine Finset.sum_congr rfl fun i _ => Finset.sum_congr rfl fun j _ => ?_
    rw [hs j i]; ring
  rw [s1, s2]; ring

/-- **C70 is false of this commit for charged test particles**: the code's force does work at the rate
`-q g(v, (F v) g)`. -/
theorem C70_refuted_work {M a Q q : ℝ} {X V : ℝ → Vec4} {t : ℝ}
    (h : ObeysAt (KerrNewman.fVec k (KerrNewman.new k "BoyerLindquist" M a Q q)) X V t) :
    ∃ G F, ReturnsNear (KerrNewman.metricCovariant k (KerrNewman.new k "BoyerLindquist" M a Q q)) G (X t) ∧
      KerrNewman.emTensorContra k (KerrNewman.new k "BoyerLindquist" M a Q q) (X t) = .ok F ∧
      HasDerivAt (fun s => normSq (G (X s)) (V s))
        (-2 * q * inner4 (G (X t)) (V t) (fun j => ∑ i, (∑ l, F i l * V t l) * G (X t) i j)) t := by
  obtain ⟨dX, dV, hf, hX, hV⟩ := h
  obtain ⟨Γ, hΓ⟩ := kn_fvec_christoffels k hf
  obtain ⟨F, g, hF, hg, hf'⟩ := C70_kn_rhs k hΓ
  rw [hf'] at hf
  obtain ⟨rfl, rfl⟩ := Prod.mk.inj (Except.ok.inj hf)
  obtain ⟨hr, rfl⟩ := (kn_christoffels_iff k).mp hΓ
  have hg' := hg.symm.trans (kn_metric_reg k hr)
  obtain rfl := Except.ok.inj hg'
  refine ⟨fun y => kerrT k.c (schwarzschildRadius k M) (alF k M a) (y 1) (y 2), F, ?_, hF, ?_⟩
  · rw [kn_metric_eq]; exact kerr_near k hr.1 hr.2.1 hr.2.2.1
  · refine (normSq_force (G := fun y => kerrT k.c (schwarzschildRadius k M) (alF k M a) (y 1) (y 2))
      (W := fun j => -q * ∑ i, (∑ l, F i l * V t l) * kerrT k.c (schwarzschildRadius k M) (alF k M a) (X t 1) (X t 2) i j)
      (axi_symm _ _ _ _ _)
      (kerrT_diff _ _ _ hr.2.1 hr.2.2.1) (kerr_lc k hr) hX ?_).congr_deriv ?_
    · refine hV.congr_deriv ?_
      funext j; ring
    · unfold inner4
      rw [Finset.mul_sum, Finset.mul_sum]
      refine Finset.sum_congr rfl fun i _ => ?_
      rw [Finset.mul_sum, Finset.mul_sum]
      refine Finset.sum_congr rfl fun j _ => ?_
      ring

/-- A charged particle falling into a charged body without rotation: the norm of its velocity is not stationary. -/
theorem C70_refuted_not_conserved {q : ℝ} (hq : q ≠ 0) :
    ∃ x v dx dv, KerrNewman.fVec unitConst (KerrNewman.new unitConst "BoyerLindquist" 1 0 1 q) x v = .ok (dx, dv) ∧
      ∀ X V : ℝ → Vec4, X 0 = x → V 0 = v → HasDerivAt X dx 0 → HasDerivAt V dv 0 →
        ∃ G, ReturnsNear (KerrNewman.metricCovariant unitConst (KerrNewman.new unitConst "BoyerLindquist" 1 0 1 q)) G x ∧
          ∃ d, d ≠ 0 ∧ HasDerivAt (fun s => normSq (G (X s)) (V s)) d 0 := by
  have hal : alF unitConst 1 0 = 0 := zero_mul _
  have hS : sigF 0 4 (Real.pi / 2) = 16 := by unfold sigF; norm_num
  have hD : delF 2 0 4 = 8 := by unfold delF; norm_num
  have hQ : rQF unitConst 1 = 1 := by
    show Real.sqrt (1 ^ 2 * 1 * 1 / 1 ^ 4) = 1
    norm_num
  have hr : Reg unitConst 1 0 ![0, 4, Real.pi / 2, 0] := by
    refine ⟨by norm_num, ?_, ?_, ?_⟩
    · show sigF _ 4 (Real.pi / 2) ≠ 0
      rw [hal, hS]; norm_num
    · show delF _ _ 4 ≠ 0
      rw [hal, unit_schRad, mul_one, hD]; norm_num
    · show Real.sin (Real.pi / 2) ≠ 0
      rw [Real.sin_pi_div_two]; norm_num
  obtain ⟨F, g, hF, hg, hf⟩ := C70_kn_rhs unitConst (Q := 1) (q := q) ((kn_christoffels_iff unitConst).mpr ⟨hr, rfl⟩)
  refine ⟨![0, 4, Real.pi / 2, 0], ![1, 1, 0, 0], _, _, hf _, ?_⟩
  intro X V hX0 hV0 hX hV
  have ho : ObeysAt (KerrNewman.fVec unitConst (KerrNewman.new unitConst "BoyerLindquist" 1 0 1 q)) X V 0 := by
    refine ⟨_, _, ?_, hX, hV⟩
    rw [hX0, hV0]
    exact hf _
  obtain ⟨G, F', hG, hF', hd⟩ := C70_refuted_work unitConst ho
  rw [hX0] at hG hF'
  refine ⟨G, hG, _, ?_, hd⟩
  have e1 : F' = F := Except.ok.inj (hF'.symm.trans hF)
  have e2 : G (X 0) = g := by rw [hX0]; exact Except.ok.inj (hG.self_of_nhds.symm.trans hg)
  have e3 : g = axi (1 / 2) 0 (-2) (-16) (-16) := by
    rw [← Except.ok.inj ((kn_metric_reg unitConst hr).symm.trans hg), hal, unit_schRad]
    show axi ((1 - 2 * 1 * 4 / sigF 0 4 (Real.pi / 2)) * 1 ^ 2) ((1 * (2 * 1) * 4 * 0 * Real.sin (Real.pi / 2) ^ 2) / sigF 0 4 (Real.pi / 2))
      (-(sigF 0 4 (Real.pi / 2) / delF (2 * 1) 0 4)) (-sigF 0 4 (Real.pi / 2))
      (-((4 ^ 2 + 0 ^ 2 + (2 * 1 * 4 * (0 * Real.sin (Real.pi / 2)) ^ 2) / sigF 0 4 (Real.pi / 2)) * Real.sin (Real.pi / 2) ^ 2)) = _
    rw [mul_one, hS, hD, Real.sin_pi_div_two]
    congr 1 <;> norm_num
  have e4 : g * F * g = emF 0 1 4 (Real.pi / 2) := by
    have hK := kerrI_mul (c := unitConst.c) (rs := schwarzschildRadius unitConst 1) (al := alF unitConst 1 0) unitConst.c_pos.ne'
      hr.2.1 hr.2.2.1 hr.2.2.2
    have hK' := mul_eq_one_comm.mp hK
    rw [← Except.ok.inj ((kn_metric_reg unitConst hr).symm.trans hg), ← Except.ok.inj ((kn_em_contra unitConst hr).symm.trans hF)]
    generalize kerrI unitConst.c (schwarzschildRadius unitConst 1) (alF unitConst 1 0) ((![0, 4, Real.pi / 2, 0] : Vec4) 1)
      ((![0, 4, Real.pi / 2, 0] : Vec4) 2) = I at *
    generalize kerrT unitConst.c (schwarzschildRadius unitConst 1) (alF unitConst 1 0) ((![0, 4, Real.pi / 2, 0] : Vec4) 1)
      ((![0, 4, Real.pi / 2, 0] : Vec4) 2) = T at *
    rw [hal, hQ]
    show T * (I * emF 0 1 4 (Real.pi / 2) * I) * T = _
    generalize emF 0 1 4 (Real.pi / 2) = E
    calc T * (I * E * I) * T = (T * I) * E * (I * T) := by simp only [Matrix.mul_assoc]
      _ = E := by rw [hK, hK', one_mul, mul_one]
  have e5 : emF 0 1 4 (Real.pi / 2) 0 1 = 1 / 16 := by
    show -(1 * (sigF 0 4 (Real.pi / 2) - 2 * 4 * 4)) / sigF 0 4 (Real.pi / 2) ^ 2 = 1 / 16
    rw [hS]; norm_num
  have anti := C47_contravariant_antisymmetric unitConst hF
  have f01 : F 0 1 = -1 / 16 := by
    have := congrFun (congrFun e4 0) 1
    rw [e5, e3] at this
    simp only [Matrix.mul_apply, Fin.sum_univ_four, axi00, axi01, axi02, axi03, axi10, axi11, axi12, axi13, axi20, axi21,
      axi22, axi23, axi30, axi31, axi32, axi33] at this
    linarith
  have f10 : F 1 0 = 1 / 16 := by rw [anti 1 0, f01]; norm_num
  have f00 : F 0 0 = 0 := by have := anti 0 0; linarith
  have f11 : F 1 1 = 0 := by have := anti 1 1; linarith
  rw [e2, e1, hV0, e3]
  unfold inner4
  simp only [Fin.sum_univ_four, axi00, axi01, axi02, axi03, axi10, axi11, axi12, axi13, axi20, axi21,
      axi22, axi23, axi30, axi31, axi32, axi33]
  rw [show (![1, 1, 0, 0] : Vec4) 0 = 1 from rfl, show (![1, 1, 0, 0] : Vec4) 1 = 1 from rfl,
    show (![1, 1, 0, 0] : Vec4) 2 = 0 from rfl, show (![1, 1, 0, 0] : Vec4) 3 = 0 from rfl, f00, f01, f10, f11]
  intro h
  apply hq
  ring_nf at h
  linarith

/-! ## C71 -/

/-- **C71**: a user-defined metric with a perturbation is the sum of the two, entry by entry; it fails exactly when one of
the two user functions fails, the metric being evaluated first. -/
theorem C71_perturbation_additive {f p : Vec4 → Py Mat4} {x : Vec4} {g : Mat4} :
    baseMetricCovariant (some f) (some p) x = .ok g ↔
      ∃ g₀ h, f x = .ok g₀ ∧ p x = .ok h ∧ ∀ i j, g i j = g₀ i j + h i j := by
  unfold baseMetricCovariant
  cases hf : f x with
  | error e =>
    simp only [hf, bind, Except.bind]
    exact ⟨fun h => (by cases h), fun ⟨_, _, h, _⟩ => (by cases h)⟩
  | ok g₀ =>
    cases hp : p x with
    | error e =>
      simp only [hf, hp, bind, Except.bind]
      exact ⟨fun h => (by cases h), fun ⟨_, _, _, h, _⟩ => (by cases h)⟩
    | ok h =>
      simp only [hf, hp, bind, Except.bind, pure, Except.pure]
      constructor
      · intro e; exact ⟨g₀, h, rfl, rfl, fun i j => by rw [← Except.ok.inj e]; rfl⟩
      · rintro ⟨a, b, ha, hb, e⟩
        rw [Except.ok.inj ha, Except.ok.inj hb]
        refine congrArg Except.ok ?_
        ext i j; exact (e i j).symm

/-- **C71**: without a perturbation it is the user's metric, unchanged, errors included; with none supplied, `TypeError`. -/
theorem C71_no_perturbation (f : Vec4 → Py Mat4) (x : Vec4) :
    baseMetricCovariant (some f) none x = f x ∧ baseMetricCovariant none none x = .error .typeError := by
  refine ⟨?_, rfl⟩
  unfold baseMetricCovariant
  cases h : f x <;> simp only [h, bind, Except.bind, pure, Except.pure]

/-- **C71**: the contravariant form is the two-sided inverse of the covariant one at that point, perturbation included. -/
theorem C71_contravariant_inverse {cov : Vec4 → Py Mat4} {x : Vec4} {gi : Mat4} :
    contraOf cov x = .ok gi ↔ ∃ g, cov x = .ok g ∧ gi * g = 1 ∧ g * gi = 1 := by
  unfold contraOf npInv
  cases hc : cov x with
  | error e =>
    simp only [bind, Except.bind]
    exact ⟨fun h => (by cases h), fun ⟨_, h, _⟩ => (by cases h)⟩
  | ok g =>
    simp only [bind, Except.bind]
    constructor
    · intro h
      split_ifs at h with hu
      rw [← Except.ok.inj h]
      exact ⟨g, rfl, Matrix.nonsing_inv_mul g hu, Matrix.mul_nonsing_inv g hu⟩
    · rintro ⟨g', h1, h2, h3⟩
      obtain rfl := Except.ok.inj h1
      exact npInv_of_mul h2

/-- **C71**: it raises `LinAlgError` exactly where the covariant form exists and has zero determinant. -/
theorem C71_contravariant_singular {cov : Vec4 → Py Mat4} {x : Vec4} {g : Mat4} (h : cov x = .ok g) :
    contraOf cov x = .error .nonInvertible ↔ g.det = 0 := by
  unfold contraOf npInv
  rw [h]
  simp only [bind, Except.bind, isUnit_iff_ne_zero]
  by_cases hd : g.det = 0
  · simp [hd]
  · simp [hd]

/-! The built-in classes override `metric_covariant` and do not read `self.perturbation` (schwarzschild.py:39-61,
kerr.py:79-107, kerrnewman.py:88-116), so C71 is about user-defined metrics only. -/

example : baseMetricCovariant (some fun _ => .ok 1) (some fun _ => .ok 1) 0 = .ok (1 + 1) := rfl

example : contraOf (baseMetricCovariant (some fun _ => .ok 1) (some fun _ => .ok 0)) 0 = .ok 1 := by
  rw [C71_contravariant_inverse]
  refine ⟨1, ?_, one_mul 1, one_mul 1⟩
  rw [C71_perturbation_additive]
  exact ⟨1, 0, rfl, rfl, fun i j => by simp⟩

end Einpy.Num
