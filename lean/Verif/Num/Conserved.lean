import Verif.Num.Props4

/-!
# C114: the conserved momenta of exact solutions

Energy and axial angular momentum of a geodesic: `p_i = g_{ij} v^j` for a coordinate the metric does not depend on.
-/

namespace Einpy.Num
open Classical

/-- `p_i = g_{ij} v^j`: with `i = 0` the energy per unit mass, with `i = 3` (up to sign) the axial angular momentum. -/
noncomputable def momentum (g : Mat4) (v : Vec4) (i : Fin 4) : ℝ := ∑ j, g i j * v j

/-- Rate of change of `p_i` along a curve whose acceleration is built from the table `dH`. -/
theorem momentum_deriv {G : Vec4 → Mat4} {dG dH : Tab3} {Gi : Mat4} {X V : ℝ → Vec4} {t : ℝ} (i : Fin 4)
    (hd : ∀ i j, DifferentiableAt ℝ (fun y => G y i j) (X t))
    (hG : HasPartials G dG (X t)) (hi : Gi * G (X t) = 1)
    (hX : HasDerivAt X (V t) t) (hV : HasDerivAt V (geodesicAccel (christoffelFormula Gi dH) (V t)) t) :
    HasDerivAt (fun s => momentum (G (X s)) (V s) i)
      (∑ a, ∑ b, (dG a i b - 1 / 2 * (dH b i a + dH a i b - dH i a b)) * V t a * V t b) t := by
  have hVi : ∀ i, HasDerivAt (fun s => V s i) (geodesicAccel (christoffelFormula Gi dH) (V t) i) t := by
    intro i; exact (hasDerivAt_pi.mp hV) i
  have h := HasDerivAt.fun_sum (u := Finset.univ) fun j _ =>
    (hasDerivAt_along hX hG i j (hd i j)).mul (hVi j)
  refine h.congr_deriv ?_
  have e1 : ∑ j, G (X t) i j * geodesicAccel (christoffelFormula Gi dH) (V t) j
      = -∑ a, ∑ b, 1 / 2 * (dH b i a + dH a i b - dH i a b) * V t a * V t b := by
    have e : ∀ a b, 1 / 2 * (dH b i a + dH a i b - dH i a b) = ∑ j, G (X t) i j * christoffelFormula Gi dH j a b :=
      fun a b => (lowered hi dH i a b).symm
    simp only [e]
    unfold geodesicAccel
    simp only [mul_neg, Finset.sum_neg_distrib, Finset.mul_sum, Finset.sum_mul]
    congr 1
    rw [Finset.sum_comm]
    refine Finset.sum_congr rfl fun a _ => ?_
    rw [Finset.sum_comm]
    refine Finset.sum_congr rfl fun b _ => Finset.sum_congr rfl fun j _ => ?_
    ring
  have e2 : ∑ j, (∑ a, dG a i j * V t a) * V t j = ∑ a, ∑ b, dG a i b * V t a * V t b := by
    simp only [Finset.sum_mul]
    rw [Finset.sum_comm]
  rw [Finset.sum_add_distrib, e1, e2, ← sub_eq_add_neg, ← Finset.sum_sub_distrib]
  refine Finset.sum_congr rfl fun a _ => ?_
  rw [← Finset.sum_sub_distrib]
  refine Finset.sum_congr rfl fun b _ => ?_
  ring

/-- With the right table, and a coordinate the metric does not depend on, it is zero. -/
theorem momentum_const {G : Vec4 → Mat4} {Γ : Tab3} {X V : ℝ → Vec4} {t : ℝ} (i : Fin 4)
    (hs : ∀ y i j, G y i j = G y j i) (hd : ∀ i j, DifferentiableAt ℝ (fun y => G y i j) (X t))
    (hc : ∀ y s, G (Function.update y i s) = G y)
    (hG : IsLeviCivita G (X t) Γ) (hX : HasDerivAt X (V t) t) (hV : HasDerivAt V (geodesicAccel Γ (V t)) t) :
    HasDerivAt (fun s => momentum (G (X s)) (V s) i) 0 t := by
  obtain ⟨dG, Gi, h1, h2, h3⟩ := hG
  have hΓ : Γ = christoffelFormula Gi dG := by funext i k l; exact h3 i k l
  rw [hΓ] at hV
  refine (momentum_deriv i hd h1 h2 hX hV).congr_deriv ?_
  have z : ∀ a b, dG i a b = 0 := by
    intro a b
    have := h1 i a b
    simp only [hc] at this
    exact this.unique (hasDerivAt_const _ _)
  have sy : ∀ c a b, dG c a b = dG c b a := by
    intro c a b
    have h := h1 c a b
    simp only [hs _ a b] at h
    exact h.unique (h1 c b a)
  simp only [z, sub_zero]
  have : ∀ a b, (dG a i b - 1 / 2 * (dG b i a + dG a i b)) * V t a * V t b
      = 1 / 2 * (dG a i b * V t a * V t b) - 1 / 2 * (dG b i a * V t b * V t a) := by
    intro a b; ring
  simp only [this, Finset.sum_sub_distrib]
  rw [sub_eq_zero, Finset.sum_comm]

theorem momentum_const_of {f : Vec4 → Py Mat4} {T : Vec4 → Mat4} {X V : ℝ → Vec4} {i : Fin 4}
    (h : ∀ t, f (X t) = .ok (T (X t)) ∧ HasDerivAt (fun s => momentum (T (X s)) (V s) i) 0 t) (s t : ℝ) :
    ∃ gs gt, f (X s) = .ok gs ∧ f (X t) = .ok gt ∧ ∑ j, gs i j * V s j = ∑ j, gt i j * V t j :=
  ⟨_, _, (h s).1, (h t).1,
    is_const_of_deriv_eq_zero (fun t => (h t).2.differentiableAt) (fun t => (h t).2.deriv) s t⟩

variable (k : PhysConst)

theorem upd0_1 (y : Vec4) (s : ℝ) : Function.update y 0 s 1 = y 1 := Function.update_of_ne (by decide) _ _
theorem upd0_2 (y : Vec4) (s : ℝ) : Function.update y 0 s 2 = y 2 := Function.update_of_ne (by decide) _ _
theorem upd3_1 (y : Vec4) (s : ℝ) : Function.update y 3 s 1 = y 1 := Function.update_of_ne (by decide) _ _
theorem upd3_2 (y : Vec4) (s : ℝ) : Function.update y 3 s 2 = y 2 := Function.update_of_ne (by decide) _ _

theorem rt_const {T : ℝ → ℝ → Mat4} {i : Fin 4} (hi : i = 0 ∨ i = 3) (y : Vec4) (s : ℝ) :
    T (Function.update y i s 1) (Function.update y i s 2) = T (y 1) (y 2) := by
  rcases hi with rfl | rfl
  · rw [upd0_1, upd0_2]
  · rw [upd3_1, upd3_2]

/-- **C114**: along every exact solution of the Schwarzschild right-hand side the energy `g_{0j} v^j` and the angular momentum
`g_{3j} v^j`, in the metric the object returns, have the same value at all times. -/
theorem C114_schwarzschild_conserved {M : ℝ} {X V : ℝ → Vec4}
    (h : Solves (Schwarzschild.fVec k (Schwarzschild.new k "Spherical" M)) X V) {i : Fin 4} (hi : i = 0 ∨ i = 3) (s t : ℝ) :
    ∃ gs gt, Schwarzschild.metricCovariant k (Schwarzschild.new k "Spherical" M) (X s) = .ok gs ∧
      Schwarzschild.metricCovariant k (Schwarzschild.new k "Spherical" M) (X t) = .ok gt ∧
      ∑ j, gs i j * V s j = ∑ j, gt i j * V t j := by
  refine momentum_const_of (T := fun y => schT k.c (schwarzschildRadius k M) (y 1) (y 2)) ?_ s t
  intro t
  obtain ⟨dX, dV, hf, hX, hV⟩ := h t
  have hc : ∃ Γ, Schwarzschild.christoffels k (Schwarzschild.new k "Spherical" M) (X t) = .ok Γ := by
    cases e : Schwarzschild.christoffels k (Schwarzschild.new k "Spherical" M) (X t) with
    | error e' => rw [(C45_schwarzschild_rhs_error k _ _ _ e').mpr e] at hf; cases hf
    | ok Γ => exact ⟨Γ, rfl⟩
  obtain ⟨Γ, hΓ⟩ := hc
  rw [C45_schwarzschild_rhs k hΓ] at hf
  obtain ⟨rfl, rfl⟩ := Prod.mk.inj (Except.ok.inj hf)
  obtain ⟨G, hG, hL⟩ := C42_schwarzschild_levi_civita k hΓ
  rw [sch_christoffels] at hΓ
  split_ifs at hΓ with hcnd
  push Not at hcnd
  have h4 := (sch_conds hcnd.1).mp hcnd.2.1
  refine ⟨(sch_near k hcnd.1 h4).self_of_nhds, ?_⟩
  exact momentum_const (G := fun y => schT k.c (schwarzschildRadius k M) (y 1) (y 2)) i (fun _ => axi_symm _ _ _ _ _)
    (schT_diff _ _ hcnd.1 h4) (fun y s => rt_const (T := fun r th => schT k.c (schwarzschildRadius k M) r th) hi y s)
    (lc_congr (returnsNear_unique hG (sch_near k hcnd.1 h4)) hL) hX hV

/-- **C114**: the same for Kerr-Newman and neutral test particles, whatever the charge of the body. -/
theorem C114_kn_neutral_conserved {M a Q : ℝ} {X V : ℝ → Vec4}
    (h : Solves (KerrNewman.fVec k (KerrNewman.new k "BoyerLindquist" M a Q 0)) X V) {i : Fin 4} (hi : i = 0 ∨ i = 3) (s t : ℝ) :
    ∃ gs gt, KerrNewman.metricCovariant k (KerrNewman.new k "BoyerLindquist" M a Q 0) (X s) = .ok gs ∧
      KerrNewman.metricCovariant k (KerrNewman.new k "BoyerLindquist" M a Q 0) (X t) = .ok gt ∧
      ∑ j, gs i j * V s j = ∑ j, gt i j * V t j := by
  refine momentum_const_of (T := fun y => kerrT k.c (schwarzschildRadius k M) (alF k M a) (y 1) (y 2)) ?_ s t
  intro t
  obtain ⟨dX, dV, hf, hX, hV⟩ := h t
  obtain ⟨Γ, hΓ⟩ := kn_fvec_christoffels k hf
  rw [C70_kn_rhs_neutral k hΓ] at hf
  obtain ⟨rfl, rfl⟩ := Prod.mk.inj (Except.ok.inj hf)
  obtain ⟨hr, rfl⟩ := (kn_christoffels_iff k).mp hΓ
  refine ⟨kn_metric_reg k hr, ?_⟩
  exact momentum_const (G := fun y => kerrT k.c (schwarzschildRadius k M) (alF k M a) (y 1) (y 2)) i (fun _ => axi_symm _ _ _ _ _)
    (kerrT_diff _ _ _ hr.2.1 hr.2.2.1)
    (fun y s => rt_const (T := fun r th => kerrT k.c (schwarzschildRadius k M) (alF k M a) r th) hi y s) (kerr_lc k hr) hX hV

/-- What the Kerr class does to the two momenta. -/
theorem kerr_momentum {M a : ℝ} {X V : ℝ → Vec4} {t : ℝ}
    (h : ObeysAt (Kerr.fVec k (Kerr.new k "BoyerLindquist" M a)) X V t) :
    Reg k M a (X t) ∧
      HasDerivAt (fun s => momentum (kerrT k.c (schwarzschildRadius k M) (alF k M a) (X s 1) (X s 2)) (V s) 0) 0 t ∧
      HasDerivAt (fun s => momentum (kerrT k.c (schwarzschildRadius k M) (alF k M a) (X s 1) (X s 2)) (V s) 3)
        ((kerrR k.c (schwarzschildRadius k M) (alF k M a) (X t 1) (X t 2) 3 3
          - kerrRcode k.c (schwarzschildRadius k M) (alF k M a) (X t 1) (X t 2) 3 3) * V t 1 * V t 3) t := by
  obtain ⟨dX, dV, hf, hX, hV⟩ := h
  have hc : ∃ Γ, Kerr.christoffels k (Kerr.new k "BoyerLindquist" M a) (X t) = .ok Γ := by
    cases e : Kerr.christoffels k (Kerr.new k "BoyerLindquist" M a) (X t) with
    | error e' => rw [(C45_kerr_rhs_error k _ _ _ e').mpr e] at hf; cases hf
    | ok Γ => exact ⟨Γ, rfl⟩
  obtain ⟨Γ, hΓ⟩ := hc
  rw [C45_kerr_rhs k hΓ] at hf
  obtain ⟨rfl, rfl⟩ := Prod.mk.inj (Except.ok.inj hf)
  obtain ⟨hr, rfl⟩ := (kerr_christoffels_iff k).mp hΓ
  have hV' : HasDerivAt V (geodesicAccel (christoffelFormula (kerrI k.c (schwarzschildRadius k M) (alF k M a) (X t 1) (X t 2))
      (tabRT (kerrRcode k.c (schwarzschildRadius k M) (alF k M a) (X t 1) (X t 2))
        (kerrTh k.c (schwarzschildRadius k M) (alF k M a) (X t 1) (X t 2)))) (V t)) t := by
    refine hV.congr_deriv ?_
    congr 1
    funext i j l
    exact chSymLoops_eq _ _ _ _ _ _ _ _ _ _ _ _ _ _ _ i j l
  have key := fun i => momentum_deriv (G := fun y => kerrT k.c (schwarzschildRadius k M) (alF k M a) (y 1) (y 2)) i
    (kerrT_diff _ _ _ hr.2.1 hr.2.2.1) (kerrT_hasPartials k.c _ _ hr.2.1 hr.2.2.1)
    (kerrI_mul k.c_pos.ne' hr.2.1 hr.2.2.1 hr.2.2.2) hX hV'
  have e := kerrRcode_eq k.c (schwarzschildRadius k M) (alF k M a) (X t 1) (X t 2)
  refine ⟨hr, (key 0).congr_deriv ?_, (key 3).congr_deriv ?_⟩
  · simp only [Fin.sum_univ_four, tabRT0, tabRT1, tabRT2, tabRT3]
    rw [e 0 0 (by decide), e 0 1 (by decide), e 0 2 (by decide), e 0 3 (by decide)]
    ring
  · simp only [Fin.sum_univ_four, tabRT0, tabRT1, tabRT2, tabRT3]
    rw [e 3 0 (by decide), e 3 1 (by decide), e 3 2 (by decide)]
    ring

/-- **C114**: Kerr conserves the energy along exact solutions (its wrong derivative does not enter). -/
theorem C114_kerr_energy_conserved {M a : ℝ} {X V : ℝ → Vec4}
    (h : Solves (Kerr.fVec k (Kerr.new k "BoyerLindquist" M a)) X V) (s t : ℝ) :
    ∃ gs gt, Kerr.metricCovariant k (Kerr.new k "BoyerLindquist" M a) (X s) = .ok gs ∧
      Kerr.metricCovariant k (Kerr.new k "BoyerLindquist" M a) (X t) = .ok gt ∧
      ∑ j, gs 0 j * V s j = ∑ j, gt 0 j * V t j := by
  refine momentum_const_of (T := fun y => kerrT k.c (schwarzschildRadius k M) (alF k M a) (y 1) (y 2)) ?_ s t
  intro t
  obtain ⟨hr, h0, _⟩ := kerr_momentum k (h t)
  exact ⟨(kerr_near k hr.1 hr.2.1 hr.2.2.1).self_of_nhds, h0⟩

/-- **C114 is false of Kerr in this commit for the angular momentum**: wherever a curve obeys the right-hand side,
`g_{3j} v^j` changes at the rate `-2 α² sin⁴θ · r_s (Σ - 2r²)/Σ² · v^r v^φ`. -/
theorem C114_refuted_kerr_drift {M a : ℝ} {X V : ℝ → Vec4} {t : ℝ}
    (h : ObeysAt (Kerr.fVec k (Kerr.new k "BoyerLindquist" M a)) X V t) :
    ∃ G al S, ReturnsNear (Kerr.metricCovariant k (Kerr.new k "BoyerLindquist" M a)) G (X t) ∧
      alpha k M a = .ok al ∧ sigma k (X t 1) (X t 2) M a = .ok S ∧ S ≠ 0 ∧
      HasDerivAt (fun s => ∑ j, G (X s) 3 j * V s j)
        (-(2 * al ^ 2 * Real.sin (X t 2) ^ 4 * ((2 * k.G * M / k.c ^ 2) * (S - 2 * X t 1 ^ 2) / S ^ 2)
          * V t 1 * V t 3)) t := by
  obtain ⟨hr, _, h3⟩ := kerr_momentum k h
  refine ⟨_, _, _, kerr_near k hr.1 hr.2.1 hr.2.2.1, alpha_ok k hr.1, sigma_ok k hr.1 _ _, hr.2.1, ?_⟩
  refine h3.congr_deriv ?_
  rw [show kerrR k.c (schwarzschildRadius k M) (alF k M a) (X t 1) (X t 2) 3 3 = -((2 * X t 1 + (alF k M a * Real.sin (X t 2)) ^ 2 * tmpF _ _ _ _) * Real.sin (X t 2) ^ 2) from rfl,
    show kerrRcode k.c (schwarzschildRadius k M) (alF k M a) (X t 1) (X t 2) 3 3 = (-2 * X t 1 + (alF k M a * Real.sin (X t 2)) ^ 2 * tmpF _ _ _ _) * Real.sin (X t 2) ^ 2 from rfl]
  unfold tmpF
  rw [show 2 * k.G * M / k.c ^ 2 = schwarzschildRadius k M from rfl]
  ring

/-- A state of the Kerr class with spin 1/2 at which the angular momentum is not stationary. -/
theorem C114_refuted_kerr_not_conserved :
    ∃ x v dx dv, Kerr.fVec unitConst (Kerr.new unitConst "BoyerLindquist" 1 (1 / 2)) x v = .ok (dx, dv) ∧
      ∀ X V : ℝ → Vec4, X 0 = x → V 0 = v → HasDerivAt X dx 0 → HasDerivAt V dv 0 →
        ∃ G, ReturnsNear (Kerr.metricCovariant unitConst (Kerr.new unitConst "BoyerLindquist" 1 (1 / 2))) G x ∧
          ∃ d, d ≠ 0 ∧ HasDerivAt (fun s => ∑ j, G (X s) 3 j * V s j) d 0 := by
  have hal : alF unitConst 1 (1 / 2) = 1 / 2 := by
    show (1 / 2 : ℝ) * (1 * 1 / 1 ^ 2) = 1 / 2
    norm_num
  have hr : Reg unitConst 1 (1 / 2) ![0, 10, Real.pi / 2, 0] := by
    refine ⟨by norm_num, ?_, ?_, ?_⟩
    · show sigF _ 10 (Real.pi / 2) ≠ 0
      rw [hal, sigF, Real.cos_pi_div_two]; norm_num
    · show delF _ _ 10 ≠ 0
      rw [hal, unit_schRad, delF]; norm_num
    · show Real.sin (Real.pi / 2) ≠ 0
      rw [Real.sin_pi_div_two]; norm_num
  refine ⟨![0, 10, Real.pi / 2, 0], ![1, 1, 0, 1], _, _,
    C45_kerr_rhs unitConst ((kerr_christoffels_iff unitConst).mpr ⟨hr, rfl⟩) _, ?_⟩
  intro X V hX0 hV0 hX hV
  have ho : ObeysAt (Kerr.fVec unitConst (Kerr.new unitConst "BoyerLindquist" 1 (1 / 2))) X V 0 := by
    refine ⟨_, _, ?_, hX, hV⟩
    rw [hX0, hV0]
    exact C45_kerr_rhs unitConst ((kerr_christoffels_iff unitConst).mpr ⟨hr, rfl⟩) _
  obtain ⟨G, al, S, hG, h1, h2, h3, h4⟩ := C114_refuted_kerr_drift unitConst ho
  rw [hX0] at hG h2
  refine ⟨G, hG, _, ?_, h4⟩
  rw [alpha_ok unitConst hr.1] at h1
  rw [sigma_ok unitConst hr.1] at h2
  rw [← Except.ok.inj h1, ← Except.ok.inj h2, hX0, hV0, hal]
  show -(2 * (1 / 2 : ℝ) ^ 2 * Real.sin (Real.pi / 2) ^ 4 *
    ((2 * 1 * 1 / 1 ^ 2) * (sigF (1 / 2) 10 (Real.pi / 2) - 2 * 10 ^ 2) / sigF (1 / 2) 10 (Real.pi / 2) ^ 2) * 1 * 1) ≠ 0
  rw [sigF, Real.cos_pi_div_two, Real.sin_pi_div_two]
  norm_num

/-! ### The hypotheses are met -/

/-- The circular orbit at `r = 4 M` (it solves the right-hand side, see `Num/Props2`) has energy 4 and momentum -16. -/
example : schT 1 2 4 (Real.pi / 2) 0 0 * 8 = 4 ∧ schT 1 2 4 (Real.pi / 2) 3 3 * 1 = -16 := by
  constructor
  · show (1 - 2 / 4) * (1 : ℝ) ^ 2 * 8 = 4
    norm_num
  · show -((4 * Real.sin (Real.pi / 2)) ^ 2) * 1 = -16
    rw [Real.sin_pi_div_two]; norm_num

/-- A circular orbit: no acceleration when the quadratic form of the `t-φ` derivatives vanishes. -/
theorem circular_accel (Gi P Q : Mat4) (u : ℝ) (hP : P 0 0 * u ^ 2 + (P 0 3 + P 3 0) * u + P 3 3 = 0)
    (hQ : Q 0 0 * u ^ 2 + (Q 0 3 + Q 3 0) * u + Q 3 3 = 0) :
    geodesicAccel (christoffelFormula Gi (tabRT P Q)) ![u, 0, 0, 1] = fun _ => 0 := by
  funext i
  unfold geodesicAccel christoffelFormula
  simp only [Fin.sum_univ_four, tabRT0, tabRT1, tabRT2, tabRT3]
  rw [show (![u, 0, 0, 1] : Vec4) 0 = u from rfl, show (![u, 0, 0, 1] : Vec4) 1 = 0 from rfl,
    show (![u, 0, 0, 1] : Vec4) 2 = 0 from rfl, show (![u, 0, 0, 1] : Vec4) 3 = 1 from rfl]
  linear_combination (1 / 2 * Gi i 1) * hP + (1 / 2 * Gi i 2) * hQ

theorem circular_curve (u t : ℝ) : HasDerivAt (fun t : ℝ => (![u * t, 4, Real.pi / 2, t] : Vec4)) ![u, 0, 0, 1] t := by
  rw [hasDerivAt_pi]
  refine fin4_cases ?_ ?_ ?_ ?_
  · exact ((hasDerivAt_id t).const_mul u).congr_deriv (mul_one u)
  · exact hasDerivAt_const _ _
  · exact hasDerivAt_const _ _
  · exact hasDerivAt_id t

theorem exAl : alF unitConst 1 1 = 1 := by
  show (1 : ℝ) * (1 * 1 / 1 ^ 2) = 1
  norm_num
theorem exSig : sigF 1 4 (Real.pi / 2) = 16 := by rw [sigF, Real.cos_pi_div_two]; norm_num
theorem exTmp : tmpF 2 1 4 (Real.pi / 2) = -1 / 8 := by rw [tmpF, exSig]; norm_num
theorem exSin2 : Real.sin (2 * (Real.pi / 2)) = 0 := by rw [mul_div_cancel₀ _ two_ne_zero, Real.sin_pi]

theorem exReg (u t : ℝ) : Reg unitConst 1 1 ![u * t, 4, Real.pi / 2, t] := by
  refine ⟨by norm_num, ?_, ?_, ?_⟩
  · show sigF _ 4 (Real.pi / 2) ≠ 0
    rw [exAl, exSig]; norm_num
  · show delF _ _ 4 ≠ 0
    rw [exAl, unit_schRad, delF]; norm_num
  · show Real.sin (Real.pi / 2) ≠ 0
    rw [Real.sin_pi_div_two]; norm_num

theorem exTh (u : ℝ) : kerrTh 1 2 1 4 (Real.pi / 2) 0 0 * u ^ 2 + (kerrTh 1 2 1 4 (Real.pi / 2) 0 3 + kerrTh 1 2 1 4 (Real.pi / 2) 3 0) * u
    + kerrTh 1 2 1 4 (Real.pi / 2) 3 3 = 0 := by
  unfold kerrTh
  rw [axi00, axi03, axi30, axi33, exSin2]
  ring

/-- A circular orbit of the neutral test particle around the maximally rotating charged body. -/
example (Q : ℝ) : Solves (KerrNewman.fVec unitConst (KerrNewman.new unitConst "BoyerLindquist" 1 1 Q 0))
    (fun t => ![9 * t, 4, Real.pi / 2, t]) (fun _ => ![9, 0, 0, 1]) := by
  intro t
  refine ⟨_, _, C70_kn_rhs_neutral unitConst ((kn_christoffels_iff unitConst).mpr ⟨exReg 9 t, rfl⟩) _, circular_curve 9 t, ?_⟩
  refine (hasDerivAt_const t _).congr_deriv ?_
  have e : ∀ G T, chSymLoops (kerrI unitConst.c G T 4 (Real.pi / 2)) (tabRT (kerrR unitConst.c G T 4 (Real.pi / 2)) (kerrTh unitConst.c G T 4 (Real.pi / 2)))
      = christoffelFormula (kerrI unitConst.c G T 4 (Real.pi / 2)) (tabRT (kerrR unitConst.c G T 4 (Real.pi / 2)) (kerrTh unitConst.c G T 4 (Real.pi / 2))) := by
    intro G T; funext i j l; exact chSymLoops_eq _ _ _ _ _ _ _ _ _ _ _ _ _ _ _ i j l
  refine Eq.trans ?_ (congrArg (fun Γ => geodesicAccel Γ ![9, 0, 0, 1]) (e _ _)).symm
  refine (circular_accel _ _ _ _ ?_ ?_).symm
  · rw [exAl, unit_schRad, mul_one]
    show kerrR 1 2 1 4 (Real.pi / 2) 0 0 * 9 ^ 2 + (kerrR 1 2 1 4 (Real.pi / 2) 0 3 + kerrR 1 2 1 4 (Real.pi / 2) 3 0) * 9
      + kerrR 1 2 1 4 (Real.pi / 2) 3 3 = 0
    unfold kerrR
    rw [axi00, axi03, axi30, axi33, exTmp, Real.sin_pi_div_two]
    norm_num
  · rw [exAl, unit_schRad, mul_one]
    exact exTh 9

/-- The circular orbit the Kerr class has at the same place (its period differs, because of the wrong derivative). -/
example : Solves (Kerr.fVec unitConst (Kerr.new unitConst "BoyerLindquist" 1 1))
    (fun t => ![(1 + Real.sqrt 66) * t, 4, Real.pi / 2, t]) (fun _ => ![1 + Real.sqrt 66, 0, 0, 1]) := by
  intro t
  refine ⟨_, _, C45_kerr_rhs unitConst ((kerr_christoffels_iff unitConst).mpr ⟨exReg _ t, rfl⟩) _, circular_curve _ t, ?_⟩
  refine (hasDerivAt_const t _).congr_deriv ?_
  have e : ∀ G T, chSymLoops (kerrI unitConst.c G T 4 (Real.pi / 2)) (tabRT (kerrRcode unitConst.c G T 4 (Real.pi / 2)) (kerrTh unitConst.c G T 4 (Real.pi / 2)))
      = christoffelFormula (kerrI unitConst.c G T 4 (Real.pi / 2)) (tabRT (kerrRcode unitConst.c G T 4 (Real.pi / 2)) (kerrTh unitConst.c G T 4 (Real.pi / 2))) := by
    intro G T; funext i j l; exact chSymLoops_eq _ _ _ _ _ _ _ _ _ _ _ _ _ _ _ i j l
  refine Eq.trans ?_ (congrArg (fun Γ => geodesicAccel Γ ![1 + Real.sqrt 66, 0, 0, 1]) (e _ _)).symm
  refine (circular_accel _ _ _ _ ?_ ?_).symm
  · rw [exAl, unit_schRad, mul_one]
    show kerrRcode 1 2 1 4 (Real.pi / 2) 0 0 * (1 + Real.sqrt 66) ^ 2
      + (kerrRcode 1 2 1 4 (Real.pi / 2) 0 3 + kerrRcode 1 2 1 4 (Real.pi / 2) 3 0) * (1 + Real.sqrt 66)
      + kerrRcode 1 2 1 4 (Real.pi / 2) 3 3 = 0
    unfold kerrRcode
    rw [axi00, axi03, axi30, axi33, exTmp, Real.sin_pi_div_two]
    have h66 : Real.sqrt 66 ^ 2 = 66 := Real.sq_sqrt (by norm_num)
    linear_combination (1 / 8) * h66
  · rw [exAl, unit_schRad, mul_one]
    exact exTh _

end Einpy.Num
