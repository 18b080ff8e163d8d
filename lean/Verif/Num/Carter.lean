import Verif.Num.Conserved

/-!
# C117: the Carter constant of exact solutions

The fourth constant of motion of the Kerr geodesics, which belongs to no symmetry of the coordinates.
-/

set_option linter.unusedSimpArgs false

namespace Einpy.Num
open Classical

/-- Carter's constant `p_θ² + cos²θ (α² (N - p_t²/c²) + p_φ²/sin²θ)` of a velocity `v` at polar angle `th`, in a metric `g`;
`p_i = g_{ij} v^j`, `N = g_{ij} v^i v^j`. -/
noncomputable def carter (c al : ℝ) (g : Mat4) (v : Vec4) (th : ℝ) : ℝ :=
  (∑ j, g 2 j * v j) ^ 2 + Real.cos th ^ 2 *
    (al ^ 2 * ((∑ i, ∑ j, g i j * v i * v j) - (∑ j, g 0 j * v j) ^ 2 / c ^ 2) + (∑ j, g 3 j * v j) ^ 2 / Real.sin th ^ 2)

/-- The square of the total angular momentum `p_θ² + p_φ²/sin²θ`. -/
noncomputable def totalAngSq (g : Mat4) (v : Vec4) (th : ℝ) : ℝ :=
  (∑ j, g 2 j * v j) ^ 2 + (∑ j, g 3 j * v j) ^ 2 / Real.sin th ^ 2

/-! ## proofs -/

theorem carter_assemble {c al N E L P n e l p w t : ℝ} {fN fE fL fP fT : ℝ → ℝ} (hN : HasDerivAt fN n t) (hE : HasDerivAt fE e t)
    (hL : HasDerivAt fL l t) (hP : HasDerivAt fP p t) (hT : HasDerivAt fT w t) (hs : Real.sin (fT t) ≠ 0)
    (eN : fN t = N) (eE : fE t = E) (eL : fL t = L) (eP : fP t = P) :
    HasDerivAt (fun s => fP s ^ 2 + Real.cos (fT s) ^ 2 * (al ^ 2 * (fN s - fE s ^ 2 / c ^ 2) + fL s ^ 2 / Real.sin (fT s) ^ 2))
      (2 * P * p - 2 * Real.sin (fT t) * Real.cos (fT t) * al ^ 2 * (N - E ^ 2 / c ^ 2) * w
        - 2 * Real.cos (fT t) / Real.sin (fT t) ^ 3 * L ^ 2 * w
        + Real.cos (fT t) ^ 2 * (al ^ 2 * (n - 2 * E * e / c ^ 2) + 2 * L * l / Real.sin (fT t) ^ 2)) t := by
  have hc := hT.cos
  have hsn := hT.sin
  have h1 := hP.fun_pow 2
  have h2 := (hc.fun_pow 2).fun_mul (((hN.fun_sub ((hE.fun_pow 2).div_const (c ^ 2))).const_mul (al ^ 2)).fun_add
    ((hL.fun_pow 2).fun_div (hsn.fun_pow 2) (pow_ne_zero 2 hs)))
  refine (h1.fun_add h2).congr_deriv ?_
  rw [eN, eE, eL, eP]
  have hsc := Real.sin_sq_add_cos_sq (fT t)
  generalize Real.sin (fT t) = s at *
  generalize Real.cos (fT t) = co at *
  have hc2 : co ^ 2 = 1 - s ^ 2 := by linarith
  simp only [Nat.cast_ofNat, Nat.add_one_sub_one, pow_one]
  have e1 : (2 * co / s ^ 3 * L ^ 2 * w) = 2 * co * L ^ 2 * w * (s ^ 2 + co ^ 2) / s ^ 3 := by rw [hsc]; ring
  rw [e1]
  field_simp
  ring

/-- The identity behind the constant: the rate of `p_θ` is compensated by the change of `θ`. -/
theorem carter_identity (c rs al r th v0 v1 v2 v3 : ℝ) (hc : c ≠ 0) (hS : sigF al r th ≠ 0) (hD : delF rs al r ≠ 0)
    (hs : Real.sin th ≠ 0) :
    sigF al r th * (∑ a, ∑ b, kerrTh c rs al r th a b * (![v0, v1, v2, v3] : Vec4) a * (![v0, v1, v2, v3] : Vec4) b)
      + 2 * Real.sin th * Real.cos th * al ^ 2 * (normSq (kerrT c rs al r th) ![v0, v1, v2, v3]
          - momentum (kerrT c rs al r th) ![v0, v1, v2, v3] 0 ^ 2 / c ^ 2)
      + 2 * Real.cos th / Real.sin th ^ 3 * momentum (kerrT c rs al r th) ![v0, v1, v2, v3] 3 ^ 2 = 0 := by
  have hcs : Real.cos th ^ 2 = 1 - Real.sin th ^ 2 := by have := Real.sin_sq_add_cos_sq th; linarith
  have hr : r ^ 2 + al ^ 2 = sigF al r th + al ^ 2 * Real.sin th ^ 2 := by unfold sigF; rw [mul_pow, hcs]; ring
  unfold normSq momentum kerrTh kerrT
  simp only [Fin.sum_univ_four, axi00, axi01, axi02, axi03, axi10, axi11, axi12, axi13, axi20, axi21, axi22, axi23, axi30,
    axi31, axi32, axi33, Real.sin_two_mul]
  rw [show (![v0, v1, v2, v3] : Vec4) 0 = v0 from rfl, show (![v0, v1, v2, v3] : Vec4) 1 = v1 from rfl,
    show (![v0, v1, v2, v3] : Vec4) 2 = v2 from rfl, show (![v0, v1, v2, v3] : Vec4) 3 = v3 from rfl, hr]
  generalize sigF al r th = S at *
  generalize delF rs al r = D at *
  generalize Real.sin th = s at *
  generalize Real.cos th = co at *
  field_simp
  ring

/-- Rate of change of Carter's constant along a curve whose acceleration is built from a table that may be wrong in
`∂_r g_φφ`. -/
theorem carter_deriv {c rs al : ℝ} {P : Mat4} {X V : ℝ → Vec4} {t : ℝ} (hc : c ≠ 0) (hS : sigF al (X t 1) (X t 2) ≠ 0)
    (hD : delF rs al (X t 1) ≠ 0) (hs : Real.sin (X t 2) ≠ 0)
    (hP : ∀ i j : Fin 4, (i, j) ≠ (3, 3) → P i j = kerrR c rs al (X t 1) (X t 2) i j)
    (hX : HasDerivAt X (V t) t)
    (hV : HasDerivAt V (geodesicAccel (christoffelFormula (kerrI c rs al (X t 1) (X t 2))
      (tabRT P (kerrTh c rs al (X t 1) (X t 2)))) (V t)) t) :
    HasDerivAt (fun s => carter c al (kerrT c rs al (X s 1) (X s 2)) (V s) (X s 2))
      (Real.cos (X t 2) ^ 2 * (kerrR c rs al (X t 1) (X t 2) 3 3 - P 3 3) * V t 1 * V t 3 *
        (al ^ 2 * V t 3 + 2 * (∑ j, kerrT c rs al (X t 1) (X t 2) 3 j * V t j) / Real.sin (X t 2) ^ 2)) t := by
  have key := fun i => momentum_deriv (G := fun y => kerrT c rs al (y 1) (y 2)) i
    (kerrT_diff _ _ _ hS hD) (kerrT_hasPartials c _ _ hS hD) (kerrI_mul hc hS hD hs) hX hV
  have hN := normSq_deriv (G := fun y => kerrT c rs al (y 1) (y 2)) (axi_symm _ _ _ _ _)
    (kerrT_diff _ _ _ hS hD) (kerrT_hasPartials c _ _ hS hD) (kerrI_mul hc hS hD hs) hX hV
  have e := hP
  have h0 := (key 0).congr_deriv (g' := 0) (by
    simp only [Fin.sum_univ_four, tabRT0, tabRT1, tabRT2, tabRT3]
    rw [e 0 0 (by decide), e 0 1 (by decide), e 0 2 (by decide), e 0 3 (by decide)]
    ring)
  have h3 := (key 3).congr_deriv (g' := (kerrR c rs al (X t 1) (X t 2) 3 3 - P 3 3) * V t 1 * V t 3) (by
    simp only [Fin.sum_univ_four, tabRT0, tabRT1, tabRT2, tabRT3]
    rw [e 3 0 (by decide), e 3 1 (by decide), e 3 2 (by decide)]
    ring)
  have h2 := (key 2).congr_deriv (g' := 1 / 2 * ∑ a, ∑ b, kerrTh c rs al (X t 1) (X t 2) a b * V t a * V t b) (by
    have sy : ∀ i j, kerrR c rs al (X t 1) (X t 2) i j = kerrR c rs al (X t 1) (X t 2) j i := axi_symm _ _ _ _ _
    have st : ∀ i j, kerrTh c rs al (X t 1) (X t 2) i j = kerrTh c rs al (X t 1) (X t 2) j i := axi_symm _ _ _ _ _
    simp only [Fin.sum_univ_four, tabRT0, tabRT1, tabRT2, tabRT3]
    rw [e 2 0 (by decide), e 2 1 (by decide), e 2 2 (by decide), e 2 3 (by decide)]
    rw [sy 2 0, sy 2 1, sy 2 3, st 2 0, st 2 1, st 2 3]
    ring)
  have hn := hN.congr_deriv (g' := (kerrR c rs al (X t 1) (X t 2) 3 3 - P 3 3) * V t 1 * V t 3 * V t 3) (by
    unfold cubic
    simp only [Fin.sum_univ_four, tabRT0, tabRT1, tabRT2, tabRT3]
    rw [e 0 0 (by decide), e 0 1 (by decide), e 0 2 (by decide), e 0 3 (by decide), e 1 0 (by decide), e 1 1 (by decide),
      e 1 2 (by decide), e 1 3 (by decide), e 2 0 (by decide), e 2 1 (by decide), e 2 2 (by decide), e 2 3 (by decide),
      e 3 0 (by decide), e 3 1 (by decide), e 3 2 (by decide)]
    ring)
  have hth : HasDerivAt (fun s => X s 2) (V t 2) t := hasDerivAt_pi.mp hX 2
  refine (carter_assemble (c := c) (al := al) hn h0 h3 h2 hth hs rfl rfl rfl rfl).congr_deriv ?_
  have hv : V t = ![V t 0, V t 1, V t 2, V t 3] := by funext i; fin_cases i <;> rfl
  have hid := carter_identity c rs al (X t 1) (X t 2) (V t 0) (V t 1) (V t 2) (V t 3) hc hS hD hs
  rw [← hv] at hid
  have hp2 : momentum (kerrT c rs al (X t 1) (X t 2)) (V t) 2 = -sigF al (X t 1) (X t 2) * V t 2 := by
    unfold momentum kerrT
    simp only [Fin.sum_univ_four, axi20, axi21, axi22, axi23]
    ring
  rw [hp2]
  show _ = Real.cos (X t 2) ^ 2 * (kerrR c rs al (X t 1) (X t 2) 3 3 - P 3 3) * V t 1 * V t 3 *
        (al ^ 2 * V t 3 + 2 * momentum (kerrT c rs al (X t 1) (X t 2)) (V t) 3 / Real.sin (X t 2) ^ 2)
  linear_combination (-V t 2) * hid

variable (k : PhysConst)

/-- **C117**: along every exact solution of the Kerr-Newman right-hand side for a neutral test particle, Carter's constant,
formed with the metric the object returns and the length `alpha`, has the same value at all times. -/
theorem C117_kn_neutral_carter {M a Q : ℝ} {X V : ℝ → Vec4}
    (h : Solves (KerrNewman.fVec k (KerrNewman.new k "BoyerLindquist" M a Q 0)) X V) (s t : ℝ) :
    ∃ al gs gt, alpha k M a = .ok al ∧
      KerrNewman.metricCovariant k (KerrNewman.new k "BoyerLindquist" M a Q 0) (X s) = .ok gs ∧
      KerrNewman.metricCovariant k (KerrNewman.new k "BoyerLindquist" M a Q 0) (X t) = .ok gt ∧
      carter k.c al gs (V s) (X s 2) = carter k.c al gt (V t) (X t 2) := by
  have key : ∀ t, Reg k M a (X t) ∧ KerrNewman.metricCovariant k (KerrNewman.new k "BoyerLindquist" M a Q 0) (X t) =
      .ok (kerrT k.c (schwarzschildRadius k M) (alF k M a) (X t 1) (X t 2)) ∧
      HasDerivAt (fun s => carter k.c (alF k M a) (kerrT k.c (schwarzschildRadius k M) (alF k M a) (X s 1) (X s 2)) (V s) (X s 2)) 0 t := by
    intro t
    obtain ⟨dX, dV, hf, hX, hV⟩ := h t
    obtain ⟨Γ, hΓ⟩ := kn_fvec_christoffels k hf
    rw [C70_kn_rhs_neutral k hΓ] at hf
    obtain ⟨rfl, rfl⟩ := Prod.mk.inj (Except.ok.inj hf)
    obtain ⟨hr, rfl⟩ := (kn_christoffels_iff k).mp hΓ
    refine ⟨hr, kn_metric_reg k hr, ?_⟩
    have hV' : HasDerivAt V (geodesicAccel (christoffelFormula (kerrI k.c (schwarzschildRadius k M) (alF k M a) (X t 1) (X t 2))
        (tabRT (kerrR k.c (schwarzschildRadius k M) (alF k M a) (X t 1) (X t 2))
          (kerrTh k.c (schwarzschildRadius k M) (alF k M a) (X t 1) (X t 2)))) (V t)) t := by
      refine hV.congr_deriv ?_
      congr 1
      funext i j l
      exact chSymLoops_eq _ _ _ _ _ _ _ _ _ _ _ _ _ _ _ i j l
    refine (carter_deriv k.c_pos.ne' hr.2.1 hr.2.2.1 hr.2.2.2 (fun _ _ _ => rfl) hX hV').congr_deriv ?_
    ring
  refine ⟨_, _, _, alpha_ok k (key s).1.1, (key s).2.1, (key t).2.1, ?_⟩
  exact is_const_of_deriv_eq_zero (fun t => (key t).2.2.differentiableAt) (fun t => (key t).2.2.deriv) s t

/-- **C117 is false of Kerr in this commit**: wherever a curve obeys the right-hand side, Carter's constant changes at the rate
`cos²θ · δ · v^r v^φ (α² v^φ + 2 p_φ/sin²θ)` with the error `δ = -2 α² sin⁴θ · r_s (Σ - 2r²)/Σ²` of `∂_r g_φφ`. -/
theorem C117_refuted_kerr_drift {M a : ℝ} {X V : ℝ → Vec4} {t : ℝ}
    (h : ObeysAt (Kerr.fVec k (Kerr.new k "BoyerLindquist" M a)) X V t) :
    ∃ G al S, ReturnsNear (Kerr.metricCovariant k (Kerr.new k "BoyerLindquist" M a)) G (X t) ∧
      alpha k M a = .ok al ∧ sigma k (X t 1) (X t 2) M a = .ok S ∧ S ≠ 0 ∧
      HasDerivAt (fun s => carter k.c al (G (X s)) (V s) (X s 2))
        (Real.cos (X t 2) ^ 2 * -(2 * al ^ 2 * Real.sin (X t 2) ^ 4 * ((2 * k.G * M / k.c ^ 2) * (S - 2 * X t 1 ^ 2) / S ^ 2))
          * V t 1 * V t 3 * (al ^ 2 * V t 3 + 2 * (∑ j, G (X t) 3 j * V t j) / Real.sin (X t 2) ^ 2)) t := by
  obtain ⟨dX, dV, hf, hX, hV⟩ := h
  have hc : ∃ Γ, Kerr.christoffels k (Kerr.new k "BoyerLindquist" M a) (X t) = .ok Γ := by
    cases e : Kerr.christoffels k (Kerr.new k "BoyerLindquist" M a) (X t) with
    | error e' => rw [(C45_kerr_rhs_error k _ _ _ e').mpr e] at hf; cases hf
    | ok Γ => exact ⟨Γ, rfl⟩
  obtain ⟨Γ, hΓ⟩ := hc
  rw [C45_kerr_rhs k hΓ] at hf
  obtain ⟨rfl, rfl⟩ := Prod.mk.inj (Except.ok.inj hf)
  obtain ⟨hr, rfl⟩ := (kerr_christoffels_iff k).mp hΓ
  refine ⟨_, _, _, kerr_near k hr.1 hr.2.1 hr.2.2.1, alpha_ok k hr.1, sigma_ok k hr.1 _ _, hr.2.1, ?_⟩
  have hV' : HasDerivAt V (geodesicAccel (christoffelFormula (kerrI k.c (schwarzschildRadius k M) (alF k M a) (X t 1) (X t 2))
      (tabRT (kerrRcode k.c (schwarzschildRadius k M) (alF k M a) (X t 1) (X t 2))
        (kerrTh k.c (schwarzschildRadius k M) (alF k M a) (X t 1) (X t 2)))) (V t)) t := by
    refine hV.congr_deriv ?_
    congr 1
    funext i j l
    exact chSymLoops_eq _ _ _ _ _ _ _ _ _ _ _ _ _ _ _ i j l
  refine (carter_deriv k.c_pos.ne' hr.2.1 hr.2.2.1 hr.2.2.2 (kerrRcode_eq _ _ _ _ _) hX hV').congr_deriv ?_
  have e : kerrR k.c (schwarzschildRadius k M) (alF k M a) (X t 1) (X t 2) 3 3 -
      kerrRcode k.c (schwarzschildRadius k M) (alF k M a) (X t 1) (X t 2) 3 3 =
      -(2 * alF k M a ^ 2 * Real.sin (X t 2) ^ 4 * ((2 * k.G * M / k.c ^ 2) * (sigF (alF k M a) (X t 1) (X t 2) - 2 * X t 1 ^ 2)
        / sigF (alF k M a) (X t 1) (X t 2) ^ 2)) := by
    rw [show kerrR k.c (schwarzschildRadius k M) (alF k M a) (X t 1) (X t 2) 3 3 = -((2 * X t 1 + (alF k M a * Real.sin (X t 2)) ^ 2 * tmpF _ _ _ _) * Real.sin (X t 2) ^ 2) from rfl,
      show kerrRcode k.c (schwarzschildRadius k M) (alF k M a) (X t 1) (X t 2) 3 3 = (-2 * X t 1 + (alF k M a * Real.sin (X t 2)) ^ 2 * tmpF _ _ _ _) * Real.sin (X t 2) ^ 2 from rfl]
    unfold tmpF
    rw [show 2 * k.G * M / k.c ^ 2 = schwarzschildRadius k M from rfl]
    ring
  rw [e]

/-- **C117**: along every exact solution of the Schwarzschild right-hand side the square of the total angular momentum has the
same value at all times. -/
theorem C117_schwarzschild_total {M : ℝ} {X V : ℝ → Vec4}
    (h : Solves (Schwarzschild.fVec k (Schwarzschild.new k "Spherical" M)) X V) (s t : ℝ) :
    ∃ gs gt, Schwarzschild.metricCovariant k (Schwarzschild.new k "Spherical" M) (X s) = .ok gs ∧
      Schwarzschild.metricCovariant k (Schwarzschild.new k "Spherical" M) (X t) = .ok gt ∧
      totalAngSq gs (V s) (X s 2) = totalAngSq gt (V t) (X t 2) := by
  have key : ∀ t, Schwarzschild.metricCovariant k (Schwarzschild.new k "Spherical" M) (X t) =
      .ok (schT k.c (schwarzschildRadius k M) (X t 1) (X t 2)) ∧
      HasDerivAt (fun s => totalAngSq (schT k.c (schwarzschildRadius k M) (X s 1) (X s 2)) (V s) (X s 2)) 0 t := by
    intro t
    obtain ⟨dX, dV, hf, hX, hV⟩ := h t
    have hc : ∃ Γ, Schwarzschild.christoffels k (Schwarzschild.new k "Spherical" M) (X t) = .ok Γ := by
      cases e : Schwarzschild.christoffels k (Schwarzschild.new k "Spherical" M) (X t) with
      | error e' => rw [(C45_schwarzschild_rhs_error k _ _ _ e').mpr e] at hf; cases hf
      | ok Γ => exact ⟨Γ, rfl⟩
    obtain ⟨Γ, hΓ⟩ := hc
    rw [C45_schwarzschild_rhs k hΓ] at hf
    obtain ⟨rfl, rfl⟩ := Prod.mk.inj (Except.ok.inj hf)
    obtain ⟨G, hG, hL⟩ := C42_schwarzschild_levi_civita k hΓ
    rw [sch_christoffels] at hΓ
    split_ifs at hΓ with hcnd
    push Not at hcnd
    have h4 := (sch_conds hcnd.1).mp hcnd.2.1
    refine ⟨(sch_near k hcnd.1 h4).self_of_nhds, ?_⟩
    obtain ⟨dG, Gi, h1, h2, h3⟩ := lc_congr (returnsNear_unique hG (sch_near k hcnd.1 h4)) hL
    have hdG : dG = tabRT (schR k.c (schwarzschildRadius k M) (X t 1) (X t 2)) (schTh (X t 1) (X t 2)) := by
      funext c i j
      exact (h1 c i j).unique (schT_hasPartials k.c _ hcnd.1 h4 c i j)
    have hΓ' : Γ = christoffelFormula Gi dG := by funext i k l; exact h3 i k l
    rw [hΓ', hdG] at hV
    have key := fun i => momentum_deriv (G := fun y => schT k.c (schwarzschildRadius k M) (y 1) (y 2)) i
      (schT_diff _ _ hcnd.1 h4) (schT_hasPartials k.c _ hcnd.1 h4) h2 hX hV
    have hs : Real.sin (X t 2) ≠ 0 := hcnd.2.2
    have hL := (key 3).congr_deriv (g' := 0) (by
      unfold schR schTh
      simp only [Fin.sum_univ_four, tabRT0, tabRT1, tabRT2, tabRT3, axi30, axi31, axi32, axi33, axi00, axi01, axi02, axi03,
        axi10, axi11, axi12, axi13, axi20, axi21, axi22, axi23]
      ring)
    have hP := (key 2).congr_deriv (g' := -(X t 1 ^ 2 * Real.sin (X t 2) * Real.cos (X t 2)) * V t 3 ^ 2) (by
      unfold schR schTh
      simp only [Fin.sum_univ_four, tabRT0, tabRT1, tabRT2, tabRT3, axi30, axi31, axi32, axi33, axi00, axi01, axi02, axi03,
        axi10, axi11, axi12, axi13, axi20, axi21, axi22, axi23]
      ring)
    have hth : HasDerivAt (fun s => X s 2) (V t 2) t := hasDerivAt_pi.mp hX 2
    have h5 := (hP.fun_pow 2).fun_add ((hL.fun_pow 2).fun_div (hth.sin.fun_pow 2) (pow_ne_zero 2 hs))
    refine h5.congr_deriv ?_
    have e2 : momentum (schT k.c (schwarzschildRadius k M) (X t 1) (X t 2)) (V t) 2 = -(X t 1 ^ 2) * V t 2 := by
      unfold momentum schT
      simp only [Fin.sum_univ_four, axi20, axi21, axi22, axi23]
      ring
    have e3 : momentum (schT k.c (schwarzschildRadius k M) (X t 1) (X t 2)) (V t) 3 = -((X t 1 * Real.sin (X t 2)) ^ 2) * V t 3 := by
      unfold momentum schT
      simp only [Fin.sum_univ_four, axi30, axi31, axi32, axi33]
      ring
    rw [e2, e3]
    generalize Real.sin (X t 2) = s at *
    field_simp
    simp
    ring
  refine ⟨_, _, (key s).1, (key t).1, ?_⟩
  exact is_const_of_deriv_eq_zero (fun t => (key t).2.differentiableAt) (fun t => (key t).2.deriv) s t

/-- A state of the Kerr class with spin 1/2 at which Carter's constant is not stationary. -/
theorem C117_refuted_kerr_not_conserved :
    ∃ x v dx dv, Kerr.fVec unitConst (Kerr.new unitConst "BoyerLindquist" 1 (1 / 2)) x v = .ok (dx, dv) ∧
      ∀ X V : ℝ → Vec4, X 0 = x → V 0 = v → HasDerivAt X dx 0 → HasDerivAt V dv 0 →
        ∃ G, ReturnsNear (Kerr.metricCovariant unitConst (Kerr.new unitConst "BoyerLindquist" 1 (1 / 2))) G x ∧
          ∃ d, d ≠ 0 ∧ HasDerivAt (fun s => carter 1 (1 / 2) (G (X s)) (V s) (X s 2)) d 0 := by
  have hal : alF unitConst 1 (1 / 2) = 1 / 2 := by
    show (1 / 2 : ℝ) * (1 * 1 / 1 ^ 2) = 1 / 2
    norm_num
  have hs2 : Real.sin (Real.pi / 4) ^ 2 = 1 / 2 := by
    rw [Real.sin_pi_div_four, div_pow, Real.sq_sqrt (by norm_num)]; norm_num
  have hc2 : Real.cos (Real.pi / 4) ^ 2 = 1 / 2 := by
    rw [Real.cos_pi_div_four, div_pow, Real.sq_sqrt (by norm_num)]; norm_num
  have hS : sigF (1 / 2) 10 (Real.pi / 4) = 801 / 8 := by
    rw [sigF, mul_pow, hc2]; norm_num
  have hr : Reg unitConst 1 (1 / 2) ![0, 10, Real.pi / 4, 0] := by
    refine ⟨by norm_num, ?_, ?_, ?_⟩
    · show sigF _ 10 (Real.pi / 4) ≠ 0
      rw [hal, hS]; norm_num
    · show delF _ _ 10 ≠ 0
      rw [hal, unit_schRad, delF]; norm_num
    · show Real.sin (Real.pi / 4) ≠ 0
      intro h; rw [h] at hs2; norm_num at hs2
  refine ⟨![0, 10, Real.pi / 4, 0], ![0, 1, 0, 1], _, _,
    C45_kerr_rhs unitConst ((kerr_christoffels_iff unitConst).mpr ⟨hr, rfl⟩) _, ?_⟩
  intro X V hX0 hV0 hX hV
  have ho : ObeysAt (Kerr.fVec unitConst (Kerr.new unitConst "BoyerLindquist" 1 (1 / 2))) X V 0 := by
    refine ⟨_, _, ?_, hX, hV⟩
    rw [hX0, hV0]
    exact C45_kerr_rhs unitConst ((kerr_christoffels_iff unitConst).mpr ⟨hr, rfl⟩) _
  obtain ⟨G, al, S, hG, h1, h2, h3, h4⟩ := C117_refuted_kerr_drift unitConst ho
  rw [hX0] at hG h2
  rw [alpha_ok unitConst hr.1] at h1
  rw [sigma_ok unitConst hr.1] at h2
  have e1 : al = 1 / 2 := by rw [← Except.ok.inj h1, hal]
  have e2 : S = 801 / 8 := by
    rw [← Except.ok.inj h2, hal]; exact hS
  have e3 : G ![0, 10, Real.pi / 4, 0] = kerrT unitConst.c (schwarzschildRadius unitConst 1) (alF unitConst 1 (1 / 2)) 10 (Real.pi / 4) :=
    Except.ok.inj (hG.self_of_nhds.symm.trans (kerr_near unitConst hr.1 hr.2.1 hr.2.2.1).self_of_nhds)
  rw [e1] at h4
  refine ⟨G, hG, _, ?_, h4⟩
  rw [e2, hX0, hV0, e3, hal, unit_schRad]
  show Real.cos (Real.pi / 4) ^ 2 * -(2 * (1 / 2 : ℝ) ^ 2 * Real.sin (Real.pi / 4) ^ 4 *
    ((2 * 1 * 1 / 1 ^ 2) * (801 / 8 - 2 * 10 ^ 2) / (801 / 8) ^ 2)) * 1 * 1 *
    ((1 / 2) ^ 2 * 1 + 2 * (∑ j, kerrT 1 (2 * 1) (1 / 2) 10 (Real.pi / 4) 3 j * (![0, 1, 0, 1] : Vec4) j) / Real.sin (Real.pi / 4) ^ 2) ≠ 0
  unfold kerrT
  simp only [Fin.sum_univ_four, axi30, axi31, axi32, axi33]
  rw [show (![0, 1, 0, 1] : Vec4) 0 = 0 from rfl, show (![0, 1, 0, 1] : Vec4) 3 = 1 from rfl, hS, mul_pow,
    show Real.sin (Real.pi / 4) ^ 4 = (Real.sin (Real.pi / 4) ^ 2) ^ 2 by ring, hs2, hc2]
  norm_num

/-! ### The hypotheses are met

Solutions: the circular orbits in `Num/Props2` and `Num/Conserved`.  The constant is not trivially zero: -/

example : carter 1 1 (kerrT 1 2 1 4 (Real.pi / 4)) ![0, 0, 1, 0] (Real.pi / 4) ≠ 0 := by
  have hc2 : Real.cos (Real.pi / 4) ^ 2 = 1 / 2 := by
    rw [Real.cos_pi_div_four, div_pow, Real.sq_sqrt (by norm_num)]; norm_num
  have hS : sigF 1 4 (Real.pi / 4) = 33 / 2 := by rw [sigF, mul_pow, hc2]; norm_num
  unfold carter kerrT
  simp [Fin.sum_univ_four, axi, hS, hc2]
  norm_num [div_pow]

end Einpy.Num
