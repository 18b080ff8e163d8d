import Mathlib.Analysis.Calculus.MeanValue
import Verif.Num.Props

/-!
# Properties C45, C46, C68, C69: geodesic right-hand sides and the Kerr-Newman metric
-/

set_option linter.unusedSimpArgs false
set_option linter.unusedVariables false

namespace Einpy.Num
open Classical Topology

variable (k : PhysConst)

/-! ## C45 -/

/-- The four lines of `_f_vec` sum over all index pairs, for tables with the zeros and symmetries of `chSymLoops`. -/
theorem accel_eq (gc : Mat4) (dg : Tab3) (v : Vec4) : accel (chSymLoops gc dg) v = geodesicAccel (chSymLoops gc dg) v := by
  have hz := chSym_zero gc dg
  have hs := chSym_symm gc dg
  generalize chSymLoops gc dg = Γ at *
  have z : ∀ i j l, (i, j, l) ∉ nonzeroListBl → Γ i j l = 0 := hz
  funext i
  unfold geodesicAccel
  simp only [Fin.sum_univ_four]
  revert i
  refine fin4_cases ?_ ?_ ?_ ?_
  · refine Eq.trans (show _ = -2 * (Γ 0 0 1 * v 0 * v 1 + Γ 0 0 2 * v 0 * v 2 + Γ 0 1 3 * v 1 * v 3 + Γ 0 2 3 * v 2 * v 3) from rfl) ?_
    rw [z 0 0 0 (by decide), z 0 0 3 (by decide), z 0 1 1 (by decide), z 0 1 2 (by decide), z 0 2 1 (by decide),
      z 0 2 2 (by decide), z 0 3 0 (by decide), z 0 3 3 (by decide), hs 0 1 0, hs 0 2 0, hs 0 3 1, hs 0 3 2]
    ring
  · refine Eq.trans (show _ = -1 * (Γ 1 0 0 * v 0 * v 0 + 2 * Γ 1 0 3 * v 0 * v 3 + Γ 1 1 1 * v 1 * v 1
      + 2 * Γ 1 1 2 * v 1 * v 2 + Γ 1 2 2 * v 2 * v 2 + Γ 1 3 3 * v 3 * v 3) from rfl) ?_
    rw [z 1 0 1 (by decide), z 1 0 2 (by decide), z 1 1 0 (by decide), z 1 1 3 (by decide), z 1 2 0 (by decide),
      z 1 2 3 (by decide), z 1 3 1 (by decide), z 1 3 2 (by decide), hs 1 3 0, hs 1 2 1]
    ring
  · refine Eq.trans (show _ = -1 * (Γ 2 0 0 * v 0 * v 0 + 2 * Γ 2 0 3 * v 0 * v 3 + Γ 2 1 1 * v 1 * v 1
      + 2 * Γ 2 1 2 * v 1 * v 2 + Γ 2 2 2 * v 2 * v 2 + Γ 2 3 3 * v 3 * v 3) from rfl) ?_
    rw [z 2 0 1 (by decide), z 2 0 2 (by decide), z 2 1 0 (by decide), z 2 1 3 (by decide), z 2 2 0 (by decide),
      z 2 2 3 (by decide), z 2 3 1 (by decide), z 2 3 2 (by decide), hs 2 3 0, hs 2 2 1]
    ring
  · refine Eq.trans (show _ = -2 * (Γ 3 0 1 * v 0 * v 1 + Γ 3 0 2 * v 0 * v 2 + Γ 3 1 3 * v 1 * v 3 + Γ 3 2 3 * v 2 * v 3) from rfl) ?_
    rw [z 3 0 0 (by decide), z 3 0 3 (by decide), z 3 1 1 (by decide), z 3 1 2 (by decide), z 3 2 1 (by decide),
      z 3 2 2 (by decide), z 3 3 0 (by decide), z 3 3 3 (by decide), hs 3 1 0, hs 3 2 0, hs 3 3 1, hs 3 3 2]
    ring

/-- **C45**: the right-hand side of Kerr is `(v, -Γ v v)`, summed over all index pairs, for the symbols it computes. -/
theorem C45_kerr_rhs {M a : ℝ} {x : Vec4} {Γ : Tab3}
    (h : Kerr.christoffels k (Kerr.new k "BoyerLindquist" M a) x = .ok Γ) (v : Vec4) :
    Kerr.fVec k (Kerr.new k "BoyerLindquist" M a) x v = .ok (v, geodesicAccel Γ v) := by
  have e : (Kerr.new k "BoyerLindquist" M a).system = "BoyerLindquist" := rfl
  unfold Kerr.fVec Kerr.fVecBl
  rw [if_pos e, h]
  obtain ⟨_, rfl⟩ := (kerr_christoffels_iff k).mp h
  simp only [bind, Except.bind, pure, Except.pure]
  rw [accel_eq]

/-- It fails exactly when the symbols cannot be computed, with the same exception. -/
theorem C45_kerr_rhs_error (m : NumMetric) (x v : Vec4) (e : PyErr) :
    Kerr.fVec k m x v = .error e ↔ Kerr.christoffels k m x = .error e := by
  unfold Kerr.fVec Kerr.fVecBl
  split_ifs with hs
  · cases h : Kerr.christoffels k m x <;> simp [bind, Except.bind, pure, Except.pure]
  · unfold Kerr.christoffels; rw [if_neg hs]; constructor <;> intro h <;> cases h <;> rfl

theorem C45_schwarzschild_rhs {M : ℝ} {x : Vec4} {Γ : Tab3}
    (h : Schwarzschild.christoffels k (Schwarzschild.new k "Spherical" M) x = .ok Γ) (v : Vec4) :
    Schwarzschild.fVec k (Schwarzschild.new k "Spherical" M) x v = .ok (v, geodesicAccel Γ v) := by
  have e : (Schwarzschild.new k "Spherical" M).system = "Spherical" := rfl
  unfold Schwarzschild.fVec Schwarzschild.fVecS
  rw [if_pos e, h]
  rw [sch_christoffels] at h
  split_ifs at h with hc
  rw [← Except.ok.inj h]
  clear h
  simp only [bind, Except.bind, pure, Except.pure]
  refine congrArg Except.ok (Prod.ext rfl ?_)
  generalize hA : -(0.5 * schwarzschildRadius k M / (schwarzschildRadius k M * x 1 - x 1 ^ 2)) = A0
  funext i
  unfold geodesicAccel
  simp only [Fin.sum_univ_four]
  generalize hΓ : schChl k.c (schwarzschildRadius k M) (x 1) (x 2) = Γ
  have z : ∀ i j l, (i, j, l) ∉ ([(0, 0, 1), (0, 1, 0), (1, 0, 0), (1, 1, 1), (1, 2, 2), (1, 3, 3), (2, 1, 2), (2, 2, 1),
      (2, 3, 3), (3, 1, 3), (3, 3, 1), (3, 2, 3), (3, 3, 2)] : List (Fin 4 × Fin 4 × Fin 4)) → Γ i j l = 0 := by
    rw [← hΓ]
    intro i j l
    fin_cases i <;> fin_cases j <;> fin_cases l <;> first | exact fun h => absurd (by decide) h | exact fun _ => rfl
  have s1 : Γ 0 1 0 = Γ 0 0 1 := by
    rw [← hΓ]
    exact Eq.trans (show _ = -(0.5 * schwarzschildRadius k M / (schwarzschildRadius k M * x 1 - x 1 ^ 2)) from rfl) (show _ = _ from rfl)
  have s2 : Γ 2 1 2 = Γ 2 2 1 := by
    rw [← hΓ]; exact Eq.trans (show _ = 1 / x 1 from rfl) (show _ = _ from rfl)
  have s3 : Γ 3 1 3 = Γ 3 3 1 := by
    rw [← hΓ]; exact Eq.trans (show _ = 1 / x 1 from rfl) (show _ = _ from rfl)
  have s4 : Γ 3 2 3 = Γ 3 3 2 := by
    rw [← hΓ]; exact Eq.trans (show _ = Real.cos (x 2) / Real.sin (x 2) from rfl) (show _ = _ from rfl)
  revert i
  refine fin4_cases ?_ ?_ ?_ ?_
  · refine Eq.trans (show _ = -2 * Γ 0 0 1 * v 0 * v 1 from rfl) ?_
    rw [z 0 0 0 (by decide), z 0 0 3 (by decide), z 0 1 1 (by decide), z 0 1 2 (by decide), z 0 2 1 (by decide),
      z 0 2 2 (by decide), z 0 3 0 (by decide), z 0 3 3 (by decide), z 0 0 2 (by decide), z 0 2 0 (by decide),
      z 0 1 3 (by decide), z 0 3 1 (by decide), z 0 2 3 (by decide), z 0 3 2 (by decide), s1]
    ring
  · refine Eq.trans (show _ = -1 * (Γ 1 0 0 * v 0 ^ 2 + Γ 1 1 1 * v 1 ^ 2 + Γ 1 2 2 * v 2 ^ 2 + Γ 1 3 3 * v 3 ^ 2) from rfl) ?_
    rw [z 1 0 1 (by decide), z 1 0 2 (by decide), z 1 1 0 (by decide), z 1 1 3 (by decide), z 1 2 0 (by decide),
      z 1 2 3 (by decide), z 1 3 1 (by decide), z 1 3 2 (by decide), z 1 0 3 (by decide), z 1 3 0 (by decide),
      z 1 1 2 (by decide), z 1 2 1 (by decide)]
    ring
  · refine Eq.trans (show _ = -2 * Γ 2 2 1 * v 2 * v 1 - 1 * Γ 2 3 3 * v 3 ^ 2 from rfl) ?_
    rw [z 2 0 1 (by decide), z 2 0 2 (by decide), z 2 1 0 (by decide), z 2 1 3 (by decide), z 2 2 0 (by decide),
      z 2 2 3 (by decide), z 2 3 1 (by decide), z 2 3 2 (by decide), z 2 0 0 (by decide), z 2 1 1 (by decide),
      z 2 2 2 (by decide), z 2 0 3 (by decide), z 2 3 0 (by decide), s2]
    ring
  · refine Eq.trans (show _ = -2 * (Γ 3 3 1 * v 3 * v 1 + Γ 3 3 2 * v 3 * v 2) from rfl) ?_
    rw [z 3 0 0 (by decide), z 3 0 3 (by decide), z 3 1 1 (by decide), z 3 1 2 (by decide), z 3 2 1 (by decide),
      z 3 2 2 (by decide), z 3 3 0 (by decide), z 3 3 3 (by decide), z 3 0 1 (by decide), z 3 1 0 (by decide),
      z 3 0 2 (by decide), z 3 2 0 (by decide), s3, s4]
    ring

theorem C45_schwarzschild_rhs_error (m : NumMetric) (x v : Vec4) (e : PyErr) :
    Schwarzschild.fVec k m x v = .error e ↔ Schwarzschild.christoffels k m x = .error e := by
  unfold Schwarzschild.fVec Schwarzschild.fVecS
  split_ifs with hs
  · cases h : Schwarzschild.christoffels k m x <;> simp [bind, Except.bind, pure, Except.pure]
  · unfold Schwarzschild.christoffels; rw [if_neg hs]; constructor <;> intro h <;> cases h <;> rfl

theorem diff_axi {A B C D E : Vec4 → ℝ} {x : Vec4} (hA : DifferentiableAt ℝ A x) (hB : DifferentiableAt ℝ B x)
    (hC : DifferentiableAt ℝ C x) (hD : DifferentiableAt ℝ D x) (hE : DifferentiableAt ℝ E x) :
    ∀ i j, DifferentiableAt ℝ (fun y => axi (A y) (B y) (C y) (D y) (E y) i j) x := by
  have z : DifferentiableAt ℝ (fun _ : Vec4 => (0 : ℝ)) x := differentiableAt_const _
  exact fin4_cases (fin4_cases hA z z hB) (fin4_cases z hC z z) (fin4_cases z z hD z) (fin4_cases hB z z hE)

theorem diff_div {f g : Vec4 → ℝ} {x : Vec4} (hf : DifferentiableAt ℝ f x) (hg : DifferentiableAt ℝ g x) (h : g x ≠ 0) :
    DifferentiableAt ℝ (fun y => f y / g y) x := by
  simp only [div_eq_mul_inv]
  exact hf.mul (hg.inv h)

theorem schT_diff (c rs : ℝ) {x : Vec4} (hr : x 1 ≠ 0) (ht : 1 - rs / x 1 ≠ 0) :
    ∀ i j, DifferentiableAt ℝ (fun y : Vec4 => schT c rs (y 1) (y 2) i j) x := by
  have p1 : DifferentiableAt ℝ (fun y : Vec4 => y 1) x := differentiableAt_apply 1 x
  have p2 : DifferentiableAt ℝ (fun y : Vec4 => y 2) x := differentiableAt_apply 2 x
  have t : DifferentiableAt ℝ (fun y : Vec4 => 1 - rs / y 1) x :=
    (differentiableAt_const _).sub (diff_div (differentiableAt_const _) p1 (by exact hr))
  refine diff_axi (t.mul_const _) (differentiableAt_const _) (diff_div (differentiableAt_const _) t (by exact ht)) (p1.pow 2).neg ?_
  exact ((p1.mul p2.sin).pow 2).neg

theorem kerrT_diff (c rs al : ℝ) {x : Vec4} (hs : sigF al (x 1) (x 2) ≠ 0) (hd : delF rs al (x 1) ≠ 0) :
    ∀ i j, DifferentiableAt ℝ (fun y : Vec4 => kerrT c rs al (y 1) (y 2) i j) x := by
  have p1 : DifferentiableAt ℝ (fun y : Vec4 => y 1) x := differentiableAt_apply 1 x
  have p2 : DifferentiableAt ℝ (fun y : Vec4 => y 2) x := differentiableAt_apply 2 x
  have S : DifferentiableAt ℝ (fun y : Vec4 => sigF al (y 1) (y 2)) x := by unfold sigF; fun_prop
  have D : DifferentiableAt ℝ (fun y : Vec4 => delF rs al (y 1)) x := by unfold delF; fun_prop
  have s2 : DifferentiableAt ℝ (fun y : Vec4 => Real.sin (y 2) ^ 2) x := p2.sin.pow 2
  refine diff_axi ?_ ?_ ?_ S.neg ?_
  · exact (((differentiableAt_const _).sub (diff_div (p1.const_mul rs) S (by exact hs)))).mul_const _
  · exact diff_div (((p1.const_mul (c * rs)).mul_const al).mul s2) S (by exact hs)
  · exact (diff_div S D (by exact hd)).neg
  · exact ((((p1.pow 2).add_const _).add (diff_div ((p1.const_mul rs).mul ((p2.sin.const_mul al).pow 2)) S (by exact hs))).mul s2).neg

theorem axi_symm (A B C D E : ℝ) : ∀ i j, axi A B C D E i j = axi A B C D E j i := by
  intro i j
  fin_cases i <;> fin_cases j <;> rfl

/-- The curve `(X, V)` obeys `d(x, v)/dτ = f_vec(x, v)` at the instant `t`. -/
def ObeysAt (f : Vec4 → Vec4 → Py (Vec4 × Vec4)) (X V : ℝ → Vec4) (t : ℝ) : Prop :=
  ∃ dX dV, f (X t) (V t) = .ok (dX, dV) ∧ HasDerivAt X dX t ∧ HasDerivAt V dV t

/-- A solution of `d(x, v)/dτ = f_vec(x, v)` on the whole line. -/
def Solves (f : Vec4 → Vec4 → Py (Vec4 × Vec4)) (X V : ℝ → Vec4) : Prop := ∀ t, ObeysAt f X V t

/-- **C45**: along every exact solution of the Schwarzschild right-hand side the norm `g(v,v)` in the metric the object
returns has the same value at all times. -/
theorem C45_schwarzschild_norm_conserved {M : ℝ} {X V : ℝ → Vec4}
    (h : Solves (Schwarzschild.fVec k (Schwarzschild.new k "Spherical" M)) X V) (s t : ℝ) :
    ∃ gs gt, Schwarzschild.metricCovariant k (Schwarzschild.new k "Spherical" M) (X s) = .ok gs ∧
      Schwarzschild.metricCovariant k (Schwarzschild.new k "Spherical" M) (X t) = .ok gt ∧
      normSq gs (V s) = normSq gt (V t) := by
  have key : ∀ t, (Schwarzschild.metricCovariant k (Schwarzschild.new k "Spherical" M) (X t)
        = .ok (schT k.c (schwarzschildRadius k M) (X t 1) (X t 2))) ∧
      HasDerivAt (fun s => normSq (schT k.c (schwarzschildRadius k M) (X s 1) (X s 2)) (V s)) 0 t := by
    intro t
    obtain ⟨dX, dV, hf, hX, hV⟩ := h t
    have hc : ∃ Γ, Schwarzschild.christoffels k (Schwarzschild.new k "Spherical" M) (X t) = .ok Γ := by
      cases e : Schwarzschild.christoffels k (Schwarzschild.new k "Spherical" M) (X t) with
      | error e' => rw [(C45_schwarzschild_rhs_error k _ _ _ e').mpr e] at hf; cases hf
      | ok Γ => exact ⟨Γ, rfl⟩
    obtain ⟨Γ, hΓ⟩ := hc
    rw [C45_schwarzschild_rhs k hΓ] at hf
    obtain ⟨rfl, rfl⟩ := Prod.mk.inj (Except.ok.inj hf)
    obtain ⟨G, hG, hL⟩ := C42_schwarzschild_levi_civita k hΓ
    rw [sch_christoffels] at hΓ
    split_ifs at hΓ with hcnd
    push Not at hcnd
    have h4 := (sch_conds hcnd.1).mp hcnd.2.1
    refine ⟨(sch_near k hcnd.1 h4).self_of_nhds, ?_⟩
    exact normSq_const (G := fun y => schT k.c (schwarzschildRadius k M) (y 1) (y 2)) (axi_symm _ _ _ _ _)
      (schT_diff _ _ hcnd.1 h4) (lc_congr (returnsNear_unique hG (sch_near k hcnd.1 h4)) hL) hX hV
  refine ⟨_, _, (key s).1, (key t).1, ?_⟩
  exact is_const_of_deriv_eq_zero (fun t => (key t).2.differentiableAt) (fun t => (key t).2.deriv) s t

theorem cubic_sub (c rs al r th : ℝ) (v : Vec4) :
    cubic (tabRT (kerrR c rs al r th) (kerrTh c rs al r th)) v
      - cubic (tabRT (kerrRcode c rs al r th) (kerrTh c rs al r th)) v
      = (kerrR c rs al r th 3 3 - kerrRcode c rs al r th 3 3) * v 1 * v 3 * v 3 := by
  unfold cubic
  have e := kerrRcode_eq c rs al r th
  simp only [Fin.sum_univ_four, tabRT0, tabRT1, tabRT2, tabRT3]
  rw [e 0 0 (by decide), e 0 1 (by decide), e 0 2 (by decide), e 0 3 (by decide), e 1 0 (by decide), e 1 1 (by decide),
    e 1 2 (by decide), e 1 3 (by decide), e 2 0 (by decide), e 2 1 (by decide), e 2 2 (by decide), e 2 3 (by decide),
    e 3 0 (by decide), e 3 1 (by decide), e 3 2 (by decide)]
  ring

/-- **C45 is false of Kerr in this commit**: whenever a curve obeys its right-hand side, the norm drifts at the rate
`-2 α² sin⁴θ · r_s (Σ - 2r²)/Σ² · v^r (v^φ)²`, which is zero only on special orbits. -/
theorem C45_refuted_kerr_drift {M a : ℝ} {X V : ℝ → Vec4} {t : ℝ}
    (h : ObeysAt (Kerr.fVec k (Kerr.new k "BoyerLindquist" M a)) X V t) :
    ∃ G al S, ReturnsNear (Kerr.metricCovariant k (Kerr.new k "BoyerLindquist" M a)) G (X t) ∧
      alpha k M a = .ok al ∧ sigma k (X t 1) (X t 2) M a = .ok S ∧ S ≠ 0 ∧
      HasDerivAt (fun s => normSq (G (X s)) (V s))
        (-(2 * al ^ 2 * Real.sin (X t 2) ^ 4 * ((2 * k.G * M / k.c ^ 2) * (S - 2 * X t 1 ^ 2) / S ^ 2)
          * V t 1 * V t 3 ^ 2)) t := by
  obtain ⟨dX, dV, hf, hX, hV⟩ := h
  have hc : ∃ Γ, Kerr.christoffels k (Kerr.new k "BoyerLindquist" M a) (X t) = .ok Γ := by
    cases e : Kerr.christoffels k (Kerr.new k "BoyerLindquist" M a) (X t) with
    | error e' => rw [(C45_kerr_rhs_error k _ _ _ e').mpr e] at hf; cases hf
    | ok Γ => exact ⟨Γ, rfl⟩
  obtain ⟨Γ, hΓ⟩ := hc
  rw [C45_kerr_rhs k hΓ] at hf
  obtain ⟨rfl, rfl⟩ := Prod.mk.inj (Except.ok.inj hf)
  obtain ⟨hr, rfl⟩ := (kerr_christoffels_iff k).mp hΓ
  refine ⟨_, _, _, kerr_near k hr.1 hr.2.1 hr.2.2.1, alpha_ok k hr.1, sigma_ok k hr.1 _ _, hr.2.1, ?_⟩
  have hV' : HasDerivAt V (geodesicAccel (christoffelFormula (kerrI k.c (schwarzschildRadius k M) (alF k M a) (X t 1) (X t 2))
      (tabRT (kerrRcode k.c (schwarzschildRadius k M) (alF k M a) (X t 1) (X t 2))
        (kerrTh k.c (schwarzschildRadius k M) (alF k M a) (X t 1) (X t 2)))) (V t)) t := by
    refine hV.congr_deriv ?_
    congr 1
    funext i j l
    exact chSymLoops_eq _ _ _ _ _ _ _ _ _ _ _ _ _ _ _ i j l
  refine (normSq_deriv (G := fun y => kerrT k.c (schwarzschildRadius k M) (alF k M a) (y 1) (y 2)) (axi_symm _ _ _ _ _)
    (kerrT_diff _ _ _ hr.2.1 hr.2.2.1) (kerrT_hasPartials k.c _ _ hr.2.1 hr.2.2.1)
    (kerrI_mul k.c_pos.ne' hr.2.1 hr.2.2.1 hr.2.2.2) hX hV').congr_deriv ?_
  rw [cubic_sub]
  rw [show kerrR k.c (schwarzschildRadius k M) (alF k M a) (X t 1) (X t 2) 3 3 = -((2 * X t 1 + (alF k M a * Real.sin (X t 2)) ^ 2 * tmpF _ _ _ _) * Real.sin (X t 2) ^ 2) from rfl,
    show kerrRcode k.c (schwarzschildRadius k M) (alF k M a) (X t 1) (X t 2) 3 3 = (-2 * X t 1 + (alF k M a * Real.sin (X t 2)) ^ 2 * tmpF _ _ _ _) * Real.sin (X t 2) ^ 2 from rfl]
  unfold tmpF
  rw [show 2 * k.G * M / k.c ^ 2 = schwarzschildRadius k M from rfl]
  ring

/-! ### The hypotheses are met -/

/-- Units with `c = G = k_e = 1`. -/
def unitConst : PhysConst := ⟨1, 1, 1, one_pos, one_pos, one_pos⟩

theorem unit_schRad (M : ℝ) : schwarzschildRadius unitConst M = 2 * M := by
  show 2 * 1 * M / 1 ^ 2 = 2 * M
  ring

/-- The circular orbit at `r = 4 M` solves the Schwarzschild right-hand side. -/
example : Solves (Schwarzschild.fVec unitConst (Schwarzschild.new unitConst "Spherical" 1))
    (fun t => ![8 * t, 4, Real.pi / 2, t]) (fun _ => ![8, 0, 0, 1]) := by
  intro t
  have hc : Schwarzschild.christoffels unitConst (Schwarzschild.new unitConst "Spherical" 1) ![8 * t, 4, Real.pi / 2, t]
      = .ok (schChl 1 2 4 (Real.pi / 2)) := by
    rw [sch_christoffels, unit_schRad, if_neg]
    · rw [show (![8 * t, 4, Real.pi / 2, t] : Vec4) 1 = 4 from rfl, show (![8 * t, 4, Real.pi / 2, t] : Vec4) 2 = Real.pi / 2 from rfl,
        mul_one, show unitConst.c = 1 from rfl]
    · rw [show (![8 * t, 4, Real.pi / 2, t] : Vec4) 1 = 4 from rfl, show (![8 * t, 4, Real.pi / 2, t] : Vec4) 2 = Real.pi / 2 from rfl,
        Real.sin_pi_div_two]
      norm_num
  refine ⟨_, _, C45_schwarzschild_rhs unitConst hc _, ?_, ?_⟩
  · rw [hasDerivAt_pi]
    refine fin4_cases ?_ ?_ ?_ ?_
    · exact ((hasDerivAt_id t).const_mul 8).congr_deriv (by norm_num)
    · exact hasDerivAt_const _ _
    · exact hasDerivAt_const _ _
    · exact hasDerivAt_id t
  · refine (hasDerivAt_const t _).congr_deriv ?_
    funext i
    unfold geodesicAccel
    simp only [Fin.sum_univ_four]
    revert i
    refine fin4_cases ?_ ?_ ?_ ?_ <;> (simp [schChl]; try norm_num)

/-- A state of the Kerr class with spin 1/2 at which the symbols are computed, and the drift is not zero. -/
theorem C45_refuted_kerr_not_conserved :
    ∃ x v dx dv, Kerr.fVec unitConst (Kerr.new unitConst "BoyerLindquist" 1 (1 / 2)) x v = .ok (dx, dv) ∧
      ∀ X V : ℝ → Vec4, X 0 = x → V 0 = v → HasDerivAt X dx 0 → HasDerivAt V dv 0 →
        ∃ G, ReturnsNear (Kerr.metricCovariant unitConst (Kerr.new unitConst "BoyerLindquist" 1 (1 / 2))) G x ∧
          ∃ d, d ≠ 0 ∧ HasDerivAt (fun s => normSq (G (X s)) (V s)) d 0 := by
  have hal : alF unitConst 1 (1 / 2) = 1 / 2 := by
    show (1 / 2 : ℝ) * (1 * 1 / 1 ^ 2) = 1 / 2
    norm_num
  have hr : Reg unitConst 1 (1 / 2) ![0, 10, Real.pi / 2, 0] := by
    refine ⟨by norm_num, ?_, ?_, ?_⟩
    · show sigF _ 10 (Real.pi / 2) ≠ 0
      rw [hal, sigF, Real.cos_pi_div_two]; norm_num
    · show delF _ _ 10 ≠ 0
      rw [hal, unit_schRad, delF]; norm_num
    · show Real.sin (Real.pi / 2) ≠ 0
      rw [Real.sin_pi_div_two]; norm_num
  refine ⟨![0, 10, Real.pi / 2, 0], ![1, 1, 0, 1], _, _,
    C45_kerr_rhs unitConst ((kerr_christoffels_iff unitConst).mpr ⟨hr, rfl⟩) _, ?_⟩
  intro X V hX0 hV0 hX hV
  have ho : ObeysAt (Kerr.fVec unitConst (Kerr.new unitConst "BoyerLindquist" 1 (1 / 2))) X V 0 := by
    refine ⟨_, _, ?_, hX, hV⟩
    rw [hX0, hV0]
    exact C45_kerr_rhs unitConst ((kerr_christoffels_iff unitConst).mpr ⟨hr, rfl⟩) _
  obtain ⟨G, al, S, hG, h1, h2, h3, h4⟩ := C45_refuted_kerr_drift unitConst ho
  rw [hX0] at hG h2
  refine ⟨G, hG, _, ?_, h4⟩
  rw [alpha_ok unitConst hr.1] at h1
  rw [sigma_ok unitConst hr.1] at h2
  rw [← Except.ok.inj h1, ← Except.ok.inj h2, hX0, hV0, hal]
  show -(2 * (1 / 2 : ℝ) ^ 2 * Real.sin (Real.pi / 2) ^ 4 *
    ((2 * 1 * 1 / 1 ^ 2) * (sigF (1 / 2) 10 (Real.pi / 2) - 2 * 10 ^ 2) / sigF (1 / 2) 10 (Real.pi / 2) ^ 2) * 1 * 1 ^ 2) ≠ 0
  rw [sigF, Real.cos_pi_div_two, Real.sin_pi_div_two]
  norm_num

/-! ## C46, C68, C69 -/

/-- **C46 is false of this commit**: the Kerr-Newman class returns the Kerr metric for every charge, at every point. -/
theorem C46_refuted_ignores_charge (M a Q q : ℝ) :
    KerrNewman.metricCovariant k (KerrNewman.new k "BoyerLindquist" M a Q q) =
      Kerr.metricCovariant k (Kerr.new k "BoyerLindquist" M a) :=
  kn_metric_eq k M a Q q

theorem knLine_zero (c rs al : ℝ) (x : Vec4) (hs : sigF al (x 1) (x 2) ≠ 0) :
    knLineElement c rs al 0 x = kerrT c rs al (x 1) (x 2) := by
  rw [← knT_eq c rs al (x 1) (x 2) hs]
  unfold knLineElement axi
  have e : x 1 ^ 2 + al ^ 2 * Real.cos (x 2) ^ 2 = sigF al (x 1) (x 2) := by unfold sigF; ring
  have e2 : x 1 ^ 2 - rs * x 1 + al ^ 2 + 0 = delF rs al (x 1) := by unfold delF; ring
  simp only [e, e2]
  have a1 : c ^ 2 * (delF rs al (x 1) - al ^ 2 * Real.sin (x 2) ^ 2) / sigF al (x 1) (x 2)
      = c ^ 2 * ((delF rs al (x 1) - (al * Real.sin (x 2)) ^ 2) / sigF al (x 1) (x 2)) := by ring
  have a2 : c * al * Real.sin (x 2) ^ 2 * (x 1 ^ 2 + al ^ 2 - delF rs al (x 1)) / sigF al (x 1) (x 2)
      = c * (-al * Real.sin (x 2) ^ 2 * (delF rs al (x 1) - x 1 ^ 2 - al ^ 2) / sigF al (x 1) (x 2)) := by ring
  have a3 : -Real.sin (x 2) ^ 2 * ((x 1 ^ 2 + al ^ 2) ^ 2 - delF rs al (x 1) * al ^ 2 * Real.sin (x 2) ^ 2) / sigF al (x 1) (x 2)
      = -(Real.sin (x 2) ^ 2 * (((x 1 ^ 2 + al ^ 2) ^ 2 - delF rs al (x 1) * (al * Real.sin (x 2)) ^ 2) / sigF al (x 1) (x 2))) := by ring
  rw [a1, a2, a3]

/-- **C46 (part)**: for a neutral body the class returns the Kerr-Newman line element. -/
theorem C46_uncharged_partial {M a q : ℝ} {x : Vec4} {g : Mat4}
    (h : KerrNewman.metricCovariant k (KerrNewman.new k "BoyerLindquist" M a 0 q) x = .ok g) :
    ∃ al, alpha k M a = .ok al ∧ g = knLineElement k.c (2 * k.G * M / k.c ^ 2) al 0 x := by
  rw [kn_metric] at h
  split_ifs at h with h1 h2
  push Not at h2
  refine ⟨_, alpha_ok k h1, ?_⟩
  rw [← Except.ok.inj h]
  exact (knLine_zero _ _ _ _ h2.1).symm

/-- For every charge, wherever the line element is finite, what the class returns is the line element only if `Q = 0`. -/
theorem C46_refuted_iff {M a Q q al : ℝ} {x : Vec4} {g : Mat4}
    (h : KerrNewman.metricCovariant k (KerrNewman.new k "BoyerLindquist" M a Q q) x = .ok g) (hal : alpha k M a = .ok al) :
    g = knLineElement k.c (2 * k.G * M / k.c ^ 2) al (Q ^ 2 * k.G * k.Cc / k.c ^ 4) x ↔ Q = 0 := by
  rw [kn_metric] at h
  split_ifs at h with h1 h2
  push Not at h2
  have hal' : alF k M a = al := Except.ok.inj ((alpha_ok k h1).symm.trans hal)
  rw [hal'] at h h2
  rw [← Except.ok.inj h]
  constructor
  · intro e
    have e1 : -(sigF al (x 1) (x 2) / delF (schwarzschildRadius k M) al (x 1)) =
        -(x 1 ^ 2 + al ^ 2 * Real.cos (x 2) ^ 2) / (x 1 ^ 2 - (2 * k.G * M / k.c ^ 2) * x 1 + al ^ 2 + Q ^ 2 * k.G * k.Cc / k.c ^ 4) :=
      congrFun (congrFun e 1) 1
    have e2 : x 1 ^ 2 + al ^ 2 * Real.cos (x 2) ^ 2 = sigF al (x 1) (x 2) := by unfold sigF; ring
    have e3 : x 1 ^ 2 - (2 * k.G * M / k.c ^ 2) * x 1 + al ^ 2 = delF (schwarzschildRadius k M) al (x 1) := by
      unfold delF schwarzschildRadius; ring
    rw [e2, e3, ← neg_div] at e1
    have hn : -sigF al (x 1) (x 2) ≠ 0 := neg_ne_zero.mpr h2.1
    rw [div_eq_mul_inv, div_eq_mul_inv] at e1
    have e4 := inv_injective (mul_left_cancel₀ hn e1)
    have e5 : Q ^ 2 * k.G * k.Cc / k.c ^ 4 = 0 := by linarith
    have hp : 0 < k.G * k.Cc / k.c ^ 4 := div_pos (mul_pos k.G_pos k.Cc_pos) (pow_pos k.c_pos 4)
    rw [mul_assoc, mul_div_assoc] at e5
    exact pow_eq_zero_iff two_ne_zero |>.mp ((mul_eq_zero.mp e5).resolve_right hp.ne')
  · rintro rfl
    rw [show (0 : ℝ) ^ 2 * k.G * k.Cc / k.c ^ 4 = 0 by ring]
    exact (knLine_zero _ _ _ _ h2.1).symm

theorem kn_christoffels_iff {M a Q q : ℝ} {x : Vec4} {Γ : Tab3} :
    KerrNewman.christoffels k (KerrNewman.new k "BoyerLindquist" M a Q q) x = .ok Γ ↔
      Reg k M a x ∧ Γ = chSymLoops (kerrI k.c (schwarzschildRadius k M) (alF k M a) (x 1) (x 2))
        (tabRT (kerrR k.c (schwarzschildRadius k M) (alF k M a) (x 1) (x 2))
          (kerrTh k.c (schwarzschildRadius k M) (alF k M a) (x 1) (x 2))) := by
  unfold KerrNewman.christoffels
  have e : (KerrNewman.new k "BoyerLindquist" M a Q q).system = "BoyerLindquist" := rfl
  rw [if_pos e]
  unfold KerrNewman.chSymBl
  rw [kn_metric_eq, kerr_contra, kn_dgdx]
  unfold Reg
  split_ifs with h1 h2 h3 <;> simp only [bind, Except.bind, pure, Except.pure]
  · constructor
    · intro h; cases h
    · rintro ⟨h, _⟩; exact absurd h2 (by push Not; exact ⟨h.2.1, h.2.2.1⟩)
  · constructor
    · intro h; cases h
    · rintro ⟨h, _⟩; exact absurd h3 h.2.2.2
  · push Not at h2
    constructor
    · intro h; exact ⟨⟨h1, h2.1, h2.2, h3⟩, (Except.ok.inj h).symm⟩
    · rintro ⟨_, rfl⟩; rfl
  · constructor
    · intro h; cases h
    · rintro ⟨h, _⟩; exact absurd h.1 h1

/-- **C68**: the derivative table of Kerr-Newman holds all the partial derivatives of the metric returned around that point. -/
theorem C68_kn_derivatives {M a Q q : ℝ} {x : Vec4} {d : Tab3}
    (h : KerrNewman.dgdxBl k (KerrNewman.new k "BoyerLindquist" M a Q q) x = .ok d) :
    ∃ G, ReturnsNear (KerrNewman.metricCovariant k (KerrNewman.new k "BoyerLindquist" M a Q q)) G x ∧ HasPartials G d x := by
  rw [kn_dgdx] at h
  split_ifs at h with h1 h2
  push Not at h2
  rw [← Except.ok.inj h, kn_metric_eq]
  exact ⟨_, kerr_near k h1 h2.1 h2.2, kerrT_hasPartials k.c _ _ h2.1 h2.2⟩

/-- **C68**: the Christoffel symbols of Kerr-Newman are those of the metric returned around that point. -/
theorem C68_kn_levi_civita {M a Q q : ℝ} {x : Vec4} {Γ : Tab3}
    (h : KerrNewman.christoffels k (KerrNewman.new k "BoyerLindquist" M a Q q) x = .ok Γ) :
    ∃ G, ReturnsNear (KerrNewman.metricCovariant k (KerrNewman.new k "BoyerLindquist" M a Q q)) G x ∧ IsLeviCivita G x Γ := by
  obtain ⟨hr, rfl⟩ := (kn_christoffels_iff k).mp h
  rw [kn_metric_eq]
  exact ⟨_, kerr_near k hr.1 hr.2.1 hr.2.2.1, kerr_lc k hr⟩

/-- They are computed at the same points as those of Kerr. -/
theorem C68_kn_total (M a Q q : ℝ) (x : Vec4) :
    (∃ Γ, KerrNewman.christoffels k (KerrNewman.new k "BoyerLindquist" M a Q q) x = .ok Γ) ↔
      ∃ Γ, Kerr.christoffels k (Kerr.new k "BoyerLindquist" M a) x = .ok Γ := by
  constructor
  · rintro ⟨Γ, h⟩; exact ⟨_, (kerr_christoffels_iff k).mpr ⟨((kn_christoffels_iff k).mp h).1, rfl⟩⟩
  · rintro ⟨Γ, h⟩; exact ⟨_, (kn_christoffels_iff k).mpr ⟨((kerr_christoffels_iff k).mp h).1, rfl⟩⟩

/-- **C69 is false of this commit**: Kerr and Kerr-Newman return the same metric but agree on the Christoffel symbols
only without rotation, without mass, or on the surface `r² = α² cos²θ`. -/
theorem C69_refuted_iff {M a Q q : ℝ} {x : Vec4} {Γ Γ' : Tab3}
    (h : Kerr.christoffels k (Kerr.new k "BoyerLindquist" M a) x = .ok Γ)
    (h' : KerrNewman.christoffels k (KerrNewman.new k "BoyerLindquist" M a Q q) x = .ok Γ') :
    Γ = Γ' ↔ a = 0 ∨ M = 0 ∨ x 1 ^ 2 = (k.G * M * a / k.c ^ 2 * Real.cos (x 2)) ^ 2 := by
  obtain ⟨G, hG, hL⟩ := C68_kn_levi_civita k h'
  rw [kn_metric_eq] at hG
  rw [← C44_refuted_iff k h hG]
  constructor
  · rintro rfl; exact hL
  · intro hK; exact lc_unique (Filter.Eventually.of_forall fun _ => rfl) hK hL

/-- Off the five positions they agree. -/
theorem C69_kerr_kn_agree_partial {M a Q q : ℝ} {x : Vec4} {Γ Γ' : Tab3}
    (h : Kerr.christoffels k (Kerr.new k "BoyerLindquist" M a) x = .ok Γ)
    (h' : KerrNewman.christoffels k (KerrNewman.new k "BoyerLindquist" M a Q q) x = .ok Γ') (i j l : Fin 4)
    (hb : (i, j, l) ∉ [((0 : Fin 4), (1 : Fin 4), (3 : Fin 4)), (0, 3, 1), (3, 1, 3), (3, 3, 1), (1, 3, 3)]) :
    Γ i j l = Γ' i j l := by
  obtain ⟨_, rfl⟩ := (kerr_christoffels_iff k).mp h
  obtain ⟨_, rfl⟩ := (kn_christoffels_iff k).mp h'
  exact chSym_good _ (kerrRcode_eq _ _ _ _ _) i j l hb

end Einpy.Num
