import Verif.Predef.Props
import Verif.Num.Props2
import Verif.Num.Props5

/-!
# Predefined metrics at real points: C85 (symbolic and numeric classes agree), C86 (Lorentz signature), C87 (warp drive)
-/

namespace Einpy.Predef
open Num (PhysConst Vec4 Mat4)

/-! ## C85: the symbolic metrics and the numerical classes -/

/-- The value of the four spherical coordinate symbols at the point `x`. -/
def coordVal (x : Vec4) (s : String) : ℝ :=
  if s = "t" then x 0 else if s = "r" then x 1 else if s = "theta" then x 2 else x 3

/-- The vocabulary at the point `x`. -/
noncomputable def atPoint (x : Vec4) : Fns ℝ := realFns (coordVal x) (fun _ _ => 0) (fun _ _ => 0)

theorem atPoint_r (x : Vec4) : (atPoint x).var "r" = x 1 := rfl
theorem atPoint_theta (x : Vec4) : (atPoint x).var "theta" = x 2 := rfl
theorem atPoint_sin (x : Vec4) : (atPoint x).sin ((atPoint x).var "theta") = Real.sin (x 2) := rfl
theorem atPoint_cos (x : Vec4) : (atPoint x).cos ((atPoint x).var "theta") = Real.cos (x 2) := rfl
theorem atPoint_pi (x : Vec4) : (atPoint x).pi = Real.pi := rfl

variable (k : PhysConst)

theorem smul03 (t a b c d e : ℝ) : t • !![a, 0, 0, e; 0, b, 0, 0; 0, 0, c, 0; e, 0, 0, d] =
    !![t * a, 0, 0, t * e; 0, t * b, 0, 0; 0, 0, t * c, 0; t * e, 0, 0, t * d] := by
  ext i j
  rw [Matrix.smul_apply, smul_eq_mul]
  fin_cases i <;> fin_cases j <;> simp

/-- **C85.** Wherever the numerical Schwarzschild class returns a metric, it is c² times the predefined symbolic metric with
radius 2GM/c², evaluated at the point. -/
theorem C85_schwarzschild {M : ℝ} {x : Vec4} {g : Mat4}
    (h : Num.Schwarzschild.metricCovariant k (Num.Schwarzschild.new k "Spherical" M) x = .ok g) :
    ∃ coords gs, Returns (schwarzschild (atPoint x) k.c (2 * k.G * M / k.c ^ 2)) coords gs ∧ g = k.c ^ 2 • gs := by
  obtain ⟨h1, h2, rfl⟩ := (Num.C73_schwarzschild_line_element k M x g).1 h
  refine ⟨_, _, returns_schwarzschild _ _ _, ?_⟩
  rw [diag_eq_of, atPoint_r, atPoint_sin]
  unfold Num.schwarzschildLineElement
  have hc : k.c ≠ 0 := k.c_pos.ne'
  have hA : 1 - 2 * k.G * M / k.c ^ 2 / x 1 ≠ 0 := by
    intro h0
    rw [sub_eq_zero, eq_comm, div_eq_iff h1, one_mul] at h0
    exact h2 h0.symm
  generalize 2 * k.G * M / k.c ^ 2 = rs at *
  generalize 1 - rs / x 1 = A at *
  have e1 : k.c ^ 2 * (-1 / (A * k.c ^ 2)) = -A⁻¹ := by field_simp
  have e2 : k.c ^ 2 * (-x 1 ^ 2 / k.c ^ 2) = -(x 1 ^ 2) := by field_simp
  have e3 : k.c ^ 2 * (-(x 1 * Real.sin (x 2)) ^ 2 / k.c ^ 2) = -(x 1 ^ 2 * Real.sin (x 2) ^ 2) := by field_simp
  rw [smul03, mul_zero]
  exact mat03_congr rfl e1.symm e2.symm e3.symm rfl

/-- The predefined Kerr-Newman metric is the classical line element divided by c². -/
theorem kn_line (c G eps rs al Q : ℝ) (x : Vec4) (hc : c ≠ 0) (hS : x 1 ^ 2 + al ^ 2 * Real.cos (x 2) ^ 2 ≠ 0) :
    ∃ coords gs, Returns (kerrNewman (atPoint x) c G eps rs al Q) coords gs ∧
      Num.knLineElement c rs al (Q ^ 2 * G / (4 * Real.pi * eps * c ^ 4)) x = c ^ 2 • gs := by
  refine ⟨_, _, returns_kerrNewman _ _ _ _ _ _ _, ?_⟩
  rw [atPoint_r, atPoint_sin, atPoint_cos, atPoint_pi, smul03]
  unfold Num.knLineElement
  dsimp only
  generalize Q ^ 2 * G / (4 * Real.pi * eps * c ^ 4) = q
  have hk : Real.cos (x 2) ^ 2 = 1 - Real.sin (x 2) ^ 2 := Real.cos_sq' _
  generalize Real.sin (x 2) = s at *
  generalize hS' : x 1 ^ 2 + al ^ 2 * Real.cos (x 2) ^ 2 = S at *
  rw [hk] at hS'
  refine mat03_congr ?_ ?_ ?_ ?_ ?_
  · field_simp; rw [← hS']; ring
  · rw [neg_div, neg_div, mul_neg, mul_comm (x 1 ^ 2 - rs * x 1 + al ^ 2 + q), ← div_div]
    congr 1
    field_simp
  · field_simp
  · field_simp; ring
  · field_simp; ring

/-- **C85.** Wherever the numerical Kerr class returns a metric, it is c² times the predefined symbolic Kerr metric with radius
2GM/c² and spin length alpha, evaluated at the point. -/
theorem C85_kerr {M a : ℝ} {x : Vec4} {g : Mat4}
    (h : Num.Kerr.metricCovariant k (Num.Kerr.new k "BoyerLindquist" M a) x = .ok g) :
    ∃ al coords gs, Num.alpha k M a = .ok al ∧ Returns (kerr (atPoint x) k.c (2 * k.G * M / k.c ^ 2) al) coords gs ∧
      g = k.c ^ 2 • gs := by
  obtain ⟨al, S, D, h1, h2, -, h4, -, rfl⟩ := (Num.C73_kerr_line_element k M a x g).1 h
  have hS : x 1 ^ 2 + al ^ 2 * Real.cos (x 2) ^ 2 ≠ 0 := by
    unfold Num.sigma at h2
    simp only [h1, bind, Except.bind, pure, Except.pure] at h2
    have := Except.ok.inj h2
    rw [← this, mul_pow] at h4
    exact h4
  obtain ⟨co, gs, r1, r2⟩ := kn_line k.c k.G 1 (2 * k.G * M / k.c ^ 2) al 0 x k.c_pos.ne' hS
  obtain ⟨co', g', s1, s2⟩ := C61_kerrNewman_kerr (atPoint x) k.c k.G 1 (2 * k.G * M / k.c ^ 2) al
    (Real.sin_sq_add_cos_sq _) hS
  refine ⟨al, co', g', h1, s2, ?_⟩
  rw [← (r1.inj s1).2, ← r2]
  congr 1
  ring

/-- **C85, partial.** The same for the numerical Kerr-Newman class of an uncharged body, for every value of the electric
constant.  (Missing: charged bodies, see `C85_refuted`.) -/
theorem C85_kerrNewman_partial {M a q eps : ℝ} {x : Vec4} {g : Mat4}
    (h : Num.KerrNewman.metricCovariant k (Num.KerrNewman.new k "BoyerLindquist" M a 0 q) x = .ok g)
    {al : ℝ} (hal : Num.alpha k M a = .ok al) (hS : x 1 ^ 2 + al ^ 2 * Real.cos (x 2) ^ 2 ≠ 0) :
    ∃ coords gs, Returns (kerrNewman (atPoint x) k.c k.G eps (2 * k.G * M / k.c ^ 2) al 0) coords gs ∧ g = k.c ^ 2 • gs := by
  obtain ⟨al', h1, rfl⟩ := Num.C46_uncharged_partial k h
  have : al' = al := Except.ok.inj (h1.symm.trans hal)
  subst this
  obtain ⟨co, gs, r1, r2⟩ := kn_line k.c k.G eps (2 * k.G * M / k.c ^ 2) al' 0 x k.c_pos.ne' hS
  refine ⟨co, gs, r1, ?_⟩
  rw [← r2]
  congr 1
  ring

/-- **C85 is violated for charged bodies.** With the electric constant 1/(4πK) belonging to the Coulomb constant K of the
numerical class, the two agree exactly when the charge vanishes. -/
theorem C85_refuted {M a Q q : ℝ} {x : Vec4} {g : Mat4}
    (h : Num.KerrNewman.metricCovariant k (Num.KerrNewman.new k "BoyerLindquist" M a Q q) x = .ok g)
    {al : ℝ} (hal : Num.alpha k M a = .ok al) (hS : x 1 ^ 2 + al ^ 2 * Real.cos (x 2) ^ 2 ≠ 0) {coords : List String}
    {gs : Mat4}
    (hg : Returns (kerrNewman (atPoint x) k.c k.G (1 / (4 * Real.pi * k.Cc)) (2 * k.G * M / k.c ^ 2) al Q) coords gs) :
    g = k.c ^ 2 • gs ↔ Q = 0 := by
  obtain ⟨co, gs', r1, r2⟩ := kn_line k.c k.G (1 / (4 * Real.pi * k.Cc)) (2 * k.G * M / k.c ^ 2) al Q x k.c_pos.ne' hS
  have hC := k.Cc_pos.ne'
  have hp := Real.pi_pos.ne'
  have hc := k.c_pos.ne'
  rw [(hg.inj r1).2, ← r2, ← Num.C46_refuted_iff k h hal]
  rw [show Q ^ 2 * k.G / (4 * Real.pi * (1 / (4 * Real.pi * k.Cc)) * k.c ^ 4) = Q ^ 2 * k.G * k.Cc / k.c ^ 4 by
    field_simp]

end Einpy.Predef
