import Verif.Num.Geodesics

/-!
# C121: changing the affine parameter of numeric geodesics
-/

namespace Einpy.Num
open Classical

/-- The same position with `l` times the velocity. -/
def speedUp (l : ℝ) (y : Vec4 × Vec4) : Vec4 × Vec4 := (y.1, l • y.2)

/-- The same metric object with another charge-to-mass ratio of the test particle. -/
def NumMetric.withCharge (m : NumMetric) (q : ℝ) : NumMetric := { m with q := q }

variable (k : PhysConst)

theorem accel_smul (chl : Tab3) (l : ℝ) (v : Vec4) : accel chl (l • v) = (l * l) • accel chl v := by
  funext i
  fin_cases i <;> simp [accel] <;> ring

/-- **C121.** With the velocity multiplied by `l` (and for KerrNewman the charge per mass of the particle as well), `f_vec`
raises the same error or returns `l` times the velocity and `l²` times the acceleration. -/
theorem C121_homogeneous (m : NumMetric) (l : ℝ) (x v : Vec4) :
    (Schwarzschild.fVec k m x (l • v) = (Schwarzschild.fVec k m x v).map fun r => (l • r.1, l ^ 2 • r.2)) ∧
    (Kerr.fVec k m x (l • v) = (Kerr.fVec k m x v).map fun r => (l • r.1, l ^ 2 • r.2)) ∧
    (KerrNewman.fVec k (m.withCharge (l * m.q)) x (l • v) =
      (KerrNewman.fVec k m x v).map fun r => (l • r.1, l ^ 2 • r.2)) := by
  refine ⟨?_, ?_, ?_⟩
  · unfold Schwarzschild.fVec Schwarzschild.fVecS
    split_ifs
    · cases Schwarzschild.christoffels k m x with
      | error e => rfl
      | ok chl =>
        simp only [bind, Except.bind, pure, Except.pure, Except.map]
        congr 2
        funext i
        fin_cases i <;> simp <;> ring
    · rfl
  · unfold Kerr.fVec Kerr.fVecBl
    split_ifs
    · cases Kerr.christoffels k m x with
      | error e => rfl
      | ok chl =>
        simp only [bind, Except.bind, pure, Except.pure, Except.map, accel_smul, pow_two]
    · rfl
  · unfold KerrNewman.fVec KerrNewman.fVecBl
    have h1 : KerrNewman.christoffels k (m.withCharge (l * m.q)) x = KerrNewman.christoffels k m x := rfl
    have h2 : KerrNewman.emTensorContra k (m.withCharge (l * m.q)) x = KerrNewman.emTensorContra k m x := rfl
    have h3 : KerrNewman.metricCovariant k (m.withCharge (l * m.q)) x = KerrNewman.metricCovariant k m x := rfl
    have h4 : (m.withCharge (l * m.q)).system = m.system := rfl
    rw [h1, h2, h3, h4]
    split_ifs
    · cases KerrNewman.christoffels k m x with
      | error e => rfl
      | ok chl =>
        cases KerrNewman.emTensorContra k m x with
        | error e => rfl
        | ok F =>
          cases KerrNewman.metricCovariant k m x with
          | error e => rfl
          | ok g =>
            simp only [bind, Except.bind, pure, Except.pure, Except.map, accel_smul]
            congr 2
            rw [smul_sub, Matrix.mulVec_smul, Matrix.smul_vecMul, pow_two]
            congr 1
            show (l * m.q) • _ = _
            rw [smul_smul, smul_smul]
            congr 1; ring
    · rfl

/-- A right-hand side and its sped-up version: the general statement behind `C121_reparametrise`. -/
theorem rk_reparam {E : Type*} [AddCommGroup E] [Module ℝ E] (S : E →ₗ[ℝ] E) {l : ℝ} (hl : l ≠ 0) {F F' : ℝ → E → Py E}
    (hF : ∀ t t' y, F' t' (S y) = (F t y).map fun r => l • S r) (t0 t0' tb tb' h : ℝ) (y0 : E) (n : ℕ) :
    (RK4Py.steps n (RK4Py.new F' t0' (S y0) tb' (h / l))).map (fun s => s.y) =
      (RK4Py.steps n (RK4Py.new F t0 y0 tb h)).map (fun s => S s.y) := by
  have hd : ∀ (G : ℝ → E → Py E) a b c d, (RK4Py.new G a b c d).direction = 0 := by
    intro G a b c d
    show 1 * (if c ≥ a then (1:Int) else 0) - 1 * (if ¬ c < a then 1 else 0) = 0
    by_cases hca : c < a
    · rw [if_neg (not_le.2 hca), if_neg (not_not.2 hca)]; rfl
    · rw [if_pos (not_lt.1 hca), if_pos hca]; rfl
  have one : ∀ s s' : RK4Py E, s.direction = 0 → s'.direction = 0 → s.func = F → s'.func = F' → s.stepSize = h →
      s'.stepSize = h / l → s'.y = S s.y →
      (∃ e, s.step = .error e ∧ s'.step = .error e) ∨ (∃ r r', s.step = .ok r ∧ s'.step = .ok r' ∧ r.direction = 0 ∧ r'.direction = 0 ∧
        r.func = F ∧ r'.func = F' ∧ r.stepSize = h ∧ r'.stepSize = h / l ∧ r'.y = S r.y) := by
    intro s s' d1 d2 f1 f2 e1 e2 hy
    have hn : ¬ ((s.t ≥ s.tBound ∧ s.direction = 1) ∨ (s.t ≤ s.tBound ∧ s.direction = -1)) := by rw [d1]; simp
    have hn' : ¬ ((s'.t ≥ s'.tBound ∧ s'.direction = 1) ∨ (s'.t ≤ s'.tBound ∧ s'.direction = -1)) := by rw [d2]; simp
    have st : ∀ (a : ℝ) (r : E), S s.y + (a / l) • (l • S r) = S (s.y + a • r) := by
      intro a r
      rw [map_add, map_smul, smul_smul, div_mul_cancel₀ _ hl]
    have hh : h / l / 2 = h / 2 / l := by ring
    have hh6 : h / l / 6 = h / 6 / l := by ring
    unfold RK4Py.step
    rw [if_neg hn, if_neg hn', f1, f2, e1, e2, hy]
    simp only [bind, Except.bind, pure, Except.pure, hh, hh6]
    rw [hF s.t]
    cases k0 : F s.t s.y with
    | error e => exact Or.inl ⟨e, rfl, rfl⟩
    | ok r0 =>
      simp only [Except.map, st]
      rw [hF (s.t + h / 2)]
      cases k1 : F (s.t + h / 2) (s.y + (h / 2) • r0) with
      | error e => exact Or.inl ⟨e, rfl, rfl⟩
      | ok r1 =>
        simp only [Except.map, st]
        rw [hF (s.t + h / 2)]
        cases k2 : F (s.t + h / 2) (s.y + (h / 2) • r1) with
        | error e => exact Or.inl ⟨e, rfl, rfl⟩
        | ok r2 =>
          simp only [Except.map, st]
          rw [hF (s.t + h)]
          cases k3 : F (s.t + h) (s.y + h • r2) with
          | error e => exact Or.inl ⟨e, rfl, rfl⟩
          | ok r3 =>
            refine Or.inr ⟨_, _, rfl, rfl, d1, d2, rfl, rfl, rfl, rfl, ?_⟩
            show S s.y + (h / 6 / l) • (l • S r0 + (2:ℝ) • l • S r1 + (2:ℝ) • l • S r2 + l • S r3) = S (s.y + _)
            rw [← st]
            congr 2
            simp only [map_add, map_smul, smul_add, smul_smul, mul_comm]
  have key : ∀ n, (∃ e, RK4Py.steps n (RK4Py.new F t0 y0 tb h) = .error e ∧
        RK4Py.steps n (RK4Py.new F' t0' (S y0) tb' (h / l)) = .error e) ∨
      (∃ r r', RK4Py.steps n (RK4Py.new F t0 y0 tb h) = .ok r ∧ RK4Py.steps n (RK4Py.new F' t0' (S y0) tb' (h / l)) = .ok r' ∧
        r.direction = 0 ∧ r'.direction = 0 ∧ r.func = F ∧ r'.func = F' ∧ r.stepSize = h ∧ r'.stepSize = h / l ∧ r'.y = S r.y) := by
    intro n
    induction n with
    | zero => exact Or.inr ⟨_, _, rfl, rfl, hd _ _ _ _ _, hd _ _ _ _ _, rfl, rfl, rfl, rfl, rfl⟩
    | succ n ih =>
      rcases ih with ⟨e, h1, h2⟩ | ⟨r, r', h1, h2, a1, a2, a3, a4, a5, a6, a7⟩
      · exact Or.inl ⟨e, by rw [RK4Py.steps, h1]; rfl, by rw [RK4Py.steps, h2]; rfl⟩
      · rcases one r r' a1 a2 a3 a4 a5 a6 a7 with ⟨e, g1, g2⟩ | ⟨u, u', g1, g2, rest⟩
        · exact Or.inl ⟨e, by rw [RK4Py.steps, h1]; exact g1, by rw [RK4Py.steps, h2]; exact g2⟩
        · exact Or.inr ⟨u, u', by rw [RK4Py.steps, h1]; exact g1, by rw [RK4Py.steps, h2]; exact g2, rest⟩
  rcases key n with ⟨e, h1, h2⟩ | ⟨r, r', h1, h2, -, -, -, -, -, -, h3⟩
  · rw [h1, h2]; rfl
  · rw [h1, h2]
    simp only [Except.map, h3]

/-- `speedUp` as a linear map. -/
def speedUpL (l : ℝ) : (Vec4 × Vec4) →ₗ[ℝ] (Vec4 × Vec4) where
  toFun := speedUp l
  map_add' a b := by simp [speedUp]
  map_smul' c a := Prod.ext rfl (by show l • c • a.2 = c • l • a.2; rw [smul_comm])

theorem rhs_speedUp {f f' : Vec4 → Vec4 → Py (Vec4 × Vec4)} {l : ℝ}
    (h : ∀ x v, f' x (l • v) = (f x v).map fun r => (l • r.1, l ^ 2 • r.2)) (t t' : ℝ) (y : Vec4 × Vec4) :
    asRhs f' t' (speedUpL l y) = (asRhs f t y).map fun r => l • speedUpL l r := by
  show f' y.1 (l • y.2) = (f y.1 y.2).map _
  rw [h]
  cases e : f y.1 y.2 with
  | error e => rfl
  | ok r =>
    simp only [Except.map]
    congr 1
    exact Prod.ext rfl (by show l ^ 2 • r.2 = l • l • r.2; rw [smul_smul, pow_two])

/-- **C121.** Multiply the initial velocity by `l ≠ 0` and divide the step by `l`: after any number of steps the RK4 solver run
on `f_vec` is at the same position with `l` times the velocity, or has raised the same error. -/
theorem C121_reparametrise (m : NumMetric) {l : ℝ} (hl : l ≠ 0) (t0 t0' tb tb' h : ℝ) (x v : Vec4) (n : ℕ) :
    ((RK4Py.steps n (RK4Py.new (asRhs (Schwarzschild.fVec k m)) t0' (x, l • v) tb' (h / l))).map (fun s => s.y) =
      (RK4Py.steps n (RK4Py.new (asRhs (Schwarzschild.fVec k m)) t0 (x, v) tb h)).map (fun s => (s.y.1, l • s.y.2))) ∧
    ((RK4Py.steps n (RK4Py.new (asRhs (Kerr.fVec k m)) t0' (x, l • v) tb' (h / l))).map (fun s => s.y) =
      (RK4Py.steps n (RK4Py.new (asRhs (Kerr.fVec k m)) t0 (x, v) tb h)).map (fun s => (s.y.1, l • s.y.2))) ∧
    ((RK4Py.steps n (RK4Py.new (asRhs (KerrNewman.fVec k (m.withCharge (l * m.q)))) t0' (x, l • v) tb' (h / l))).map (fun s => s.y) =
      (RK4Py.steps n (RK4Py.new (asRhs (KerrNewman.fVec k m)) t0 (x, v) tb h)).map (fun s => (s.y.1, l • s.y.2))) :=
  ⟨rk_reparam (speedUpL l) hl (fun t t' y => rhs_speedUp (fun x v => (C121_homogeneous k m l x v).1) t t' y) t0 t0' tb tb' h (x, v) n,
   rk_reparam (speedUpL l) hl (fun t t' y => rhs_speedUp (fun x v => (C121_homogeneous k m l x v).2.1) t t' y) t0 t0' tb tb' h (x, v) n,
   rk_reparam (speedUpL l) hl (fun t t' y => rhs_speedUp (fun x v => (C121_homogeneous k m l x v).2.2) t t' y) t0 t0' tb tb' h (x, v) n⟩

theorem solves_speedUp {f f' : Vec4 → Vec4 → Py (Vec4 × Vec4)} {l : ℝ}
    (h : ∀ x v, f' x (l • v) = (f x v).map fun r => (l • r.1, l ^ 2 • r.2)) {X V : ℝ → Vec4} (hs : Solves f X V) :
    Solves f' (fun t => X (l * t)) (fun t => l • V (l * t)) := by
  intro t
  obtain ⟨dX, dV, e, hX, hV⟩ := hs (l * t)
  have hm : HasDerivAt (fun t : ℝ => l * t) l t := ((hasDerivAt_id t).const_mul l).congr_deriv (mul_one l)
  refine ⟨l • dX, l ^ 2 • dV, by rw [h, e]; rfl, hX.scomp t hm, ?_⟩
  exact ((hV.scomp t hm).const_smul l).congr_deriv (by rw [smul_smul, pow_two])

/-- **C121.** The exact solutions of the right-hand sides can be run at any rate `l` (also backwards and `l = 0`). -/
theorem C121_solutions (m : NumMetric) (l : ℝ) (X V : ℝ → Vec4) :
    (Solves (Schwarzschild.fVec k m) X V → Solves (Schwarzschild.fVec k m) (fun t => X (l * t)) (fun t => l • V (l * t))) ∧
    (Solves (Kerr.fVec k m) X V → Solves (Kerr.fVec k m) (fun t => X (l * t)) (fun t => l • V (l * t))) ∧
    (Solves (KerrNewman.fVec k m) X V →
      Solves (KerrNewman.fVec k (m.withCharge (l * m.q))) (fun t => X (l * t)) (fun t => l • V (l * t))) :=
  ⟨solves_speedUp fun x v => (C121_homogeneous k m l x v).1, solves_speedUp fun x v => (C121_homogeneous k m l x v).2.1,
    solves_speedUp fun x v => (C121_homogeneous k m l x v).2.2⟩

/-- The hypotheses are met: the right-hand side on the circular orbit at `r = 4 M`, at the double rate. -/
example : ∃ r, Schwarzschild.fVec unitConst (Schwarzschild.new unitConst "Spherical" 1) ![0, 4, Real.pi / 2, 0] ((2:ℝ) • ![8, 0, 0, 1])
    = .ok ((2:ℝ) • ![8, 0, 0, 1], r) := by
  have hc : Schwarzschild.christoffels unitConst (Schwarzschild.new unitConst "Spherical" 1) ![0, 4, Real.pi / 2, 0]
      = .ok (schChl 1 2 4 (Real.pi / 2)) := by
    rw [sch_christoffels, unit_schRad, if_neg]
    · rw [show (![0, 4, Real.pi / 2, 0] : Vec4) 1 = 4 from rfl, show (![0, 4, Real.pi / 2, 0] : Vec4) 2 = Real.pi / 2 from rfl,
        mul_one, show unitConst.c = 1 from rfl]
    · rw [show (![0, 4, Real.pi / 2, 0] : Vec4) 1 = 4 from rfl, show (![0, 4, Real.pi / 2, 0] : Vec4) 2 = Real.pi / 2 from rfl,
        Real.sin_pi_div_two]
      norm_num
  exact ⟨_, C45_schwarzschild_rhs unitConst hc _⟩

end Einpy.Num
