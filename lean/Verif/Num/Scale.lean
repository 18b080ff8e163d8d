import Verif.Num.Affine

/-!
# Moving and rescaling the numeric metrics: how `christoffels` and `f_vec` change (used by C130, C131)
-/

namespace Einpy.Num
open Classical

/-- Symbols after the substitution `x'_i = σ_i x_i + const`: `Γ'^i_jl = σ_i / (σ_j σ_l) Γ^i_jl`. -/
noncomputable def scaleTab (σ : Vec4) (t : Tab3) : Tab3 := fun i j l => σ i / (σ j * σ l) * t i j l

theorem scaleTab_set (σ : Vec4) (t : Tab3) (i j l : Fin 4) (v : ℝ) :
    Tab3.set (scaleTab σ t) i j l (σ i / (σ j * σ l) * v) = scaleTab σ (Tab3.set t i j l v) := by
  funext a b c
  by_cases h : a = i ∧ b = j ∧ c = l
  · obtain ⟨rfl, rfl, rfl⟩ := h
    simp [Tab3.set, scaleTab]
  · simp [Tab3.set, scaleTab, h]

theorem chSymLoops_scale {κ : ℝ} (hκ : κ ≠ 0) {σ : Vec4} (hσ : ∀ i, σ i ≠ 0) (gc gc' : Mat4) (dg dg' : Tab3)
    (hg : ∀ i j, gc' i j = κ⁻¹ * (σ i * σ j) * gc i j) (hd : ∀ c i j, dg' c i j = κ / (σ c * σ i * σ j) * dg c i j) :
    chSymLoops gc' dg' = scaleTab σ (chSymLoops gc dg) := by
  have h0 : (fun _ _ _ => 0 : Tab3) = scaleTab σ (fun _ _ _ => 0) := by
    funext i j l; simp [scaleTab]
  have hsym : ∀ i j l, σ i / (σ j * σ l) = σ i / (σ l * σ j) := fun i j l => by rw [mul_comm (σ j)]
  unfold chSymLoops
  simp only
  conv_lhs => rw [h0]
  have e1 : ∀ (L : List (Fin 4 × Fin 4 × Fin 4)) (t : Tab3), L.foldl (fun chl t =>
      (Tab3.set (Tab3.set (Tab3.set (Tab3.set chl 0 t.2.1 t.2.2 (0.5 * (gc' 0 0 * (dg' t.2.2 0 t.2.1 + dg' t.2.1 0 t.2.2) +
        gc' 0 3 * (dg' t.2.2 3 t.2.1 + dg' t.2.1 3 t.2.2)))) 0 t.2.2 t.2.1 (0.5 * (gc' 0 0 * (dg' t.2.2 0 t.2.1 + dg' t.2.1 0 t.2.2) +
        gc' 0 3 * (dg' t.2.2 3 t.2.1 + dg' t.2.1 3 t.2.2)))) 3 t.2.1 t.2.2 (0.5 * (gc' 3 0 * (dg' t.2.2 0 t.2.1 + dg' t.2.1 0 t.2.2) +
        gc' 3 3 * (dg' t.2.2 3 t.2.1 + dg' t.2.1 3 t.2.2)))) 3 t.2.2 t.2.1 (0.5 * (gc' 3 0 * (dg' t.2.2 0 t.2.1 + dg' t.2.1 0 t.2.2) +
        gc' 3 3 * (dg' t.2.2 3 t.2.1 + dg' t.2.1 3 t.2.2))))) (scaleTab σ t) =
      scaleTab σ (L.foldl (fun chl t =>
      (Tab3.set (Tab3.set (Tab3.set (Tab3.set chl 0 t.2.1 t.2.2 (0.5 * (gc 0 0 * (dg t.2.2 0 t.2.1 + dg t.2.1 0 t.2.2) +
        gc 0 3 * (dg t.2.2 3 t.2.1 + dg t.2.1 3 t.2.2)))) 0 t.2.2 t.2.1 (0.5 * (gc 0 0 * (dg t.2.2 0 t.2.1 + dg t.2.1 0 t.2.2) +
        gc 0 3 * (dg t.2.2 3 t.2.1 + dg t.2.1 3 t.2.2)))) 3 t.2.1 t.2.2 (0.5 * (gc 3 0 * (dg t.2.2 0 t.2.1 + dg t.2.1 0 t.2.2) +
        gc 3 3 * (dg t.2.2 3 t.2.1 + dg t.2.1 3 t.2.2)))) 3 t.2.2 t.2.1 (0.5 * (gc 3 0 * (dg t.2.2 0 t.2.1 + dg t.2.1 0 t.2.2) +
        gc 3 3 * (dg t.2.2 3 t.2.1 + dg t.2.1 3 t.2.2))))) t) := by
    intro L
    induction L with
    | nil => intro t; rfl
    | cons a L ih =>
      intro t
      simp only [List.foldl_cons]
      rw [← ih]
      congr 1
      obtain ⟨i, p, l⟩ := a
      simp only
      have v0 : 0.5 * (gc' 0 0 * (dg' l 0 p + dg' p 0 l) + gc' 0 3 * (dg' l 3 p + dg' p 3 l)) =
          σ 0 / (σ p * σ l) * (0.5 * (gc 0 0 * (dg l 0 p + dg p 0 l) + gc 0 3 * (dg l 3 p + dg p 3 l))) := by
        simp only [hg, hd]
        have := hσ 0; have := hσ 3; have := hσ p; have := hσ l
        field_simp
      have v3 : 0.5 * (gc' 3 0 * (dg' l 0 p + dg' p 0 l) + gc' 3 3 * (dg' l 3 p + dg' p 3 l)) =
          σ 3 / (σ p * σ l) * (0.5 * (gc 3 0 * (dg l 0 p + dg p 0 l) + gc 3 3 * (dg l 3 p + dg p 3 l))) := by
        simp only [hg, hd]
        have := hσ 0; have := hσ 3; have := hσ p; have := hσ l
        field_simp
      rw [v0, v3, scaleTab_set, hsym 0 p l, scaleTab_set, scaleTab_set, hsym 3 p l, scaleTab_set]
  have e2 : ∀ (i p l : Fin 4), 0.5 * (gc' i i * (dg' l i p + dg' p i l - dg' i p l)) =
      σ i / (σ p * σ l) * (0.5 * (gc i i * (dg l i p + dg p i l - dg i p l))) := by
    intro i p l
    simp only [hg, hd]
    have := hσ i; have := hσ p; have := hσ l
    field_simp
  rw [e1]
  have e3 : ∀ (L : List (Fin 4 × Fin 4 × Fin 4)) (t : Tab3), L.foldl (fun chl t => Tab3.set chl t.1 t.2.1 t.2.2
        (0.5 * (gc' t.1 t.1 * (dg' t.2.2 t.1 t.2.1 + dg' t.2.1 t.1 t.2.2 - dg' t.1 t.2.1 t.2.2)))) (scaleTab σ t) =
      scaleTab σ (L.foldl (fun chl t => Tab3.set chl t.1 t.2.1 t.2.2
        (0.5 * (gc t.1 t.1 * (dg t.2.2 t.1 t.2.1 + dg t.2.1 t.1 t.2.2 - dg t.1 t.2.1 t.2.2)))) t) := by
    intro L
    induction L with
    | nil => intro t; rfl
    | cons a L ih =>
      intro t
      simp only [List.foldl_cons]
      rw [← ih, e2, scaleTab_set]
  rw [e3]
  have e4 : ∀ (L : List (Fin 4 × Fin 4 × Fin 4)) (t : Tab3), L.foldl (fun chl t => Tab3.set (Tab3.set chl t.1 t.2.1 t.2.2
        (0.5 * (gc' t.1 t.1 * (dg' t.2.2 t.1 t.2.1 + dg' t.2.1 t.1 t.2.2 - dg' t.1 t.2.1 t.2.2)))) t.1 t.2.2 t.2.1
        (0.5 * (gc' t.1 t.1 * (dg' t.2.2 t.1 t.2.1 + dg' t.2.1 t.1 t.2.2 - dg' t.1 t.2.1 t.2.2)))) (scaleTab σ t) =
      scaleTab σ (L.foldl (fun chl t => Tab3.set (Tab3.set chl t.1 t.2.1 t.2.2
        (0.5 * (gc t.1 t.1 * (dg t.2.2 t.1 t.2.1 + dg t.2.1 t.1 t.2.2 - dg t.1 t.2.1 t.2.2)))) t.1 t.2.2 t.2.1
        (0.5 * (gc t.1 t.1 * (dg t.2.2 t.1 t.2.1 + dg t.2.1 t.1 t.2.2 - dg t.1 t.2.1 t.2.2)))) t) := by
    intro L
    induction L with
    | nil => intro t; rfl
    | cons a L ih =>
      intro t
      simp only [List.foldl_cons]
      rw [← ih, e2, scaleTab_set, hsym a.1 a.2.1 a.2.2, scaleTab_set]
  rw [e4]

/-- The metric after that substitution, multiplied by the constant `κ`. -/
noncomputable def scaleMat (κ : ℝ) (σ : Vec4) (g : Mat4) : Mat4 := Matrix.of fun i j => κ / (σ i * σ j) * g i j

theorem npInv_scale {κ : ℝ} (hκ : κ ≠ 0) {σ : Vec4} (hσ : ∀ i, σ i ≠ 0) (g : Mat4) :
    npInv (scaleMat κ σ g) = (npInv g).map (scaleMat κ⁻¹ fun i => (σ i)⁻¹) := by
  have hfac : scaleMat κ σ g = κ • (Matrix.diagonal (fun i => (σ i)⁻¹) * g * Matrix.diagonal (fun i => (σ i)⁻¹)) := by
    ext i j
    simp only [scaleMat, Matrix.of_apply, Matrix.smul_apply, Matrix.mul_diagonal, Matrix.diagonal_mul, smul_eq_mul]
    have := hσ i; have := hσ j
    field_simp
  have hdet : IsUnit (scaleMat κ σ g).det ↔ IsUnit g.det := by
    rw [hfac, Matrix.det_smul, Matrix.det_mul, Matrix.det_mul, Matrix.det_diagonal]
    simp only [isUnit_iff_ne_zero]
    have h2 : ∏ i, σ i ≠ 0 := Finset.prod_ne_zero_iff.2 fun i _ => hσ i
    simp [hκ, h2]
  unfold npInv
  by_cases h : IsUnit g.det
  · rw [if_pos h, if_pos (hdet.2 h)]
    show Except.ok _ = Except.ok _
    congr 1
    apply Matrix.inv_eq_left_inv
    have hinv := Matrix.nonsing_inv_mul g h
    ext i j
    rw [Matrix.mul_apply]
    have : ∀ l, scaleMat κ⁻¹ (fun i => (σ i)⁻¹) g⁻¹ i l * scaleMat κ σ g l j = σ i / σ j * (g⁻¹ i l * g l j) := by
      intro l
      simp only [scaleMat, Matrix.of_apply]
      have := hσ i; have := hσ j; have := hσ l
      field_simp
    simp only [this]
    rw [← Finset.mul_sum, ← Matrix.mul_apply, hinv, Matrix.one_apply]
    split_ifs with e
    · subst e; rw [div_self (hσ i), mul_one]
    · rw [mul_zero]
  · rw [if_neg h, if_neg fun h' => h (hdet.1 h')]
    rfl

/-- Symbols computed by the loops of Kerr and KerrNewman, before and after. -/
theorem ch_scale {κ : ℝ} (hκ : κ ≠ 0) {σ : Vec4} (hσ : ∀ i, σ i ≠ 0) {cov cov' : Py Mat4} {dg dg' : Py Tab3}
    (hcov : cov' = cov.map (scaleMat κ σ)) (hdg : dg' = dg.map fun t c i j => κ / (σ c * σ i * σ j) * t c i j) :
    (do let g ← cov'; let gc ← npInv g; let d ← dg'; return chSymLoops gc d : Py Tab3) =
      (do let g ← cov; let gc ← npInv g; let d ← dg; return chSymLoops gc d : Py Tab3).map (scaleTab σ) := by
  subst hcov hdg
  cases cov with
  | error e => rfl
  | ok g =>
    simp only [bind, Except.bind, Except.map, npInv_scale hκ hσ]
    cases npInv g with
    | error e => rfl
    | ok gc =>
      simp only
      cases dg with
      | error e => rfl
      | ok d =>
        simp only [pure, Except.pure]
        congr 1
        refine chSymLoops_scale hκ hσ gc _ d _ (fun i j => ?_) fun c i j => rfl
        simp only [scaleMat, Matrix.of_apply]
        have := hσ i; have := hσ j
        field_simp

/-- Velocities and accelerations after the substitution, with the parameter running `ρ` times as fast. -/
theorem accel_scale {σ : Vec4} (hσ : ∀ i, σ i ≠ 0) (ρ : ℝ) (chl : Tab3) (v : Vec4) :
    accel (scaleTab σ chl) (fun i => ρ * (σ i * v i)) = fun i => ρ ^ 2 * (σ i * accel chl v i) := by
  have h0 := hσ 0; have h1 := hσ 1; have h2 := hσ 2; have h3 := hσ 3
  funext i
  fin_cases i
  · simp [accel, scaleTab, -mul_eq_mul_left_iff, -mul_eq_mul_right_iff]; field_simp
  · simp [accel, scaleTab, -mul_eq_mul_left_iff, -mul_eq_mul_right_iff]; field_simp
  · simp [accel, scaleTab, -mul_eq_mul_left_iff, -mul_eq_mul_right_iff]; field_simp
  · simp [accel, scaleTab, -mul_eq_mul_left_iff, -mul_eq_mul_right_iff]; field_simp

/-- The Schwarzschild acceleration lines. -/
noncomputable def accelS (chl : Tab3) (v : Vec4) : Vec4 := ![-2 * chl 0 0 1 * v 0 * v 1,
    -1 * (chl 1 0 0 * v 0 ^ 2 + chl 1 1 1 * v 1 ^ 2 + chl 1 2 2 * v 2 ^ 2 + chl 1 3 3 * v 3 ^ 2),
    -2 * chl 2 2 1 * v 2 * v 1 - 1 * chl 2 3 3 * v 3 ^ 2,
    -2 * (chl 3 3 1 * v 3 * v 1 + chl 3 3 2 * v 3 * v 2)]

theorem accelS_scale {σ : Vec4} (hσ : ∀ i, σ i ≠ 0) (ρ : ℝ) (chl : Tab3) (v : Vec4) :
    accelS (scaleTab σ chl) (fun i => ρ * (σ i * v i)) = fun i => ρ ^ 2 * (σ i * accelS chl v i) := by
  have h0 := hσ 0; have h1 := hσ 1; have h2 := hσ 2; have h3 := hσ 3
  funext i
  fin_cases i
  · simp [accelS, scaleTab, -mul_eq_mul_left_iff, -mul_eq_mul_right_iff]; field_simp
  · simp [accelS, scaleTab, -mul_eq_mul_left_iff, -mul_eq_mul_right_iff]; field_simp
  · simp [accelS, scaleTab, -mul_eq_mul_left_iff, -mul_eq_mul_right_iff]; field_simp
  · simp [accelS, scaleTab, -mul_eq_mul_left_iff, -mul_eq_mul_right_iff]; field_simp

/-- n steps of RK4 on a right-hand side and on its image under an affine map `S` with linear part `T`, run `l` times as fast. -/
theorem rk_affine {E : Type*} [AddCommGroup E] [Module ℝ E] (S : E → E) (T : E →ₗ[ℝ] E) (hS : ∀ y r, S (y + r) = S y + T r) {l : ℝ} (hl : l ≠ 0)
    {F F' : ℝ → E → Py E} (hF : ∀ t t' y, F' t' (S y) = (F t y).map fun r => l • T r) (t0 t0' tb tb' h : ℝ) (y0 : E) (n : ℕ) :
    (RK4Py.steps n (RK4Py.new F' t0' (S y0) tb' (h / l))).map (fun s => s.y) =
      (RK4Py.steps n (RK4Py.new F t0 y0 tb h)).map (fun s => S s.y) := by
  have hd : ∀ (G : ℝ → E → Py E) a b c d, (RK4Py.new G a b c d).direction = 0 := by
    intro G a b c d
    show 1 * (if c ≥ a then (1:Int) else 0) - 1 * (if ¬ c < a then 1 else 0) = 0
    by_cases hca : c < a
    · rw [if_neg (not_le.2 hca), if_neg (not_not.2 hca)]; rfl
    · rw [if_pos (not_lt.1 hca), if_pos hca]; rfl
  have one : ∀ s s' : RK4Py E, s.direction = 0 → s'.direction = 0 → s.func = F → s'.func = F' → s.stepSize = h →
      s'.stepSize = h / l → s'.y = S s.y →
      (∃ e, s.step = .error e ∧ s'.step = .error e) ∨ (∃ r r', s.step = .ok r ∧ s'.step = .ok r' ∧ r.direction = 0 ∧ r'.direction = 0 ∧
        r.func = F ∧ r'.func = F' ∧ r.stepSize = h ∧ r'.stepSize = h / l ∧ r'.y = S r.y) := by
    intro s s' d1 d2 f1 f2 e1 e2 hy
    have hn : ¬ ((s.t ≥ s.tBound ∧ s.direction = 1) ∨ (s.t ≤ s.tBound ∧ s.direction = -1)) := by rw [d1]; simp
    have hn' : ¬ ((s'.t ≥ s'.tBound ∧ s'.direction = 1) ∨ (s'.t ≤ s'.tBound ∧ s'.direction = -1)) := by rw [d2]; simp
    have st : ∀ (a : ℝ) (r : E), S s.y + (a / l) • (l • T r) = S (s.y + a • r) := by
      intro a r
      rw [hS, map_smul, smul_smul, div_mul_cancel₀ _ hl]
    have hh : h / l / 2 = h / 2 / l := by ring
    have hh6 : h / l / 6 = h / 6 / l := by ring
    unfold RK4Py.step
    rw [if_neg hn, if_neg hn', f1, f2, e1, e2, hy]
    simp only [bind, Except.bind, pure, Except.pure, hh, hh6]
    rw [hF s.t]
    cases k0 : F s.t s.y with
    | error e => exact Or.inl ⟨e, rfl, rfl⟩
    | ok r0 =>
      simp only [Except.map, st]
      rw [hF (s.t + h / 2)]
      cases k1 : F (s.t + h / 2) (s.y + (h / 2) • r0) with
      | error e => exact Or.inl ⟨e, rfl, rfl⟩
      | ok r1 =>
        simp only [Except.map, st]
        rw [hF (s.t + h / 2)]
        cases k2 : F (s.t + h / 2) (s.y + (h / 2) • r1) with
        | error e => exact Or.inl ⟨e, rfl, rfl⟩
        | ok r2 =>
          simp only [Except.map, st]
          rw [hF (s.t + h)]
          cases k3 : F (s.t + h) (s.y + h • r2) with
          | error e => exact Or.inl ⟨e, rfl, rfl⟩
          | ok r3 =>
            refine Or.inr ⟨_, _, rfl, rfl, d1, d2, rfl, rfl, rfl, rfl, ?_⟩
            show S s.y + (h / 6 / l) • (l • T r0 + (2:ℝ) • l • T r1 + (2:ℝ) • l • T r2 + l • T r3) = S (s.y + _)
            rw [← st]
            congr 2
            simp only [map_add, map_smul, smul_add, smul_smul, mul_comm]
  have key : ∀ n, (∃ e, RK4Py.steps n (RK4Py.new F t0 y0 tb h) = .error e ∧
        RK4Py.steps n (RK4Py.new F' t0' (S y0) tb' (h / l)) = .error e) ∨
      (∃ r r', RK4Py.steps n (RK4Py.new F t0 y0 tb h) = .ok r ∧ RK4Py.steps n (RK4Py.new F' t0' (S y0) tb' (h / l)) = .ok r' ∧
        r.direction = 0 ∧ r'.direction = 0 ∧ r.func = F ∧ r'.func = F' ∧ r.stepSize = h ∧ r'.stepSize = h / l ∧ r'.y = S r.y) := by
    intro n
    induction n with
    | zero => exact Or.inr ⟨_, _, rfl, rfl, hd _ _ _ _ _, hd _ _ _ _ _, rfl, rfl, rfl, rfl, rfl⟩
    | succ n ih =>
      rcases ih with ⟨e, h1, h2⟩ | ⟨r, r', h1, h2, a1, a2, a3, a4, a5, a6, a7⟩
      · exact Or.inl ⟨e, by rw [RK4Py.steps, h1]; rfl, by rw [RK4Py.steps, h2]; rfl⟩
      · rcases one r r' a1 a2 a3 a4 a5 a6 a7 with ⟨e, g1, g2⟩ | ⟨u, u', g1, g2, rest⟩
        · exact Or.inl ⟨e, by rw [RK4Py.steps, h1]; exact g1, by rw [RK4Py.steps, h2]; exact g2⟩
        · exact Or.inr ⟨u, u', by rw [RK4Py.steps, h1]; exact g1, by rw [RK4Py.steps, h2]; exact g2, rest⟩
  rcases key n with ⟨e, h1, h2⟩ | ⟨r, r', h1, h2, -, -, -, -, -, -, h3⟩
  · rw [h1, h2]; rfl
  · rw [h1, h2]
    simp only [Except.map, h3]

/-! ### From the metric and its derivatives to `f_vec` -/

/-- The table of derivatives after the substitution. -/
noncomputable def scaleD (κ : ℝ) (σ : Vec4) (t : Tab3) : Tab3 := fun c i j => κ / (σ c * σ i * σ j) * t c i j

/-- Velocities after the substitution. -/
def moveVel (ρ : ℝ) (σ : Vec4) (v : Vec4) : Vec4 := fun i => ρ * (σ i * v i)

variable (k : PhysConst)

theorem sch_fVec_scale {σ : Vec4} (hσ : ∀ i, σ i ≠ 0) (ρ : ℝ) {m m' : NumMetric} {x x' : Vec4} (hsys : m'.system = m.system)
    (hc : Schwarzschild.christoffels k m' x' = (Schwarzschild.christoffels k m x).map (scaleTab σ)) (v : Vec4) :
    Schwarzschild.fVec k m' x' (moveVel ρ σ v) =
      (Schwarzschild.fVec k m x v).map fun r => (moveVel ρ σ r.1, ρ • moveVel ρ σ r.2) := by
  unfold Schwarzschild.fVec Schwarzschild.fVecS
  rw [hsys, hc]
  split_ifs
  · cases Schwarzschild.christoffels k m x with
    | error e => rfl
    | ok chl =>
      simp only [bind, Except.bind, pure, Except.pure, Except.map]
      have h := accelS_scale hσ ρ chl v
      unfold accelS at h
      rw [show (fun i => ρ * (σ i * v i)) = moveVel ρ σ v from rfl] at h
      rw [h]
      congr 2
      funext i
      show ρ ^ 2 * _ = ρ * (ρ * _)
      ring
  · rfl

theorem kerr_christoffels_scale {κ : ℝ} (hκ : κ ≠ 0) {σ : Vec4} (hσ : ∀ i, σ i ≠ 0) {m m' : NumMetric} {x x' : Vec4}
    (hsys : m'.system = m.system)
    (hg : Kerr.metricCovariant k m' x' = (Kerr.metricCovariant k m x).map (scaleMat κ σ))
    (hd : Kerr.dgdxBl k m' x' = (Kerr.dgdxBl k m x).map (scaleD κ σ)) :
    Kerr.christoffels k m' x' = (Kerr.christoffels k m x).map (scaleTab σ) := by
  unfold Kerr.christoffels
  rw [hsys]
  split_ifs
  · have h := ch_scale hκ hσ hg hd
    unfold Kerr.chSymBl contraOf
    simpa only [bind_assoc] using h
  · rfl


theorem kerr_fVec_scale {κ : ℝ} (hκ : κ ≠ 0) {σ : Vec4} (hσ : ∀ i, σ i ≠ 0) (ρ : ℝ) {m m' : NumMetric} {x x' : Vec4}
    (hsys : m'.system = m.system)
    (hg : Kerr.metricCovariant k m' x' = (Kerr.metricCovariant k m x).map (scaleMat κ σ))
    (hd : Kerr.dgdxBl k m' x' = (Kerr.dgdxBl k m x).map (scaleD κ σ)) (v : Vec4) :
    Kerr.fVec k m' x' (moveVel ρ σ v) = (Kerr.fVec k m x v).map fun r => (moveVel ρ σ r.1, ρ • moveVel ρ σ r.2) := by
  unfold Kerr.fVec Kerr.fVecBl
  rw [hsys, kerr_christoffels_scale k hκ hσ hsys hg hd]
  split_ifs
  · cases Kerr.christoffels k m x with
    | error e => rfl
    | ok chl =>
      simp only [bind, Except.bind, pure, Except.pure, Except.map]
      rw [show moveVel ρ σ v = fun i => ρ * (σ i * v i) from rfl, accel_scale hσ]
      congr 2
      funext i
      show ρ ^ 2 * _ = ρ * (ρ * _)
      ring
  · rfl

theorem kn_christoffels_scale {κ : ℝ} (hκ : κ ≠ 0) {σ : Vec4} (hσ : ∀ i, σ i ≠ 0) {m m' : NumMetric} {x x' : Vec4}
    (hsys : m'.system = m.system)
    (hg : KerrNewman.metricCovariant k m' x' = (KerrNewman.metricCovariant k m x).map (scaleMat κ σ))
    (hd : KerrNewman.dgdxBl k m' x' = (KerrNewman.dgdxBl k m x).map (scaleD κ σ)) :
    KerrNewman.christoffels k m' x' = (KerrNewman.christoffels k m x).map (scaleTab σ) := by
  unfold KerrNewman.christoffels
  rw [hsys]
  split_ifs
  · have h := ch_scale hκ hσ hg hd
    unfold KerrNewman.chSymBl contraOf
    simpa only [bind_assoc] using h
  · rfl

/-- `em_tensor_contravariant` after the substitution, when `F'_ij = η / (σ_i σ_j) F_ij`. -/
theorem kn_em_scale {κ η : ℝ} (hκ : κ ≠ 0) {σ : Vec4} (hσ : ∀ i, σ i ≠ 0) {m m' : NumMetric} {x x' : Vec4}
    (hg : KerrNewman.metricCovariant k m' x' = (KerrNewman.metricCovariant k m x).map (scaleMat κ σ))
    (hF : KerrNewman.emTensorCov k m' x' = (KerrNewman.emTensorCov k m x).map (scaleMat η σ)) :
    KerrNewman.emTensorContra k m' x' =
      (KerrNewman.emTensorContra k m x).map (scaleMat (η * κ⁻¹ * κ⁻¹) fun i => (σ i)⁻¹) := by
  unfold KerrNewman.emTensorContra contraOf
  rw [hF, hg]
  cases KerrNewman.emTensorCov k m x with
  | error e => rfl
  | ok F =>
    simp only [bind, Except.bind, Except.map]
    cases KerrNewman.metricCovariant k m x with
    | error e => rfl
    | ok g =>
      simp only [npInv_scale hκ hσ]
      cases npInv g with
      | error e => rfl
      | ok gc =>
        simp only [Except.map, pure, Except.pure]
        congr 1
        ext i j
        simp only [scaleMat, Matrix.of_apply, Matrix.mul_apply, Finset.sum_mul, Finset.mul_sum]
        refine Finset.sum_congr rfl fun b _ => Finset.sum_congr rfl fun a _ => ?_
        have := hσ i; have := hσ j; have := hσ a; have := hσ b
        field_simp

theorem kn_fVec_scale {κ η : ℝ} (hκ : κ ≠ 0) {σ : Vec4} (hσ : ∀ i, σ i ≠ 0) (ρ : ℝ) {m m' : NumMetric} {x x' : Vec4}
    (hsys : m'.system = m.system)
    (hg : KerrNewman.metricCovariant k m' x' = (KerrNewman.metricCovariant k m x).map (scaleMat κ σ))
    (hd : KerrNewman.dgdxBl k m' x' = (KerrNewman.dgdxBl k m x).map (scaleD κ σ))
    (hF : KerrNewman.emTensorCov k m' x' = (KerrNewman.emTensorCov k m x).map (scaleMat η σ))
    (hq : (m.q = 0 ∧ m'.q = 0) ∨ (κ = 1 ∧ ρ = 1 ∧ (∀ i, σ i ^ 2 = 1) ∧ m'.q * η = m.q)) (v : Vec4) :
    KerrNewman.fVec k m' x' (moveVel ρ σ v) =
      (KerrNewman.fVec k m x v).map fun r => (moveVel ρ σ r.1, ρ • moveVel ρ σ r.2) := by
  unfold KerrNewman.fVec KerrNewman.fVecBl
  rw [hsys, kn_christoffels_scale k hκ hσ hsys hg hd, kn_em_scale k hκ hσ hg hF, hg]
  split_ifs
  · cases KerrNewman.christoffels k m x with
    | error e => rfl
    | ok chl =>
      cases KerrNewman.emTensorContra k m x with
      | error e => rfl
      | ok F =>
        cases KerrNewman.metricCovariant k m x with
        | error e => rfl
        | ok g =>
          simp only [bind, Except.bind, pure, Except.pure, Except.map]
          have ha := accel_scale hσ ρ chl v
          rw [show (fun i => ρ * (σ i * v i)) = moveVel ρ σ v from rfl] at ha
          rw [ha]
          congr 2
          funext i
          rcases hq with ⟨h1, h2⟩ | ⟨h1, h2, h3, h4⟩
          · rw [h1, h2, zero_smul, zero_smul, sub_zero, sub_zero]
            show ρ ^ 2 * _ = ρ * (ρ * _)
            ring
          · subst h1 h2
            have hi : ∀ i, (σ i)⁻¹ = σ i := fun i => inv_eq_of_mul_eq_one_left (by rw [← pow_two, h3])
            show 1 ^ 2 * (σ i * accel chl v i) - m'.q * _ = 1 * (1 * (σ i * (accel chl v i - m.q * _)))
            rw [← h4]
            have hs : Matrix.vecMul ((scaleMat (η * 1⁻¹ * 1⁻¹) (fun i => (σ i)⁻¹) F).mulVec (moveVel 1 σ v)) (scaleMat 1 σ g) i =
                η * (σ i * Matrix.vecMul (F.mulVec v) g i) := by
              simp only [Matrix.vecMul, Matrix.mulVec, dotProduct, scaleMat, Matrix.of_apply, moveVel, Finset.mul_sum, Finset.sum_mul]
              refine Finset.sum_congr rfl fun a _ => Finset.sum_congr rfl fun b _ => ?_
              have e1 := h3 a; have e2 := h3 b; have e3 := h3 i
              have := hσ i; have := hσ a; have := hσ b
              rw [show (1:ℝ) / (σ a * σ i) = σ a * σ i by rw [one_div, mul_inv, hi, hi]]
              field_simp
              linear_combination (η * F a b * v b * g a i * σ b ^ 2) * e1 + (η * F a b * v b * g a i) * e2
            rw [hs]
            ring
  · rfl

end Einpy.Num
