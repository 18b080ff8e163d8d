import Verif.Num.ScaleTab

/-!
# C130, C131: the symmetries of the numeric metrics, and their scaling with the mass
-/

namespace Einpy.Num
open Classical

/-! ### Specification -/

/-- `-1` when the flag is set. -/
def flip (b : Bool) : ℝ := if b then -1 else 1

/-- A move of space-time: reverse the time (`revT`), reverse the sense of rotation (`revP`), reflect in the equatorial plane
(`refl`), then shift the time by `dt` and turn about the axis by `dphi`. -/
structure Move where
  revT : Bool
  revP : Bool
  refl : Bool
  dt : ℝ
  dphi : ℝ

/-- Where the move takes the event with coordinates `x = (t, r, θ, φ)`. -/
noncomputable def Move.pos (μ : Move) (x : Vec4) : Vec4 :=
  ![flip μ.revT * x 0 + μ.dt, x 1, if μ.refl then Real.pi - x 2 else x 2, flip μ.revP * x 3 + μ.dphi]

/-- What the move does to velocities and accelerations. -/
def Move.vel (μ : Move) (v : Vec4) : Vec4 := ![flip μ.revT * v 0, v 1, flip μ.refl * v 2, flip μ.revP * v 3]

/-- The moves that are symmetries of a hole with spin `a`: time and sense of rotation are reversed together, unless it does not spin. -/
def Move.Allowed (μ : Move) (a : ℝ) : Prop := μ.revT = μ.revP ∨ a = 0

/-- Lengths and times multiplied by `l`. -/
def scalePos (l : ℝ) (x : Vec4) : Vec4 := ![l * x 0, l * x 1, x 2, x 3]
noncomputable def scaleVel (l : ℝ) (v : Vec4) : Vec4 := ![v 0, v 1, v 2 / l, v 3 / l]
noncomputable def scaleAcc (l : ℝ) (w : Vec4) : Vec4 := ![w 0 / l, w 1 / l, w 2 / l ^ 2, w 3 / l ^ 2]

/-! ### Right-hand sides related by an affine substitution -/

/-- `x'_i = σ_i x_i + b_i` -/
def affine (σ b : Vec4) (x : Vec4) : Vec4 := fun i => σ i * x i + b i

/-- `f'` is `f` after that substitution, with the parameter running `ρ` times as fast. -/
def Related (ρ : ℝ) (σ b : Vec4) (f f' : Vec4 → Vec4 → Py (Vec4 × Vec4)) : Prop :=
  ∀ x v, f' (affine σ b x) (moveVel ρ σ v) = (f x v).map fun r => (moveVel ρ σ r.1, ρ • moveVel ρ σ r.2)

theorem moveVel_add (ρ : ℝ) (σ v w : Vec4) : moveVel ρ σ (v + w) = moveVel ρ σ v + moveVel ρ σ w := by
  funext i; show ρ * (σ i * (v i + w i)) = ρ * (σ i * v i) + ρ * (σ i * w i); ring

theorem moveVel_smul (ρ c : ℝ) (σ v : Vec4) : moveVel ρ σ (c • v) = c • moveVel ρ σ v := by
  funext i; show ρ * (σ i * (c * v i)) = c * (ρ * (σ i * v i)); ring

theorem Related.rk {ρ : ℝ} (hρ : ρ ≠ 0) {σ b : Vec4} {f f' : Vec4 → Vec4 → Py (Vec4 × Vec4)} (h : Related ρ σ b f f')
    (t0 t0' tb tb' s : ℝ) (x v : Vec4) (n : ℕ) :
    (RK4Py.steps n (RK4Py.new (asRhs f') t0' (affine σ b x, moveVel ρ σ v) tb' (s / ρ))).map (fun s => s.y) =
      (RK4Py.steps n (RK4Py.new (asRhs f) t0 (x, v) tb s)).map (fun s => (affine σ b s.y.1, moveVel ρ σ s.y.2)) := by
  let S : Vec4 × Vec4 → Vec4 × Vec4 := fun y => (affine σ b y.1, moveVel ρ σ y.2)
  let T : (Vec4 × Vec4) →ₗ[ℝ] (Vec4 × Vec4) :=
    { toFun := fun y => (moveVel 1 σ y.1, moveVel ρ σ y.2)
      map_add' := fun y z => Prod.ext (moveVel_add 1 σ y.1 z.1) (moveVel_add ρ σ y.2 z.2)
      map_smul' := fun c y => Prod.ext (moveVel_smul 1 c σ y.1) (moveVel_smul ρ c σ y.2) }
  refine rk_affine S T (fun y r => Prod.ext ?_ (moveVel_add ρ σ y.2 r.2)) hρ (fun t t' y => ?_) t0 t0' tb tb' s (x, v) n
  · funext i
    show σ i * (y.1 i + r.1 i) + b i = σ i * y.1 i + b i + 1 * (σ i * r.1 i)
    ring
  · show f' (affine σ b y.1) (moveVel ρ σ y.2) = (f y.1 y.2).map _
    rw [h]
    cases f y.1 y.2 with
    | error e => rfl
    | ok r =>
      refine congrArg Except.ok (Prod.ext ?_ rfl)
      funext i
      show ρ * (σ i * r.1 i) = ρ * (1 * (σ i * r.1 i))
      ring

theorem Related.solves {ρ : ℝ} {σ b : Vec4} {f f' : Vec4 → Vec4 → Py (Vec4 × Vec4)} (h : Related ρ σ b f f') {X V : ℝ → Vec4}
    (hs : Solves f X V) : Solves f' (fun t => affine σ b (X (ρ * t))) (fun t => moveVel ρ σ (V (ρ * t))) := by
  intro t
  obtain ⟨dX, dV, e, hX, hV⟩ := hs (ρ * t)
  have hm : HasDerivAt (fun t : ℝ => ρ * t) ρ t := ((hasDerivAt_id t).const_mul ρ).congr_deriv (mul_one ρ)
  refine ⟨moveVel ρ σ dX, ρ • moveVel ρ σ dV, by rw [h, e]; rfl, ?_, ?_⟩
  · rw [hasDerivAt_pi]
    intro i
    have h1 := hasDerivAt_pi.1 (hX.scomp t hm) i
    refine ((h1.const_mul (σ i)).add_const (b i)).congr_deriv ?_
    show σ i * (ρ * dX i) = ρ * (σ i * dX i)
    ring
  · rw [hasDerivAt_pi]
    intro i
    have h1 := hasDerivAt_pi.1 (hV.scomp t hm) i
    refine ((h1.const_mul (σ i)).const_mul ρ).congr_deriv ?_
    show ρ * (σ i * (ρ * dV i)) = ρ * (ρ * (σ i * dV i))
    ring

variable (k : PhysConst)

/-- The three right-hand sides under one substitution. -/
theorem related_all {l s0 e s3 M a : ℝ} (hl : 0 < l) (h0 : s0 ^ 2 = 1) (he : e ^ 2 = 1) (h3 : s3 ^ 2 = 1) {b : Vec4}
    (hx : ∀ x, SubAt l e x (affine (facs l s0 e s3) b x)) :
    Related l⁻¹ (facs l s0 e s3) b (Schwarzschild.fVec k (Schwarzschild.new k "Spherical" M))
        (Schwarzschild.fVec k (Schwarzschild.new k "Spherical" (l * M))) ∧
    ((s0 * s3 = 1 ∨ a = 0) → Related l⁻¹ (facs l s0 e s3) b (Kerr.fVec k (Kerr.new k "BoyerLindquist" M a))
        (Kerr.fVec k (Kerr.new k "BoyerLindquist" (l * M) a))) ∧
    ((s0 * s3 = 1 ∨ a = 0) → ∀ Q q q', (q = 0 ∧ q' = 0) ∨ (l = 1 ∧ q' * s0 = q) →
      Related l⁻¹ (facs l s0 e s3) b (KerrNewman.fVec k (KerrNewman.new k "BoyerLindquist" M a Q q))
        (KerrNewman.fVec k (KerrNewman.new k "BoyerLindquist" (l * M) a (l * Q) q'))) := by
  have hσ := facs_ne (s0 := s0) (e := e) (s3 := s3) hl.ne' h0 he h3
  have hκ : l ^ 2 ≠ 0 := pow_ne_zero 2 hl.ne'
  refine ⟨fun x v => ?_, fun ha x v => ?_, fun ha Q q q' hq x v => ?_⟩
  · exact sch_fVec_scale k (m := Schwarzschild.new k "Spherical" M) (m' := Schwarzschild.new k "Spherical" (l * M)) hσ l⁻¹ rfl (sch_ch_sub k hl.ne' h0 he h3 (hx x)) v
  · exact kerr_fVec_scale k (m := Kerr.new k "BoyerLindquist" M a) (m' := Kerr.new k "BoyerLindquist" (l * M) a) hκ hσ l⁻¹ rfl
       (kerr_metric_sub k hl.ne' h0 he h3 ha (hx x)) (kerr_dgdx_sub k _ hl.ne' h0 he h3 ha (hx x)) v
  · refine kn_fVec_scale k (m := KerrNewman.new k "BoyerLindquist" M a Q q)
      (m' := KerrNewman.new k "BoyerLindquist" (l * M) a (l * Q) q') hκ hσ l⁻¹ rfl
       (kn_metric_sub k Q q (l * Q) q' hl.ne' h0 he h3 ha (hx x))
      (kn_dgdx_sub k _ Q q (l * Q) q' hl.ne' h0 he h3 ha (hx x)) (kn_em_sub k _ Q q q' hl h0 he h3 ha (hx x)) ?_ v
    rcases hq with hq | ⟨rfl, hq⟩
    · exact Or.inl hq
    · refine Or.inr ⟨one_pow 2, inv_one, fun i => ?_, ?_⟩
      · refine fin4_cases (P := fun i => facs 1 s0 e s3 i ^ 2 = 1) ?_ (one_pow 2) he h3 i
        show (1 * s0) ^ 2 = 1
        rw [one_mul, h0]
      · show q' * (1 * s0) = q
        rw [one_mul, hq]

/-! ### C130 -/

theorem flip_sq (b : Bool) : flip b ^ 2 = 1 := by cases b <;> norm_num [flip]

/-- The constants of a move. -/
noncomputable def Move.shift (μ : Move) : Vec4 := ![μ.dt, 0, if μ.refl then Real.pi else 0, μ.dphi]
def Move.facs (μ : Move) : Vec4 := Num.facs 1 (flip μ.revT) (flip μ.refl) (flip μ.revP)

theorem Move.pos_eq (μ : Move) (x : Vec4) : affine μ.facs μ.shift x = μ.pos x := by
  funext i
  refine fin4_cases (P := fun i => affine μ.facs μ.shift x i = μ.pos x i) ?_ ?_ ?_ ?_ i
  · show 1 * flip μ.revT * x 0 + μ.dt = flip μ.revT * x 0 + μ.dt
    ring
  · show 1 * x 1 + 0 = x 1
    ring
  · show flip μ.refl * x 2 + (if μ.refl then Real.pi else 0) = if μ.refl then Real.pi - x 2 else x 2
    unfold flip
    split_ifs <;> ring
  · rfl

theorem Move.vel_eq (μ : Move) (v : Vec4) : moveVel 1 μ.facs v = μ.vel v := by
  funext i
  refine fin4_cases (P := fun i => moveVel 1 μ.facs v i = μ.vel v i) ?_ ?_ ?_ ?_ i
  · show 1 * (1 * flip μ.revT * v 0) = flip μ.revT * v 0
    ring
  · show 1 * (1 * v 1) = v 1
    ring
  · show 1 * (flip μ.refl * v 2) = flip μ.refl * v 2
    ring
  · show 1 * (flip μ.revP * v 3) = flip μ.revP * v 3
    ring

theorem Move.subAt (μ : Move) (x : Vec4) : SubAt 1 (flip μ.refl) x (affine μ.facs μ.shift x) := by
  rw [μ.pos_eq]
  refine ⟨(one_mul _).symm, ?_, ?_⟩
  · show Real.sin (if μ.refl then Real.pi - x 2 else x 2) = _
    split_ifs
    · exact Real.sin_pi_sub _
    · rfl
  · show Real.cos (if μ.refl then Real.pi - x 2 else x 2) = _
    unfold flip
    split_ifs
    · rw [Real.cos_pi_sub]; ring
    · ring

theorem Move.allowed {μ : Move} {a : ℝ} (h : μ.Allowed a) : flip μ.revT * flip μ.revP = 1 ∨ a = 0 := by
  rcases h with h | h
  · exact Or.inl (by rw [h, ← pow_two, flip_sq])
  · exact Or.inr h

theorem Move.related (μ : Move) (M a Q q : ℝ) :
    Related 1 μ.facs μ.shift (Schwarzschild.fVec k (Schwarzschild.new k "Spherical" M))
        (Schwarzschild.fVec k (Schwarzschild.new k "Spherical" M)) ∧
    (μ.Allowed a → Related 1 μ.facs μ.shift (Kerr.fVec k (Kerr.new k "BoyerLindquist" M a))
        (Kerr.fVec k (Kerr.new k "BoyerLindquist" M a))) ∧
    (μ.Allowed a → Related 1 μ.facs μ.shift (KerrNewman.fVec k (KerrNewman.new k "BoyerLindquist" M a Q q))
        (KerrNewman.fVec k (KerrNewman.new k "BoyerLindquist" M a Q (flip μ.revT * q)))) := by
  obtain ⟨h1, h2, h3⟩ := related_all k (l := 1) (M := M) (a := a) one_pos (flip_sq μ.revT) (flip_sq μ.refl) (flip_sq μ.revP) μ.subAt
  simp only [one_mul, inv_one] at h1 h2 h3
  refine ⟨h1, fun h => h2 (Move.allowed h), fun h => h3 (Move.allowed h) Q q _ (Or.inr ⟨trivial, ?_⟩)⟩
  linear_combination q * flip_sq μ.revT

/-- **C130.** `f_vec` commutes with the moves: at the moved event, with the moved velocity, it raises the same error or returns the
moved velocity and the moved acceleration.  For KerrNewman, reversing the time also reverses the charge of the particle. -/
theorem C130_rhs (μ : Move) (M a Q q : ℝ) (x v : Vec4) :
    (Schwarzschild.fVec k (Schwarzschild.new k "Spherical" M) (μ.pos x) (μ.vel v) =
      (Schwarzschild.fVec k (Schwarzschild.new k "Spherical" M) x v).map fun r => (μ.vel r.1, μ.vel r.2)) ∧
    (μ.Allowed a → Kerr.fVec k (Kerr.new k "BoyerLindquist" M a) (μ.pos x) (μ.vel v) =
      (Kerr.fVec k (Kerr.new k "BoyerLindquist" M a) x v).map fun r => (μ.vel r.1, μ.vel r.2)) ∧
    (μ.Allowed a → KerrNewman.fVec k (KerrNewman.new k "BoyerLindquist" M a Q (flip μ.revT * q)) (μ.pos x) (μ.vel v) =
      (KerrNewman.fVec k (KerrNewman.new k "BoyerLindquist" M a Q q) x v).map fun r => (μ.vel r.1, μ.vel r.2)) := by
  obtain ⟨h1, h2, h3⟩ := μ.related k M a Q q
  refine ⟨?_, fun h => ?_, fun h => ?_⟩
  · have := h1 x v
    simpa only [μ.pos_eq, μ.vel_eq, inv_one, one_smul] using this
  · have := h2 h x v
    simpa only [μ.pos_eq, μ.vel_eq, inv_one, one_smul] using this
  · have := h3 h x v
    simpa only [μ.pos_eq, μ.vel_eq, inv_one, one_smul] using this

/-- **C130.** So a run of the RK4 solver from the moved event with the moved velocity is the moved run, step by step. -/
theorem C130_trajectories (μ : Move) (M a Q q t0 t0' tb tb' h : ℝ) (x v : Vec4) (n : ℕ) :
    ((RK4Py.steps n (RK4Py.new (asRhs (Schwarzschild.fVec k (Schwarzschild.new k "Spherical" M))) t0' (μ.pos x, μ.vel v) tb' h)).map
        (fun s => s.y) =
      (RK4Py.steps n (RK4Py.new (asRhs (Schwarzschild.fVec k (Schwarzschild.new k "Spherical" M))) t0 (x, v) tb h)).map
        (fun s => (μ.pos s.y.1, μ.vel s.y.2))) ∧
    (μ.Allowed a →
      (RK4Py.steps n (RK4Py.new (asRhs (Kerr.fVec k (Kerr.new k "BoyerLindquist" M a))) t0' (μ.pos x, μ.vel v) tb' h)).map
        (fun s => s.y) =
      (RK4Py.steps n (RK4Py.new (asRhs (Kerr.fVec k (Kerr.new k "BoyerLindquist" M a))) t0 (x, v) tb h)).map
        (fun s => (μ.pos s.y.1, μ.vel s.y.2))) ∧
    (μ.Allowed a →
      (RK4Py.steps n (RK4Py.new (asRhs (KerrNewman.fVec k (KerrNewman.new k "BoyerLindquist" M a Q (flip μ.revT * q)))) t0'
          (μ.pos x, μ.vel v) tb' h)).map (fun s => s.y) =
      (RK4Py.steps n (RK4Py.new (asRhs (KerrNewman.fVec k (KerrNewman.new k "BoyerLindquist" M a Q q))) t0 (x, v) tb h)).map
        (fun s => (μ.pos s.y.1, μ.vel s.y.2))) := by
  obtain ⟨h1, h2, h3⟩ := μ.related k M a Q q
  refine ⟨?_, fun hA => ?_, fun hA => ?_⟩
  · have := h1.rk one_ne_zero t0 t0' tb tb' h x v n
    simpa only [μ.pos_eq, μ.vel_eq, inv_one, div_one] using this
  · have := (h2 hA).rk one_ne_zero t0 t0' tb tb' h x v n
    simpa only [μ.pos_eq, μ.vel_eq, inv_one, div_one] using this
  · have := (h3 hA).rk one_ne_zero t0 t0' tb tb' h x v n
    simpa only [μ.pos_eq, μ.vel_eq, inv_one, div_one] using this

/-- **C130.** The moves take exact solutions to exact solutions. -/
theorem C130_solutions (μ : Move) (M a Q q : ℝ) (X V : ℝ → Vec4) :
    (Solves (Schwarzschild.fVec k (Schwarzschild.new k "Spherical" M)) X V →
      Solves (Schwarzschild.fVec k (Schwarzschild.new k "Spherical" M)) (fun t => μ.pos (X t)) (fun t => μ.vel (V t))) ∧
    (μ.Allowed a → Solves (Kerr.fVec k (Kerr.new k "BoyerLindquist" M a)) X V →
      Solves (Kerr.fVec k (Kerr.new k "BoyerLindquist" M a)) (fun t => μ.pos (X t)) (fun t => μ.vel (V t))) ∧
    (μ.Allowed a → Solves (KerrNewman.fVec k (KerrNewman.new k "BoyerLindquist" M a Q q)) X V →
      Solves (KerrNewman.fVec k (KerrNewman.new k "BoyerLindquist" M a Q (flip μ.revT * q))) (fun t => μ.pos (X t))
        (fun t => μ.vel (V t))) := by
  obtain ⟨h1, h2, h3⟩ := μ.related k M a Q q
  refine ⟨fun hs => ?_, fun hA hs => ?_, fun hA hs => ?_⟩
  · have := h1.solves hs
    simpa only [μ.pos_eq, μ.vel_eq, inv_one, one_mul] using this
  · have := (h2 hA).solves hs
    simpa only [μ.pos_eq, μ.vel_eq, inv_one, one_mul] using this
  · have := (h3 hA).solves hs
    simpa only [μ.pos_eq, μ.vel_eq, inv_one, one_mul] using this

theorem equatorial_of {f : Vec4 → Vec4 → Py (Vec4 × Vec4)} {t0 tb h : ℝ} {x v : Vec4} {n : ℕ} (hx : x 2 = Real.pi / 2) (hv : v 2 = 0)
    (hm : (RK4Py.steps n (RK4Py.new (asRhs f) t0 ((⟨false, false, true, 0, 0⟩ : Move).pos x, (⟨false, false, true, 0, 0⟩ : Move).vel v) tb h)).map
        (fun s => s.y) = (RK4Py.steps n (RK4Py.new (asRhs f) t0 (x, v) tb h)).map
        (fun s => ((⟨false, false, true, 0, 0⟩ : Move).pos s.y.1, (⟨false, false, true, 0, 0⟩ : Move).vel s.y.2))) {s : RK4Py (Vec4 × Vec4)}
    (hs : RK4Py.steps n (RK4Py.new (asRhs f) t0 (x, v) tb h) = .ok s) : s.y.1 2 = Real.pi / 2 ∧ s.y.2 2 = 0 := by
  have ex : (⟨false, false, true, 0, 0⟩ : Move).pos x = x := by
    funext i
    refine fin4_cases (P := fun i => (⟨false, false, true, 0, 0⟩ : Move).pos x i = x i) ?_ rfl ?_ ?_ i
    · show (1:ℝ) * x 0 + 0 = x 0
      ring
    · show Real.pi - x 2 = x 2
      rw [hx]; ring
    · show (1:ℝ) * x 3 + 0 = x 3
      ring
  have ev : (⟨false, false, true, 0, 0⟩ : Move).vel v = v := by
    funext i
    refine fin4_cases (P := fun i => (⟨false, false, true, 0, 0⟩ : Move).vel v i = v i) ?_ rfl ?_ ?_ i
    · exact one_mul _
    · show (-1:ℝ) * v 2 = v 2
      rw [hv]; ring
    · exact one_mul _
  rw [ex, ev, hs] at hm
  have hy : s.y = _ := Except.ok.inj hm
  constructor
  · have h1 : s.y.1 2 = Real.pi - s.y.1 2 := congrFun (congrArg Prod.fst hy) 2
    linarith
  · have h1 : s.y.2 2 = -1 * s.y.2 2 := congrFun (congrArg Prod.snd hy) 2
    linarith

/-- **C130.** A particle that starts in the equatorial plane with no velocity out of it stays there, exactly, for any number of steps. -/
theorem C130_equatorial (M a Q q t0 tb h : ℝ) {x v : Vec4} (hx : x 2 = Real.pi / 2) (hv : v 2 = 0) (n : ℕ) (s : RK4Py (Vec4 × Vec4))
    (hs : RK4Py.steps n (RK4Py.new (asRhs (Schwarzschild.fVec k (Schwarzschild.new k "Spherical" M))) t0 (x, v) tb h) = .ok s ∨
      RK4Py.steps n (RK4Py.new (asRhs (Kerr.fVec k (Kerr.new k "BoyerLindquist" M a))) t0 (x, v) tb h) = .ok s ∨
      RK4Py.steps n (RK4Py.new (asRhs (KerrNewman.fVec k (KerrNewman.new k "BoyerLindquist" M a Q q))) t0 (x, v) tb h) = .ok s) :
    s.y.1 2 = Real.pi / 2 ∧ s.y.2 2 = 0 := by
  obtain ⟨h1, h2, h3⟩ := C130_trajectories k ⟨false, false, true, 0, 0⟩ M a Q q t0 t0 tb tb h x v n
  rcases hs with hs | hs | hs
  · exact equatorial_of hx hv h1 hs
  · exact equatorial_of hx hv (h2 (Or.inl rfl)) hs
  · have := h3 (Or.inl rfl)
    rw [show flip (⟨false, false, true, 0, 0⟩ : Move).revT * q = q from one_mul q] at this
    exact equatorial_of hx hv this hs

/-! ### C131 -/

theorem scalePos_eq {l : ℝ} (x : Vec4) : affine (facs l 1 1 1) 0 x = scalePos l x := by
  funext i
  refine fin4_cases (P := fun i => affine (facs l 1 1 1) 0 x i = scalePos l x i) ?_ ?_ ?_ ?_ i
  · show l * 1 * x 0 + 0 = l * x 0
    ring
  · show l * x 1 + 0 = l * x 1
    ring
  · show 1 * x 2 + 0 = x 2
    ring
  · show 1 * x 3 + 0 = x 3
    ring

theorem scaleVel_eq {l : ℝ} (hl : l ≠ 0) (v : Vec4) : moveVel l⁻¹ (facs l 1 1 1) v = scaleVel l v := by
  funext i
  refine fin4_cases (P := fun i => moveVel l⁻¹ (facs l 1 1 1) v i = scaleVel l v i) ?_ ?_ ?_ ?_ i
  · show l⁻¹ * (l * 1 * v 0) = v 0
    field_simp
  · show l⁻¹ * (l * v 1) = v 1
    field_simp
  · show l⁻¹ * (1 * v 2) = v 2 / l
    field_simp
  · show l⁻¹ * (1 * v 3) = v 3 / l
    field_simp

theorem scaleAcc_eq {l : ℝ} (w : Vec4) : l⁻¹ • scaleVel l w = scaleAcc l w := by
  funext i
  refine fin4_cases (P := fun i => (l⁻¹ • scaleVel l w) i = scaleAcc l w i) ?_ ?_ ?_ ?_ i
  · show l⁻¹ * w 0 = w 0 / l
    ring
  · show l⁻¹ * w 1 = w 1 / l
    ring
  · show l⁻¹ * (w 2 / l) = w 2 / l ^ 2
    ring
  · show l⁻¹ * (w 3 / l) = w 3 / l ^ 2
    ring

theorem mass_related {l : ℝ} (hl : 0 < l) (M a Q : ℝ) :
    Related l⁻¹ (facs l 1 1 1) 0 (Schwarzschild.fVec k (Schwarzschild.new k "Spherical" M))
        (Schwarzschild.fVec k (Schwarzschild.new k "Spherical" (l * M))) ∧
    Related l⁻¹ (facs l 1 1 1) 0 (Kerr.fVec k (Kerr.new k "BoyerLindquist" M a))
        (Kerr.fVec k (Kerr.new k "BoyerLindquist" (l * M) a)) ∧
    Related l⁻¹ (facs l 1 1 1) 0 (KerrNewman.fVec k (KerrNewman.new k "BoyerLindquist" M a Q 0))
        (KerrNewman.fVec k (KerrNewman.new k "BoyerLindquist" (l * M) a (l * Q) 0)) := by
  have hx : ∀ x, SubAt l 1 x (affine (facs l 1 1 1) 0 x) := fun x => by
    rw [scalePos_eq]
    exact ⟨rfl, rfl, (one_mul _).symm⟩
  obtain ⟨h1, h2, h3⟩ := related_all k (M := M) (a := a) hl (one_pow 2) (one_pow 2) (one_pow 2) hx
  exact ⟨h1, h2 (Or.inl (one_mul 1)), h3 (Or.inl (one_mul 1)) Q 0 0 (Or.inl ⟨rfl, rfl⟩)⟩

/-- **C131.** The right-hand side for a hole `l` times as heavy (with `l` times the charge), at `l` times the radius and time and with
`1/l` of the angular velocities, is that of the original hole with the accelerations divided by `l` and `l²`. -/
theorem C131_rhs {l : ℝ} (hl : 0 < l) (M a Q : ℝ) (x v : Vec4) :
    (Schwarzschild.fVec k (Schwarzschild.new k "Spherical" (l * M)) (scalePos l x) (scaleVel l v) =
      (Schwarzschild.fVec k (Schwarzschild.new k "Spherical" M) x v).map fun r => (scaleVel l r.1, scaleAcc l r.2)) ∧
    (Kerr.fVec k (Kerr.new k "BoyerLindquist" (l * M) a) (scalePos l x) (scaleVel l v) =
      (Kerr.fVec k (Kerr.new k "BoyerLindquist" M a) x v).map fun r => (scaleVel l r.1, scaleAcc l r.2)) ∧
    (KerrNewman.fVec k (KerrNewman.new k "BoyerLindquist" (l * M) a (l * Q) 0) (scalePos l x) (scaleVel l v) =
      (KerrNewman.fVec k (KerrNewman.new k "BoyerLindquist" M a Q 0) x v).map fun r => (scaleVel l r.1, scaleAcc l r.2)) := by
  obtain ⟨h1, h2, h3⟩ := mass_related k hl M a Q
  refine ⟨?_, ?_, ?_⟩
  · have := h1 x v
    simpa only [scalePos_eq, scaleVel_eq hl.ne', scaleAcc_eq] using this
  · have := h2 x v
    simpa only [scalePos_eq, scaleVel_eq hl.ne', scaleAcc_eq] using this
  · have := h3 x v
    simpa only [scalePos_eq, scaleVel_eq hl.ne', scaleAcc_eq] using this

/-- **C131.** A run of the RK4 solver around the heavier hole with `l` times the step is the rescaled run, step by step. -/
theorem C131_trajectories {l : ℝ} (hl : 0 < l) (M a Q t0 t0' tb tb' h : ℝ) (x v : Vec4) (n : ℕ) :
    ((RK4Py.steps n (RK4Py.new (asRhs (Schwarzschild.fVec k (Schwarzschild.new k "Spherical" (l * M)))) t0'
          (scalePos l x, scaleVel l v) tb' (l * h))).map (fun s => s.y) =
      (RK4Py.steps n (RK4Py.new (asRhs (Schwarzschild.fVec k (Schwarzschild.new k "Spherical" M))) t0 (x, v) tb h)).map
        (fun s => (scalePos l s.y.1, scaleVel l s.y.2))) ∧
    ((RK4Py.steps n (RK4Py.new (asRhs (Kerr.fVec k (Kerr.new k "BoyerLindquist" (l * M) a))) t0'
          (scalePos l x, scaleVel l v) tb' (l * h))).map (fun s => s.y) =
      (RK4Py.steps n (RK4Py.new (asRhs (Kerr.fVec k (Kerr.new k "BoyerLindquist" M a))) t0 (x, v) tb h)).map
        (fun s => (scalePos l s.y.1, scaleVel l s.y.2))) ∧
    ((RK4Py.steps n (RK4Py.new (asRhs (KerrNewman.fVec k (KerrNewman.new k "BoyerLindquist" (l * M) a (l * Q) 0))) t0'
          (scalePos l x, scaleVel l v) tb' (l * h))).map (fun s => s.y) =
      (RK4Py.steps n (RK4Py.new (asRhs (KerrNewman.fVec k (KerrNewman.new k "BoyerLindquist" M a Q 0))) t0 (x, v) tb h)).map
        (fun s => (scalePos l s.y.1, scaleVel l s.y.2))) := by
  obtain ⟨h1, h2, h3⟩ := mass_related k hl M a Q
  have hl' : l⁻¹ ≠ 0 := inv_ne_zero hl.ne'
  refine ⟨?_, ?_, ?_⟩
  · have := h1.rk hl' t0 t0' tb tb' h x v n
    simpa only [scalePos_eq, scaleVel_eq hl.ne', div_inv_eq_mul, mul_comm h l] using this
  · have := h2.rk hl' t0 t0' tb tb' h x v n
    simpa only [scalePos_eq, scaleVel_eq hl.ne', div_inv_eq_mul, mul_comm h l] using this
  · have := h3.rk hl' t0 t0' tb tb' h x v n
    simpa only [scalePos_eq, scaleVel_eq hl.ne', div_inv_eq_mul, mul_comm h l] using this

/-- **C131.** Exact solutions can be rescaled. -/
theorem C131_solutions {l : ℝ} (hl : 0 < l) (M a Q : ℝ) (X V : ℝ → Vec4) :
    (Solves (Schwarzschild.fVec k (Schwarzschild.new k "Spherical" M)) X V →
      Solves (Schwarzschild.fVec k (Schwarzschild.new k "Spherical" (l * M))) (fun t => scalePos l (X (t / l)))
        (fun t => scaleVel l (V (t / l)))) ∧
    (Solves (Kerr.fVec k (Kerr.new k "BoyerLindquist" M a)) X V →
      Solves (Kerr.fVec k (Kerr.new k "BoyerLindquist" (l * M) a)) (fun t => scalePos l (X (t / l)))
        (fun t => scaleVel l (V (t / l)))) ∧
    (Solves (KerrNewman.fVec k (KerrNewman.new k "BoyerLindquist" M a Q 0)) X V →
      Solves (KerrNewman.fVec k (KerrNewman.new k "BoyerLindquist" (l * M) a (l * Q) 0)) (fun t => scalePos l (X (t / l)))
        (fun t => scaleVel l (V (t / l)))) := by
  obtain ⟨h1, h2, h3⟩ := mass_related k hl M a Q
  have e : ∀ t : ℝ, l⁻¹ * t = t / l := fun t => by rw [mul_comm, div_eq_mul_inv]
  refine ⟨fun hs => ?_, fun hs => ?_, fun hs => ?_⟩
  · have := h1.solves hs
    simpa only [scalePos_eq, scaleVel_eq hl.ne', e] using this
  · have := h2.solves hs
    simpa only [scalePos_eq, scaleVel_eq hl.ne', e] using this
  · have := h3.solves hs
    simpa only [scalePos_eq, scaleVel_eq hl.ne', e] using this

end Einpy.Num
