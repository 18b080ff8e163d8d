import Verif.Num.Symmetry

/-!
# C132: circular orbits in the equatorial plane
-/

namespace Einpy.Num
open Classical

/-- A right-hand side that leaves the velocity `v` alone on the circle of `x`: RK4 moves along it exactly. -/
theorem rk_circle {f : Vec4 → Vec4 → Py (Vec4 × Vec4)} {x v : Vec4} (hv1 : v 1 = 0) (hv2 : v 2 = 0)
    (hf : ∀ y : Vec4, y 1 = x 1 → y 2 = x 2 → f y v = .ok (v, 0)) (t0 tb h : ℝ) (n : ℕ) :
    (RK4Py.steps n (RK4Py.new (asRhs f) t0 (x, v) tb h)).map (fun s => s.y) = .ok (x + (n * h : ℝ) • v, v) := by
  have hd : (RK4Py.new (asRhs f) t0 (x, v) tb h).direction = 0 := by
    show 1 * (if tb ≥ t0 then (1:Int) else 0) - 1 * (if ¬ tb < t0 then 1 else 0) = 0
    by_cases hca : tb < t0
    · rw [if_neg (not_le.2 hca), if_neg (not_not.2 hca)]; rfl
    · rw [if_pos (not_lt.1 hca), if_pos hca]; rfl
  have one : ∀ s : RK4Py (Vec4 × Vec4), s.direction = 0 → s.func = asRhs f → s.stepSize = h → ∀ c : ℝ, s.y = (x + c • v, v) →
      ∃ r, s.step = .ok r ∧ r.direction = 0 ∧ r.func = asRhs f ∧ r.stepSize = h ∧ r.y = (x + (c + h) • v, v) := by
    intro s d1 f1 e1 c hy
    have hn : ¬ ((s.t ≥ s.tBound ∧ s.direction = 1) ∨ (s.t ≤ s.tBound ∧ s.direction = -1)) := by rw [d1]; simp
    have ev : ∀ (t c : ℝ), asRhs f t (x + c • v, v) = .ok (v, 0) := by
      intro t c
      refine hf _ ?_ ?_
      · show x 1 + c * v 1 = x 1
        rw [hv1]; ring
      · show x 2 + c * v 2 = x 2
        rw [hv2]; ring
    have sh : ∀ a : ℝ, ((x + c • v, v) : Vec4 × Vec4) + a • ((v, 0) : Vec4 × Vec4) = (x + (c + a) • v, v) := by
      intro a
      refine Prod.ext ?_ ?_
      · show x + c • v + a • v = x + (c + a) • v
        rw [add_smul, add_assoc]
      · show v + a • (0 : Vec4) = v
        rw [smul_zero, add_zero]
    unfold RK4Py.step
    rw [if_neg hn, f1, e1, hy]
    simp only [ev, sh, bind, Except.bind, pure, Except.pure]
    refine ⟨_, rfl, d1, rfl, rfl, ?_⟩
    show ((x + c • v, v) : Vec4 × Vec4) + (h / 6) • (((v, 0) : Vec4 × Vec4) + (2:ℝ) • (v, 0) + (2:ℝ) • (v, 0) + (v, 0)) = _
    rw [show (((v, 0) : Vec4 × Vec4) + (2:ℝ) • (v, 0) + (2:ℝ) • (v, 0) + (v, 0)) = (6:ℝ) • (v, 0) by module, smul_smul, sh]
    congr 3
    ring
  have key : ∀ n : ℕ, ∃ r, RK4Py.steps n (RK4Py.new (asRhs f) t0 (x, v) tb h) = .ok r ∧ r.direction = 0 ∧ r.func = asRhs f ∧
      r.stepSize = h ∧ r.y = (x + (n * h : ℝ) • v, v) := by
    intro n
    induction n with
    | zero =>
      refine ⟨_, rfl, hd, rfl, rfl, ?_⟩
      show (x, v) = _
      rw [Nat.cast_zero, zero_mul, zero_smul, add_zero]
    | succ n ih =>
      obtain ⟨r, h1, h2, h3, h4, h5⟩ := ih
      obtain ⟨u, g1, g2, g3, g4, g5⟩ := one r h2 h3 h4 _ h5
      refine ⟨u, by rw [RK4Py.steps, h1]; exact g1, g2, g3, g4, ?_⟩
      rw [g5]
      congr 3
      push_cast
      ring
  obtain ⟨r, h1, -, -, -, h2⟩ := key n
  rw [h1]
  simp only [Except.map, h2]

variable (k : PhysConst)

/-- The velocity of a circular motion in the plane: only `dt/dλ` and `dφ/dλ`. -/
def circVel (u w : ℝ) : Vec4 := ![u, 0, 0, w]

/-- An event in the equatorial plane. -/
noncomputable def eqPos (t r φ : ℝ) : Vec4 := ![t, r, Real.pi / 2, φ]

theorem geo_circ (Γ : Tab3) (u w : ℝ) (i : Fin 4) :
    geodesicAccel Γ (circVel u w) i = -(Γ i 0 0 * u * u + Γ i 0 3 * u * w + Γ i 3 0 * w * u + Γ i 3 3 * w * w) := by
  show -∑ a, ∑ b, Γ i a b * circVel u w a * circVel u w b = _
  simp only [Fin.sum_univ_four]
  rw [show circVel u w 0 = u from rfl, show circVel u w 1 = 0 from rfl, show circVel u w 2 = 0 from rfl, show circVel u w 3 = w from rfl]
  ring

theorem circ_accel (gc P Q : Mat4) (u w : ℝ) : geodesicAccel (chSymLoops gc (tabRT P Q)) (circVel u w) =
    ![0, 0.5 * gc 1 1 * (P 0 0 * u ^ 2 + 2 * P 0 3 * u * w + P 3 3 * w ^ 2),
      0.5 * gc 2 2 * (Q 0 0 * u ^ 2 + 2 * Q 0 3 * u * w + Q 3 3 * w ^ 2), 0] := by
  have e1 : ∀ dg : Tab3, chSymLoops gc dg 1 0 0 = 0.5 * (gc 1 1 * (dg 0 1 0 + dg 0 1 0 - dg 1 0 0)) := fun _ => rfl
  have e2 : ∀ dg : Tab3, chSymLoops gc dg 1 0 3 = 0.5 * (gc 1 1 * (dg 3 1 0 + dg 0 1 3 - dg 1 0 3)) := fun _ => rfl
  have e3 : ∀ dg : Tab3, chSymLoops gc dg 1 3 0 = 0.5 * (gc 1 1 * (dg 3 1 0 + dg 0 1 3 - dg 1 0 3)) := fun _ => rfl
  have e4 : ∀ dg : Tab3, chSymLoops gc dg 1 3 3 = 0.5 * (gc 1 1 * (dg 3 1 3 + dg 3 1 3 - dg 1 3 3)) := fun _ => rfl
  have f1 : ∀ dg : Tab3, chSymLoops gc dg 2 0 0 = 0.5 * (gc 2 2 * (dg 0 2 0 + dg 0 2 0 - dg 2 0 0)) := fun _ => rfl
  have f2 : ∀ dg : Tab3, chSymLoops gc dg 2 0 3 = 0.5 * (gc 2 2 * (dg 3 2 0 + dg 0 2 3 - dg 2 0 3)) := fun _ => rfl
  have f3 : ∀ dg : Tab3, chSymLoops gc dg 2 3 0 = 0.5 * (gc 2 2 * (dg 3 2 0 + dg 0 2 3 - dg 2 0 3)) := fun _ => rfl
  have f4 : ∀ dg : Tab3, chSymLoops gc dg 2 3 3 = 0.5 * (gc 2 2 * (dg 3 2 3 + dg 3 2 3 - dg 2 3 3)) := fun _ => rfl
  have z : ∀ dg : Tab3, (chSymLoops gc dg 0 0 0 = 0 ∧ chSymLoops gc dg 0 0 3 = 0 ∧ chSymLoops gc dg 0 3 0 = 0 ∧ chSymLoops gc dg 0 3 3 = 0) ∧
      (chSymLoops gc dg 3 0 0 = 0 ∧ chSymLoops gc dg 3 0 3 = 0 ∧ chSymLoops gc dg 3 3 0 = 0 ∧ chSymLoops gc dg 3 3 3 = 0) :=
    fun _ => ⟨⟨rfl, rfl, rfl, rfl⟩, rfl, rfl, rfl, rfl⟩
  funext i
  refine fin4_cases (P := fun i => geodesicAccel (chSymLoops gc (tabRT P Q)) (circVel u w) i =
    (![0, 0.5 * gc 1 1 * (P 0 0 * u ^ 2 + 2 * P 0 3 * u * w + P 3 3 * w ^ 2),
      0.5 * gc 2 2 * (Q 0 0 * u ^ 2 + 2 * Q 0 3 * u * w + Q 3 3 * w ^ 2), 0] : Vec4) i) ?_ ?_ ?_ ?_ i
  · rw [geo_circ, (z _).1.1, (z _).1.2.1, (z _).1.2.2.1, (z _).1.2.2.2]
    show _ = (0:ℝ)
    ring
  · rw [geo_circ, e1, e2, e3, e4]
    simp only [tabRT0, tabRT1, tabRT3]
    show _ = 0.5 * gc 1 1 * (P 0 0 * u ^ 2 + 2 * P 0 3 * u * w + P 3 3 * w ^ 2)
    ring
  · rw [geo_circ, f1, f2, f3, f4]
    simp only [tabRT0, tabRT2, tabRT3]
    show _ = 0.5 * gc 2 2 * (Q 0 0 * u ^ 2 + 2 * Q 0 3 * u * w + Q 3 3 * w ^ 2)
    ring
  · rw [geo_circ, (z _).2.1, (z _).2.2.1, (z _).2.2.2.1, (z _).2.2.2.2]
    show _ = (0:ℝ)
    ring

theorem sch_circ_accel (c rs r u w : ℝ) : geodesicAccel (schChl c rs r (Real.pi / 2)) (circVel u w) =
    ![0, -(0.5 * rs * (r - rs) * c ^ 2 / r ^ 3 * u ^ 2 + (rs - r) * w ^ 2), 0, 0] := by
  funext i
  refine fin4_cases (P := fun i => geodesicAccel (schChl c rs r (Real.pi / 2)) (circVel u w) i =
    (![0, -(0.5 * rs * (r - rs) * c ^ 2 / r ^ 3 * u ^ 2 + (rs - r) * w ^ 2), 0, 0] : Vec4) i) ?_ ?_ ?_ ?_ i
  · rw [geo_circ]
    show -((0:ℝ) * u * u + 0 * u * w + 0 * w * u + 0 * w * w) = 0
    ring
  · rw [geo_circ]
    show -(0.5 * rs * (r - rs) * c ^ 2 / r ^ 3 * u * u + 0 * u * w + 0 * w * u + (rs - r) * Real.sin (Real.pi / 2) ^ 2 * w * w) =
      -(0.5 * rs * (r - rs) * c ^ 2 / r ^ 3 * u ^ 2 + (rs - r) * w ^ 2)
    rw [Real.sin_pi_div_two]
    ring
  · rw [geo_circ]
    show -((0:ℝ) * u * u + 0 * u * w + 0 * w * u + -Real.cos (Real.pi / 2) * Real.sin (Real.pi / 2) * w * w) = 0
    rw [Real.cos_pi_div_two]
    ring
  · rw [geo_circ]
    show -((0:ℝ) * u * u + 0 * u * w + 0 * w * u + 0 * w * w) = 0
    ring

/-- **C132.** Kepler's third law for Schwarzschild: the acceleration of a circular equatorial motion vanishes exactly when
`2 r³ (dφ)² = r_s c² (dt)²`. -/
theorem C132_schwarzschild {M r : ℝ} (hr : r ≠ 0) (hs : r ≠ schwarzschildRadius k M) (t φ u w : ℝ) :
    Schwarzschild.fVec k (Schwarzschild.new k "Spherical" M) (eqPos t r φ) (circVel u w) = .ok (circVel u w, 0) ↔
      2 * r ^ 3 * w ^ 2 = schwarzschildRadius k M * k.c ^ 2 * u ^ 2 := by
  have hc : Schwarzschild.christoffels k (Schwarzschild.new k "Spherical" M) (eqPos t r φ)
      = .ok (schChl k.c (schwarzschildRadius k M) r (Real.pi / 2)) := by
    rw [sch_christoffels, if_neg]
    · rfl
    · show ¬ (r = 0 ∨ schwarzschildRadius k M * r - r ^ 2 = 0 ∨ Real.sin (Real.pi / 2) = 0)
      rw [Real.sin_pi_div_two]
      push Not
      refine ⟨hr, fun h => hs ?_, one_ne_zero⟩
      have : r * (schwarzschildRadius k M - r) = 0 := by linear_combination h
      rcases mul_eq_zero.1 this with h | h
      · exact absurd h hr
      · linarith
  rw [C45_schwarzschild_rhs k hc, sch_circ_accel]
  have e : -(0.5 * schwarzschildRadius k M * (r - schwarzschildRadius k M) * k.c ^ 2 / r ^ 3 * u ^ 2 + (schwarzschildRadius k M - r) * w ^ 2)
      = (r - schwarzschildRadius k M) / (2 * r ^ 3) * (2 * r ^ 3 * w ^ 2 - schwarzschildRadius k M * k.c ^ 2 * u ^ 2) := by
    field_simp
    ring
  have nz : (r - schwarzschildRadius k M) / (2 * r ^ 3) ≠ 0 :=
    div_ne_zero (sub_ne_zero.2 hs) (mul_ne_zero two_ne_zero (pow_ne_zero 3 hr))
  constructor
  · intro h
    have h1 := congrFun (congrArg Prod.snd (Except.ok.inj h)) 1
    have h2 : -(0.5 * schwarzschildRadius k M * (r - schwarzschildRadius k M) * k.c ^ 2 / r ^ 3 * u ^ 2 +
        (schwarzschildRadius k M - r) * w ^ 2) = 0 := h1
    rw [e] at h2
    linarith [(mul_eq_zero.1 h2).resolve_left nz]
  · intro h
    rw [e, h, sub_self, mul_zero]
    refine congrArg Except.ok (Prod.ext rfl ?_)
    funext i
    exact fin4_cases (P := fun i => (![0, 0, 0, 0] : Vec4) i = 0) rfl rfl rfl rfl i

/-- What the two rotating classes compute: `f33` is the entry `∂_r g_φφ` they use. -/
theorem bl_circ {rs al r u w : ℝ} (hr : r ≠ 0) (hd : delF rs al r ≠ 0) (c f33 : ℝ) {P : Mat4} (h00 : P 0 0 = kerrR c rs al r (Real.pi / 2) 0 0)
    (h03 : P 0 3 = kerrR c rs al r (Real.pi / 2) 0 3) (h33 : P 3 3 = f33) :
    (geodesicAccel (chSymLoops (kerrI c rs al r (Real.pi / 2)) (tabRT P (kerrTh c rs al r (Real.pi / 2)))) (circVel u w) = 0) ↔
      rs * c * u * (c * u - 2 * al * w) + r ^ 2 * f33 * w ^ 2 = 0 := by
  rw [circ_accel, h00, h03, h33]
  have hS : sigF al r (Real.pi / 2) = r ^ 2 := by unfold sigF; rw [Real.cos_pi_div_two]; ring
  have hg : kerrI c rs al r (Real.pi / 2) 1 1 = -(delF rs al r / r ^ 2) := by
    unfold kerrI
    simp only [axi11]
    rw [hS, inv_neg, inv_div]
  have r00 : kerrR c rs al r (Real.pi / 2) 0 0 = rs / r ^ 2 * c ^ 2 := by
    unfold kerrR; rw [axi00]
    unfold tmpF; rw [hS]; field_simp; ring
  have r03 : kerrR c rs al r (Real.pi / 2) 0 3 = -(c * al * rs / r ^ 2) := by
    unfold kerrR; rw [axi03]
    unfold tmpF; rw [hS, Real.sin_pi_div_two]; field_simp; ring
  have s2 : Real.sin (2 * (Real.pi / 2)) = 0 := by rw [mul_div_cancel₀ _ (two_ne_zero)]; exact Real.sin_pi
  have q00 : kerrTh c rs al r (Real.pi / 2) 0 0 = 0 := by
    unfold kerrTh; rw [axi00, s2]; ring
  have q03 : kerrTh c rs al r (Real.pi / 2) 0 3 = 0 := by
    unfold kerrTh; rw [axi03, s2]; ring
  have q33 : kerrTh c rs al r (Real.pi / 2) 3 3 = 0 := by
    unfold kerrTh; rw [axi33, s2]; ring
  rw [hg, r00, r03, q00, q03, q33]
  have e : 0.5 * -(delF rs al r / r ^ 2) * (rs / r ^ 2 * c ^ 2 * u ^ 2 + 2 * -(c * al * rs / r ^ 2) * u * w + f33 * w ^ 2) =
      -(delF rs al r / (2 * r ^ 4)) * (rs * c * u * (c * u - 2 * al * w) + r ^ 2 * f33 * w ^ 2) := by
    field_simp
    ring
  rw [e]
  have nz : -(delF rs al r / (2 * r ^ 4)) ≠ 0 := neg_ne_zero.2 (div_ne_zero hd (mul_ne_zero two_ne_zero (pow_ne_zero 4 hr)))
  constructor
  · intro h
    have h1 := congrFun h 1
    exact (mul_eq_zero.1 h1).resolve_left nz
  · intro h
    rw [h]
    funext i
    refine fin4_cases (P := fun i => (![0, -(delF rs al r / (2 * r ^ 4)) * 0, 0.5 * kerrI c rs al r (Real.pi / 2) 2 2 *
      (0 * u ^ 2 + 2 * 0 * u * w + 0 * w ^ 2), 0] : Vec4) i = 0) rfl ?_ ?_ rfl i
    · exact mul_zero _
    · show 0.5 * kerrI c rs al r (Real.pi / 2) 2 2 * (0 * u ^ 2 + 2 * 0 * u * w + 0 * w ^ 2) = 0
      ring

theorem eq_reg {M a r al : ℝ} (ha : alpha k M a = .ok al) (hr : r ≠ 0) (hd : r ^ 2 - schwarzschildRadius k M * r + al ^ 2 ≠ 0) (t φ : ℝ) :
    alF k M a = al ∧ Reg k M a (eqPos t r φ) := by
  have h1 : 0 ≤ a ∧ a ≤ 1 := by
    by_contra h
    rw [alpha_bad k h] at ha; cases ha
  have h2 : alF k M a = al := by
    rw [alpha_ok k h1] at ha; exact Except.ok.inj ha
  refine ⟨h2, h1, ?_, ?_, ?_⟩
  · show sigF (alF k M a) r (Real.pi / 2) ≠ 0
    unfold sigF
    rw [Real.cos_pi_div_two, mul_zero]
    simpa using hr
  · rw [h2]; exact hd
  · show Real.sin (Real.pi / 2) ≠ 0
    rw [Real.sin_pi_div_two]; exact one_ne_zero

/-- **C132.** KerrNewman, uncharged particle: the acceleration of a circular equatorial motion vanishes exactly when
`2 r³ (dφ)² = r_s (c dt - α dφ)²`. -/
theorem C132_kerr_newman_partial {M a r al : ℝ} (Q : ℝ) (ha : alpha k M a = .ok al) (hr : r ≠ 0)
    (hd : r ^ 2 - schwarzschildRadius k M * r + al ^ 2 ≠ 0) (t φ u w : ℝ) :
    KerrNewman.fVec k (KerrNewman.new k "BoyerLindquist" M a Q 0) (eqPos t r φ) (circVel u w) = .ok (circVel u w, 0) ↔
      2 * r ^ 3 * w ^ 2 = schwarzschildRadius k M * (k.c * u - al * w) ^ 2 := by
  obtain ⟨rfl, hreg⟩ := eq_reg k ha hr hd t φ
  rw [C70_kn_rhs_neutral k ((kn_christoffels_iff k).mpr ⟨hreg, rfl⟩)]
  have hS : sigF (alF k M a) r (Real.pi / 2) = r ^ 2 := by unfold sigF; rw [Real.cos_pi_div_two]; ring
  have h := bl_circ (u := u) (w := w) hr hd k.c (-(2 * r - alF k M a ^ 2 * schwarzschildRadius k M / r ^ 2))
    (P := kerrR k.c (schwarzschildRadius k M) (alF k M a) r (Real.pi / 2)) rfl rfl (by
      unfold kerrR
      rw [axi33]
      unfold tmpF; rw [hS, Real.sin_pi_div_two]; field_simp; ring)
  have e : schwarzschildRadius k M * k.c * u * (k.c * u - 2 * alF k M a * w) +
      r ^ 2 * -(2 * r - alF k M a ^ 2 * schwarzschildRadius k M / r ^ 2) * w ^ 2 =
      schwarzschildRadius k M * (k.c * u - alF k M a * w) ^ 2 - 2 * r ^ 3 * w ^ 2 := by
    field_simp
    ring
  rw [e] at h
  constructor
  · intro h'
    have h1 : _ = (0 : Vec4) := congrArg Prod.snd (Except.ok.inj h')
    linarith [h.1 h1]
  · intro h'
    exact congrArg Except.ok (Prod.ext rfl (h.2 (by linarith)))

/-- **C132.** What Kerr computes instead: the acceleration vanishes exactly when `2 r³ (dφ)² = r_s (c dt - α dφ)² - 2 r_s α² (dφ)²`. -/
theorem C132_kerr_partial {M a r al : ℝ} (ha : alpha k M a = .ok al) (hr : r ≠ 0)
    (hd : r ^ 2 - schwarzschildRadius k M * r + al ^ 2 ≠ 0) (t φ u w : ℝ) :
    Kerr.fVec k (Kerr.new k "BoyerLindquist" M a) (eqPos t r φ) (circVel u w) = .ok (circVel u w, 0) ↔
      2 * r ^ 3 * w ^ 2 = schwarzschildRadius k M * (k.c * u - al * w) ^ 2 - 2 * schwarzschildRadius k M * al ^ 2 * w ^ 2 := by
  obtain ⟨rfl, hreg⟩ := eq_reg k ha hr hd t φ
  rw [C45_kerr_rhs k ((kerr_christoffels_iff k).mpr ⟨hreg, rfl⟩)]
  have hS : sigF (alF k M a) r (Real.pi / 2) = r ^ 2 := by unfold sigF; rw [Real.cos_pi_div_two]; ring
  have h := bl_circ (u := u) (w := w) hr hd k.c (-(2 * r + alF k M a ^ 2 * schwarzschildRadius k M / r ^ 2))
    (P := kerrRcode k.c (schwarzschildRadius k M) (alF k M a) r (Real.pi / 2)) (by unfold kerrRcode kerrR; rw [axi00, axi00])
    (by unfold kerrRcode kerrR; rw [axi03, axi03]) (by
      unfold kerrRcode
      rw [axi33]
      unfold tmpF; rw [hS, Real.sin_pi_div_two]; field_simp; ring)
  have e : schwarzschildRadius k M * k.c * u * (k.c * u - 2 * alF k M a * w) +
      r ^ 2 * -(2 * r + alF k M a ^ 2 * schwarzschildRadius k M / r ^ 2) * w ^ 2 =
      schwarzschildRadius k M * (k.c * u - alF k M a * w) ^ 2 - 2 * schwarzschildRadius k M * alF k M a ^ 2 * w ^ 2 - 2 * r ^ 3 * w ^ 2 := by
    field_simp
    ring
  rw [e] at h
  constructor
  · intro h'
    have h1 : _ = (0 : Vec4) := congrArg Prod.snd (Except.ok.inj h')
    linarith [h.1 h1]
  · intro h'
    exact congrArg Except.ok (Prod.ext rfl (h.2 (by linarith)))

/-- **C132.** So Kerr pushes every revolving circular orbit of a spinning hole off its circle. -/
theorem C132_kerr_refuted {M a r al : ℝ} (ha : alpha k M a = .ok al) (hr : r ≠ 0)
    (hd : r ^ 2 - schwarzschildRadius k M * r + al ^ 2 ≠ 0) (hM : M ≠ 0) (hal : al ≠ 0) (t φ u : ℝ) {w : ℝ} (hw : w ≠ 0)
    (horb : 2 * r ^ 3 * w ^ 2 = schwarzschildRadius k M * (k.c * u - al * w) ^ 2) :
    Kerr.fVec k (Kerr.new k "BoyerLindquist" M a) (eqPos t r φ) (circVel u w) ≠ .ok (circVel u w, 0) := by
  rw [ne_eq, C132_kerr_partial k ha hr hd, horb]
  intro h
  have h1 : schwarzschildRadius k M * al ^ 2 * w ^ 2 = 0 := by linarith
  have h2 : schwarzschildRadius k M ≠ 0 := by
    unfold schwarzschildRadius
    exact div_ne_zero (mul_ne_zero (mul_ne_zero two_ne_zero k.G_pos.ne') hM) (pow_ne_zero 2 k.c_pos.ne')
  exact mul_ne_zero (mul_ne_zero h2 (pow_ne_zero 2 hal)) (pow_ne_zero 2 hw) h1

/-- **C132.** A particle set on a circular orbit is carried along it exactly by the RK4 solver, for any step and any number of steps. -/
theorem C132_trajectories_partial {M r : ℝ} (hr : r ≠ 0) (t φ u w t0 tb h : ℝ) (n : ℕ) :
    (r ≠ schwarzschildRadius k M → 2 * r ^ 3 * w ^ 2 = schwarzschildRadius k M * k.c ^ 2 * u ^ 2 →
      (RK4Py.steps n (RK4Py.new (asRhs (Schwarzschild.fVec k (Schwarzschild.new k "Spherical" M))) t0 (eqPos t r φ, circVel u w) tb h)).map
        (fun s => s.y) = .ok (eqPos (t + n * h * u) r (φ + n * h * w), circVel u w)) ∧
    (∀ a al Q, alpha k M a = .ok al → r ^ 2 - schwarzschildRadius k M * r + al ^ 2 ≠ 0 →
      2 * r ^ 3 * w ^ 2 = schwarzschildRadius k M * (k.c * u - al * w) ^ 2 →
      (RK4Py.steps n (RK4Py.new (asRhs (KerrNewman.fVec k (KerrNewman.new k "BoyerLindquist" M a Q 0))) t0
        (eqPos t r φ, circVel u w) tb h)).map (fun s => s.y) = .ok (eqPos (t + n * h * u) r (φ + n * h * w), circVel u w)) := by
  have hpos : eqPos t r φ + (n * h : ℝ) • circVel u w = eqPos (t + n * h * u) r (φ + n * h * w) := by
    funext i
    refine fin4_cases (P := fun i => (eqPos t r φ + (n * h : ℝ) • circVel u w) i = eqPos (t + n * h * u) r (φ + n * h * w) i) rfl ?_ ?_ rfl i
    · show r + n * h * 0 = r
      ring
    · show Real.pi / 2 + n * h * 0 = Real.pi / 2
      ring
  have hy : ∀ y : Vec4, y 1 = r → y 2 = Real.pi / 2 → y = eqPos (y 0) r (y 3) := by
    intro y h1 h2
    funext i
    exact fin4_cases (P := fun i => y i = eqPos (y 0) r (y 3) i) rfl h1 h2 rfl i
  constructor
  · intro hs hk
    rw [← hpos]
    refine rk_circle rfl rfl (fun y h1 h2 => ?_) t0 tb h n
    rw [hy y h1 h2]
    exact (C132_schwarzschild k hr hs _ _ u w).2 hk
  · intro a al Q ha hd hk
    rw [← hpos]
    refine rk_circle rfl rfl (fun y h1 h2 => ?_) t0 tb h n
    rw [hy y h1 h2]
    exact (C132_kerr_newman_partial k Q ha hr hd _ _ u w).2 hk

/-- The hypotheses are met: the circles at `r = 4 M` around a hole at rest and around the maximally rotating one. -/
example : (4:ℝ) ≠ schwarzschildRadius unitConst 1 ∧ 2 * (4:ℝ) ^ 3 * 1 ^ 2 = schwarzschildRadius unitConst 1 * unitConst.c ^ 2 * 8 ^ 2 ∧
    alpha unitConst 1 1 = .ok 1 ∧ (4:ℝ) ^ 2 - schwarzschildRadius unitConst 1 * 4 + 1 ^ 2 ≠ 0 ∧
    2 * (4:ℝ) ^ 3 * 1 ^ 2 = schwarzschildRadius unitConst 1 * (unitConst.c * 9 - 1 * 1) ^ 2 := by
  refine ⟨?_, ?_, by rw [alpha_ok unitConst (by norm_num), exAl], ?_, ?_⟩ <;> rw [unit_schRad] <;>
    (try rw [show unitConst.c = 1 from rfl]) <;> norm_num

/-- **C130.** The restriction of `Move.Allowed` is needed: reversing only the sense of rotation does not commute with `f_vec` around a
spinning hole (the orbits that turn with the hole and against it differ). -/
theorem C130_spin_needed {M a r al : ℝ} (Q : ℝ) (ha : alpha k M a = .ok al) (hr : r ≠ 0)
    (hd : r ^ 2 - schwarzschildRadius k M * r + al ^ 2 ≠ 0) (hM : M ≠ 0) (hal : al ≠ 0) (t φ : ℝ) {u w : ℝ} (hu : u ≠ 0) (hw : w ≠ 0)
    (horb : 2 * r ^ 3 * w ^ 2 = schwarzschildRadius k M * (k.c * u - al * w) ^ 2) (μ : Move) (hμ : μ.revT = false ∧ μ.revP = true) :
    KerrNewman.fVec k (KerrNewman.new k "BoyerLindquist" M a Q 0) (μ.pos (eqPos t r φ)) (μ.vel (circVel u w)) ≠
      (KerrNewman.fVec k (KerrNewman.new k "BoyerLindquist" M a Q 0) (eqPos t r φ) (circVel u w)).map fun r => (μ.vel r.1, μ.vel r.2) := by
  have e1 : μ.pos (eqPos t r φ) = eqPos (t + μ.dt) r (-φ + μ.dphi) := by
    funext i
    refine fin4_cases (P := fun i => μ.pos (eqPos t r φ) i = eqPos (t + μ.dt) r (-φ + μ.dphi) i) ?_ rfl ?_ ?_ i
    · show flip μ.revT * t + μ.dt = t + μ.dt
      rw [hμ.1]; unfold flip; simp
    · show (if μ.refl then Real.pi - Real.pi / 2 else Real.pi / 2) = Real.pi / 2
      split_ifs <;> ring
    · show flip μ.revP * φ + μ.dphi = -φ + μ.dphi
      rw [hμ.2]; unfold flip; simp
  have e2 : μ.vel (circVel u w) = circVel u (-w) := by
    funext i
    refine fin4_cases (P := fun i => μ.vel (circVel u w) i = circVel u (-w) i) ?_ rfl ?_ ?_ i
    · show flip μ.revT * u = u
      rw [hμ.1]; unfold flip; simp
    · show flip μ.refl * 0 = 0
      ring
    · show flip μ.revP * w = -w
      rw [hμ.2]; unfold flip; simp
  have e3 : μ.vel 0 = 0 := by
    funext i
    refine fin4_cases (P := fun i => μ.vel 0 i = 0) ?_ rfl ?_ ?_ i
    · exact mul_zero _
    · exact mul_zero _
    · exact mul_zero _
  rw [e1, (C132_kerr_newman_partial k Q ha hr hd t φ u w).2 horb]
  simp only [Except.map, e2, e3]
  rw [ne_eq, C132_kerr_newman_partial k Q ha hr hd]
  intro h
  have h2 : schwarzschildRadius k M ≠ 0 := by
    unfold schwarzschildRadius
    exact div_ne_zero (mul_ne_zero (mul_ne_zero two_ne_zero k.G_pos.ne') hM) (pow_ne_zero 2 k.c_pos.ne')
  have h1 : schwarzschildRadius k M * (k.c * (u * (al * w))) = 0 := by linear_combination (1 / 4) * horb - (1 / 4) * h
  exact mul_ne_zero h2 (mul_ne_zero k.c_pos.ne' (mul_ne_zero hu (mul_ne_zero hal hw))) h1

end Einpy.Num
