import Verif.Coord.Model

/-!
# Cartesian/spherical conversions: property C51
-/

namespace Einpy.Coord
open Classical

theorem hypot_cos (y x : ℝ) : npHypot x y * Real.cos (npArctan2 y x) = x := by
  unfold npHypot npArctan2
  have h := Complex.norm_mul_cos_arg ⟨x, y⟩
  rwa [Complex.norm_eq_sqrt_sq_add_sq] at h

theorem hypot_sin (y x : ℝ) : npHypot x y * Real.sin (npArctan2 y x) = y := by
  unfold npHypot npArctan2
  have h := Complex.norm_mul_sin_arg ⟨x, y⟩
  rwa [Complex.norm_eq_sqrt_sq_add_sq] at h

theorem hypot_nonneg (x y : ℝ) : 0 ≤ npHypot x y := Real.sqrt_nonneg _

theorem hypot_sq (x y : ℝ) : npHypot x y ^ 2 = x ^ 2 + y ^ 2 := Real.sq_sqrt (by positivity)

theorem hypot_comm (x y : ℝ) : npHypot x y = npHypot y x := by unfold npHypot; rw [add_comm]

theorem hypot_polar {r : ℝ} (hr : 0 ≤ r) (t : ℝ) : npHypot (r * Real.cos t) (r * Real.sin t) = r := by
  unfold npHypot
  rw [show (r * Real.cos t) ^ 2 + (r * Real.sin t) ^ 2 = r ^ 2 * (Real.sin t ^ 2 + Real.cos t ^ 2) by ring,
    Real.sin_sq_add_cos_sq, mul_one, Real.sqrt_sq hr]

theorem arctan2_polar {r t : ℝ} (hr : 0 < r) (ht : t ∈ Set.Ioc (-Real.pi) Real.pi) :
    npArctan2 (r * Real.sin t) (r * Real.cos t) = t := by
  unfold npArctan2
  refine Eq.trans ?_ (Complex.arg_mul_cos_add_sin_mul_I hr ht)
  congr 1
  apply Complex.ext <;> simp [Complex.cos_ofReal_re, Complex.sin_ofReal_re]

theorem arctan2_mem (y x : ℝ) : npArctan2 y x ∈ Set.Ioc (-Real.pi) Real.pi := Complex.arg_mem_Ioc _

theorem arctan2_nonneg {y : ℝ} (hy : 0 ≤ y) (x : ℝ) : 0 ≤ npArctan2 y x :=
  Complex.arg_nonneg_iff.mpr hy

theorem arctan2_pos {y : ℝ} (hy : 0 < y) (x : ℝ) : 0 < npArctan2 y x ∧ npArctan2 y x < Real.pi := by
  constructor
  · rcases (arctan2_nonneg hy.le x).lt_or_eq with h | h
    · exact h
    · exact absurd (hypot_sin y x) (by rw [← h, Real.sin_zero, mul_zero]; exact hy.ne)
  · rcases (arctan2_mem y x).2.lt_or_eq with h | h
    · exact h
    · exact absurd (hypot_sin y x) (by rw [h, Real.sin_pi, mul_zero]; exact hy.ne)

theorem npSqrt_ok {x : ℝ} (h : 0 ≤ x) : Num.npSqrt x = .ok (Real.sqrt x) := if_neg (not_lt.mpr h)

theorem npDiv_ok (x : ℝ) {y : ℝ} (h : y ≠ 0) : npDiv x y = .ok (x / y) := if_neg h

theorem npDiv_zero (x : ℝ) : npDiv x 0 = .error .notANumber := if_pos rfl

/-- The spherical radius, polar angle and azimuth computed by the conversion. -/
theorem cartToSphNovel_ok (t x y z : ℝ) : cartToSphNovel ⟨t, x, y, z⟩ =
    .ok ⟨t, npHypot (npHypot x y) z, npArctan2 (npHypot x y) z, npArctan2 y x⟩ := rfl

theorem cartToSph_ok (t x y z u v w : ℝ) (h : x ^ 2 + y ^ 2 ≠ 0) : cartToSph ⟨t, x, y, z⟩ ⟨u, v, w⟩ =
    .ok (⟨t, npHypot (npHypot x y) z, npArctan2 (npHypot x y) z, npArctan2 y x⟩,
      ⟨(x * u + y * v + z * w) / npHypot (npHypot x y) z,
       (z * (x * u + y * v) - (x ^ 2 + y ^ 2) * w) / ((npHypot (npHypot x y) z) ^ 2 * npHypot x y),
       (x * v - u * y) / (x ^ 2 + y ^ 2)⟩) := by
  have h1 : 0 < x ^ 2 + y ^ 2 := lt_of_le_of_ne (by positivity) (Ne.symm h)
  have h2 : 0 < x ^ 2 + y ^ 2 + z ^ 2 := by positivity
  have e2 : npHypot (npHypot x y) z = Real.sqrt (x ^ 2 + y ^ 2 + z ^ 2) := by
    rw [npHypot, hypot_sq]
  unfold cartToSph
  simp only [bind, Except.bind, pure, Except.pure]
  rw [npSqrt_ok h2.le, npSqrt_ok h1.le]
  simp only
  rw [npDiv_ok _ (Real.sqrt_pos.mpr h2).ne', npDiv_ok _ (mul_pos h2 (Real.sqrt_pos.mpr h1)).ne', npDiv_ok _ h]
  simp only
  rw [e2, Real.sq_sqrt h2.le]
  refine congrArg Except.ok ?_
  unfold npHypot
  refine Prod.ext rfl ?_
  show Vel.mk _ _ _ = Vel.mk _ _ _
  rw [show -1 * (u * y - x * v) = x * v - u * y by ring]

theorem conv_sph4 (t x y z : ℝ) : Cartesian.convertSpherical (Conv.new ⟨t, x, y, z⟩ none none none) =
    .ok (⟨t, npHypot (npHypot x y) z, npArctan2 (npHypot x y) z, npArctan2 y x⟩, none) := rfl

theorem conv_cart4 (t r th ph : ℝ) : Spherical.convertCartesian (Conv.new ⟨t, r, th, ph⟩ none none none) =
    .ok (⟨t, r * Real.cos ph * Real.sin th, r * Real.sin ph * Real.sin th, r * Real.cos th⟩, none) := rfl

theorem conv_cart7 (t r th ph u v w : ℝ) :
    Spherical.convertCartesian (Conv.new ⟨t, r, th, ph⟩ (some u) (some v) (some w)) =
    .ok (⟨t, r * Real.cos ph * Real.sin th, r * Real.sin ph * Real.sin th, r * Real.cos th⟩,
      some ⟨Real.sin th * Real.cos ph * u - r * Real.sin th * Real.sin ph * w + r * Real.cos th * Real.cos ph * v,
       Real.sin th * Real.sin ph * u + r * Real.cos th * Real.sin ph * v + r * Real.sin th * Real.cos ph * w,
       Real.cos th * u - r * Real.sin th * v⟩) := rfl

theorem conv_sph7 (t x y z u v w : ℝ) : Cartesian.convertSpherical (Conv.new ⟨t, x, y, z⟩ (some u) (some v) (some w)) =
    (cartToSph ⟨t, x, y, z⟩ ⟨u, v, w⟩).map seven := by
  show (do let a ← cartToSph ⟨t, x, y, z⟩ ⟨u, v, w⟩; pure (seven a)) = _
  cases cartToSph ⟨t, x, y, z⟩ ⟨u, v, w⟩ <;> rfl

/-- **C51**: Cartesian → spherical → Cartesian is the identity at *every* position, the origin and the axis included. -/
theorem C51_cartesian_round_trip (t x y z : ℝ) :
    ∃ o, Cartesian.convertSpherical (Conv.new ⟨t, x, y, z⟩ none none none) = .ok o ∧
      Spherical.convertCartesian (Conv.ofTuple o) = .ok (⟨t, x, y, z⟩, none) := by
  refine ⟨_, conv_sph4 t x y z, ?_⟩
  refine (conv_cart4 _ _ _ _).trans ?_
  have hx := hypot_cos y x
  have hy := hypot_sin y x
  have hz := hypot_cos (npHypot x y) z
  have hh := hypot_sin (npHypot x y) z
  rw [hypot_comm] at hz hh
  refine congrArg Except.ok (Prod.ext ?_ rfl)
  show Pos.mk _ _ _ _ = Pos.mk _ _ _ _
  rw [hz, mul_right_comm, hh, hx, mul_right_comm, hh, hy]

/-- **C51**: with velocities the round trip is the identity at every position off the z axis. -/
theorem C51_cartesian_round_trip_velocity (t x y z u v w : ℝ) (h : x ≠ 0 ∨ y ≠ 0) :
    ∃ o, Cartesian.convertSpherical (Conv.new ⟨t, x, y, z⟩ (some u) (some v) (some w)) = .ok o ∧
      Spherical.convertCartesian (Conv.ofTuple o) = .ok (⟨t, x, y, z⟩, some ⟨u, v, w⟩) := by
  have h1 : 0 < x ^ 2 + y ^ 2 := by rcases h with h | h <;> positivity
  refine ⟨_, (conv_sph7 ..).trans (by rw [cartToSph_ok _ _ _ _ _ _ _ h1.ne']; rfl), ?_⟩
  refine (conv_cart7 ..).trans ?_
  have hx := hypot_cos y x
  have hy := hypot_sin y x
  have hz := hypot_cos (npHypot x y) z
  have hh := hypot_sin (npHypot x y) z
  rw [hypot_comm] at hz hh
  have q1 := hypot_sq x y
  have q2 := hypot_sq (npHypot x y) z
  have p1 : 0 < npHypot x y := Real.sqrt_pos.mpr h1
  have p2 : 0 < npHypot (npHypot x y) z := Real.sqrt_pos.mpr (by positivity)
  generalize npHypot (npHypot x y) z = r at *
  generalize npHypot x y = s at *
  generalize npArctan2 s z = th at *
  generalize npArctan2 y x = ph at *
  rw [← q1]
  have c1 : Real.cos ph = x / s := by rw [eq_div_iff p1.ne', ← hx]; ring
  have s1 : Real.sin ph = y / s := by rw [eq_div_iff p1.ne', ← hy]; ring
  have c2 : Real.cos th = z / r := by rw [eq_div_iff p2.ne', ← hz]; ring
  have s2 : Real.sin th = s / r := by rw [eq_div_iff p2.ne', ← hh]; ring
  rw [c1, s1, c2, s2]
  clear hx hy hz hh c1 s1 c2 s2
  refine congrArg Except.ok (Prod.ext ?_ (congrArg some ?_))
  · show Pos.mk _ _ _ _ = Pos.mk _ _ _ _
    congr 1 <;> field_simp
  · show Vel.mk _ _ _ = Vel.mk _ _ _
    congr 1
    · field_simp
      linear_combination (-x * (x * u + y * v)) * q2 - r ^ 2 * u * q1
    · field_simp
      linear_combination (-y * (x * u + y * v)) * q2 - r ^ 2 * v * q1
    · field_simp
      linear_combination (-w) * q2

theorem sph_hxy {r th : ℝ} (hr : 0 ≤ r) (h0 : 0 ≤ Real.sin th) (ph : ℝ) :
    npHypot (r * Real.cos ph * Real.sin th) (r * Real.sin ph * Real.sin th) = r * Real.sin th := by
  rw [show r * Real.cos ph * Real.sin th = (r * Real.sin th) * Real.cos ph by ring,
    show r * Real.sin ph * Real.sin th = (r * Real.sin th) * Real.sin ph by ring]
  exact hypot_polar (mul_nonneg hr h0) ph

theorem sph_back {r th ph : ℝ} (hr : 0 < r) (h0 : 0 < th) (h1 : th < Real.pi) (hp : ph ∈ Set.Ioc (-Real.pi) Real.pi) :
    let x := r * Real.cos ph * Real.sin th
    let y := r * Real.sin ph * Real.sin th
    let z := r * Real.cos th
    npHypot x y = r * Real.sin th ∧ npHypot (npHypot x y) z = r ∧ npArctan2 (npHypot x y) z = th ∧ npArctan2 y x = ph := by
  intro x y z
  have hs : 0 < Real.sin th := Real.sin_pos_of_pos_of_lt_pi h0 h1
  have e : npHypot x y = r * Real.sin th := sph_hxy hr.le hs.le ph
  refine ⟨e, ?_, ?_, ?_⟩
  · rw [e, hypot_comm]; exact hypot_polar hr.le th
  · rw [e]; exact arctan2_polar hr ⟨by linarith, h1.le⟩
  · show npArctan2 (r * Real.sin ph * Real.sin th) (r * Real.cos ph * Real.sin th) = ph
    rw [show r * Real.cos ph * Real.sin th = (r * Real.sin th) * Real.cos ph by ring,
      show r * Real.sin ph * Real.sin th = (r * Real.sin th) * Real.sin ph by ring]
    exact arctan2_polar (mul_pos hr hs) hp

/-- **C51**: spherical → Cartesian → spherical is the identity on the whole chart. -/
theorem C51_spherical_round_trip (t r th ph : ℝ) (hr : 0 < r) (h0 : 0 < th) (h1 : th < Real.pi)
    (hp : -Real.pi < ph ∧ ph ≤ Real.pi) :
    ∃ o, Spherical.convertCartesian (Conv.new ⟨t, r, th, ph⟩ none none none) = .ok o ∧
      Cartesian.convertSpherical (Conv.ofTuple o) = .ok (⟨t, r, th, ph⟩, none) := by
  refine ⟨_, conv_cart4 t r th ph, ?_⟩
  refine (conv_sph4 _ _ _ _).trans ?_
  obtain ⟨e1, e2, e3, e4⟩ := sph_back hr h0 h1 hp
  rw [e2, e3, e4]

/-- **C51**: … and with velocities. -/
theorem C51_spherical_round_trip_velocity (t r th ph u v w : ℝ) (hr : 0 < r) (h0 : 0 < th) (h1 : th < Real.pi)
    (hp : -Real.pi < ph ∧ ph ≤ Real.pi) :
    ∃ o, Spherical.convertCartesian (Conv.new ⟨t, r, th, ph⟩ (some u) (some v) (some w)) = .ok o ∧
      Cartesian.convertSpherical (Conv.ofTuple o) = .ok (⟨t, r, th, ph⟩, some ⟨u, v, w⟩) := by
  refine ⟨_, conv_cart7 t r th ph u v w, ?_⟩
  refine (conv_sph7 ..).trans ?_
  obtain ⟨e1, e2, e3, e4⟩ := sph_back hr h0 h1 hp
  have hs : 0 < Real.sin th := Real.sin_pos_of_pos_of_lt_pi h0 h1
  have hn : (r * Real.cos ph * Real.sin th) ^ 2 + (r * Real.sin ph * Real.sin th) ^ 2 = (r * Real.sin th) ^ 2 := by
    rw [← hypot_sq, e1]
  have hne : (r * Real.cos ph * Real.sin th) ^ 2 + (r * Real.sin ph * Real.sin th) ^ 2 ≠ 0 := by
    rw [hn]; positivity
  rw [cartToSph_ok _ _ _ _ _ _ _ hne, e2, e3, e4, e1, hn]
  have q1 := Real.sin_sq_add_cos_sq th
  have q2 := Real.sin_sq_add_cos_sq ph
  generalize Real.cos ph = C at *
  generalize Real.sin ph = S at *
  generalize Real.cos th = c at *
  generalize Real.sin th = s at *
  refine congrArg Except.ok (Prod.ext rfl (congrArg some ?_))
  show Vel.mk _ _ _ = Vel.mk _ _ _
  congr 1
  · field_simp
    linear_combination (r * c * s * v + u * s ^ 2) * q2 + u * q1
  · field_simp
    linear_combination (c * s * u + r * c ^ 2 * v) * q2 + v * r * q1
  · field_simp
    linear_combination w * s * r * q2

/-- **C51**: the result of the conversion is always inside the chart: `r ≥ 0` is the distance from the origin,
`0 ≤ θ ≤ π`, `-π < φ ≤ π`, and the time is untouched. -/
theorem C51_range (t x y z : ℝ) : ∃ r th ph,
    Cartesian.convertSpherical (Conv.new ⟨t, x, y, z⟩ none none none) = .ok (⟨t, r, th, ph⟩, none) ∧
    0 ≤ r ∧ r ^ 2 = x ^ 2 + y ^ 2 + z ^ 2 ∧ 0 ≤ th ∧ th ≤ Real.pi ∧ -Real.pi < ph ∧ ph ≤ Real.pi := by
  refine ⟨_, _, _, conv_sph4 t x y z, hypot_nonneg _ _, ?_, arctan2_nonneg (hypot_nonneg _ _) _, (arctan2_mem _ _).2,
    (arctan2_mem _ _).1, (arctan2_mem _ _).2⟩
  rw [hypot_sq, hypot_sq]

/-- **C51** (boundary): on the z axis the velocity conversion has no finite result. -/
theorem C51_axis_velocity (t z u v w : ℝ) :
    Cartesian.convertSpherical (Conv.new ⟨t, 0, 0, z⟩ (some u) (some v) (some w)) = .error .notANumber := by
  rw [conv_sph7]
  unfold cartToSph
  simp only [bind, Except.bind, pure, Except.pure]
  rw [npSqrt_ok (by positivity), npSqrt_ok (by positivity)]
  simp only
  by_cases hz : z = 0
  · subst hz
    rw [show Real.sqrt (0 ^ 2 + 0 ^ 2 + 0 ^ 2) = 0 by norm_num, npDiv_zero]
    rfl
  · have : Real.sqrt (0 ^ 2 + 0 ^ 2 + z ^ 2) ≠ 0 := (Real.sqrt_pos.mpr (by positivity)).ne'
    rw [npDiv_ok _ this, show ((0 : ℝ) ^ 2 + 0 ^ 2 + z ^ 2) * Real.sqrt (0 ^ 2 + 0 ^ 2) = 0 by norm_num, npDiv_zero]
    rfl

/-- The hypotheses are met, on the branch cut φ = π as well. -/
example : ∃ o, Spherical.convertCartesian (Conv.new ⟨5, 2, 1, Real.pi⟩ (some 1) (some 2) (some 3)) = .ok o ∧
      Cartesian.convertSpherical (Conv.ofTuple o) = .ok (⟨5, 2, 1, Real.pi⟩, some ⟨1, 2, 3⟩) :=
  C51_spherical_round_trip_velocity 5 2 1 Real.pi 1 2 3 two_pos one_pos (by linarith [Real.two_le_pi])
    ⟨by linarith [Real.pi_pos], le_rfl⟩

example : ∃ o, Cartesian.convertSpherical (Conv.new ⟨5, 0, -2, 1⟩ (some 1) (some 2) (some 3)) = .ok o ∧
      Spherical.convertCartesian (Conv.ofTuple o) = .ok (⟨5, 0, -2, 1⟩, some ⟨1, 2, 3⟩) :=
  C51_cartesian_round_trip_velocity 5 0 (-2) 1 1 2 3 (Or.inr (by norm_num))

end Einpy.Coord
