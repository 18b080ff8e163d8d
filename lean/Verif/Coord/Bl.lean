import Verif.Coord.Sph

/-!
# Cartesian/Boyer-Lindquist conversions: property C52
-/

namespace Einpy.Coord
open Classical

/-- The square root of the discriminant in `cartesian_to_bl`. -/
noncomputable def blD (al x y z : ℝ) : ℝ :=
  Real.sqrt (((x ^ 2 + y ^ 2 + z ^ 2) - al ^ 2) ^ 2 + 4 * al ^ 2 * z ^ 2)

/-- The Boyer-Lindquist radius computed by `cartesian_to_bl`. -/
noncomputable def blR (al x y z : ℝ) : ℝ :=
  Real.sqrt (0.5 * (((x ^ 2 + y ^ 2 + z ^ 2) - al ^ 2) + blD al x y z))

theorem blD_sq (al x y z : ℝ) : blD al x y z ^ 2 = ((x ^ 2 + y ^ 2 + z ^ 2) - al ^ 2) ^ 2 + 4 * al ^ 2 * z ^ 2 :=
  Real.sq_sqrt (by positivity)

theorem blD_ge (al x y z : ℝ) : |(x ^ 2 + y ^ 2 + z ^ 2) - al ^ 2| ≤ blD al x y z :=
  Real.abs_le_sqrt (by nlinarith [sq_nonneg (al * z)])

theorem blR_arg_nonneg (al x y z : ℝ) : 0 ≤ 0.5 * (((x ^ 2 + y ^ 2 + z ^ 2) - al ^ 2) + blD al x y z) := by
  have h := blD_ge al x y z
  have h2 := neg_abs_le ((x ^ 2 + y ^ 2 + z ^ 2) - al ^ 2)
  linarith

theorem blR_sq (al x y z : ℝ) : 2 * blR al x y z ^ 2 = ((x ^ 2 + y ^ 2 + z ^ 2) - al ^ 2) + blD al x y z := by
  rw [blR, Real.sq_sqrt (blR_arg_nonneg ..)]; ring

theorem blR_nonneg (al x y z : ℝ) : 0 ≤ blR al x y z := Real.sqrt_nonneg _

/-- The radius solves `r⁴ - w r² - α² z² = 0`, in factored form. -/
theorem blR_eq (al x y z : ℝ) :
    (x ^ 2 + y ^ 2) * blR al x y z ^ 2 = (blR al x y z ^ 2 + al ^ 2) * (blR al x y z ^ 2 - z ^ 2) := by
  have h := blR_sq al x y z
  have h2 := blD_sq al x y z
  have h3 : blD al x y z = 2 * blR al x y z ^ 2 - ((x ^ 2 + y ^ 2 + z ^ 2) - al ^ 2) := by linarith
  rw [h3] at h2
  linear_combination (-1 / 4) * h2

theorem blR_pos_iff (al x y z : ℝ) : 0 < blR al x y z ↔ (z ≠ 0 ∨ al ^ 2 < x ^ 2 + y ^ 2) := by
  have hn := blR_nonneg al x y z
  constructor
  · intro h
    by_contra hc
    push Not at hc
    obtain ⟨rfl, hc⟩ := hc
    have e := blR_eq al x y 0
    have : blR al x y 0 ^ 2 * (blR al x y 0 ^ 2 + (al ^ 2 - (x ^ 2 + y ^ 2))) = 0 := by linear_combination -e
    have h2 : 0 < blR al x y 0 ^ 2 := by positivity
    have h3 : 0 < blR al x y 0 ^ 2 + (al ^ 2 - (x ^ 2 + y ^ 2)) := by linarith
    exact absurd this (mul_pos h2 h3).ne'
  · intro h
    rcases hn.lt_or_eq with h0 | h0
    · exact h0
    · exfalso
      have e := blR_sq al x y z
      have e2 := blD_sq al x y z
      rw [← h0] at e
      have e3 : blD al x y z = -((x ^ 2 + y ^ 2 + z ^ 2) - al ^ 2) := by linarith
      have e4 : al ^ 2 * z ^ 2 = 0 := by rw [e3] at e2; linarith
      have e5 : 0 ≤ blD al x y z := Real.sqrt_nonneg _
      rcases h with h | h
      · have : al = 0 := by
          rcases mul_eq_zero.mp e4 with h' | h'
          · exact pow_eq_zero_iff two_ne_zero |>.mp h'
          · exact absurd (pow_eq_zero_iff two_ne_zero |>.mp h') h
        subst this
        have : 0 < z ^ 2 := by positivity
        nlinarith [sq_nonneg x, sq_nonneg y]
      · nlinarith [sq_nonneg z]

theorem npSqrt_blD (al x y z : ℝ) :
    Num.npSqrt (((x ^ 2 + y ^ 2 + z ^ 2) - al ^ 2) ^ 2 + 4 * al ^ 2 * z ^ 2) = .ok (blD al x y z) :=
  npSqrt_ok (by positivity)

theorem npSqrt_blR (al x y z : ℝ) :
    Num.npSqrt (0.5 * (((x ^ 2 + y ^ 2 + z ^ 2) - al ^ 2) + blD al x y z)) = .ok (blR al x y z) :=
  npSqrt_ok (blR_arg_nonneg al x y z)

section pos
variable {al x y z : ℝ} (h : z ≠ 0 ∨ al ^ 2 < x ^ 2 + y ^ 2)
include h

theorem blR_pos : 0 < blR al x y z := (blR_pos_iff ..).mpr h

theorem bl_ratio_sq_le : (z / blR al x y z) ^ 2 ≤ 1 := by
  have hp := blR_pos h
  have e := blR_eq al x y z
  rw [div_pow, div_le_one (by positivity)]
  have h1 : 0 < blR al x y z ^ 2 + al ^ 2 := by positivity
  have h2 : 0 ≤ (blR al x y z ^ 2 + al ^ 2) * (blR al x y z ^ 2 - z ^ 2) := by rw [← e]; positivity
  have := nonneg_of_mul_nonneg_right h2 h1
  linarith

theorem bl_cos : Real.cos (Real.arccos (z / blR al x y z)) = z / blR al x y z := by
  have hb := (sq_le_one_iff_abs_le_one _).mp (bl_ratio_sq_le h)
  exact Real.cos_arccos (abs_le.mp hb).1 (abs_le.mp hb).2

theorem bl_sin : Real.sqrt (blR al x y z ^ 2 + al ^ 2) * Real.sin (Real.arccos (z / blR al x y z)) = npHypot x y := by
  have hp := blR_pos h
  rw [Real.sin_arccos, ← Real.sqrt_mul (by positivity)]
  unfold npHypot
  congr 1
  have e := blR_eq al x y z
  field_simp
  linear_combination -e

theorem bl_arccos_ok : npArccos (z / blR al x y z) = .ok (Real.arccos (z / blR al x y z)) := by
  have hb := abs_le.mp ((sq_le_one_iff_abs_le_one _).mp (bl_ratio_sq_le h))
  exact if_neg (by push Not; exact hb)

theorem cartToBlNovel_ok (t : ℝ) : cartToBlNovel ⟨t, x, y, z⟩ al =
    .ok ⟨t, blR al x y z, Real.arccos (z / blR al x y z), npArctan2 y x⟩ := by
  unfold cartToBlNovel
  simp only [bind, Except.bind, pure, Except.pure]
  rw [npSqrt_blD]
  simp only
  rw [npSqrt_blR]
  simp only
  rw [npDiv_ok _ (blR_pos h).ne']
  simp only
  rw [bl_arccos_ok h]

end pos

/-- On the disk inside the ring `x² + y² = α²` the radius is zero and the angle is undefined. -/
theorem cartToBlNovel_error (al t x y : ℝ) (h : x ^ 2 + y ^ 2 ≤ al ^ 2) :
    cartToBlNovel ⟨t, x, y, 0⟩ al = .error .notANumber := by
  have h0 : blR al x y 0 = 0 := by
    rcases (blR_nonneg al x y 0).lt_or_eq with h1 | h1
    · rcases (blR_pos_iff al x y 0).mp h1 with h2 | h2
      · exact absurd rfl h2
      · linarith
    · exact h1.symm
  unfold cartToBlNovel
  simp only [bind, Except.bind, pure, Except.pure]
  rw [npSqrt_blD]
  simp only
  rw [npSqrt_blR]
  simp only
  rw [h0, npDiv_zero]

theorem alpha_ok (k : Num.PhysConst) {M a : ℝ} (ha : 0 ≤ a ∧ a ≤ 1) :
    Num.alpha k M a = .ok (a * (k.G * M / k.c ^ 2)) := if_neg (by push Not; exact ha)

theorem blD_r (al x y z : ℝ) : blR al x y z ^ 2 * blD al x y z = blR al x y z ^ 4 + al ^ 2 * z ^ 2 := by
  have h1 := blR_sq al x y z
  have h2 := blR_eq al x y z
  linear_combination (-blR al x y z ^ 2) * h1 - h2

theorem blD_pos {al x y z : ℝ} (h : z ≠ 0 ∨ al ^ 2 < x ^ 2 + y ^ 2) : 0 < blD al x y z := by
  have hp := blR_pos h
  have e := blD_r al x y z
  have : 0 < blR al x y z ^ 2 * blD al x y z := by rw [e]; positivity
  exact (mul_pos_iff_of_pos_left (by positivity)).mp this

/-- `cartesian_to_bl` with velocities, away from the plane `x = 0`. -/
theorem cartToBl_ok {al x y z : ℝ} (h : z ≠ 0 ∨ al ^ 2 < x ^ 2 + y ^ 2) (hx : x ≠ 0) (t u v w : ℝ) :
    cartToBl ⟨t, x, y, z⟩ al ⟨u, v, w⟩ =
    .ok (⟨t, blR al x y z, Real.arccos (z / blR al x y z), npArctan2 y x⟩,
      ⟨(blR al x y z ^ 2 * (x * u + y * v + z * w) + al ^ 2 * z * w) / (blR al x y z * blD al x y z),
       -(Real.sqrt (blR al x y z ^ 2 + al ^ 2) / npHypot x y) *
        ((w * blR al x y z - (blR al x y z ^ 2 * (x * u + y * v + z * w) + al ^ 2 * z * w) /
          (blR al x y z * blD al x y z) * z) / blR al x y z ^ 2),
       (x * v - u * y) / (x ^ 2 + y ^ 2)⟩) := by
  have hr := blR_pos h
  have hD := blD_pos h
  have hs := blR_sq al x y z
  have hpos : 0 < npHypot x y := Real.sqrt_pos.mpr (by positivity)
  have hsin := bl_sin h
  rw [Real.sin_arccos] at hsin
  have hxa : 0 < Real.sqrt (blR al x y z ^ 2 + al ^ 2) := Real.sqrt_pos.mpr (by positivity)
  have hsn : 0 < Real.sqrt (1 - (z / blR al x y z) ^ 2) := by
    rcases (Real.sqrt_nonneg (1 - (z / blR al x y z) ^ 2)).lt_or_eq with h1 | h1
    · exact h1
    · rw [← h1, mul_zero] at hsin; exact absurd hsin hpos.ne
  unfold cartToBl
  simp only [bind, Except.bind, pure, Except.pure]
  rw [npSqrt_blD]
  simp only
  rw [npSqrt_blR]
  simp only
  rw [npDiv_ok _ hr.ne']
  simp only
  rw [bl_arccos_ok h]
  simp only
  rw [npDiv_ok _ (by positivity : 2 * blR al x y z ≠ 0), npDiv_ok _ (by positivity : 2 * blD al x y z ≠ 0),
    npSqrt_ok (by have := bl_ratio_sq_le h; linarith)]
  simp only
  rw [npDiv_ok _ hsn.ne', npDiv_ok _ (by positivity : blR al x y z ^ 2 ≠ 0), npDiv_ok _ hx]
  simp only
  rw [npDiv_ok _ (by positivity : 1 + (y / x) ^ 2 ≠ 0), npDiv_ok _ (by positivity : x ^ 2 ≠ 0)]
  simp only
  have e1 : 1 / (2 * blR al x y z) * (2 * (x * u + y * v + z * w) / 2 +
      ((x ^ 2 + y ^ 2 + z ^ 2 - al ^ 2) * (2 * (x * u + y * v + z * w)) + 4 * al ^ 2 * z * w) / (2 * blD al x y z)) =
      (blR al x y z ^ 2 * (x * u + y * v + z * w) + al ^ 2 * z * w) / (blR al x y z * blD al x y z) := by
    rw [show x ^ 2 + y ^ 2 + z ^ 2 - al ^ 2 = 2 * blR al x y z ^ 2 - blD al x y z by linarith]
    field_simp
    ring
  have e2 : -1 / Real.sqrt (1 - (z / blR al x y z) ^ 2) = -(Real.sqrt (blR al x y z ^ 2 + al ^ 2) / npHypot x y) := by
    rw [← hsin]
    field_simp
  have e3 : 1 / (1 + (y / x) ^ 2) * ((v * x - u * y) / x ^ 2) = (x * v - u * y) / (x ^ 2 + y ^ 2) := by
    have : (1 + (y / x) ^ 2) * x ^ 2 = x ^ 2 + y ^ 2 := by field_simp
    rw [← this]
    field_simp
  rw [e1, e2, e3]

theorem conv_bl4 (k : Num.PhysConst) {M a al : ℝ} (ha : Num.alpha k M a = .ok al) (t x y z : ℝ) :
    Cartesian.convertBl k (Conv.new ⟨t, x, y, z⟩ none none none) ⟨some M, some a⟩ =
    (cartToBlNovel ⟨t, x, y, z⟩ al).map four := by
  unfold Cartesian.convertBl Kwargs.get
  simp only [bind, Except.bind, ha]
  show (do let a ← cartToBlNovel ⟨t, x, y, z⟩ al; pure (four a)) = _
  cases cartToBlNovel ⟨t, x, y, z⟩ al <;> rfl

theorem conv_bl7 (k : Num.PhysConst) {M a al : ℝ} (ha : Num.alpha k M a = .ok al) (t x y z u v w : ℝ) :
    Cartesian.convertBl k (Conv.new ⟨t, x, y, z⟩ (some u) (some v) (some w)) ⟨some M, some a⟩ =
    (cartToBl ⟨t, x, y, z⟩ al ⟨u, v, w⟩).map seven := by
  unfold Cartesian.convertBl Kwargs.get
  simp only [bind, Except.bind, ha]
  show (do let a ← cartToBl ⟨t, x, y, z⟩ al ⟨u, v, w⟩; pure (seven a)) = _
  cases cartToBl ⟨t, x, y, z⟩ al ⟨u, v, w⟩ <;> rfl

theorem blToCartNovel_ok (al t r th ph : ℝ) : blToCartNovel ⟨t, r, th, ph⟩ al =
    .ok ⟨t, Real.sqrt (r ^ 2 + al ^ 2) * Real.sin th * Real.cos ph, Real.sqrt (r ^ 2 + al ^ 2) * Real.sin th * Real.sin ph,
      r * Real.cos th⟩ := by
  unfold blToCartNovel
  simp only [bind, Except.bind, pure, Except.pure]
  rw [npSqrt_ok (by positivity)]

theorem blToCart_ok {al r : ℝ} (h : 0 < r ^ 2 + al ^ 2) (t th ph u v w : ℝ) : blToCart ⟨t, r, th, ph⟩ al ⟨u, v, w⟩ =
    .ok (⟨t, Real.sqrt (r ^ 2 + al ^ 2) * Real.sin th * Real.cos ph, Real.sqrt (r ^ 2 + al ^ 2) * Real.sin th * Real.sin ph,
      r * Real.cos th⟩,
      ⟨r * u * Real.sin th * Real.cos ph / Real.sqrt (r ^ 2 + al ^ 2) +
        Real.sqrt (r ^ 2 + al ^ 2) * Real.cos th * Real.cos ph * v -
        Real.sqrt (r ^ 2 + al ^ 2) * Real.sin th * Real.sin ph * w,
       r * u * Real.sin th * Real.sin ph / Real.sqrt (r ^ 2 + al ^ 2) +
        Real.sqrt (r ^ 2 + al ^ 2) * Real.cos th * Real.sin ph * v +
        Real.sqrt (r ^ 2 + al ^ 2) * Real.sin th * Real.cos ph * w,
       u * Real.cos th - r * Real.sin th * v⟩) := by
  unfold blToCart
  simp only [bind, Except.bind, pure, Except.pure]
  rw [npSqrt_ok h.le]
  simp only
  rw [npDiv_ok _ (Real.sqrt_pos.mpr h).ne', npDiv_ok _ (Real.sqrt_pos.mpr h).ne']

theorem conv_blcart4 (k : Num.PhysConst) {M a al : ℝ} (ha : Num.alpha k M a = .ok al) (t r th ph : ℝ) :
    BoyerLindquist.convertCartesian k (Conv.new ⟨t, r, th, ph⟩ none none none) ⟨some M, some a⟩ =
    (blToCartNovel ⟨t, r, th, ph⟩ al).map four := by
  unfold BoyerLindquist.convertCartesian Kwargs.get
  simp only [bind, Except.bind, ha]
  show (do let a ← blToCartNovel ⟨t, r, th, ph⟩ al; pure (four a)) = _
  cases blToCartNovel ⟨t, r, th, ph⟩ al <;> rfl

theorem conv_blcart7 (k : Num.PhysConst) {M a al : ℝ} (ha : Num.alpha k M a = .ok al) (t r th ph u v w : ℝ) :
    BoyerLindquist.convertCartesian k (Conv.new ⟨t, r, th, ph⟩ (some u) (some v) (some w)) ⟨some M, some a⟩ =
    (blToCart ⟨t, r, th, ph⟩ al ⟨u, v, w⟩).map seven := by
  unfold BoyerLindquist.convertCartesian Kwargs.get
  simp only [bind, Except.bind, ha]
  show (do let a ← blToCart ⟨t, r, th, ph⟩ al ⟨u, v, w⟩; pure (seven a)) = _
  cases blToCart ⟨t, r, th, ph⟩ al ⟨u, v, w⟩ <;> rfl

/-- **C52**: Cartesian → Boyer-Lindquist → Cartesian is the identity for every mass and spin, at every position where the
Boyer-Lindquist radius is nonzero, i.e. outside the disk `z = 0, x² + y² ≤ α²`. -/
theorem C52_cartesian_round_trip (k : Num.PhysConst) (t x y z M a : ℝ) (ha : 0 ≤ a ∧ a ≤ 1)
    (h : z ≠ 0 ∨ (a * (k.G * M / k.c ^ 2)) ^ 2 < x ^ 2 + y ^ 2) :
    ∃ o, Cartesian.convertBl k (Conv.new ⟨t, x, y, z⟩ none none none) ⟨some M, some a⟩ = .ok o ∧
      BoyerLindquist.convertCartesian k (Conv.ofTuple o) ⟨some M, some a⟩ = .ok (⟨t, x, y, z⟩, none) := by
  have hal := alpha_ok k (M := M) ha
  generalize a * (k.G * M / k.c ^ 2) = al at h hal
  refine ⟨_, by rw [conv_bl4 k hal, cartToBlNovel_ok h]; rfl, ?_⟩
  refine (conv_blcart4 k hal _ _ _ _).trans ?_
  rw [blToCartNovel_ok, bl_sin h, bl_cos h, hypot_cos, hypot_sin, mul_div_cancel₀ _ (blR_pos h).ne']
  rfl

/-- **C52**: … and on that disk the conversion has no result. -/
theorem C52_disk (k : Num.PhysConst) (t x y M a : ℝ) (ha : 0 ≤ a ∧ a ≤ 1)
    (h : x ^ 2 + y ^ 2 ≤ (a * (k.G * M / k.c ^ 2)) ^ 2) :
    Cartesian.convertBl k (Conv.new ⟨t, x, y, 0⟩ none none none) ⟨some M, some a⟩ = .error .notANumber := by
  have hal := alpha_ok k (M := M) ha
  generalize a * (k.G * M / k.c ^ 2) = al at h hal
  rw [conv_bl4 k hal, cartToBlNovel_error al t x y h]
  rfl

theorem bl_bracket {r z A al h2 D B W vr : ℝ} (hr : r ≠ 0) (hA0 : A ≠ 0) (hh : h2 ≠ 0)
    (E : h2 * r ^ 2 = A * (r ^ 2 - z ^ 2)) (hA : A = r ^ 2 + al ^ 2) (hD : r ^ 2 * D = r ^ 4 + al ^ 2 * z ^ 2)
    (hv : vr * (r * D) = r ^ 2 * (B + z * W) + al ^ 2 * z * W) :
    r * vr / A - z * A * (W * r - vr * z) / (h2 * r ^ 3) = B / h2 := by
  have key : h2 * r ^ 4 * vr - z * A ^ 2 * (W * r - vr * z) = B * A * r ^ 3 := by
    have e1 : h2 * r ^ 4 * vr = r ^ 2 * vr * (A * (r ^ 2 - z ^ 2)) := by rw [← E]; ring
    rw [e1]
    have e2 : r ^ 2 * vr * (A * (r ^ 2 - z ^ 2)) - z * A ^ 2 * (W * r - vr * z) =
        A * (vr * (r ^ 4 - r ^ 2 * z ^ 2 + A * z ^ 2) - A * z * W * r) := by ring
    rw [e2, hA]
    have e3 : r ^ 4 - r ^ 2 * z ^ 2 + (r ^ 2 + al ^ 2) * z ^ 2 = r ^ 2 * D := by rw [hD]; ring
    rw [e3, show vr * (r ^ 2 * D) = r * (vr * (r * D)) by ring, hv]
    ring
  field_simp
  linear_combination key

/-- **C52** (with velocities; missing: points with `x = 0`, where the code divides by `x`, see `C53_refuted_bl`). -/
theorem C52_cartesian_round_trip_velocity_partial (k : Num.PhysConst) (t x y z u v w M a : ℝ) (ha : 0 ≤ a ∧ a ≤ 1)
    (h : z ≠ 0 ∨ (a * (k.G * M / k.c ^ 2)) ^ 2 < x ^ 2 + y ^ 2) (hx : x ≠ 0) :
    ∃ o, Cartesian.convertBl k (Conv.new ⟨t, x, y, z⟩ (some u) (some v) (some w)) ⟨some M, some a⟩ = .ok o ∧
      BoyerLindquist.convertCartesian k (Conv.ofTuple o) ⟨some M, some a⟩ = .ok (⟨t, x, y, z⟩, some ⟨u, v, w⟩) := by
  have hal := alpha_ok k (M := M) ha
  generalize a * (k.G * M / k.c ^ 2) = al at h hal
  refine ⟨_, by rw [conv_bl7 k hal, cartToBl_ok h hx]; rfl, ?_⟩
  refine (conv_blcart7 k hal _ _ _ _ _ _ _).trans ?_
  have hr := blR_pos h
  have hD := blD_pos h
  rw [blToCart_ok (by positivity)]
  rw [bl_sin h, bl_cos h, hypot_cos, hypot_sin, mul_div_cancel₀ _ hr.ne']
  refine congrArg Except.ok (Prod.ext rfl (congrArg some ?_))
  show Vel.mk _ _ _ = Vel.mk _ _ _
  have hpos : 0 < npHypot x y := Real.sqrt_pos.mpr (by positivity)
  have hsin := bl_sin h
  have hxa : 0 < Real.sqrt (blR al x y z ^ 2 + al ^ 2) := Real.sqrt_pos.mpr (by positivity)
  have hxa2 : Real.sqrt (blR al x y z ^ 2 + al ^ 2) ^ 2 = blR al x y z ^ 2 + al ^ 2 := Real.sq_sqrt (by positivity)
  have hC := hypot_cos y x
  have hS := hypot_sin y x
  have hh := hypot_sq x y
  have E := blR_eq al x y z
  have F := blD_r al x y z
  have hsin' : Real.sin (Real.arccos (z / blR al x y z)) = npHypot x y / Real.sqrt (blR al x y z ^ 2 + al ^ 2) := by
    rw [eq_div_iff hxa.ne', ← hsin]; ring
  have hC' : Real.cos (npArctan2 y x) = x / npHypot x y := by rw [eq_div_iff hpos.ne', mul_comm, hC]
  have hS' : Real.sin (npArctan2 y x) = y / npHypot x y := by rw [eq_div_iff hpos.ne', mul_comm, hS]
  have hv : (blR al x y z ^ 2 * (x * u + y * v + z * w) + al ^ 2 * z * w) / (blR al x y z * blD al x y z) *
      (blR al x y z * blD al x y z) = blR al x y z ^ 2 * (x * u + y * v + z * w) + al ^ 2 * z * w :=
    div_mul_cancel₀ _ (by positivity)
  generalize (blR al x y z ^ 2 * (x * u + y * v + z * w) + al ^ 2 * z * w) / (blR al x y z * blD al x y z) = vr at *
  rw [hsin', hC', hS']
  clear hsin' hC' hS' hC hS hsin
  rw [← hh] at E ⊢
  have hb := bl_bracket hr.ne' (A := Real.sqrt (blR al x y z ^ 2 + al ^ 2) ^ 2)
    (h2 := npHypot x y ^ 2) (by positivity) (by positivity)
    (by rw [hxa2]; exact E) hxa2 F hv
  clear E F hv
  generalize blR al x y z = r at *
  generalize Real.sqrt (r ^ 2 + al ^ 2) = A at *
  generalize npHypot x y = s at *
  simp only
  congr 1
  · have e : r * vr * (s / A) * (x / s) / A + A * (z / r) * (x / s) * (-(A / s) * ((w * r - vr * z) / r ^ 2)) -
        y * ((x * v - u * y) / s ^ 2) =
        x * (r * vr / A ^ 2 - z * A ^ 2 * (w * r - vr * z) / (s ^ 2 * r ^ 3)) - y * ((x * v - u * y) / s ^ 2) := by
      field_simp
      ring
    rw [e, hb]
    field_simp
    linear_combination -u * hh
  · have e : r * vr * (s / A) * (y / s) / A + A * (z / r) * (y / s) * (-(A / s) * ((w * r - vr * z) / r ^ 2)) +
        x * ((x * v - u * y) / s ^ 2) =
        y * (r * vr / A ^ 2 - z * A ^ 2 * (w * r - vr * z) / (s ^ 2 * r ^ 3)) + x * ((x * v - u * y) / s ^ 2) := by
      field_simp
      ring
    rw [e, hb]
    field_simp
    linear_combination -v * hh
  · field_simp
    ring

section back
variable {al r th ph : ℝ} (hr : 0 < r) (h0 : 0 < th) (h1 : th < Real.pi)
include hr

theorem bl_back_D : blD al (Real.sqrt (r ^ 2 + al ^ 2) * Real.sin th * Real.cos ph)
    (Real.sqrt (r ^ 2 + al ^ 2) * Real.sin th * Real.sin ph) (r * Real.cos th) = r ^ 2 + (al * Real.cos th) ^ 2 := by
  unfold blD
  have hxa2 : Real.sqrt (r ^ 2 + al ^ 2) ^ 2 = r ^ 2 + al ^ 2 := Real.sq_sqrt (by positivity)
  have q1 := Real.sin_sq_add_cos_sq th
  have q2 := Real.sin_sq_add_cos_sq ph
  have e : (Real.sqrt (r ^ 2 + al ^ 2) * Real.sin th * Real.cos ph) ^ 2 +
    (Real.sqrt (r ^ 2 + al ^ 2) * Real.sin th * Real.sin ph) ^ 2 + (r * Real.cos th) ^ 2 - al ^ 2 =
      r ^ 2 - (al * Real.cos th) ^ 2 := by
    linear_combination (Real.sin th ^ 2 * (Real.cos ph ^ 2 + Real.sin ph ^ 2)) * hxa2 +
      (r ^ 2 + al ^ 2) * Real.sin th ^ 2 * q2 + (r ^ 2 + al ^ 2) * q1
  rw [e, show (r ^ 2 - (al * Real.cos th) ^ 2) ^ 2 + 4 * al ^ 2 * (r * Real.cos th) ^ 2 =
    (r ^ 2 + (al * Real.cos th) ^ 2) ^ 2 by ring]
  exact Real.sqrt_sq (by positivity)

theorem bl_back_R : blR al (Real.sqrt (r ^ 2 + al ^ 2) * Real.sin th * Real.cos ph)
    (Real.sqrt (r ^ 2 + al ^ 2) * Real.sin th * Real.sin ph) (r * Real.cos th) = r := by
  unfold blR
  have hxa2 : Real.sqrt (r ^ 2 + al ^ 2) ^ 2 = r ^ 2 + al ^ 2 := Real.sq_sqrt (by positivity)
  have q1 := Real.sin_sq_add_cos_sq th
  have q2 := Real.sin_sq_add_cos_sq ph
  rw [bl_back_D hr]
  have e : (Real.sqrt (r ^ 2 + al ^ 2) * Real.sin th * Real.cos ph) ^ 2 +
    (Real.sqrt (r ^ 2 + al ^ 2) * Real.sin th * Real.sin ph) ^ 2 + (r * Real.cos th) ^ 2 - al ^ 2 =
      r ^ 2 - (al * Real.cos th) ^ 2 := by
    linear_combination (Real.sin th ^ 2 * (Real.cos ph ^ 2 + Real.sin ph ^ 2)) * hxa2 +
      (r ^ 2 + al ^ 2) * Real.sin th ^ 2 * q2 + (r ^ 2 + al ^ 2) * q1
  rw [e, show 0.5 * (r ^ 2 - (al * Real.cos th) ^ 2 + (r ^ 2 + (al * Real.cos th) ^ 2)) = r ^ 2 by ring]
  exact Real.sqrt_sq hr.le

theorem bl_back_reg : r * Real.cos th ≠ 0 ∨ al ^ 2 < (Real.sqrt (r ^ 2 + al ^ 2) * Real.sin th * Real.cos ph) ^ 2 +
    (Real.sqrt (r ^ 2 + al ^ 2) * Real.sin th * Real.sin ph) ^ 2 :=
  (blR_pos_iff ..).mp (by rw [bl_back_R hr]; exact hr)

include h0 h1

theorem bl_back_th : Real.arccos (r * Real.cos th / r) = th := by
  rw [mul_div_cancel_left₀ _ hr.ne', Real.arccos_cos h0.le h1.le]

theorem bl_back_ph (hp : ph ∈ Set.Ioc (-Real.pi) Real.pi) :
    npArctan2 (Real.sqrt (r ^ 2 + al ^ 2) * Real.sin th * Real.sin ph)
      (Real.sqrt (r ^ 2 + al ^ 2) * Real.sin th * Real.cos ph) = ph :=
  arctan2_polar (mul_pos (Real.sqrt_pos.mpr (by positivity)) (Real.sin_pos_of_pos_of_lt_pi h0 h1)) hp

end back

/-- **C52**: Boyer-Lindquist → Cartesian → Boyer-Lindquist is the identity on the whole chart, for every mass and spin. -/
theorem C52_bl_round_trip (k : Num.PhysConst) (t r th ph M a : ℝ) (ha : 0 ≤ a ∧ a ≤ 1) (hr : 0 < r) (h0 : 0 < th)
    (h1 : th < Real.pi) (hp : -Real.pi < ph ∧ ph ≤ Real.pi) :
    ∃ o, BoyerLindquist.convertCartesian k (Conv.new ⟨t, r, th, ph⟩ none none none) ⟨some M, some a⟩ = .ok o ∧
      Cartesian.convertBl k (Conv.ofTuple o) ⟨some M, some a⟩ = .ok (⟨t, r, th, ph⟩, none) := by
  have hal := alpha_ok k (M := M) ha
  generalize a * (k.G * M / k.c ^ 2) = al at hal
  refine ⟨_, by rw [conv_blcart4 k hal, blToCartNovel_ok]; rfl, ?_⟩
  refine (conv_bl4 k hal _ _ _ _).trans ?_
  rw [cartToBlNovel_ok (bl_back_reg hr), bl_back_R hr, bl_back_th hr h0 h1, bl_back_ph hr h0 h1 hp]
  rfl

/-- **C52** (with velocities; missing: azimuth `±π/2`, where the code divides by `x = 0`). -/
theorem C52_bl_round_trip_velocity_partial (k : Num.PhysConst) (t r th ph u v w M a : ℝ) (ha : 0 ≤ a ∧ a ≤ 1)
    (hr : 0 < r) (h0 : 0 < th) (h1 : th < Real.pi) (hp : -Real.pi < ph ∧ ph ≤ Real.pi) (hc : Real.cos ph ≠ 0) :
    ∃ o, BoyerLindquist.convertCartesian k (Conv.new ⟨t, r, th, ph⟩ (some u) (some v) (some w)) ⟨some M, some a⟩ =
        .ok o ∧
      Cartesian.convertBl k (Conv.ofTuple o) ⟨some M, some a⟩ = .ok (⟨t, r, th, ph⟩, some ⟨u, v, w⟩) := by
  have hal := alpha_ok k (M := M) ha
  generalize a * (k.G * M / k.c ^ 2) = al at hal
  refine ⟨_, by rw [conv_blcart7 k hal, blToCart_ok (by positivity)]; rfl, ?_⟩
  refine (conv_bl7 k hal _ _ _ _ _ _ _).trans ?_
  have hs : 0 < Real.sin th := Real.sin_pos_of_pos_of_lt_pi h0 h1
  have hxa : 0 < Real.sqrt (r ^ 2 + al ^ 2) := Real.sqrt_pos.mpr (by positivity)
  have hx : Real.sqrt (r ^ 2 + al ^ 2) * Real.sin th * Real.cos ph ≠ 0 := mul_ne_zero (mul_pos hxa hs).ne' hc
  simp only
  rw [cartToBl_ok (bl_back_reg hr) hx]
  rw [bl_back_R hr, bl_back_D hr, bl_back_th hr h0 h1, bl_back_ph hr h0 h1 hp,
    hypot_polar (mul_pos hxa hs).le ph]
  have hxa2 : Real.sqrt (r ^ 2 + al ^ 2) ^ 2 = r ^ 2 + al ^ 2 := Real.sq_sqrt (by positivity)
  have q1 := Real.sin_sq_add_cos_sq th
  have q2 := Real.sin_sq_add_cos_sq ph
  clear hx hal hp
  refine congrArg Except.ok (Prod.ext rfl (congrArg some ?_))
  show Vel.mk _ _ _ = Vel.mk _ _ _
  generalize Real.cos ph = C at *
  generalize Real.sin ph = S at *
  generalize Real.cos th = c at *
  generalize Real.sin th = s at *
  generalize Real.sqrt (r ^ 2 + al ^ 2) = A at *
  have hD : 0 < r ^ 2 + (al * c) ^ 2 := by positivity
  have hv : (r ^ 2 * (A * s * C * (r * u * s * C / A + A * c * C * v - A * s * S * w) +
      A * s * S * (r * u * s * S / A + A * c * S * v + A * s * C * w) +
      r * c * (u * c - r * s * v)) + al ^ 2 * (r * c) * (u * c - r * s * v)) / (r * (r ^ 2 + (al * c) ^ 2)) = u := by
    have e : A * s * C * (r * u * s * C / A + A * c * C * v - A * s * S * w) +
      A * s * S * (r * u * s * S / A + A * c * S * v + A * s * C * w) = r * u * s ^ 2 + (r ^ 2 + al ^ 2) * s * c * v := by
      rw [← hxa2]
      field_simp
      linear_combination (r * u * s + A ^ 2 * c * v) * q2
    rw [e, div_eq_iff (by positivity)]
    linear_combination (u * r ^ 3) * q1
  rw [hv]
  congr 1
  · field_simp
    ring
  · have e : (A * s * C) ^ 2 + (A * s * S) ^ 2 = (A * s) ^ 2 := by linear_combination (A * s) ^ 2 * q2
    rw [e, div_eq_iff (by positivity)]
    have f1 : A * s * C * (r * u * s * S / A) = r * u * s ^ 2 * C * S := by field_simp
    have f2 : r * u * s * C / A * (A * s * S) = r * u * s ^ 2 * C * S := by field_simp
    linear_combination f1 - f2 + A ^ 2 * s ^ 2 * w * q2

/-- **C52** is false of this commit for velocities at `x = 0`: at a perfectly regular point of the y-z plane the conversion
of a velocity has no finite result (`np.square(y / x)`). -/
theorem C52_refuted_velocity (k : Num.PhysConst) (t y z u v w M a : ℝ) (ha : 0 ≤ a ∧ a ≤ 1) :
    Cartesian.convertBl k (Conv.new ⟨t, 0, y, z⟩ (some u) (some v) (some w)) ⟨some M, some a⟩ = .error .notANumber := by
  have hal := alpha_ok k (M := M) ha
  generalize a * (k.G * M / k.c ^ 2) = al at hal
  rw [conv_bl7 k hal]
  unfold cartToBl
  simp only [bind, Except.bind, pure, Except.pure]
  rw [npSqrt_blD]
  simp only
  rw [npSqrt_blR]
  simp only
  have hdiv : ∀ p q : ℝ, (∃ r, npDiv p q = .ok r) ∨ npDiv p q = .error .notANumber := by
    intro p q
    unfold npDiv
    split_ifs
    · exact Or.inr rfl
    · exact Or.inl ⟨_, rfl⟩
  have hsq : ∀ p : ℝ, (∃ r, Num.npSqrt p = .ok r) ∨ Num.npSqrt p = .error .notANumber := by
    intro p
    unfold Num.npSqrt
    split_ifs
    · exact Or.inr rfl
    · exact Or.inl ⟨_, rfl⟩
  have hac : ∀ p : ℝ, (∃ r, npArccos p = .ok r) ∨ npArccos p = .error .notANumber := by
    intro p
    unfold npArccos
    split_ifs
    · exact Or.inr rfl
    · exact Or.inl ⟨_, rfl⟩
  rcases hdiv z (blR al 0 y z) with ⟨q, hq⟩ | hq <;> rw [hq] <;> simp only
  swap; · rfl
  rcases hac q with ⟨q1, hq1⟩ | hq1 <;> rw [hq1] <;> simp only
  swap; · rfl
  rcases hdiv 1 (2 * blR al 0 y z) with ⟨q2, hq2⟩ | hq2 <;> rw [hq2] <;> simp only
  swap; · rfl
  generalize hE : (0 ^ 2 + y ^ 2 + z ^ 2 - al ^ 2) * (2 * (0 * u + y * v + z * w)) + 4 * al ^ 2 * z * w = E
  rcases hdiv E (2 * blD al 0 y z) with ⟨q3, hq3⟩ | hq3 <;> rw [hq3] <;> simp only
  swap; · rfl
  rcases hsq (1 - q ^ 2) with ⟨q4, hq4⟩ | hq4 <;> rw [hq4] <;> simp only
  swap; · rfl
  rcases hdiv (-1) q4 with ⟨q5, hq5⟩ | hq5 <;> rw [hq5] <;> simp only
  swap; · rfl
  generalize w * blR al 0 y z - _ * z = E2
  rcases hdiv E2 (blR al 0 y z ^ 2) with ⟨q6, hq6⟩ | hq6 <;> rw [hq6] <;> simp only
  swap; · rfl
  rw [npDiv_zero]
  rfl

/-- The hypotheses are met by a point outside the ring and by one on the axis of rotation. -/
example (k : Num.PhysConst) :
    ∃ o, Cartesian.convertBl k (Conv.new ⟨5, 3, -2, 1⟩ (some 1) (some 2) (some 3)) ⟨some 7, some 0.5⟩ = .ok o ∧
      BoyerLindquist.convertCartesian k (Conv.ofTuple o) ⟨some 7, some 0.5⟩ = .ok (⟨5, 3, -2, 1⟩, some ⟨1, 2, 3⟩) :=
  C52_cartesian_round_trip_velocity_partial k 5 3 (-2) 1 1 2 3 7 0.5 (by norm_num) (Or.inl one_ne_zero) (by norm_num)

example (k : Num.PhysConst) :
    ∃ o, Cartesian.convertBl k (Conv.new ⟨5, 0, 0, -1⟩ none none none) ⟨some 7, some 1⟩ = .ok o ∧
      BoyerLindquist.convertCartesian k (Conv.ofTuple o) ⟨some 7, some 1⟩ = .ok (⟨5, 0, 0, -1⟩, none) :=
  C52_cartesian_round_trip k 5 0 0 (-1) 7 1 (by norm_num) (Or.inl (by norm_num))

end Einpy.Coord
