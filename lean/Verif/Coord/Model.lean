import Mathlib.Analysis.SpecialFunctions.Trigonometric.Inverse
import Mathlib.Analysis.SpecialFunctions.Complex.Arg
import Verif.Num.Model

/-!
# Model of `coordinates/utils.py` and `coordinates/conversion.py`

Floating-point numbers are idealised as real numbers.  Where numpy would store `inf` or `nan` in a component (and numba
would raise `ZeroDivisionError`), the whole result is the tag `notANumber`.
-/

namespace Einpy.Coord
open Classical

variable (k : Num.PhysConst)

/-- The four position components of a tuple, `t` and three spatial ones. -/
structure Pos where
  t : ℝ
  a : ℝ
  b : ℝ
  c : ℝ

/-- The three velocity components of a 7-tuple. -/
structure Vel where
  a : ℝ
  b : ℝ
  c : ℝ

/-- A 4-tuple (`none`) or a 7-tuple (`some`). -/
abbrev Out := Pos × Option Vel

/-- numpy division, `nan` or `inf` when the denominator is zero. -/
noncomputable def npDiv (x y : ℝ) : Py ℝ := if y = 0 then .error .notANumber else .ok (x / y)

/-- numpy `np.arccos`, `nan` outside [-1, 1]. -/
noncomputable def npArccos (x : ℝ) : Py ℝ := if x < -1 ∨ 1 < x then .error .notANumber else .ok (Real.arccos x)

/-- numpy `np.hypot`. -/
noncomputable def npHypot (x y : ℝ) : ℝ := Real.sqrt (x ^ 2 + y ^ 2)

/-- numpy `np.arctan2(y, x)`: the angle of the point (x, y), in (-π, π], 0 at the origin. (Signed zeros are not
modelled.) -/
noncomputable def npArctan2 (y x : ℝ) : ℝ := Complex.arg ⟨x, y⟩

/-! ## coordinates/utils.py -/

/-- utils.py:37-49 `cartesian_to_spherical_novel`. -/
noncomputable def cartToSphNovel (p : Pos) : Py Pos :=
  let hxy := npHypot p.a p.b
  let r := npHypot hxy p.c
  let theta := npArctan2 hxy p.c
  let phi := npArctan2 p.b p.a
  .ok ⟨p.t, r, theta, phi⟩

/-- utils.py:17-34 `cartesian_to_spherical`. -/
noncomputable def cartToSph (p : Pos) (v : Vel) : Py (Pos × Vel) := do
  let hxy := npHypot p.a p.b
  let r := npHypot hxy p.c
  let theta := npArctan2 hxy p.c
  let phi := npArctan2 p.b p.a
  let n1 := p.a ^ 2 + p.b ^ 2
  let n2 := n1 + p.c ^ 2
  let v_r ← npDiv (p.a * v.a + p.b * v.b + p.c * v.c) (← Num.npSqrt n2)
  let v_th ← npDiv (p.c * (p.a * v.a + p.b * v.b) - n1 * v.c) (n2 * (← Num.npSqrt n1))
  let v_p ← npDiv (-1 * (v.a * p.b - p.a * v.b)) n1
  return (⟨p.t, r, theta, phi⟩, ⟨v_r, v_th, v_p⟩)

/-- utils.py:85-97 `cartesian_to_bl_novel`. -/
noncomputable def cartToBlNovel (p : Pos) (alpha : ℝ) : Py Pos := do
  let w := (p.a ^ 2 + p.b ^ 2 + p.c ^ 2) - alpha ^ 2
  let r ← Num.npSqrt (0.5 * (w + (← Num.npSqrt (w ^ 2 + 4 * alpha ^ 2 * p.c ^ 2))))
  let theta ← npArccos (← npDiv p.c r)
  let phi := npArctan2 p.b p.a
  return ⟨p.t, r, theta, phi⟩

/-- utils.py:60-82 `cartesian_to_bl`. -/
noncomputable def cartToBl (p : Pos) (alpha : ℝ) (v : Vel) : Py (Pos × Vel) := do
  let w := (p.a ^ 2 + p.b ^ 2 + p.c ^ 2) - alpha ^ 2
  let r ← Num.npSqrt (0.5 * (w + (← Num.npSqrt (w ^ 2 + 4 * alpha ^ 2 * p.c ^ 2))))
  let theta ← npArccos (← npDiv p.c r)
  let phi := npArctan2 p.b p.a
  let dw_dt := 2 * (p.a * v.a + p.b * v.b + p.c * v.c)
  let v_r := (← npDiv 1 (2 * r)) * (dw_dt / 2 +
    (← npDiv (w * dw_dt + 4 * alpha ^ 2 * p.c * v.c) (2 * (← Num.npSqrt (w ^ 2 + 4 * alpha ^ 2 * p.c ^ 2)))))
  let v_th := (← npDiv (-1) (← Num.npSqrt (1 - (← npDiv p.c r) ^ 2))) * (← npDiv (v.c * r - v_r * p.c) (r ^ 2))
  let v_p := (← npDiv 1 (1 + (← npDiv p.b p.a) ^ 2)) * (← npDiv (v.b * p.a - v.a * p.b) (p.a ^ 2))
  return (⟨p.t, r, theta, phi⟩, ⟨v_r, v_th, v_p⟩)

/-- utils.py:133-144 `spherical_to_cartesian_novel`. -/
noncomputable def sphToCartNovel (p : Pos) : Py Pos :=
  let x := p.a * Real.cos p.c * Real.sin p.b
  let y := p.a * Real.sin p.c * Real.sin p.b
  let z := p.a * Real.cos p.b
  .ok ⟨p.t, x, y, z⟩

/-- utils.py:108-130 `spherical_to_cartesian`. -/
noncomputable def sphToCart (p : Pos) (v : Vel) : Py (Pos × Vel) :=
  let r := p.a
  let th := p.b
  let ph := p.c
  let x := r * Real.cos ph * Real.sin th
  let y := r * Real.sin ph * Real.sin th
  let z := r * Real.cos th
  let v_x := Real.sin th * Real.cos ph * v.a - r * Real.sin th * Real.sin ph * v.c + r * Real.cos th * Real.cos ph * v.b
  let v_y := Real.sin th * Real.sin ph * v.a + r * Real.cos th * Real.sin ph * v.b + r * Real.sin th * Real.cos ph * v.c
  let v_z := Real.cos th * v.a - r * Real.sin th * v.b
  .ok (⟨p.t, x, y, z⟩, ⟨v_x, v_y, v_z⟩)

/-- utils.py:182-195 `bl_to_cartesian_novel`. -/
noncomputable def blToCartNovel (p : Pos) (alpha : ℝ) : Py Pos := do
  let xa ← Num.npSqrt (p.a ^ 2 + alpha ^ 2)
  let sin_norm := xa * Real.sin p.b
  let x := sin_norm * Real.cos p.c
  let y := sin_norm * Real.sin p.c
  let z := p.a * Real.cos p.b
  return ⟨p.t, x, y, z⟩

/-- utils.py:155-179 `bl_to_cartesian`. -/
noncomputable def blToCart (p : Pos) (alpha : ℝ) (v : Vel) : Py (Pos × Vel) := do
  let r := p.a
  let th := p.b
  let ph := p.c
  let xa ← Num.npSqrt (r ^ 2 + alpha ^ 2)
  let sin_norm := xa * Real.sin th
  let x := sin_norm * Real.cos ph
  let y := sin_norm * Real.sin ph
  let z := r * Real.cos th
  let v_x := (← npDiv (r * v.a * Real.sin th * Real.cos ph) xa) + xa * Real.cos th * Real.cos ph * v.b
    - xa * Real.sin th * Real.sin ph * v.c
  let v_y := (← npDiv (r * v.a * Real.sin th * Real.sin ph) xa) + xa * Real.cos th * Real.sin ph * v.b
    + xa * Real.sin th * Real.cos ph * v.c
  let v_z := v.a * Real.cos th - r * Real.sin th * v.b
  return (⟨p.t, x, y, z⟩, ⟨v_x, v_y, v_z⟩)

/-- The three optional velocity arguments; arithmetic on `None` raises `TypeError`. -/
def needVel (v1 v2 v3 : Option ℝ) : Py Vel :=
  match v1, v2, v3 with
  | some a, some b, some c => .ok ⟨a, b, c⟩
  | _, _, _ => .error .typeError

/-- A 4-tuple result. -/
def four (p : Pos) : Out := (p, none)
/-- A 7-tuple result. -/
def seven (p : Pos × Vel) : Out := (p.1, some p.2)

/-- utils.py:9-14 `cartesian_to_spherical_fast`. -/
noncomputable def cartToSphFast (p : Pos) (v1 v2 v3 : Option ℝ) (velocities_provided : Bool) : Py Out := do
  if velocities_provided then
    return seven (← cartToSph p (← needVel v1 v2 v3))
  return four (← cartToSphNovel p)

/-- utils.py:52-57 `cartesian_to_bl_fast`. -/
noncomputable def cartToBlFast (p : Pos) (alpha : ℝ) (v1 v2 v3 : Option ℝ) (velocities_provided : Bool) : Py Out := do
  if velocities_provided then
    return seven (← cartToBl p alpha (← needVel v1 v2 v3))
  return four (← cartToBlNovel p alpha)

/-- utils.py:100-105 `spherical_to_cartesian_fast`. -/
noncomputable def sphToCartFast (p : Pos) (v1 v2 v3 : Option ℝ) (velocities_provided : Bool) : Py Out := do
  if velocities_provided then
    return seven (← sphToCart p (← needVel v1 v2 v3))
  return four (← sphToCartNovel p)

/-- utils.py:147-152 `bl_to_cartesian_fast`. -/
noncomputable def blToCartFast (p : Pos) (alpha : ℝ) (v1 v2 v3 : Option ℝ) (velocities_provided : Bool) : Py Out := do
  if velocities_provided then
    return seven (← blToCart p alpha (← needVel v1 v2 v3))
  return four (← blToCartNovel p alpha)

/-- utils.py:198-221 `lorentz_factor`. -/
noncomputable def lorentzFactor (v1 v2 v3 : ℝ) : Py ℝ := do
  let v_norm2 := v1 * v1 + v2 * v2 + v3 * v3
  npDiv 1 (← Num.npSqrt (1 - v_norm2 / k.c ^ 2))

/-! ## coordinates/conversion.py -/

/-- The attributes set by the three constructors: conversion.py:16-47 (Cartesian), conversion.py:161-192 (Spherical),
conversion.py:297-328 (Boyer-Lindquist). -/
structure Conv where
  pos : Pos
  v1 : Option ℝ
  v2 : Option ℝ
  v3 : Option ℝ
  velocitiesProvided : Bool

/-- The body of the three constructors (same lines): `_velocities_provided` is false when any velocity is `None`. -/
def Conv.new (pos : Pos) (v1 v2 v3 : Option ℝ) : Conv :=
  ⟨pos, v1, v2, v3, !(v1.isNone || v2.isNone || v3.isNone)⟩

/-- The call `CartesianConversion(*tup)` (conversion.py:286, conversion.py:448). -/
def Conv.ofTuple (o : Out) : Conv :=
  match o.2 with
  | none => Conv.new o.1 none none none
  | some v => Conv.new o.1 (some v.a) (some v.b) (some v.c)

/-- conversion.py:49-72, conversion.py:194-217, conversion.py:330-353 `values`. -/
def Conv.values (s : Conv) : Py Out :=
  if s.velocitiesProvided then do
    let v ← needVel s.v1 s.v2 s.v3
    return (s.pos, some v)
  else return (s.pos, none)

/-- The keyword arguments `M` and `a`, possibly missing. -/
structure Kwargs where
  M : Option ℝ
  a : Option ℝ

/-- The lookup with its `KeyError` (conversion.py:133-138, conversion.py:278-283, conversion.py:387-392,
conversion.py:440-445). -/
def Kwargs.get (kw : Kwargs) : Py (ℝ × ℝ) :=
  match kw.M, kw.a with
  | some M, some a => .ok (M, a)
  | _, _ => .error .keyError

/-- conversion.py:74-99 `CartesianConversion.convert_spherical`. -/
noncomputable def Cartesian.convertSpherical (s : Conv) : Py Out :=
  cartToSphFast s.pos s.v1 s.v2 s.v3 s.velocitiesProvided

/-- conversion.py:101-152 `CartesianConversion.convert_bl`. -/
noncomputable def Cartesian.convertBl (s : Conv) (kw : Kwargs) : Py Out := do
  let (M, a) ← kw.get
  let alpha ← Num.alpha k M a
  cartToBlFast s.pos alpha s.v1 s.v2 s.v3 s.velocitiesProvided

/-- conversion.py:219-244 `SphericalConversion.convert_cartesian`. -/
noncomputable def Spherical.convertCartesian (s : Conv) : Py Out :=
  sphToCartFast s.pos s.v1 s.v2 s.v3 s.velocitiesProvided

/-- conversion.py:246-288 `SphericalConversion.convert_bl`. -/
noncomputable def Spherical.convertBl (s : Conv) (kw : Kwargs) : Py Out := do
  let (M, a) ← kw.get
  let transformed ← Spherical.convertCartesian s
  let cart := Conv.ofTuple transformed
  Cartesian.convertBl k cart ⟨some M, some a⟩

/-- conversion.py:355-406 `BoyerLindquistConversion.convert_cartesian`. -/
noncomputable def BoyerLindquist.convertCartesian (s : Conv) (kw : Kwargs) : Py Out := do
  let (M, a) ← kw.get
  let alpha ← Num.alpha k M a
  blToCartFast s.pos alpha s.v1 s.v2 s.v3 s.velocitiesProvided

/-- conversion.py:408-450 `BoyerLindquistConversion.convert_spherical`. -/
noncomputable def BoyerLindquist.convertSpherical (s : Conv) (kw : Kwargs) : Py Out := do
  let (M, a) ← kw.get
  let transformed ← BoyerLindquist.convertCartesian k s ⟨some M, some a⟩
  let cart := Conv.ofTuple transformed
  Cartesian.convertSpherical cart

end Einpy.Coord
