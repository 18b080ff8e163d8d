import Mathlib.Analysis.SpecialFunctions.Pow.Real
import Mathlib.Analysis.SpecialFunctions.Trigonometric.Basic
import Mathlib.LinearAlgebra.Matrix.NonsingularInverse
import Mathlib.LinearAlgebra.Matrix.Notation
import Verif.Py.Basic

/-!
# Model of `metric/base_metric.py`, `schwarzschild.py`, `kerr.py`, `kerrnewman.py`

Floating-point numbers are idealised as real numbers.  An array in which numpy would store `inf` or `nan` is reported,
as a whole, with the tag `notANumber`.  Masses, spins and charges are the numbers `.value` of the astropy quantities
(`primitive`, units.py:8-31); units are modelled in `Verif/Num/Units.lean`.
-/

namespace Einpy.Num
open Classical

abbrev Vec4 := Fin 4 → ℝ
abbrev Mat4 := Matrix (Fin 4) (Fin 4) ℝ
abbrev Tab3 := Fin 4 → Fin 4 → Fin 4 → ℝ

/-- constant.py:14-17 `c`, `G` and `coulombs_const`: positive numbers. -/
structure PhysConst where
  c : ℝ
  G : ℝ
  Cc : ℝ
  c_pos : 0 < c
  G_pos : 0 < G
  Cc_pos : 0 < Cc

/-- The attributes of a metric object that its methods read (base_metric.py:41-105). `system` is `coords.system`. -/
structure NumMetric where
  name : String
  system : String
  M : ℝ
  a : ℝ
  Q : ℝ
  /-- charge per unit mass of the test particle (kerrnewman.py:50) -/
  q : ℝ
  schRad : ℝ

variable (k : PhysConst)

/-! ## base_metric.py -/

/-- base_metric.py:214-231 `schwarzschild_radius`. -/
noncomputable def schwarzschildRadius (M : ℝ) : ℝ := 2 * k.G * M / k.c ^ 2

/-- base_metric.py:233-266 `alpha`. -/
noncomputable def alpha (M a : ℝ) : Py ℝ :=
  if a < 0 ∨ a > 1 then .error .valueError
  else
    let half_rs := k.G * M / k.c ^ 2
    .ok (a * half_rs)

/-- base_metric.py:125-152 `sigma`. -/
noncomputable def sigma (r theta M a : ℝ) : Py ℝ := do
  let alpha ← alpha k M a
  return r ^ 2 + (alpha * Real.cos theta) ^ 2

/-- base_metric.py:154-186 `delta`. -/
noncomputable def delta (r M a Q : ℝ) : Py ℝ := do
  let r_s := 2 * M * k.G / k.c ^ 2
  let alpha ← alpha k M a
  let r_Q2 := Q ^ 2 * k.G * k.Cc / k.c ^ 4
  return r ^ 2 - r_s * r + alpha ^ 2 + r_Q2

/-- base_metric.py:188-212 `rho`. -/
noncomputable def rho (r theta M a : ℝ) : Py ℝ := do
  let sg ← sigma k r theta M a
  return Real.sqrt sg

/-- numpy `np.sqrt`: `nan` for negative arguments. -/
noncomputable def npSqrt (x : ℝ) : Py ℝ := if x < 0 then .error .notANumber else .ok (Real.sqrt x)

/-- The dictionary returned by `singularities`; each value is computed independently of the others. -/
structure Singularities where
  innerErgosphere : ℝ → Py ℝ
  innerHorizon : Py ℝ
  outerHorizon : Py ℝ
  outerErgosphere : ℝ → Py ℝ

/-- base_metric.py:268-342 `singularities`.  For Schwarzschild the ergospheres are numbers, modelled as constant
functions. -/
noncomputable def singularities (m : NumMetric) : Py Singularities := do
  let r_s := 2 * m.M * k.G / k.c ^ 2
  let alpha ← alpha k m.M m.a
  let r_Q2 := m.Q ^ 2 * k.G * k.Cc / k.c ^ 4
  if m.name = "Kerr Metric" ∨ m.name = "Kerr-Newman Metric" then
    if m.system = "BoyerLindquist" then
      return ⟨fun th => do return (r_s - (← npSqrt (r_s ^ 2 - 4 * (alpha * Real.cos th) ^ 2 - 4 * r_Q2))) / 2,
        do return (r_s - (← npSqrt (r_s ^ 2 - 4 * alpha ^ 2 - 4 * r_Q2))) / 2,
        do return (r_s + (← npSqrt (r_s ^ 2 - 4 * alpha ^ 2 - 4 * r_Q2))) / 2,
        fun th => do return (r_s + (← npSqrt (r_s ^ 2 - 4 * (alpha * Real.cos th) ^ 2 - 4 * r_Q2))) / 2⟩
    else throw .coordinateError
  else if m.system = "Spherical" then
    return ⟨fun _ => .ok 0, .ok 0, .ok r_s, fun _ => .ok r_s⟩
  else throw .coordinateError

/-- numpy `np.linalg.inv`: `LinAlgError` (tag `nonInvertible`) for a singular matrix. -/
noncomputable def npInv (g : Mat4) : Py Mat4 := if IsUnit g.det then .ok g⁻¹ else .error .nonInvertible

/-- base_metric.py:344-371 `BaseMetric.metric_covariant` for a user-defined metric: `metric_cov` may be missing
(`None` is not callable: `TypeError`), `perturbation` may be missing. -/
noncomputable def baseMetricCovariant (metricCov : Option (Vec4 → Py Mat4)) (perturbation : Option (Vec4 → Py Mat4))
    (x : Vec4) : Py Mat4 :=
  match metricCov with
  | none => .error .typeError
  | some f => do
    let g ← f x
    match perturbation with
    | some p => do
      let h ← p x
      return g + h
    | none => return g

/-- base_metric.py:373-396 `metric_contravariant`, given `self.metric_covariant`. -/
noncomputable def contraOf (cov : Vec4 → Py Mat4) (x : Vec4) : Py Mat4 := do
  let g ← cov x
  npInv g

/-! ## schwarzschild.py -/

/-- schwarzschild.py:17-37 the constructor. -/
noncomputable def Schwarzschild.new (system : String) (M : ℝ) : NumMetric :=
  ⟨"Schwarzschild Metric", system, M, 0, 0, 0, schwarzschildRadius k M⟩

/-- schwarzschild.py:63-90 `_g_cov_s`. -/
noncomputable def Schwarzschild.gCovS (m : NumMetric) (x : Vec4) : Py Mat4 :=
  let r := x 1
  let th := x 2
  let r_s := m.schRad
  let tmp := 1 - r_s / r
  if r = 0 ∨ tmp = 0 then .error .notANumber
  else .ok !![tmp * k.c ^ 2, 0, 0, 0;
              0, -1 / tmp, 0, 0;
              0, 0, -(r ^ 2), 0;
              0, 0, 0, -((r * Real.sin th) ^ 2)]

/-- schwarzschild.py:39-61 `metric_covariant`. -/
noncomputable def Schwarzschild.metricCovariant (m : NumMetric) (x : Vec4) : Py Mat4 :=
  if m.system = "Spherical" then Schwarzschild.gCovS k m x else .error .coordinateError

/-- `chl[i, j, k] = v` -/
def Tab3.set (t : Tab3) (i j l : Fin 4) (v : ℝ) : Tab3 := fun a b c => if a = i ∧ b = j ∧ c = l then v else t a b c

/-- schwarzschild.py:122-153 `_ch_sym_s`; `1 / np.tan(th)` is taken as `cos/sin` (floating-point `tan` is finite at the
rounded `π/2`). -/
noncomputable def Schwarzschild.chSymS (m : NumMetric) (x : Vec4) : Py Tab3 :=
  let r := x 1
  let th := x 2
  let r_s := m.schRad
  if r = 0 ∨ r_s * r - r ^ 2 = 0 ∨ Real.sin th = 0 then .error .notANumber
  else
    let chl : Tab3 := fun _ _ _ => 0
    let chl := Tab3.set chl 1 0 0 (0.5 * r_s * (r - r_s) * k.c ^ 2 / r ^ 3)
    let chl := Tab3.set chl 1 1 1 (0.5 * r_s / (r_s * r - r ^ 2))
    let chl := Tab3.set chl 1 2 2 (r_s - r)
    let chl := Tab3.set chl 1 3 3 ((r_s - r) * Real.sin th ^ 2)
    let v := -chl 1 1 1
    let chl := Tab3.set (Tab3.set chl 0 0 1 v) 0 1 0 v
    let w := 1 / r
    let chl := Tab3.set (Tab3.set (Tab3.set (Tab3.set chl 2 2 1 w) 2 1 2 w) 3 3 1 w) 3 1 3 w
    let chl := Tab3.set chl 2 3 3 (-Real.cos th * Real.sin th)
    let u := Real.cos th / Real.sin th
    .ok (Tab3.set (Tab3.set chl 3 3 2 u) 3 2 3 u)

/-- schwarzschild.py:92-120 `_christoffels` (the attribute `christoffels`). -/
noncomputable def Schwarzschild.christoffels (m : NumMetric) (x : Vec4) : Py Tab3 :=
  if m.system = "Spherical" then Schwarzschild.chSymS k m x else .error .coordinateError

/-- schwarzschild.py:189-224 `_f_vec_s`; `vec` is the pair (4-position, 4-velocity), and so is the result. -/
noncomputable def Schwarzschild.fVecS (m : NumMetric) (x v : Vec4) : Py (Vec4 × Vec4) := do
  let chl ← Schwarzschild.christoffels k m x
  return (v, ![-2 * chl 0 0 1 * v 0 * v 1,
    -1 * (chl 1 0 0 * v 0 ^ 2 + chl 1 1 1 * v 1 ^ 2 + chl 1 2 2 * v 2 ^ 2 + chl 1 3 3 * v 3 ^ 2),
    -2 * chl 2 2 1 * v 2 * v 1 - 1 * chl 2 3 3 * v 3 ^ 2,
    -2 * (chl 3 3 1 * v 3 * v 1 + chl 3 3 2 * v 3 * v 2)])

/-- schwarzschild.py:155-187 `_f_vec`. -/
noncomputable def Schwarzschild.fVec (m : NumMetric) (x v : Vec4) : Py (Vec4 × Vec4) :=
  if m.system = "Spherical" then Schwarzschild.fVecS k m x v else .error .coordinateError

/-! ## kerr.py -/

/-- kerr.py:17-40 the constructor. -/
noncomputable def Kerr.new (system : String) (M a : ℝ) : NumMetric :=
  ⟨"Kerr Metric", system, M, a, 0, 0, schwarzschildRadius k M⟩

/-- kerr.py:44-77 and kerrnewman.py:54-86 `_nonzero_christoffels_list_bl`. -/
def nonzeroListBl : List (Fin 4 × Fin 4 × Fin 4) :=
  [(0, 0, 1), (0, 0, 2), (0, 1, 3), (0, 2, 3), (0, 1, 0), (0, 2, 0), (0, 3, 1), (0, 3, 2),
   (1, 0, 0), (1, 1, 1), (1, 2, 2), (1, 3, 3), (2, 0, 0), (2, 1, 1), (2, 2, 2), (2, 3, 3),
   (1, 0, 3), (1, 1, 2), (2, 0, 3), (2, 1, 2), (1, 2, 1), (1, 3, 0), (2, 2, 1), (2, 3, 0),
   (3, 0, 1), (3, 0, 2), (3, 1, 0), (3, 1, 3), (3, 2, 0), (3, 2, 3), (3, 3, 1), (3, 3, 2)]

/-- kerr.py:109-145 `_g_cov_bl`. -/
noncomputable def Kerr.gCovBl (m : NumMetric) (x : Vec4) : Py Mat4 := do
  let r := x 1
  let th := x 2
  let r_s := m.schRad
  let al ← alpha k m.M m.a
  let sg ← sigma k r th m.M m.a
  let dl ← delta k r m.M m.a 0
  if sg = 0 ∨ dl = 0 then throw .notANumber
  else
    let g03 := (k.c * r_s * r * al * Real.sin th ^ 2) / sg
    return !![(1 - r_s * r / sg) * k.c ^ 2, 0, 0, g03;
              0, -(sg / dl), 0, 0;
              0, 0, -sg, 0;
              g03, 0, 0, -((r ^ 2 + al ^ 2 + (r_s * r * (al * Real.sin th) ^ 2) / sg) * Real.sin th ^ 2)]

/-- kerr.py:79-107 `metric_covariant`. -/
noncomputable def Kerr.metricCovariant (m : NumMetric) (x : Vec4) : Py Mat4 :=
  if m.system = "BoyerLindquist" then Kerr.gCovBl k m x else .error .coordinateError

/-- kerr.py:147-212 `_dg_dx_bl`; the result is indexed `[coordinate, i, j]`. -/
noncomputable def Kerr.dgdxBl (m : NumMetric) (x : Vec4) : Py Tab3 := do
  let r := x 1
  let th := x 2
  let r_s := m.schRad
  let al ← alpha k m.M m.a
  let sg ← sigma k r th m.M m.a
  let dl ← delta k r m.M m.a 0
  if sg = 0 ∨ dl = 0 then throw .notANumber
  else
    let dsdr := 2 * r
    let dddr := 2 * r - r_s
    let tmp := r_s * (sg - r * dsdr) / sg ^ 2
    let p03 := k.c * al * Real.sin th ^ 2 * tmp
    let dr : Mat4 := !![-tmp * k.c ^ 2, 0, 0, p03;
      0, -(dsdr - sg * (dddr / dl)) / dl, 0, 0;
      0, 0, -dsdr, 0;
      p03, 0, 0, (-2 * r + (al * Real.sin th) ^ 2 * tmp) * Real.sin th ^ 2]
    let dsdth := -(al ^ 2) * Real.sin (2 * th)
    let tmp' := (k.c / sg) ^ 2 * r_s * r * dsdth
    let q03 := (k.c * al * r_s * r / sg ^ 2) * (sg * Real.sin (2 * th) - dsdth * Real.sin th ^ 2)
    let dth : Mat4 := !![tmp', 0, 0, q03;
      0, -(dsdth / dl), 0, 0;
      0, 0, -dsdth, 0;
      q03, 0, 0, -Real.sin (2 * th) * (r ^ 2 + al ^ 2) - (r_s * r * al ^ 2) * (Real.sin th / sg) ^ 2 *
        (2 * sg * Real.sin (2 * th) - Real.sin th ^ 2 * dsdth)]
    return ![0, dr, dth, 0]

/-- The loops of kerr.py:268-283 and kerrnewman.py:296-311 (identical code). -/
noncomputable def chSymLoops (gc : Mat4) (dg : Tab3) : Tab3 :=
  let chl : Tab3 := fun _ _ _ => 0
  let chl := (nonzeroListBl.take 4).foldl (fun chl t =>
    let kk := t.2.1
    let l := t.2.2
    let val1 := dg l 0 kk + dg kk 0 l
    let val2 := dg l 3 kk + dg kk 3 l
    let v0 := 0.5 * (gc 0 0 * val1 + gc 0 3 * val2)
    let v3 := 0.5 * (gc 3 0 * val1 + gc 3 3 * val2)
    (Tab3.set (Tab3.set (Tab3.set (Tab3.set chl 0 kk l v0) 0 l kk v0) 3 kk l v3) 3 l kk v3)) chl
  let chl := ((nonzeroListBl.drop 8).take 8).foldl (fun chl t =>
    let i := t.1
    let kk := t.2.1
    let l := t.2.2
    Tab3.set chl i kk l (0.5 * (gc i i * (dg l i kk + dg kk i l - dg i kk l)))) chl
  ((nonzeroListBl.drop 16).take 4).foldl (fun chl t =>
    let i := t.1
    let kk := t.2.1
    let l := t.2.2
    let v := 0.5 * (gc i i * (dg l i kk + dg kk i l - dg i kk l))
    Tab3.set (Tab3.set chl i kk l v) i l kk v) chl

/-- kerr.py:244-285 `_ch_sym_bl`. -/
noncomputable def Kerr.chSymBl (m : NumMetric) (x : Vec4) : Py Tab3 := do
  let gc ← contraOf (Kerr.metricCovariant k m) x
  let dg ← Kerr.dgdxBl k m x
  return chSymLoops gc dg

/-- kerr.py:214-242 `_christoffels`. -/
noncomputable def Kerr.christoffels (m : NumMetric) (x : Vec4) : Py Tab3 :=
  if m.system = "BoyerLindquist" then Kerr.chSymBl k m x else .error .coordinateError

/-- The four acceleration lines of kerr.py:347-375 and kerrnewman.py:377-405 (identical code). -/
noncomputable def accel (chl : Tab3) (v : Vec4) : Vec4 :=
  ![-2 * (chl 0 0 1 * v 0 * v 1 + chl 0 0 2 * v 0 * v 2 + chl 0 1 3 * v 1 * v 3 + chl 0 2 3 * v 2 * v 3),
    -1 * (chl 1 0 0 * v 0 * v 0 + 2 * chl 1 0 3 * v 0 * v 3 + chl 1 1 1 * v 1 * v 1 + 2 * chl 1 1 2 * v 1 * v 2
      + chl 1 2 2 * v 2 * v 2 + chl 1 3 3 * v 3 * v 3),
    -1 * (chl 2 0 0 * v 0 * v 0 + 2 * chl 2 0 3 * v 0 * v 3 + chl 2 1 1 * v 1 * v 1 + 2 * chl 2 1 2 * v 1 * v 2
      + chl 2 2 2 * v 2 * v 2 + chl 2 3 3 * v 3 * v 3),
    -2 * (chl 3 0 1 * v 0 * v 1 + chl 3 0 2 * v 0 * v 2 + chl 3 1 3 * v 1 * v 3 + chl 3 2 3 * v 2 * v 3)]

/-- kerr.py:321-377 `_f_vec_bl`. -/
noncomputable def Kerr.fVecBl (m : NumMetric) (x v : Vec4) : Py (Vec4 × Vec4) := do
  let chl ← Kerr.christoffels k m x
  return (v, accel chl v)

/-- kerr.py:287-319 `_f_vec`. -/
noncomputable def Kerr.fVec (m : NumMetric) (x v : Vec4) : Py (Vec4 × Vec4) :=
  if m.system = "BoyerLindquist" then Kerr.fVecBl k m x v else .error .coordinateError

/-- kerr.py:396-405: which entries of the inverse metric are flagged. -/
def ncContra (i j : Nat) : Bool :=
  (i, j) ∈ [(3, 0), (0, 3), (0, 0), (1, 1), (2, 2), (3, 3)]

/-- kerr.py:397-409: which derivatives are flagged, indexed `[coordinate, i, j]`. -/
def ncDgdx (i j l : Nat) : Bool :=
  (i, j, l) ∈ [(1, 3, 0), (1, 0, 3), (2, 0, 3), (2, 3, 0), (1, 0, 0), (1, 1, 1), (1, 2, 2), (1, 3, 3),
    (2, 0, 0), (2, 1, 1), (2, 2, 2), (2, 3, 3)]

/-- kerr.py:379-425 `nonzero_christoffels()` : the loop over `t in range(4**3)`. -/
def nonzeroChristoffels : List (Nat × Nat × Nat) :=
  (List.range 64).filterMap fun t =>
    let i := (t / 16) % 4
    let j := (t / 4) % 4
    let l := t % 4
    let flag := (List.range 4).foldl (fun b index =>
      b || (ncContra i index && (ncDgdx l index j || ncDgdx j index l || ncDgdx index j l))) false
    if flag then some (i, j, l) else none

/-! ## kerrnewman.py -/

/-- kerrnewman.py:19-50 the constructor. -/
noncomputable def KerrNewman.new (system : String) (M a Q q : ℝ) : NumMetric :=
  ⟨"Kerr-Newman Metric", system, M, a, Q, q, schwarzschildRadius k M⟩

/-- kerrnewman.py:118-154 `_g_cov_bl`: `super().delta(r, M, a)` is called without the charge. -/
noncomputable def KerrNewman.gCovBl (m : NumMetric) (x : Vec4) : Py Mat4 := do
  let r := x 1
  let th := x 2
  let al ← alpha k m.M m.a
  let rh ← rho k r th m.M m.a
  let rho2 := rh ^ 2
  let dl ← delta k r m.M m.a 0
  if rho2 = 0 ∨ dl = 0 then throw .notANumber
  else
    let g03 := k.c * ((-al * Real.sin th ^ 2 * (dl - r ^ 2 - al ^ 2)) / rho2)
    return !![k.c ^ 2 * ((dl - (al * Real.sin th) ^ 2) / rho2), 0, 0, g03;
              0, -rho2 / dl, 0, 0;
              0, 0, -rho2, 0;
              g03, 0, 0, -(Real.sin th ^ 2 * (((r ^ 2 + al ^ 2) ^ 2 - dl * (al * Real.sin th) ^ 2) / rho2))]

/-- kerrnewman.py:88-116 `metric_covariant`. -/
noncomputable def KerrNewman.metricCovariant (m : NumMetric) (x : Vec4) : Py Mat4 :=
  if m.system = "BoyerLindquist" then KerrNewman.gCovBl k m x else .error .coordinateError

/-- kerrnewman.py:156-240 `_dg_dx_bl`. -/
noncomputable def KerrNewman.dgdxBl (m : NumMetric) (x : Vec4) : Py Tab3 := do
  let r := x 1
  let th := x 2
  let al ← alpha k m.M m.a
  let rh ← rho k r th m.M m.a
  let rho2 := rh ^ 2
  let dl ← delta k r m.M m.a 0
  if rho2 = 0 ∨ dl = 0 then throw .notANumber
  else
    let s := Real.sin th
    let drh2dr := 2 * r
    let dddr := 2 * r - m.schRad
    let p03 := (k.c * (-al) * s ^ 2 / rho2 ^ 2) * ((dddr - 2 * r) * rho2 - drh2dr * (dl - r ^ 2 - al ^ 2))
    let dr : Mat4 := !![k.c ^ 2 * (dddr * rho2 - drh2dr * (dl - (al * s) ^ 2)) / rho2 ^ 2, 0, 0, p03;
      0, (-1 / dl ^ 2) * (drh2dr * dl - dddr * rho2), 0, 0;
      0, 0, -drh2dr, 0;
      p03, 0, 0, (s / rho2) ^ 2 * ((((al * s) ^ 2 * dddr - 4 * r ^ 3 - 4 * (r * al ^ 2)) * rho2)
        - (drh2dr * ((al * s) ^ 2 * dl - (r ^ 2 + al ^ 2) ^ 2)))]
    let drh2dth := -(al ^ 2) * Real.sin (2 * th)
    let q03 := ((-al * k.c * (dl - r ^ 2 - al ^ 2)) / rho2 ^ 2) * (Real.sin (2 * th) * rho2 - drh2dth * s ^ 2)
    let dth : Mat4 := !![(-((k.c / rho2) ^ 2)) * (drh2dth * (dl - (al * s) ^ 2) + al ^ 2 * rho2 * Real.sin (2 * th)), 0, 0, q03;
      0, -drh2dth / dl, 0, 0;
      0, 0, -drh2dth, 0;
      q03, 0, 0, (1 / rho2 ^ 2) * ((dl * (al * s) ^ 2) * (2 * rho2 * Real.sin (2 * th) - drh2dth * s ^ 2)
        - ((r ^ 2 + al ^ 2) ^ 2 * (rho2 * Real.sin (2 * th) - drh2dth * s ^ 2)))]
    return ![0, dr, dth, 0]

/-- kerrnewman.py:272-313 `_ch_sym_bl`. -/
noncomputable def KerrNewman.chSymBl (m : NumMetric) (x : Vec4) : Py Tab3 := do
  let gc ← contraOf (KerrNewman.metricCovariant k m) x
  let dg ← KerrNewman.dgdxBl k m x
  return chSymLoops gc dg

/-- kerrnewman.py:242-270 `_christoffels`. -/
noncomputable def KerrNewman.christoffels (m : NumMetric) (x : Vec4) : Py Tab3 :=
  if m.system = "BoyerLindquist" then KerrNewman.chSymBl k m x else .error .coordinateError

/-- kerrnewman.py:412-441 `em_potential_covariant`. -/
noncomputable def KerrNewman.emPotentialCov (m : NumMetric) (x : Vec4) : Py Vec4 := do
  let r := x 1
  let th := x 2
  let al ← alpha k m.M m.a
  let r_Q := Real.sqrt (m.Q ^ 2 * k.G * k.Cc / k.c ^ 4)
  let rh ← rho k r th m.M m.a
  let rho2 := rh ^ 2
  if rho2 = 0 then throw .notANumber
  else return ![r * r_Q / rho2, 0, 0, -r * al * r_Q * Real.sin th ^ 2 / rho2]

/-- kerrnewman.py:443-463 `em_potential_contravariant`. -/
noncomputable def KerrNewman.emPotentialContra (m : NumMetric) (x : Vec4) : Py Vec4 := do
  let A ← KerrNewman.emPotentialCov k m x
  let gc ← contraOf (KerrNewman.metricCovariant k m) x
  return gc.mulVec A

/-- kerrnewman.py:465-509 `em_tensor_covariant`. -/
noncomputable def KerrNewman.emTensorCov (m : NumMetric) (x : Vec4) : Py Mat4 := do
  let r := x 1
  let th := x 2
  let al ← alpha k m.M m.a
  let r_Q := Real.sqrt (m.Q ^ 2 * k.G * k.Cc / k.c ^ 4)
  let rh ← rho k r th m.M m.a
  let rho2 := rh ^ 2
  let drho2_dr := 2 * r
  let drho2_dtheta := -(al ^ 2 * Real.sin (2 * th))
  if rho2 = 0 then throw .notANumber
  else
    let F01 := -(r_Q * (rho2 - drho2_dr * r)) / rho2 ^ 2
    let F02 := (r * r_Q * drho2_dtheta) / rho2 ^ 2
    let F13 := (1 / rho2 ^ 2) * (al * r_Q * Real.sin th ^ 2) * (rho2 - 2 * r ^ 2)
    let F23 := (1 / rho2 ^ 2) * (al * r_Q * r * Real.sin (2 * th)) * (rho2 + (al * Real.sin th) ^ 2)
    return !![0, F01, F02, 0;
              -F01, 0, 0, F13;
              -F02, 0, 0, F23;
              0, -F13, -F23, 0]

/-- kerrnewman.py:511-533 `em_tensor_contravariant`. -/
noncomputable def KerrNewman.emTensorContra (m : NumMetric) (x : Vec4) : Py Mat4 := do
  let F ← KerrNewman.emTensorCov k m x
  let gc ← contraOf (KerrNewman.metricCovariant k m) x
  return gc * F * gc

/-- kerrnewman.py:349-410 `_f_vec_bl`; `F_contra @ v @ g_cov` is `(F v) g`. -/
noncomputable def KerrNewman.fVecBl (m : NumMetric) (x v : Vec4) : Py (Vec4 × Vec4) := do
  let chl ← KerrNewman.christoffels k m x
  let F ← KerrNewman.emTensorContra k m x
  let g ← KerrNewman.metricCovariant k m x
  return (v, accel chl v - m.q • (Matrix.vecMul (F.mulVec v) g))

/-- kerrnewman.py:315-347 `_f_vec`. -/
noncomputable def KerrNewman.fVec (m : NumMetric) (x v : Vec4) : Py (Vec4 × Vec4) :=
  if m.system = "BoyerLindquist" then KerrNewman.fVecBl k m x v else .error .coordinateError

/-! ## coordinates/utils.py: four-velocity -/

/-- coordinates/utils.py:224-264 `v0`. -/
noncomputable def v0 (g : Mat4) (v1 v2 v3 : ℝ) : Py ℝ := do
  let fac := -1 * k.c ^ 2
  let A := g 0 0
  let B := 2 * (g 0 1 * v1 + g 0 2 * v2 + g 0 3 * v3)
  let C := (g 1 1 * v1 ^ 2 + g 2 2 * v2 ^ 2 + g 3 3 * v3 ^ 2) + 2 * v1 * (g 1 2 * v2 + g 1 3 * v3)
    + 2 * v2 * g 2 3 * v3 + fac
  let D := B ^ 2 - 4 * A * C
  let s ← npSqrt D
  if 2 * A = 0 then throw .notANumber else return (-B + s) / (2 * A)

end Einpy.Num
