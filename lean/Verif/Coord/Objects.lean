import Verif.Coord.Props
import Verif.Num.Props3

/-!
# Model of the coordinate objects: `coordinates/core.py`, `coordinates/differential.py`

Only arguments that are astropy quantities are modelled.  Objects are mutable: attributes can be assigned after
construction, and `velocity` stores its time component.  `__str__` and `__repr__` are not modelled.
-/

namespace Einpy.Coord
open Classical

variable (k : Num.PhysConst)

/-- Physical dimensions in the constructor signatures (core.py:21, core.py:151, core.py:287, differential.py:23-25,
differential.py:224-232, differential.py:436-444). -/
inductive Dim
  | time | length | angle | speed | angularSpeed | other
  deriving DecidableEq

/-- An astropy quantity: a number and a unit; the unit is its dimension and its size in SI units. -/
structure Qty where
  value : ℝ
  scale : ℝ
  dim : Dim
  scale_pos : 0 < scale

/-- `q.si.value` -/
def Qty.si (q : Qty) : ℝ := q.value * q.scale

/-- `x * u.s`, `x * u.m`, `x * u.rad`, …: a number in the SI unit of the dimension. -/
def Qty.ofSI (x : ℝ) (d : Dim) : Qty := ⟨x, 1, d, one_pos⟩

/-- `@u.quantity_input` for one argument: `UnitsError` (a `ValueError`) for a wrong dimension. -/
def checkDim (q : Qty) (d : Dim) : Py Qty := if q.dim = d then .ok q else .error .valueError

/-- The three coordinate systems. -/
inductive Sys
  | cart | sph | bl
  deriving DecidableEq

/-- The `system` attribute: core.py:43, core.py:173, core.py:309, differential.py:65, differential.py:272,
differential.py:484. -/
def Sys.name : Sys → String
  | .cart => "Cartesian"
  | .sph => "Spherical"
  | .bl => "BoyerLindquist"

/-- The dimensions of the three spatial coordinates (core.py:21, core.py:151, core.py:287). -/
def Sys.posDim : Sys → Dim × Dim × Dim
  | .cart => (.length, .length, .length)
  | _ => (.length, .angle, .angle)

/-- The dimensions of the three velocities (differential.py:23-25, differential.py:229-231, differential.py:441-443). -/
def Sys.velDim : Sys → Dim × Dim × Dim
  | .cart => (.speed, .speed, .speed)
  | _ => (.speed, .angularSpeed, .angularSpeed)

/-- `_dimension_order`: core.py:51, core.py:181, core.py:317. -/
def Sys.names : Sys → List String
  | .cart => ["t", "x", "y", "z"]
  | _ => ["t", "r", "theta", "phi"]

/-- A `Cartesian`, `Spherical` or `BoyerLindquist` object: the current attributes, the numbers frozen in the base class
by the constructor (`conv`) and the dictionary `_dimension` frozen by the constructor. -/
structure CoordObj where
  sys : Sys
  t : Qty
  a : Qty
  b : Qty
  c : Qty
  conv : Conv
  dimension : List Qty

/-- core.py:21-51, core.py:151-181, core.py:287-317: the constructors. -/
def CoordObj.new (sys : Sys) (t a b c : Qty) : Py CoordObj := do
  let t ← checkDim t .time
  let a ← checkDim a sys.posDim.1
  let b ← checkDim b sys.posDim.2.1
  let c ← checkDim c sys.posDim.2.2
  return ⟨sys, t, a, b, c, Conv.new ⟨t.si, a.si, b.si, c.si⟩ none none none, [t, a, b, c]⟩

/-- An index: an integer or a string. -/
inductive Item
  | int (i : Int)
  | str (s : String)

/-- What `__getitem__` returns: a quantity, or the name of the system. -/
inductive ItemVal
  | qty (q : Qty)
  | name (s : String)

/-- Indexing of a tuple: negative indices count from the end, others raise `IndexError`. -/
def tupleIndex {α : Type} (l : List α) (i : Int) : Py α :=
  let j := if i < 0 then i + l.length else i
  if j < 0 then .error .indexError
  else match l[j.toNat]? with
    | some x => .ok x
    | none => .error .indexError

/-- Lookup of a string in the dictionary `_dimension` (core.py:44-50, core.py:174-180, core.py:310-316). -/
def CoordObj.lookup (o : CoordObj) (s : String) : Py ItemVal :=
  match (o.sys.names.zip o.dimension).lookup s with
  | some q => .ok (.qty q)
  | none => if s = "system" then .ok (.name o.sys.name) else .error .keyError

/-- core.py:61-77, core.py:191-207, core.py:327-343: `__getitem__`. -/
def CoordObj.getItem (o : CoordObj) : Item → Py ItemVal
  | .int i => do
    let s ← tupleIndex o.sys.names i
    o.lookup s
  | .str s => o.lookup s

/-- core.py:79-89, core.py:209-224, core.py:345-360: `position`. -/
def CoordObj.position (o : CoordObj) : Num.Vec4 := ![k.c * o.t.si, o.a.si, o.b.si, o.c.si]

/-- Assignment of one of the attributes `t`, `x`/`r`, `y`/`theta`, `z`/`phi` of an existing object. -/
def CoordObj.assign (o : CoordObj) (i : Fin 4) (q : Qty) : CoordObj :=
  match i with
  | 0 => { o with t := q }
  | 1 => { o with a := q }
  | 2 => { o with b := q }
  | 3 => { o with c := q }

/-- The conversion method of the base class that leads from one system to another; there is none from a system to itself. -/
noncomputable def convertTo (src tgt : Sys) (s : Conv) (kw : Kwargs) : Py Out :=
  match src, tgt with
  | .cart, .sph => Cartesian.convertSpherical s
  | .cart, .bl => do let (M, a) ← kw.get; Cartesian.convertBl k s ⟨some M, some a⟩
  | .sph, .cart => Spherical.convertCartesian s
  | .sph, .bl => do let (M, a) ← kw.get; Spherical.convertBl k s ⟨some M, some a⟩
  | .bl, .cart => do let (M, a) ← kw.get; BoyerLindquist.convertCartesian k s ⟨some M, some a⟩
  | .bl, .sph => do let (M, a) ← kw.get; BoyerLindquist.convertSpherical k s ⟨some M, some a⟩
  | .cart, .cart => .error .attributeError
  | .sph, .sph => .error .attributeError
  | .bl, .bl => .error .attributeError

/-- core.py:91-141, core.py:226-277, core.py:362-427: `to_cartesian`, `to_spherical`, `to_bl`.  A 7-tuple would be
unpacked into four names (`ValueError`). -/
noncomputable def CoordObj.to (o : CoordObj) (tgt : Sys) (kw : Kwargs) : Py CoordObj := do
  let (p, v) ← convertTo k o.sys tgt o.conv kw
  match v with
  | none =>
    CoordObj.new tgt (.ofSI p.t .time) (.ofSI p.a tgt.posDim.1) (.ofSI p.b tgt.posDim.2.1) (.ofSI p.c tgt.posDim.2.2)
  | some _ => throw .valueError

/-! ## differential.py -/

/-- A metric object as seen by `velocity`: `coords.system` and `metric_covariant`. -/
structure MetricObj where
  system : String
  cov : Num.Vec4 → Py Num.Mat4

/-- A `…Differential` object.  `vt` is the attribute `_v_t`: unset, a number, or `nan` (tag `notANumber`). -/
structure DiffObj where
  sys : Sys
  t : Qty
  a : Qty
  b : Qty
  c : Qty
  v1 : Qty
  v2 : Qty
  v3 : Qty
  conv : Conv
  vt : Option (Py ℝ)

/-- differential.py:23-65, differential.py:224-272, differential.py:436-484: the constructors. -/
def DiffObj.new (sys : Sys) (t a b c v1 v2 v3 : Qty) : Py DiffObj := do
  let t ← checkDim t .time
  let a ← checkDim a sys.posDim.1
  let b ← checkDim b sys.posDim.2.1
  let c ← checkDim c sys.posDim.2.2
  let v1 ← checkDim v1 sys.velDim.1
  let v2 ← checkDim v2 sys.velDim.2.1
  let v3 ← checkDim v3 sys.velDim.2.2
  return ⟨sys, t, a, b, c, v1, v2, v3,
    Conv.new ⟨t.si, a.si, b.si, c.si⟩ (some v1.si) (some v2.si) (some v3.si), none⟩

/-- differential.py:77-87, differential.py:284-299, differential.py:496-511: `position`. -/
def DiffObj.position (o : DiffObj) : Num.Vec4 := ![k.c * o.t.si, o.a.si, o.b.si, o.c.si]

/-- differential.py:97-126, differential.py:309-338, differential.py:521-550: the setter of `v_t`, with the object after
the call.  A `nan` is stored like any other number. -/
noncomputable def DiffObj.setVt (o : DiffObj) (m : MetricObj) : Py ℝ × DiffObj :=
  if o.sys.name ≠ m.system then (.error .coordinateError, o)
  else
    let vt : Py ℝ := do
      let g ← m.cov (o.position k)
      Num.v0 k g o.v1.si o.v2.si o.v3.si
    match vt with
    | .ok x => (.ok x, { o with vt := some (.ok x) })
    | .error .notANumber => (.error .notANumber, { o with vt := some (.error .notANumber) })
    | .error e => (.error e, o)

/-- differential.py:128-151, differential.py:340-363, differential.py:552-575: `velocity`, with the object after the
call. -/
noncomputable def DiffObj.velocity (o : DiffObj) (m : MetricObj) : Py Num.Vec4 × DiffObj :=
  match o.setVt k m with
  | (.ok x, o') => (.ok ![x, o'.v1.si, o'.v2.si, o'.v3.si], o')
  | (.error e, o') => (.error e, o')

/-- differential.py:153-214, differential.py:365-426, differential.py:577-649: `cartesian_differential`,
`spherical_differential`, `bl_differential`.  A 4-tuple would be unpacked into seven names (`ValueError`). -/
noncomputable def DiffObj.to (o : DiffObj) (tgt : Sys) (kw : Kwargs) : Py DiffObj := do
  let (p, v) ← convertTo k o.sys tgt o.conv kw
  match v with
  | some v =>
    DiffObj.new tgt (.ofSI p.t .time) (.ofSI p.a tgt.posDim.1) (.ofSI p.b tgt.posDim.2.1) (.ofSI p.c tgt.posDim.2.2)
      (.ofSI v.a tgt.velDim.1) (.ofSI v.b tgt.velDim.2.1) (.ofSI v.c tgt.velDim.2.2)
  | none => throw .valueError

end Einpy.Coord
