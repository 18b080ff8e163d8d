import Mathlib.RingTheory.Derivation.Basic
import Mathlib.Algebra.Algebra.Rat
import Verif.Tensor.Model

/-!
# Model of the curvature constructors (`symbolic/christoffel.py`, `riemann.py`, `ricci.py`,
`einstein.py`, `schouten.py`, `weyl.py`, `stress_energy_momentum.py`)

`D s` is `sympy.diff(·, s)` for the coordinate symbol `s`, a derivation of the ring `R` of expressions over
the rationals.  `simplify` is the identity.  Division by an integer is multiplication by a rational.
The floating-point index arithmetic `int(t / dims**k)` is modelled by exact integer division; property C24
(`Verif/Curv/FloatIndex.lean`) proves that the two agree.
-/

namespace Einpy
open Classical

/-- The mutable nested lists filled by the loops (`np.zeros(...).tolist()`), by multi-index. -/
abbrev Cells (R : Type*) := List Nat → R

section
variable {R : Type*}

/-- `tmplist[i][j]… = v`. -/
def Cells.set (c : Cells R) (idx : List Nat) (v : R) : Cells R := fun i => if i = idx then v else c i

variable [CommRing R] [Algebra ℚ R] (D : String → Derivation ℚ R R)

/-- `sympy.diff(e, syms[k])`. -/
def diffAt (syms : List String) (k : Nat) (e : R) : R := D (syms.getD k "") e

/-- `for n in range(dims): acc += f n`, starting from `acc`. -/
def sumLoop (dims : Nat) (acc : R) (f : Nat → R) : R :=
  (List.range dims).foldl (fun acc n => acc + f n) acc

/-- christoffel.py:63-77: the loop over `t in range(dims**3)`; only `k <= j` is computed, the mirror
entry is assigned the same value. -/
def christoffelCells (syms : List String) (dims : Nat) (mat matinv : NDArr R) : Cells R :=
  (List.range (dims ^ 3)).foldl (fun tmp t =>
    let k := t % dims
    let j := (t / dims) % dims
    let i := (t / dims ^ 2) % dims
    if k ≤ j then
      let tmpvar := sumLoop dims 0 fun n =>
        ((2 : ℚ)⁻¹ • matinv.get [i, n]) *
          (diffAt D syms k (mat.get [n, j]) + diffAt D syms j (mat.get [n, k])
            - diffAt D syms n (mat.get [j, k]))
      (tmp.set [i, k, j] tmpvar).set [i, j, k] tmpvar
    else tmp) (fun _ => 0)

/-- christoffel.py:49-79 `ChristoffelSymbols.from_metric`. -/
noncomputable def christoffelFromMetric (m : MetricV R) : Py (Obj R) := do
  let dims := m.syms.length
  let lo ← m.lowerConfig
  let matinv ← lo.arr.inv
  mkKind .christoffel (.arr ⟨[dims, dims, dims], christoffelCells D m.syms dims lo.arr matinv⟩)
    (.seq m.syms) (.str ['u', 'l', 'l']) (some m) (some "ChristoffelSymbols")

/-- The recurring snippet `if not t.config == c: t = t.change_config(newconfig=c, metric=metric)`
(riemann.py:74-75, ricci.py:65-66 and 229-232). -/
noncomputable def toConfig (t : Obj R) (c : Config) (metric : Option (MetricV R)) : Py (Obj R) :=
  if t.config = c then .ok t else t.changeConfig c metric

/-- riemann.py:78-91: the loop over `i in range(dims**4)`. -/
def riemannCells (syms : List String) (dims : Nat) (arr : NDArr R) : Cells R :=
  (List.range (dims ^ 4)).foldl (fun tmp i =>
    let n := i % dims
    let r := (i / dims) % dims
    let s := (i / dims ^ 2) % dims
    let t := (i / dims ^ 3) % dims
    let temp := diffAt D syms r (arr.get [t, s, n]) - diffAt D syms n (arr.get [t, s, r])
    let temp := sumLoop dims temp fun p =>
      arr.get [p, s, n] * arr.get [t, p, r] - arr.get [p, s, r] * arr.get [t, p, n]
    tmp.set [t, s, r, n] temp) (fun _ => 0)

/-- riemann.py:55-93 `RiemannCurvatureTensor.from_christoffels`. -/
noncomputable def riemannFromChristoffels (chris : Obj R) (parent : Option (MetricV R)) :
    Py (Obj R) := do
  let chris ← toConfig chris ['u', 'l', 'l'] parent
  let dims := chris.syms.length
  mkKind .riemann (.arr ⟨[dims, dims, dims, dims], riemannCells D chris.syms dims chris.arr⟩)
    (.seq chris.syms) (.str ['u', 'l', 'l', 'l']) (parent <|> chris.parent)
    (some "RiemannCurvatureTensor")

/-- riemann.py:97-107 `RiemannCurvatureTensor.from_metric`. -/
noncomputable def riemannFromMetric (m : MetricV R) : Py (Obj R) := do
  let ch ← christoffelFromMetric D m
  riemannFromChristoffels D ch none

/-- ricci.py:51-74 `RicciTensor.from_riemann`. -/
noncomputable def ricciFromRiemann (riem : Obj R) (parent : Option (MetricV R)) : Py (Obj R) := do
  let riem ← toConfig riem ['u', 'l', 'l', 'l'] parent
  let a ← riem.arr.tensorcontraction 0 2
  mkKind .ricci (.arr a) (.seq riem.syms) (.str ['l', 'l']) (parent <|> riem.parent)
    (some "RicciTensor")

/-- ricci.py:76-94 `RicciTensor.from_christoffels`. -/
noncomputable def ricciFromChristoffels (chris : Obj R) (parent : Option (MetricV R)) :
    Py (Obj R) := do
  let rt ← riemannFromChristoffels D chris parent
  ricciFromRiemann rt none

/-- ricci.py:96-109 `RicciTensor.from_metric`. -/
noncomputable def ricciFromMetric (m : MetricV R) : Py (Obj R) := do
  let ch ← christoffelFromMetric D m
  ricciFromChristoffels D ch none

/-- ricci.py:216-243 `RicciScalar.from_riccitensor`. -/
noncomputable def scalarFromRicci (ric : Obj R) (parent : Option (MetricV R)) : Py (Obj R) := do
  let ric ← toConfig ric ['u', 'l'] parent
  let a ← ric.arr.tensorcontraction 0 1
  mkKind .ricciScalar (.arr a) (.seq ric.syms) (.str []) (parent <|> ric.parent) (some "RicciScalar")

/-- ricci.py:245-260 `RicciScalar.from_riemann`. -/
noncomputable def scalarFromRiemann (riem : Obj R) (parent : Option (MetricV R)) : Py (Obj R) := do
  let cg ← ricciFromRiemann riem parent
  scalarFromRicci cg none

/-- ricci.py:262-279 `RicciScalar.from_christoffels`. -/
noncomputable def scalarFromChristoffels (chris : Obj R) (parent : Option (MetricV R)) :
    Py (Obj R) := do
  let rt ← riemannFromChristoffels D chris parent
  scalarFromRiemann rt none

/-- ricci.py:281-294 `RicciScalar.from_metric`. -/
noncomputable def scalarFromMetric (m : MetricV R) : Py (Obj R) := do
  let ch ← christoffelFromMetric D m
  scalarFromChristoffels D ch none

/-- ricci.py:208-214 `RicciScalar.expr`: the sum over the single entry of a rank-0 array. -/
def Obj.expr (t : Obj R) : R := t.arr.get []

/-- Elementwise binary operation of sympy arrays (`ValueError` if the shapes differ). -/
def NDArr.zip2 (f : R → R → R) (a b : NDArr R) : Py (NDArr R) :=
  if a.shape = b.shape then .ok ⟨a.shape, fun idx => f (a.get idx) (b.get idx)⟩ else .error .valueError

/-- einstein.py:50-62 `EinsteinTensor.from_metric`; the literal `1 / 2` is taken as the exact number. -/
noncomputable def einsteinFromMetric (m : MetricV R) : Py (Obj R) := do
  let ric ← ricciFromMetric D m
  let sc ← scalarFromRicci ric ric.parent
  let lo ← m.lowerConfig
  let a ← ric.arr.zip2 (fun r g => r - ((2 : ℚ)⁻¹ • g) * sc.expr) lo.arr
  mkKind .einstein (.arr a) (.seq m.syms) (.str ['l', 'l']) ric.parent (some "EinsteinTensor")

/-- schouten.py:49-74 `SchoutenTensor.from_metric`. -/
noncomputable def schoutenFromMetric (m : MetricV R) : Py (Obj R) :=
  if m.syms.length ≥ 3 then do
    let ric ← ricciFromMetric D m
    let sc ← scalarFromRicci ric none
    let dims := m.syms.length
    let lo ← m.lowerConfig
    let a ← ric.arr.zip2 (fun r g =>
      ((dims : ℚ) - 2)⁻¹ • (r - (2 * ((dims : ℚ) - 1))⁻¹ • (sc.expr * g))) lo.arr
    mkKind .schouten (.arr a) (.seq m.syms) (.str ['l', 'l']) (some m) (some "SchoutenTensor")
  else .error .valueError

/-- weyl.py:70-98: the loop over `t in range(dims**4)`. -/
def weylCells (dims : Nat) (riem ric g : NDArr R) (sc : R) : Cells R :=
  (List.range (dims ^ 4)).foldl (fun C t =>
    let i := t % dims
    let k := (t / dims) % dims
    let l := (t / dims ^ 2) % dims
    let m := (t / dims ^ 3) % dims
    C.set [i, k, l, m]
      (riem.get [i, k, l, m] +
        (((dims : ℚ) - 2)⁻¹ • (ric.get [i, m] * g.get [k, l] - ric.get [i, l] * g.get [k, m]
            + ric.get [k, l] * g.get [i, m] - ric.get [k, m] * g.get [i, l])
          + (((dims : ℚ) - 1) * ((dims : ℚ) - 2))⁻¹ •
            (sc * (g.get [i, l] * g.get [k, m] - g.get [i, m] * g.get [k, l]))))) (fun _ => 0)

/-- weyl.py:49-108 `WeylTensor.from_metric`. -/
noncomputable def weylFromMetric (m : MetricV R) : Py (Obj R) :=
  if m.syms.length > 3 then do
    let lo ← m.lowerConfig
    let riem ← riemannFromMetric D m
    let riemCov ← riem.changeConfig ['l', 'l', 'l', 'l'] none
    let ric ← ricciFromRiemann riem none
    let sc ← scalarFromRicci ric none
    let dims := lo.syms.length
    mkKind .weyl (.arr ⟨[dims, dims, dims, dims],
        weylCells dims riemCov.arr ric.arr lo.arr sc.expr⟩)
      (.seq m.syms) (.str ['l', 'l', 'l', 'l']) (some m) (some "WeylTensor")
  else if m.syms.length = 3 then
    mkKind .weyl (.arr ⟨[3, 3, 3, 3], fun _ => 0⟩) (.seq m.syms) (.str ['l', 'l', 'l', 'l'])
      (some m) (some "WeylTensor")
  else .error .valueError

/-- The symbolic constants of symbolic/constants.py:41-44 and `numpy.pi`, as elements of `R`. -/
structure Consts (R : Type*) where
  c : R
  G : R
  Lam : R
  pi : R

/-- stress_energy_momentum.py:56-64 `StressEnergyMomentumTensor.from_metric`; division by `8 π G` is
multiplication by the ring inverse. -/
noncomputable def stressEnergyFromMetric (K : Consts R) (m : MetricV R) : Py (Obj R) := do
  let ein ← einsteinFromMetric D m
  let lo ← m.lowerConfig
  let a ← ein.arr.zip2 (fun e g =>
    (K.c ^ 4 * Ring.inverse (8 * K.pi * K.G)) * (e - K.Lam * g)) lo.arr
  mkKind .stressEnergy (.arr a) (.seq m.syms) (.str ['l', 'l']) (some m)
    (some "StressEnergyMomentumTensor")

end
end Einpy
