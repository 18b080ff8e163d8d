import Verif.Integ.Model

/-!
# Model of `geodesic/utils.py` and `geodesic/geodesic.py`

Floating-point numbers are idealised as real numbers; `nan`/`inf` are the error tag `notANumber`.
-/

namespace Einpy
open Classical

/-! ## geodesic/utils.py -/

/-- geodesic/utils.py:57-81 `sigma(r, theta, a)` applied to (dual) coordinates. -/
noncomputable def sigmaE (r th : Expr (Fin 4)) (a : ℝ) : Expr (Fin 4) :=
  .add (.pow r 2) (.pow (.mul (.const a) (.cos th)) 2)

/-- geodesic/utils.py:83-107 `delta(r, a, Q=0)`. -/
noncomputable def deltaE (r : Expr (Fin 4)) (a Q : ℝ) : Expr (Fin 4) :=
  .add (.add (.sub (.pow r 2) (.mul (.const 2) r)) (.pow (.const a) 2)) (.pow (.const Q) 2)

/-- geodesic/utils.py:110-141 `_sch` (parameters ignored). -/
noncomputable def schFn : MetricFn := fun i j =>
  let r : Expr (Fin 4) := .var 1
  let th : Expr (Fin 4) := .var 2
  let tmp : Expr (Fin 4) := .sub (.const 1) (.div (.const 2) r)
  match i, j with
  | 0, 0 => .div (.const (-1)) tmp
  | 1, 1 => tmp
  | 2, 2 => .div (.const 1) (.pow r 2)
  | 3, 3 => .div (.const 1) (.pow (.mul r (.sin th)) 2)
  | _, _ => .const 0

/-- geodesic/utils.py:144-179 `_kerr` with spin `a`. -/
noncomputable def kerrFn (a : ℝ) : MetricFn := fun i j =>
  let r : Expr (Fin 4) := .var 1
  let th : Expr (Fin 4) := .var 2
  let sg := sigmaE r th a
  let dl := deltaE r a 0
  match i, j with
  | 0, 0 => .div (.neg (.add (.add (.pow r 2) (.pow (.const a) 2))
      (.div (.mul (.mul (.const 2) r) (.pow (.mul (.const a) (.sin th)) 2)) sg))) dl
  | 1, 1 => .div dl sg
  | 2, 2 => .div (.const 1) sg
  | 3, 3 => .mul (.div (.const 1) (.mul dl (.pow (.sin th) 2)))
      (.sub (.const 1) (.div (.mul (.const 2) r) sg))
  | 0, 3 | 3, 0 => .div (.neg (.mul (.mul (.const 2) r) (.const a))) (.mul sg dl)
  | _, _ => .const 0

/-- geodesic/utils.py:182-223 `_kerrnewman` with spin `a` and charge `Q`. -/
noncomputable def kerrNewmanFn (a Q : ℝ) : MetricFn := fun i j =>
  let r : Expr (Fin 4) := .var 1
  let th : Expr (Fin 4) := .var 2
  let sg := sigmaE r th a
  let dl := deltaE r a Q
  let a2 : Expr (Fin 4) := .pow (.const a) 2
  let r2 : Expr (Fin 4) := .pow r 2
  let sint2 : Expr (Fin 4) := .pow (.sin th) 2
  let csct2 : Expr (Fin 4) := .div (.const 1) sint2
  let csct4 : Expr (Fin 4) := .div (.const 1) (.pow sint2 2)
  let denom : Expr (Fin 4) :=
    .mul dl (.pow (.add (.add a2 (.mul (.const 2) r2)) (.mul a2 (.cos (.mul (.const 2) th)))) 2)
  match i, j with
  | 0, 0 => .neg (.div (.mul (.mul (.const 4) sg)
      (.sub (.pow (.add a2 r2) 2) (.mul (.mul a2 dl) sint2))) denom)
  | 1, 1 => .div dl sg
  | 2, 2 => .div (.const 1) sg
  | 3, 3 => .div (.mul (.mul sg csct4) (.add (.neg a2) (.mul dl csct2)))
      (.mul dl (.pow (.sub a2 (.mul (.add a2 r2) csct2)) 2))
  | 0, 3 | 3, 0 => .neg (.div (.mul (.mul (.mul (.const 4) (.const a)) (.add (.sub a2 dl) r2)) sg) denom)
  | _, _ => .const 0

/-- geodesic/utils.py:13-54 `_P`; `p` is the 3-momentum.  `np.sqrt` of a negative number and division by zero give
`nan`/`inf`. -/
noncomputable def fourMomentum (g : MetricFn) (q : V4) (p : Fin 3 → ℝ) (timeLike : Bool) : Py V4 := do
  let guu ← evalMetric g q
  let A := guu 0 0
  let B := 2 * guu 0 3 * p 2
  let C := guu 1 1 * p 0 * p 0 + guu 2 2 * p 1 * p 1 + guu 3 3 * p 2 * p 2 + (if timeLike then 1 else 0)
  if B ^ 2 - 4 * A * C < 0 then throw .notANumber
  else if 2 * A = 0 then throw .notANumber
  else return ![(-B + Real.sqrt (B ^ 2 - 4 * A * C)) / (2 * A), p 0, p 1, p 2]

/-! ## geodesic/geodesic.py -/

/-- The `metric` argument: a string, a callable `(coords, *params)`, or anything else (hashable). -/
inductive MetricArg
  | str (s : String)
  | callable (fname : String) (f : List ℝ → Py MetricFn)
  | other

/-- The dictionary `_METRICS` (geodesic.py:95-99): the function stored under a name, applied to a parameter tuple.
`params[0]`, `params[1]` raise `IndexError` when missing. -/
noncomputable def builtinMetric : String → Option (List ℝ → Py MetricFn)
  | "Schwarzschild" => some fun _ => .ok schFn
  | "Kerr" => some fun ps => match ps with
    | a :: _ => .ok (kerrFn a)
    | _ => .error .indexError
  | "KerrNewman" => some fun ps => match ps with
    | a :: Q :: _ => .ok (kerrNewmanFn a Q)
    | _ => .error .indexError
  | _ => none

/-- A `Geodesic` object. -/
structure GeodesicObj where
  metricName : String
  metricParams : List ℝ
  position : V4
  momentum : V4
  timeLike : Bool
  kind : String
  coords : String
  /-- `trajectory[0]` -/
  steps : List Nat
  /-- `trajectory[1]`: rows of eight numbers -/
  rows : List (List ℝ)

/-- The keyword arguments of `calculate_trajectory` (geodesic.py:199-205) with their defaults; `steps` is an int. -/
structure GeoKw where
  steps : Int := 50
  delta : ℝ := 1 / 2
  rtol : ℝ := 1 / 100
  atol : ℝ := 1 / 100
  order : Int := 2
  omega : ℝ := 1
  suppressWarnings : Bool := false

/-- geodesic.py:232-234: row of positions and momenta. -/
def polarRow (s : PS) : List ℝ :=
  [s.q1 0, s.q1 1, s.q1 2, s.q1 3, s.p1 0, s.p1 1, s.p1 2, s.p1 3]

/-- geodesic.py:239-249: row with Cartesian positions. -/
noncomputable def cartRow (s : PS) : List ℝ :=
  let t := s.q1 0
  let r := s.q1 1
  let th := s.q1 2
  let ph := s.q1 3
  [t, r * Real.sin th * Real.cos ph, r * Real.sin th * Real.sin ph, r * Real.cos th,
   s.p1 0, s.p1 1, s.p1 2, s.p1 3]

/-- geodesic.py:152-255 `calculate_trajectory`.  `np.arange(N)` is empty for `N ≤ 0`; `vecs[:, 0]` on the resulting
one-dimensional empty array raises `IndexError`. -/
noncomputable def calculateTrajectory (g : MetricFn) (q0 p0 : V4) (timeLike : Bool) (coords : String) (kw : GeoKw) :
    Py (List Nat × List (List ℝ)) := do
  let N := kw.steps.toNat
  let I0 ← Integ.new ⟨g, kw.omega, kw.order⟩ q0 p0 timeLike kw.delta kw.rtol kw.atol kw.suppressWarnings
  let I ← I0.runN N
  if I.results = [] then throw .indexError
  else if coords = "Cartesian" then return (List.range N, I.results.map cartRow)
  else return (List.range N, I.results.map polarRow)

/-- geodesic.py:18-126 the constructor.  `params = none` models an argument that cannot be unpacked with `*` (such as
`None`).  `_P` receives the argument `metric_params`, the integrator `self.metric_params`. -/
noncomputable def Geodesic.new (metric : MetricArg) (params : Option (List ℝ)) (position momentum : Fin 3 → ℝ)
    (timeLike returnCartesian : Bool) (kw : GeoKw) : Py GeodesicObj := do
  let (name, f) ← (match metric with
    | .str s => match builtinMetric s with
      | some f => .ok (s, f)
      | none => .error .notImplementedError
    | .callable n f => .ok (n, f)
    | .other => .error .notImplementedError : Py (String × (List ℝ → Py MetricFn)))
  let selfParams := match metric with
    | .str "Schwarzschild" => some [0]
    | _ => params
  let q0 : V4 := ![0, position 0, position 1, position 2]
  let argParams ← (match params with
    | some ps => .ok ps
    | none => .error .typeError : Py (List ℝ))
  let g ← f argParams
  let p0 ← fourMomentum g q0 momentum timeLike
  let ps ← (match selfParams with
    | some ps => .ok ps
    | none => .error .typeError : Py (List ℝ))
  let g' ← f ps
  let coords := if returnCartesian then "Cartesian" else "Spherical Polar"
  let (steps, rows) ← calculateTrajectory g' q0 p0 timeLike coords kw
  return ⟨name, ps, q0, p0, timeLike, if timeLike then "Time-like" else "Null-like", coords, steps, rows⟩

/-- geodesic.py:258-336 `Nulllike`. -/
noncomputable def Nulllike.new (metric : MetricArg) (params : Option (List ℝ)) (position momentum : Fin 3 → ℝ)
    (returnCartesian : Bool) (kw : GeoKw) : Py GeodesicObj :=
  Geodesic.new metric params position momentum false returnCartesian kw

/-- geodesic.py:339-417 `Timelike`. -/
noncomputable def Timelike.new (metric : MetricArg) (params : Option (List ℝ)) (position momentum : Fin 3 → ℝ)
    (returnCartesian : Bool) (kw : GeoKw) : Py GeodesicObj :=
  Geodesic.new metric params position momentum true returnCartesian kw

end Einpy
