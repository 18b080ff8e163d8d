import Mathlib.LinearAlgebra.Matrix.NonsingularInverse
import Mathlib.Algebra.BigOperators.Group.Finset.Basic
import Verif.Py.Basic

/-!
# Model of `symbolic/tensor.py`, `symbolic/metric.py` and the tensor classes

Components are elements of a commutative ring `R` (sympy expressions up to the equality decided by
`simplify`, so that `simplify` is the identity).  A sympy array is a shape and an entry function on
multi-indices.
-/

namespace Einpy
open Classical

/-! ## sympy arrays -/

/-- `sympy.Array` (ImmutableDenseNDimArray): shape and entries by multi-index.
Entries at out-of-range multi-indices are meaningless and never compared. -/
structure NDArr (R : Type*) where
  shape : List Nat
  get : List Nat → R

namespace NDArr
variable {R : Type*}

/-- `Array.rank()` / `len(arr.shape)`. -/
def rank (a : NDArr R) : Nat := a.shape.length

/-- `sympy.tensorproduct(a, b)` (used at symbolic/tensor.py:57, 92, 443, 445). -/
def tensorproduct [Mul R] (a b : NDArr R) : NDArr R where
  shape := a.shape ++ b.shape
  get idx := a.get (idx.take a.rank) * b.get (idx.drop a.rank)

/-- `sympy.tensorcontraction(a, (p, q))` for `p < q` (all call sites in the repository have
`p < q`): sums the diagonal of axes `p` and `q`, raising `ValueError` if their dimensions differ
or an axis does not exist. -/
def tensorcontraction [AddCommMonoid R] (a : NDArr R) (p q : Nat) : Py (NDArr R) :=
  match a.shape[p]?, a.shape[q]? with
  | some m, some n =>
    if m = n then
      .ok { shape := (a.shape.eraseIdx q).eraseIdx p
            get := fun idx => ∑ k ∈ Finset.range m, a.get ((idx.insertIdx p k).insertIdx q k) }
    else .error .valueError
  | _, _ => .error .valueError

/-- `sympy.permutedims(a, perm)`: axis `k` of the result is axis `perm[k]` of `a`, i.e. the entry at
`idx` is the entry of `a` at the multi-index whose component `m` is `idx[perm⁻¹[m]]`. -/
def permutedims (a : NDArr R) (perm : List Nat) : NDArr R where
  shape := perm.map (fun k => a.shape.getD k 0)
  get idx := a.get ((List.range a.rank).map fun m => idx.getD (perm.idxOf m) 0)

/-- Elementwise map (`simplify`, scalar multiplication, ... on arrays). -/
def map {S : Type*} (f : R → S) (a : NDArr R) : NDArr S where
  shape := a.shape
  get idx := f (a.get idx)

end NDArr

/-! ## configuration strings -/

/-- A configuration string; Python strings are modelled as lists of characters. -/
abbrev Config := List Char

/-- symbolic/tensor.py:14-21 `_config_checker` for a `str` argument. -/
def configChecker (config : Config) : Bool :=
  config.all fun ch => ¬ ((¬ ch = 'l') ∧ (¬ ch = 'u'))

/-- symbolic/tensor.py:24-34 `_difference_list`. -/
def differenceList (newconfig oldconfig : Config) : List Int :=
  (newconfig.zip oldconfig).map fun (n_ch, o_ch) =>
    if n_ch = o_ch then 0 else if n_ch = 'u' then 1 else -1

/-- symbolic/helpers.py:189-208 `_change_name`. -/
def changeName (curr : Option String) (context : String) : Option String :=
  match curr with
  | some s => some (s ++ context)
  | none => none

/-! ## objects -/

/-- The classes of symbolic tensors. -/
inductive Kind
  | tensor        -- tensor.py `Tensor`
  | base          -- tensor.py `BaseRelativityTensor`
  | metric        -- metric.py `MetricTensor`
  | christoffel   -- christoffel.py
  | riemann       -- riemann.py
  | ricci         -- ricci.py `RicciTensor`
  | ricciScalar   -- ricci.py `RicciScalar`
  | einstein      -- einstein.py
  | stressEnergy  -- stress_energy_momentum.py
  | weyl          -- weyl.py
  | schouten      -- schouten.py
  | vector        -- vector.py `GenericVector`
  deriving DecidableEq, Repr

/-- The value `self._order = …` each constructor insists on: metric.py:40-43, christoffel.py:45-47,
riemann.py:51-53, ricci.py:47-49 and 199-206 (`RicciScalar`, through `config=""`), einstein.py:46-48,
stress_energy_momentum.py:52-54, weyl.py:45-47, schouten.py:45-47, vector.py:40-45. `none`: no
fixed order (`Tensor`, `BaseRelativityTensor`). -/
def Kind.order : Kind → Option Nat
  | .tensor | .base => none
  | .ricciScalar => some 0
  | .vector => some 1
  | .metric | .ricci | .einstein | .stressEnergy | .schouten => some 2
  | .christoffel => some 3
  | .riemann | .weyl => some 4

/-- A `MetricTensor` seen as a value (the `_invmetric` cache is modelled in `Verif.Metric`). -/
structure MetricV (R : Type*) where
  arr : NDArr R
  config : Config
  syms : List String
  name : Option String

/-- A tensor object.  `syms` and `parent` are unused (empty) for the base class `Tensor`. -/
structure Obj (R : Type*) where
  kind : Kind
  arr : NDArr R
  config : Config
  order : Nat
  syms : List String
  parent : Option (MetricV R)
  name : Option String

/-! ## constructors -/

/-- The `arr` argument of a constructor: something convertible to a sympy array, or not. -/
inductive ArrArg (R : Type*)
  | arr (a : NDArr R)
  | other

/-- The `config` argument: a `str` or any other type. -/
inductive CfgArg
  | str (c : Config)
  | other

/-- The `syms` argument: list/tuple, another object with a `len`, or an object without `len`. -/
inductive SymsArg
  | seq (s : List String)
  | otherSized (n : Nat)
  | unsized

/-- symbolic/tensor.py:124-167 `Tensor.__init__`.  Conversion of nested lists to `sympy.Array` is
outside the model. -/
def mkTensor {R : Type*} (arr : ArrArg R) (config : CfgArg) (name : Option String) : Py (Obj R) :=
  match arr with
  | .other => .error .typeError
  | .arr a =>
    match config with
    | .other => .error .typeError
    | .str c =>
      if configChecker c then
        if a.shape.length ≠ c.length then .error .valueError
        else .ok { kind := .tensor, arr := a, config := c, order := c.length, syms := [],
                   parent := none, name := name }
      else .error .typeError

/-- symbolic/tensor.py:335-336: `if len(arr.shape) != 0 and arr.shape[0] != len(syms): raise
ValueError` (`len` of an object without length is a `TypeError`). -/
def shapeCheck {R : Type*} (a : NDArr R) (syms : SymsArg) : Option PyErr :=
  match a.shape with
  | [] => none
  | d :: _ =>
    match syms with
    | .unsized => some .typeError
    | .otherSized n => if d ≠ n then some .valueError else none
    | .seq s => if d ≠ s.length then some .valueError else none

/-- symbolic/tensor.py:284-371 `BaseRelativityTensor.__init__` (the `variables`/`functions` lists
are modelled in `Verif.Vars`). -/
def mkBase {R : Type*} (arr : ArrArg R) (syms : SymsArg) (config : CfgArg)
    (parent : Option (MetricV R)) (name : Option String) : Py (Obj R) := do
  let t ← mkTensor arr config name
  match shapeCheck t.arr syms with
  | some e => .error e
  | none =>
    match syms with
    | .seq s => .ok { t with kind := .base, syms := s, parent := parent }
    | _ => .error .typeError

/-- Constructor of the class `k`: `BaseRelativityTensor.__init__` followed by the order check of
the subclass (see `Kind.order` for the line references; vector.py:40-45 also checks the rank of
the array, `RicciScalar` passes `config=""`).  For `MetricTensor` the parent metric is the object
itself (metric.py:37-39), represented by `parent := none` here and never read. -/
def mkKind {R : Type*} (k : Kind) (arr : ArrArg R) (syms : SymsArg) (config : CfgArg)
    (parent : Option (MetricV R)) (name : Option String) : Py (Obj R) :=
  match k with
  | .tensor => mkTensor arr config name
  | .base => mkBase arr syms config parent name
  | .ricciScalar => do
      let t ← mkBase arr syms (.str []) parent name
      return { t with kind := .ricciScalar, order := 0 }
  | k => do
      let t ← mkBase arr syms config parent name
      match k.order with
      | none => return t
      | some n =>
        if t.config.length = n then return { t with kind := k, order := n }
        else throw .valueError

/-! ## metric as a value -/

/-- The square matrix of an array of shape `[n, n]` (`sympy.Matrix(arr.tolist())`). -/
def NDArr.toMatrix {R : Type*} (a : NDArr R) (n : Nat) : Matrix (Fin n) (Fin n) R :=
  fun i j => a.get [i, j]

/-- Array of a square matrix (`Matrix.tolist()`). -/
def NDArr.ofMatrix {R : Type*} [Zero R] {n : Nat} (m : Matrix (Fin n) (Fin n) R) : NDArr R where
  shape := [n, n]
  get idx :=
    match idx with
    | [i, j] => if h : i < n ∧ j < n then m ⟨i, h.1⟩ ⟨j, h.2⟩ else 0
    | _ => 0

/-- `sympy.Matrix(arr.tolist()).inv().tolist()` (metric.py:70, christoffel.py:63): raises for
non-square and for non-invertible matrices. -/
noncomputable def NDArr.inv {R : Type*} [CommRing R] (a : NDArr R) : Py (NDArr R) :=
  match a.shape with
  | [n, m] =>
    if n = m then
      if IsUnit (a.toMatrix n).det then .ok (NDArr.ofMatrix (a.toMatrix n)⁻¹)
      else .error .nonInvertible
    else .error .valueError
  | _ => .error .valueError

namespace MetricV
variable {R : Type*} [CommRing R]

/-- metric.py:45-81 `MetricTensor.change_config` (value view). -/
noncomputable def changeConfig (m : MetricV R) (newconfig : Config) : Py (MetricV R) :=
  if newconfig = m.config then .ok m
  else if newconfig = ['u', 'u'] ∨ newconfig = ['l', 'l'] then do
    let a ← m.arr.inv
    return { arr := a, config := newconfig, syms := m.syms,
             name := changeName m.name ("__" ++ String.ofList newconfig) }
  else .error .valueError

/-- metric.py:83-99 `MetricTensor.inv` (value view; the cache is modelled in `Verif.Metric`). -/
noncomputable def inv (m : MetricV R) : Py (MetricV R) :=
  if m.config = ['l', 'l'] then m.changeConfig ['u', 'u'] else m.changeConfig ['l', 'l']

/-- metric.py:101-113 `MetricTensor.lower_config` (value view). -/
noncomputable def lowerConfig (m : MetricV R) : Py (MetricV R) :=
  if m.config = ['l', 'l'] then .ok m else m.inv

end MetricV

/-! ## change of configuration -/

section ChangeConfig
variable {R : Type*} [CommRing R]

/-- `dest = list(range(n)); dest.remove(0); dest.insert(i, 0)`
(symbolic/tensor.py:60-62 and 446-448). -/
def destPerm (n i : Nat) : List Nat := ((List.range n).erase 0).insertIdx i 0

/-- One pass of the loop body: contract axis `p` of the rank-2 array `m` with slot `i` of `t`, then
move the new axis to position `i` (symbolic/tensor.py:56-63 with `p = 1`; 442-449 with `p = 1` or
`p = 0`). -/
def contractSlot (m : NDArr R) (p : Nat) (t : NDArr R) (i : Nat) : Py (NDArr R) := do
  let c ← (m.tensorproduct t).tensorcontraction p (2 + i)
  return c.permutedims (destPerm c.shape.length i)

/-- symbolic/tensor.py:50-64 `chain_config_change`: `for i, action in enumerate(difflist)`. -/
def chainConfigChange (lo up : NDArr R) : List Int → Nat → NDArr R → Py (NDArr R)
  | [], _, t => .ok t
  | action :: rest, i, t =>
    if action = 0 then chainConfigChange lo up rest (i + 1) t
    else do
      let t' ← contractSlot (if action = 1 then up else lo) 1 t i
      chainConfigChange lo up rest (i + 1) t'

/-- symbolic/tensor.py:37-66 `_change_config`. -/
noncomputable def changeConfigArr (arr : NDArr R) (config : Config) (metric : MetricV R)
    (newconfig : Config) : Py (NDArr R) :=
  if ¬ (newconfig.length = config.length ∧ configChecker newconfig) then .error .valueError
  else do
    let lo ← metric.lowerConfig
    let up ← lo.inv
    chainConfigChange lo.arr up.arr (differenceList newconfig config) 0 arr

/-- The class whose constructor `change_config` calls: christoffel.py:81-117, riemann.py:109-145,
ricci.py:111-147, einstein.py:64-100, schouten.py:76-112, weyl.py:110-146, vector.py:47-83, and
stress_energy_momentum.py:66-102, which calls `EinsteinTensor`.  `none`: the class has no
`change_config` (AttributeError).  `MetricTensor` has its own method (`MetricV.changeConfig`). -/
def Kind.changeConfigTarget : Kind → Option Kind
  | .christoffel => some .christoffel
  | .riemann => some .riemann
  | .ricci => some .ricci
  | .einstein => some .einstein
  | .stressEnergy => some .einstein
  | .weyl => some .weyl
  | .schouten => some .schouten
  | .vector => some .vector
  | .tensor | .base | .metric | .ricciScalar => none

/-- `change_config(newconfig, metric)` of the tensor classes listed at `Kind.changeConfigTarget`
(identical bodies up to the class constructed). -/
noncomputable def Obj.changeConfig (t : Obj R) (newconfig : Config) (metric : Option (MetricV R)) :
    Py (Obj R) :=
  match t.kind.changeConfigTarget with
  | none => .error .attributeError
  | some k =>
    match (metric <|> t.parent) with
    | none => .error .exception
    | some m => do
      let a ← changeConfigArr t.arr t.config m newconfig
      mkKind k (.arr a) (.seq t.syms) (.str newconfig) (some m)
        (changeName t.name ("__" ++ String.ofList newconfig))

end ChangeConfig

/-! ## tensor product -/

section TensorProduct
variable {R : Type*} [CommRing R]

/-- The Python expression `i or j` for `i`, `j` each `None` or a non-negative integer: `j` when `i`
is `None` or `0`, else `i` (symbolic/tensor.py:94). -/
def pyOr (i j : Option Nat) : Option Nat :=
  match i with
  | none => j
  | some 0 => j
  | some (k + 1) => some (k + 1)

/-- symbolic/tensor.py:96-109 and the final constructor call 111-118: the branch of `tensor_product`
that contracts index `i` of `t1` with index `j` of `t2`. -/
def tensorProductAt (t1 t2 : Obj R) (i j : Nat) : Py (Obj R) :=
  match t1.config[i]?, t2.config[j]? with
  | some c1, some c2 =>
    if c1 = c2 then .error .valueError
    else do
      let product ← (t1.arr.tensorproduct t2.arr).tensorcontraction i (t1.config.length + j)
      mkBase (.arr product) (.seq t1.syms)
        (.str ((t1.config.take i ++ t1.config.drop (i + 1)) ++
               (t2.config.take j ++ t2.config.drop (j + 1)))) t1.parent
        (some "GenericTensor")
  | _, _ => .error .indexError

/-- symbolic/tensor.py:69-116 `tensor_product`.  `i`, `j` are `None` or non-negative integers
(negative Python indices are not modelled).  The test is the literal Python `(i or j) is None`.
Indexing a configuration string with `None` is a `TypeError`; `tensor1.config[i]` is evaluated first
(line 97), so that an `i` out of range is an `IndexError` even when `j` is `None`. -/
def tensorProduct (t1 t2 : Obj R) (i j : Option Nat) : Py (Obj R) :=
  match pyOr i j with
  | none =>
    mkBase (.arr (t1.arr.tensorproduct t2.arr)) (.seq t1.syms) (.str (t1.config ++ t2.config))
      t1.parent (some "GenericTensor")
  | some _ =>
    match i, j with
    | some i, some j => tensorProductAt t1 t2 i j
    | some i, none => if i < t1.config.length then .error .typeError else .error .indexError
    | none, _ => .error .typeError

end TensorProduct

/-! ## Lorentz transformation -/

section Lorentz
variable {R : Type*} [CommRing R]

/-- The loop of symbolic/tensor.py:441-449. -/
def lorentzLoop (tm : NDArr R) : Config → Nat → NDArr R → Py (NDArr R)
  | [], _, t => .ok t
  | ch :: rest, i, t => do
    let t' ← if ch = 'u' then contractSlot tm 1 t i else contractSlot tm 0 t i
    lorentzLoop tm rest (i + 1) t'

/-- symbolic/tensor.py:424-459 `BaseRelativityTensor.lorentz_transform`, and the overrides that
re-wrap the array in their own class with the same configuration, no parent metric and the suffix
`__lt` (christoffel.py:119-142, riemann.py:147-170, ricci.py:149-172, einstein.py:102-125,
schouten.py:114-137, weyl.py:148-171, stress_energy_momentum.py:104-129, vector.py:85-109,
metric.py:115-136).  `RicciScalar` inherits the base method. -/
def Obj.lorentzTransform (t : Obj R) (tm : NDArr R) : Py (Obj R) := do
  let a ← lorentzLoop tm (t.config.take t.order) 0 t.arr
  let b ← mkBase (.arr a) (.seq t.syms) (.str t.config) none (changeName t.name "__lt")
  match t.kind with
  | .tensor => throw .attributeError
  | .base | .ricciScalar => return b
  | k => mkKind k (.arr b.arr) (.seq t.syms) (.str t.config) none (changeName t.name "__lt")

/-- symbolic/tensor.py:221-237 `Tensor.subs`: the substituted array is wrapped by
`Tensor(arr)` — configuration and name are not passed on, so the defaults `'ll'` and `None`
apply.  `sub` is the effect of the substitution on one component. -/
def Obj.subs (t : Obj R) (sub : R → R) : Py (Obj R) :=
  mkTensor (.arr (t.arr.map sub)) (.str ['l', 'l']) none

end Lorentz

end Einpy
