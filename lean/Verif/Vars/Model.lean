import Mathlib.Data.List.Sort
import Mathlib.Algebra.MvPolynomial.Variables
import Mathlib.Algebra.MvPolynomial.Eval
import Mathlib.Data.String.Basic
import Verif.Tensor.Model

/-!
# Declared variables and `tensor_lambdify` (symbolic/tensor.py:284-422, 69-118)
-/

namespace Einpy
open Classical

/-- A sympy `Symbol`: identified by name and assumptions (two symbols may share a name). -/
structure Sym where
  name : String
  assumptions : Nat
  deriving DecidableEq

/-- An expression language: free symbols and numeric value (in `V`) under an environment. -/
structure ExprSem (R V : Type*) where
  free : R → Finset Sym
  eval : (Sym → V) → R → V
  congr : ∀ e1 e2 r, (∀ s ∈ free r, e1 s = e2 s) → eval e1 r = eval e2 r

variable {R V : Type*} [CommRing R]

/-- All in-range multi-indices of a shape. -/
def allIdx : List Nat → List (List Nat)
  | [] => [[]]
  | n :: s => (List.range n).flatMap fun i => (allIdx s).map (i :: ·)

/-- `arr.free_symbols`: the union over all entries. -/
noncomputable def NDArr.freeSymbols (E : ExprSem R V) (a : NDArr R) : Finset Sym :=
  (allIdx a.shape).toFinset.biUnion fun idx => E.free (a.get idx)

/-- A `BaseRelativityTensor` together with its coordinate symbols and its `variables` list. -/
structure VTensor (R : Type*) where
  obj : Obj R
  syms : List Sym
  vars : List Sym

/-- symbolic/tensor.py:350-354: list the free symbols that are not coordinates — in the iteration order
`it` of a Python set, which depends on hashing — and sort by name (Python's sort is stable). -/
noncomputable def computeVariables (it : Finset Sym → List Sym) (fs : Finset Sym) (syms : List Sym) :
    List Sym :=
  ((it fs).filter (fun v => v ∉ syms)).insertionSort (fun a b => a.name ≤ b.name)

/-- symbolic/tensor.py:284-371 `BaseRelativityTensor.__init__` with its `variables` argument. -/
noncomputable def mkBaseV (E : ExprSem R V) (it : Finset Sym → List Sym) (arr : NDArr R)
    (syms : List Sym) (config : Config) (parent : Option (MetricV R)) (vars : List Sym)
    (name : Option String) : Py (VTensor R) := do
  let o ← mkBase (.arr arr) (.seq (syms.map Sym.name)) (.str config) parent name
  return ⟨o, syms, if vars = [] then computeVariables it (o.arr.freeSymbols E) syms else vars⟩

/-- symbolic/tensor.py:69-116 `tensor_product`, which passes `variables=tensor1.variables`. -/
noncomputable def tensorProductV (E : ExprSem R V) (it : Finset Sym → List Sym) (t1 t2 : VTensor R)
    (i j : Option Nat) : Py (VTensor R) := do
  let o ← tensorProduct t1.obj t2.obj i j
  return ⟨o, t1.syms,
    if t1.vars = [] then computeVariables it (o.arr.freeSymbols E) t1.syms else t1.vars⟩

/-- symbolic/tensor.py:413-422 the argument list returned by `tensor_lambdify(*args)`. -/
def lambdifyArgs (t : VTensor R) (args : List Sym) : List Sym :=
  if args.length = 0 then t.syms ++ t.vars else args

/-- Calling the function `sympy.lambdify(args, arr)` on values: repeated argument names are a
`SyntaxError`, a wrong number of values a `TypeError`, a free symbol that is not an argument a
`NameError`; otherwise every entry is evaluated with the arguments bound in order. -/
noncomputable def lambdifyCall (E : ExprSem R V) (default : V) (args : List Sym) (a : NDArr R)
    (vals : List V) : Py (NDArr V) :=
  if ¬ args.Nodup then .error .syntaxError
  else if args.length ≠ vals.length then .error .typeError
  else if ¬ (a.freeSymbols E ⊆ args.toFinset) then .error .nameError
  else .ok (a.map (E.eval fun s => vals.getD (args.idxOf s) default))

/-- `tensor_lambdify()` followed by a call of the returned function. -/
noncomputable def VTensor.lambdify (E : ExprSem R V) (default : V) (t : VTensor R) (vals : List V) :
    Py (NDArr V) :=
  lambdifyCall E default (lambdifyArgs t []) t.obj.arr vals

end Einpy
