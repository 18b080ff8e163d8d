import Mathlib.Algebra.BigOperators.Group.List.Basic
import Verif.Py.Basic

/-!
# Dense sympy arrays, nested lists and `simplify_sympy_array` (symbolic/helpers.py:13-66)

`sympy.simplify` on one expression is an arbitrary function `f`.
-/

namespace Einpy

/-- An arbitrarily nested Python list with leaves in `α`. -/
inductive Nest (α : Type*)
  | leaf (a : α)
  | node (l : List (Nest α))

variable {α β : Type*}

/-- symbolic/helpers.py:13-19 `_flatten_list`, branch by branch. -/
def flattenList : List (Nest α) → List α
  | [] => []
  | .leaf a :: rest => [a] ++ flattenList rest
  | .node l :: rest => flattenList l ++ flattenList rest

/-- `sympy.ImmutableDenseNDimArray`: a shape and the row-major list of entries. -/
structure Dense (α : Type*) where
  shape : List Nat
  flat : List α

/-- The invariant sympy's constructor enforces (`ValueError` otherwise). -/
def Dense.WF (a : Dense α) : Prop := a.flat.length = a.shape.prod

/-- `sympy.Array(flat_list, shape)`. -/
def Dense.mk' (flat : List α) (shape : List Nat) : Py (Dense α) :=
  if flat.length = shape.prod then .ok ⟨shape, flat⟩ else .error .valueError

/-- `arr.tolist()` for arrays of rank at least one (sympy `NDimArray.tolist`): the last axis is listed,
every other axis splits its range of the flat list into equal chunks. -/
def nestOf : List Nat → List α → List (Nest α)
  | [], fl => fl.map .leaf
  | [_], fl => fl.map .leaf
  | n :: s, fl => (List.range n).map fun e => .node (nestOf s ((fl.drop (e * s.prod)).take s.prod))

/-- `arr.tolist()`: `IndexError` for rank 0 (the behaviour of the sympy versions the `except IndexError`
branch of helpers.py:46-47 was written for). -/
def Dense.tolist (a : Dense α) : Py (List (Nest α)) :=
  match a.shape with
  | [] => .error .indexError
  | _ => .ok (nestOf a.shape a.flat)

/-- sympy `NDimArray._parse_index`: `real_index = real_index * shape[i] + index[i]`. -/
def parseIndex (shape idx : List Nat) : Nat :=
  (shape.zip idx).foldl (fun acc p => acc * p.1 + p.2) 0

/-- `arr[i, j, …]` for in-range indices. -/
def Dense.getItem (a : Dense α) (idx : List Nat) : Option α := a.flat[parseIndex a.shape idx]?

/-- The argument of `simplify_sympy_array`: an array, or an expression (no `tolist` attribute). -/
inductive SArg (α : Type*)
  | arr (a : Dense α)
  | expr (e : α)

/-- symbolic/helpers.py:21-46 `simplify_sympy_array`.  `sum(arr)` of a rank-0 array is its only entry. -/
def simplifySympyArray (f : α → α) (x : SArg α) : Py (SArg α) :=
  match x with
  | .expr e => .ok (.expr (f e))
  | .arr a =>
    match a.tolist with
    | .ok l => do
      let b ← Dense.mk' ((flattenList l).map f) a.shape
      return .arr b
    | .error .indexError =>
      match a.flat with
      | [e] => .ok (.arr ⟨[], [f e]⟩)
      | _ => .error .valueError
    | .error e => .error e

end Einpy
