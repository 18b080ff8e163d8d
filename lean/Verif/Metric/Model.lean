import Verif.Tensor.Model

/-!
# Model of `symbolic/metric.py` with object identity and the `_invmetric` cache

The heap is a list of metric objects; an address is a position in the heap.
-/

namespace Einpy
open Classical

/-- A `MetricTensor` object: its value and its `_invmetric` attribute (metric.py:37-43). -/
structure MObj (R : Type*) where
  val : MetricV R
  invmetric : Option Nat

abbrev Heap (R : Type*) := List (MObj R)

section
variable {R : Type*} [CommRing R]

/-- `MetricTensor(...)` called by the user: a new object with an empty cache (metric.py:12-43). -/
def heapNew (H : Heap R) (v : MetricV R) : Py Nat × Heap R :=
  (.ok H.length, H ++ [⟨v, none⟩])

/-- metric.py:45-81 `change_config`: returns `self` if the configuration is unchanged; for `uu`/`ll`
allocates the inverse with its cache pointing back to `self`; otherwise `ValueError`. -/
noncomputable def heapChangeConfig (H : Heap R) (a : Nat) (nc : Config) : Py Nat × Heap R :=
  match H[a]? with
  | none => (.error .attributeError, H)
  | some o =>
    if nc = o.val.config then (.ok a, H)
    else if nc = ['u', 'u'] ∨ nc = ['l', 'l'] then
      match o.val.arr.inv with
      | .error e => (.error e, H)
      | .ok arr =>
        (.ok H.length,
         H ++ [⟨⟨arr, nc, o.val.syms, changeName o.val.name ("__" ++ String.ofList nc)⟩, some a⟩])
    else (.error .valueError, H)

/-- metric.py:83-99 `inv`: fills the cache if it is empty, then returns it. -/
noncomputable def heapInv (H : Heap R) (a : Nat) : Py Nat × Heap R :=
  match H[a]? with
  | none => (.error .attributeError, H)
  | some o =>
    match o.invmetric with
    | some b => (.ok b, H)
    | none =>
      let (r, H') := heapChangeConfig H a
        (if o.val.config = ['l', 'l'] then ['u', 'u'] else ['l', 'l'])
      match r with
      | .error e => (.error e, H')
      | .ok b => (.ok b, H'.modify a fun o => { o with invmetric := some b })

/-- metric.py:101-113 `lower_config`. -/
noncomputable def heapLower (H : Heap R) (a : Nat) : Py Nat × Heap R :=
  match H[a]? with
  | none => (.error .attributeError, H)
  | some o => if o.val.config = ['l', 'l'] then (.ok a, H) else heapInv H a

/-- Operations a program can perform on metric objects. -/
inductive MOp (R : Type*)
  | new (v : MetricV R)
  | changeConfig (a : Nat) (nc : Config)
  | inv (a : Nat)
  | lowerConfig (a : Nat)

/-- One operation; an exception leaves the heap as the code leaves it. -/
noncomputable def MOp.step (H : Heap R) : MOp R → Py Nat × Heap R
  | .new v => heapNew H v
  | .changeConfig a nc => heapChangeConfig H a nc
  | .inv a => heapInv H a
  | .lowerConfig a => heapLower H a

/-- The heap after a history of operations. -/
noncomputable def runHist (H : Heap R) (hist : List (MOp R)) : Heap R :=
  hist.foldl (fun H op => (op.step H).2) H

end
end Einpy
