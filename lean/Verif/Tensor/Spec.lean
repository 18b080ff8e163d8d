import Verif.Tensor.Model

/-!
# Specification vocabulary for tensors

A tensor of rank `r` in `n` dimensions is a function of `r` indices.  Independent of the code.
-/

namespace Einpy
open Classical

/-- Components of a rank-`r` tensor in `n` dimensions. -/
abbrev Tns (R : Type*) (r n : Nat) := (Fin r → Fin n) → R

/-- The multi-index of a tuple of indices. -/
def multiIx {r n : Nat} (i : Fin r → Fin n) : List Nat := List.ofFn fun s => (i s : Nat)

/-- The components of an array. -/
def NDArr.comp {R : Type*} (a : NDArr R) (r n : Nat) : Tns R r n := fun i => a.get (multiIx i)

/-- `a` is an `n × n × … × n` array with `r` axes. -/
def NDArr.IsCube {R : Type*} (a : NDArr R) (r n : Nat) : Prop := a.shape = List.replicate r n

/-- Contract slot `s` of `T` with the second index of the matrix `F s`, for all slots at once:
`T'(i₁,…,i_r) = Σ_{j₁…j_r} F₁(i₁,j₁) ⋯ F_r(i_r,j_r) T(j₁,…,j_r)`. -/
def applySlots {R : Type*} [CommRing R] {r n : Nat} (F : Fin r → Matrix (Fin n) (Fin n) R)
    (T : Tns R r n) : Tns R r n :=
  fun i => ∑ j : Fin r → Fin n, (∏ s, F s (i s) (j s)) * T j

/-- The matrix with which one index is contracted to turn a slot of type `old` into a slot of type
`new`, for the covariant metric `g`: nothing, `g` to lower, `g⁻¹` to raise. -/
noncomputable def slotMatrix {R : Type*} [CommRing R] {n : Nat} (g : Matrix (Fin n) (Fin n) R)
    (old new : Char) : Matrix (Fin n) (Fin n) R :=
  if old = new then 1 else if new = 'u' then g⁻¹ else g

/-- Only the letters `u` and `l` occur. -/
def ValidConfig (c : Config) : Prop := ∀ ch ∈ c, ch = 'u' ∨ ch = 'l'

/-- The metric object `m` (covariant or contravariant) describes the space whose covariant metric is
the invertible matrix `g`. -/
def MetricV.Represents {R : Type*} [CommRing R] {n : Nat} (m : MetricV R)
    (g : Matrix (Fin n) (Fin n) R) : Prop :=
  m.arr.shape = [n, n] ∧ IsUnit g.det ∧
    ((m.config = ['l', 'l'] ∧ m.arr.toMatrix n = g) ∨
     (m.config = ['u', 'u'] ∧ m.arr.toMatrix n = g⁻¹))

/-- A well-formed tensor object in `n` dimensions: every axis has length `n`, there are `n`
coordinate symbols, order and configuration agree with the array and with the class. -/
structure Obj.WF {R : Type*} (t : Obj R) (n : Nat) : Prop where
  cube : t.arr.IsCube t.config.length n
  syms : t.syms.length = n
  order : t.order = t.config.length
  valid : ValidConfig t.config
  kind : t.kind.order = none ∨ t.kind.order = some t.config.length

/-- Result of a Python call that succeeds with a value satisfying `P`. -/
def Returns {α : Type*} (x : Py α) (P : α → Prop) : Prop := ∃ a, x = .ok a ∧ P a

/-- The Python call raises the exception `e`. -/
def Raises {α : Type*} (x : Py α) (e : PyErr) : Prop := x = .error e

end Einpy
