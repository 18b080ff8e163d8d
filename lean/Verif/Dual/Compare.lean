import Verif.Dual.Model

/-!
# C127: comparing dual numbers

`__eq__`, `__ne__` and the (absent) hash of `DualNumber`.
-/

namespace Einpy
open Classical

/-- dual.py:97-98 `__eq__`: `(self.val == other.val) and (self.deriv == other.deriv)`; `other` is a number or a dual number.  A Python number has
no attribute `val`. -/
noncomputable def Dual.eqPy (x : Dual) (other : Val) : Py Bool :=
  match other with
  | .dual y => if x.val = y.val then .ok (decide (x.deriv = y.deriv)) else .ok false
  | .num _ => .error .attributeError

/-- dual.py:100-101 `__ne__`: `not (self == other)`. -/
noncomputable def Dual.nePy (x : Dual) (other : Val) : Py Bool := do return !(← x.eqPy other)

/-- Python's dispatch of `a == b`: the method of the left operand, or, when that is a number (whose method returns `NotImplemented`), the
reflected method of the right one (dual.py:97-98). -/
noncomputable def Val.eqPy : Val → Val → Py Bool
  | .num a, .num b => .ok (decide (a = b))
  | .num a, .dual y => y.eqPy (.num a)
  | .dual x, v => x.eqPy v

/-- Python's dispatch of `a != b` (dual.py:100-101). -/
noncomputable def Val.nePy : Val → Val → Py Bool
  | .num a, .num b => .ok (decide (a ≠ b))
  | .num a, .dual y => y.nePy (.num a)
  | .dual x, v => x.nePy v

/-- `hash(v)`: a class that defines `__eq__` (dual.py:97) but not `__hash__` is unhashable. -/
def Val.hashable : Val → Py Unit
  | .num _ => .ok ()
  | .dual _ => .error .typeError

/-- **C127.** `==` of two dual numbers is true exactly when value and derivative agree, `!=` exactly when one of them differs; neither raises. -/
theorem C127_duals (a b a' b' : ℝ) :
    (Val.eqPy (.dual ⟨a, b⟩) (.dual ⟨a', b'⟩) = .ok true ↔ a = a' ∧ b = b') ∧
    (Val.eqPy (.dual ⟨a, b⟩) (.dual ⟨a', b'⟩) = .ok false ↔ ¬ (a = a' ∧ b = b')) ∧
    (Val.nePy (.dual ⟨a, b⟩) (.dual ⟨a', b'⟩) = .ok true ↔ ¬ (a = a' ∧ b = b')) ∧
    (Val.nePy (.dual ⟨a, b⟩) (.dual ⟨a', b'⟩) = .ok false ↔ a = a' ∧ b = b') := by
  by_cases h1 : a = a' <;> by_cases h2 : b = b' <;>
    simp [Val.eqPy, Val.nePy, Dual.eqPy, Dual.nePy, h1, h2, bind, Except.bind, pure, Except.pure]

/-- **C127.** On dual numbers `==` is an equivalence relation (as a Python operation). -/
theorem C127_equivalence (x y z : Dual) : Val.eqPy (.dual x) (.dual x) = .ok true ∧
    Val.eqPy (.dual x) (.dual y) = Val.eqPy (.dual y) (.dual x) ∧
    (Val.eqPy (.dual x) (.dual y) = .ok true → Val.eqPy (.dual y) (.dual z) = .ok true → Val.eqPy (.dual x) (.dual z) = .ok true) := by
  obtain ⟨a, b⟩ := x
  obtain ⟨a', b'⟩ := y
  obtain ⟨a'', b''⟩ := z
  refine ⟨(C127_duals a b a b).1.2 ⟨rfl, rfl⟩, ?_, ?_⟩
  · by_cases h : a = a' ∧ b = b'
    · rw [(C127_duals a b a' b').1.2 h, (C127_duals a' b' a b).1.2 ⟨h.1.symm, h.2.symm⟩]
    · rw [(C127_duals a b a' b').2.1.2 h, (C127_duals a' b' a b).2.1.2 fun h' => h ⟨h'.1.symm, h'.2.symm⟩]
  · intro h h'
    have h := (C127_duals _ _ _ _).1.1 h
    have h' := (C127_duals _ _ _ _).1.1 h'
    exact (C127_duals _ _ _ _).1.2 ⟨h.1.trans h'.1, h.2.trans h'.2⟩

/-- **C127.** Comparing a dual number with a plain number raises, whatever the values and whichever operand is the dual number; a dual number
cannot be hashed. -/
theorem C127_number (x : Dual) (c : ℝ) :
    Val.eqPy (.dual x) (.num c) = .error .attributeError ∧ Val.eqPy (.num c) (.dual x) = .error .attributeError ∧
    Val.nePy (.dual x) (.num c) = .error .attributeError ∧ Val.nePy (.num c) (.dual x) = .error .attributeError ∧
    Val.hashable (.dual x) = .error .typeError := ⟨rfl, rfl, rfl, rfl, rfl⟩

/-- Both answers occur. -/
example : Val.eqPy (.dual ⟨1, 2⟩) (.dual ⟨1, 2⟩) = .ok true ∧ Val.eqPy (.dual ⟨1, 2⟩) (.dual ⟨1, 3⟩) = .ok false :=
  ⟨(C127_duals _ _ _ _).1.2 ⟨rfl, rfl⟩, (C127_duals _ _ _ _).2.1.2 (by norm_num)⟩

end Einpy
