import Mathlib.Analysis.SpecialFunctions.Pow.Real
import Mathlib.Data.Fin.Basic
import Verif.Py.Basic

/-!
# Model of `utils/dual.py` (dual numbers, automatic differentiation)

Floating-point numbers are idealised as real numbers.
-/

namespace Einpy
open Classical

/-- utils/dual.py:22-35 `DualNumber`. -/
@[ext] structure Dual where
  val : ℝ
  deriv : ℝ

namespace Dual

/-- dual.py:43-47 `__add__` (dual argument). -/
def add (x y : Dual) : Dual := ⟨x.val + y.val, x.deriv + y.deriv⟩
/-- dual.py:43-47 `__add__`, `__radd__` (number argument). -/
def addNum (x : Dual) (c : ℝ) : Dual := ⟨x.val + c, x.deriv⟩
/-- dual.py:51-55 `__sub__` (dual argument). -/
def sub (x y : Dual) : Dual := ⟨x.val - y.val, x.deriv - y.deriv⟩
/-- dual.py:51-55 `__sub__` (number argument). -/
def subNum (x : Dual) (c : ℝ) : Dual := ⟨x.val - c, x.deriv⟩
/-- dual.py:57-61 `__rsub__` (number on the left): `DualNumber(other, 0) - self`. -/
def rsubNum (x : Dual) (c : ℝ) : Dual := sub ⟨c, 0⟩ x
/-- dual.py:63-69 `__mul__` (dual argument). -/
def mul (x y : Dual) : Dual := ⟨x.val * y.val, x.deriv * y.val + x.val * y.deriv⟩
/-- dual.py:63-69 `__mul__`, `__rmul__` (number argument). -/
def mulNum (x : Dual) (c : ℝ) : Dual := ⟨x.val * c, x.deriv * c⟩
/-- dual.py:103-104 `__neg__`. -/
def neg (x : Dual) : Dual := ⟨-x.val, -x.deriv⟩

/-- dual.py:73-83 `__truediv__` (dual argument).  `val` and `deriv` are Python floats, so a zero divisor raises
`ZeroDivisionError`. -/
noncomputable def truediv (x y : Dual) : Py Dual :=
  if x.val = 0 ∧ y.val = 0 then
    if y.deriv = 0 then .error .zeroDivisionError else .ok ⟨x.deriv / y.deriv, 0⟩
  else if y.val = 0 then .error .zeroDivisionError
  else .ok ⟨x.val / y.val, (x.deriv * y.val - x.val * y.deriv) / y.val ^ 2⟩

/-- dual.py:73-83 `__truediv__` (number argument). -/
noncomputable def truedivNum (x : Dual) (c : ℝ) : Py Dual :=
  if c = 0 then .error .zeroDivisionError else .ok ⟨x.val / c, x.deriv / c⟩

/-- dual.py:85-95 `__rtruediv__` (number on the left): `DualNumber(other, 0).__truediv__(self)`. -/
noncomputable def rtruedivNum (x : Dual) (c : ℝ) : Py Dual := truediv ⟨c, 0⟩ x

end Dual

/-- Python `a ** b` on floats: `0.0 ** negative` raises `ZeroDivisionError`; a negative base with a non-integral
exponent gives a complex number, for which the `float(...)` of the `DualNumber` constructor raises `TypeError`. -/
noncomputable def pyPow (a b : ℝ) : Py ℝ :=
  if a = 0 ∧ b < 0 then .error .zeroDivisionError
  else if a < 0 ∧ ¬ ∃ k : ℤ, b = k then .error .typeError
  else .ok (a ^ b)

namespace Dual

/-- dual.py:106-109 `__pow__`. -/
noncomputable def pow (x : Dual) (p : ℝ) : Py Dual := do
  let v ← pyPow x.val p
  let w ← pyPow x.val (p - 1)
  return ⟨v, x.deriv * p * w⟩

/-- dual.py:111-112 `sin`. -/
noncomputable def sin (x : Dual) : Dual := ⟨Real.sin x.val, x.deriv * Real.cos x.val⟩
/-- dual.py:114-115 `cos`. -/
noncomputable def cos (x : Dual) : Dual := ⟨Real.cos x.val, -x.deriv * Real.sin x.val⟩
/-- dual.py:117-118 `tan`. -/
noncomputable def tan (x : Dual) : Py Dual := truediv x.sin x.cos
/-- dual.py:120-121 `log`: `np.log` of a negative number is `nan`, `deriv / 0.0` raises. -/
noncomputable def log (x : Dual) : Py Dual :=
  if x.val = 0 then .error .zeroDivisionError
  else if x.val < 0 then .error .notANumber
  else .ok ⟨Real.log x.val, x.deriv / x.val⟩
/-- dual.py:123-124 `exp`. -/
noncomputable def exp (x : Dual) : Dual := ⟨Real.exp x.val, x.deriv * Real.exp x.val⟩

end Dual

/-! ## programs over numbers and dual numbers -/

/-- A run-time value: a plain number or a dual number. -/
inductive Val
  | num (c : ℝ)
  | dual (x : Dual)

/-- Expressions a metric function may build: coordinates, numbers, arithmetic, powers with a numeric exponent and the
numpy functions `DualNumber` supports. -/
inductive Expr (ι : Type*)
  | var (i : ι)
  | const (c : ℝ)
  | add (a b : Expr ι)
  | sub (a b : Expr ι)
  | mul (a b : Expr ι)
  | div (a b : Expr ι)
  | neg (a : Expr ι)
  | pow (a : Expr ι) (p : ℝ)
  | sin (a : Expr ι)
  | cos (a : Expr ι)
  | tan (a : Expr ι)
  | log (a : Expr ι)
  | exp (a : Expr ι)

/-- Python's dispatch of `a + b`. -/
def Val.add : Val → Val → Val
  | .num a, .num b => .num (a + b)
  | .num a, .dual y => .dual (y.addNum a)
  | .dual x, .num b => .dual (x.addNum b)
  | .dual x, .dual y => .dual (x.add y)

/-- Python's dispatch of `a - b`. -/
def Val.sub : Val → Val → Val
  | .num a, .num b => .num (a - b)
  | .num a, .dual y => .dual (y.rsubNum a)
  | .dual x, .num b => .dual (x.subNum b)
  | .dual x, .dual y => .dual (x.sub y)

/-- Python's dispatch of `a * b`. -/
def Val.mul : Val → Val → Val
  | .num a, .num b => .num (a * b)
  | .num a, .dual y => .dual (y.mulNum a)
  | .dual x, .num b => .dual (x.mulNum b)
  | .dual x, .dual y => .dual (x.mul y)

/-- Python's dispatch of `a / b`. -/
noncomputable def Val.div : Val → Val → Py Val
  | .num a, .num b => if b = 0 then .error .zeroDivisionError else .ok (.num (a / b))
  | .num a, .dual y => return .dual (← y.rtruedivNum a)
  | .dual x, .num b => return .dual (← x.truedivNum b)
  | .dual x, .dual y => return .dual (← x.truediv y)

/-- Unary minus. -/
def Val.neg : Val → Val
  | .num a => .num (-a)
  | .dual x => .dual x.neg

/-- `a ** p`. -/
noncomputable def Val.pow (p : ℝ) : Val → Py Val
  | .num a => return .num (← pyPow a p)
  | .dual x => return .dual (← x.pow p)

/-- `np.sin(a)`: for an object numpy calls its method `sin`. -/
noncomputable def Val.sin : Val → Val
  | .num a => .num (Real.sin a)
  | .dual x => .dual x.sin

/-- `np.cos(a)`. -/
noncomputable def Val.cos : Val → Val
  | .num a => .num (Real.cos a)
  | .dual x => .dual x.cos

/-- `np.tan(a)`; the poles of the plain function are reported as `notANumber`. -/
noncomputable def Val.tan : Val → Py Val
  | .num a => if Real.cos a = 0 then .error .notANumber else .ok (.num (Real.tan a))
  | .dual x => return .dual (← x.tan)

/-- `np.log(a)`: `-inf` at zero, `nan` below. -/
noncomputable def Val.log : Val → Py Val
  | .num a => if a ≤ 0 then .error .notANumber else .ok (.num (Real.log a))
  | .dual x => return .dual (← x.log)

/-- `np.exp(a)`. -/
noncomputable def Val.exp : Val → Val
  | .num a => .num (Real.exp a)
  | .dual x => .dual x.exp

/-- Evaluation of an expression when the coordinates are the dual numbers `env`. -/
noncomputable def Expr.eval {ι : Type*} (env : ι → Dual) : Expr ι → Py Val
  | .var i => .ok (.dual (env i))
  | .const c => .ok (.num c)
  | .add a b => return Val.add (← a.eval env) (← b.eval env)
  | .sub a b => return Val.sub (← a.eval env) (← b.eval env)
  | .mul a b => return Val.mul (← a.eval env) (← b.eval env)
  | .div a b => do Val.div (← a.eval env) (← b.eval env)
  | .neg a => return Val.neg (← a.eval env)
  | .pow a p => do Val.pow p (← a.eval env)
  | .sin a => return Val.sin (← a.eval env)
  | .cos a => return Val.cos (← a.eval env)
  | .tan a => do Val.tan (← a.eval env)
  | .log a => do Val.log (← a.eval env)
  | .exp a => return Val.exp (← a.eval env)

/-- dual.py:127-149 `_deriv`, applied to the already evaluated `func(DualNumber(x, 1.0))`: the derivative part of a dual
number, `0.0` for a plain number. -/
def derivOf : Val → ℝ
  | .dual x => x.deriv
  | .num _ => 0

/-- dual.py:127-149 `_deriv(func, x)` for a function of one variable. -/
noncomputable def derivPy (e : Expr Unit) (x : ℝ) : Py ℝ :=
  return derivOf (← e.eval fun _ => ⟨x, 1⟩)

/-! ## derivatives of a metric -/

/-- A metric function: the 4×4 entries as expressions in the four coordinates (parameters are constants). -/
abbrev MetricFn := Fin 4 → Fin 4 → Expr (Fin 4)

/-- Evaluate a list of expressions, stopping at the first exception. -/
noncomputable def evalAll {ι : Type*} (env : ι → Dual) : List (Expr ι) → Py (List Val)
  | [] => .ok []
  | e :: es => do
    let v ← e.eval env
    let vs ← evalAll env es
    return v :: vs

/-- The sixteen entries in row-major order. -/
def metricEntries (g : MetricFn) : List (Expr (Fin 4)) :=
  (List.range 16).map fun k => g (Fin.ofNat 4 (k / 4)) (Fin.ofNat 4 (k % 4))

/-- dual.py:152-201 `_diff_g`: every coordinate is wrapped with derivative 0, except `wrt` with derivative 1; the whole
metric is evaluated and the entry `indices` selected.  `wrt` is any integer. -/
noncomputable def diffG (g : MetricFn) (coords : Fin 4 → ℝ) (indices : List Nat) (wrt : Int) : Py ℝ :=
  if ¬ (wrt = 0 ∨ wrt = 1 ∨ wrt = 2 ∨ wrt = 3) then .error .valueError
  else if indices.length ≠ 2 then .error .valueError
  else do
    let env : Fin 4 → Dual := fun i => ⟨coords i, if ((i : Nat) : Int) = wrt then 1 else 0⟩
    let vs ← evalAll env (metricEntries g)
    match indices with
    | [i, j] =>
      match if j < 4 then vs[4 * i + j]? else none with
      | some v => return derivOf v
      | none => throw .indexError
    | _ => throw .valueError

/-- dual.py:204-238, the double loop: `J` starts at zero and its upper triangle is assigned. -/
noncomputable def jacobianLoop (g : MetricFn) (coords : Fin 4 → ℝ) (wrt : Int) :
    List (Nat × Nat) → (Nat → Nat → ℝ) → Py (Nat → Nat → ℝ)
  | [], J => .ok J
  | (i, j) :: rest, J =>
    if i ≤ j then do
      let v ← diffG g coords [i, j] wrt
      jacobianLoop g coords wrt rest (fun a b => if a = i ∧ b = j then v else J a b)
    else jacobianLoop g coords wrt rest J

/-- dual.py:204-238 `_jacobian_g`: the loop followed by `J + J.T - diag(diag(J))`. -/
noncomputable def jacobianG (g : MetricFn) (coords : Fin 4 → ℝ) (wrt : Int) : Py (Fin 4 → Fin 4 → ℝ) := do
  let J ← jacobianLoop g coords wrt
    ((List.range 16).map fun k => (k / 4, k % 4)) (fun _ _ => 0)
  return fun i j => J i j + J j i - (if i = j then J i i else 0)

end Einpy
