/-!
# Python exceptions as values

Every modelled function that can raise returns `Py α`.  Only the exception class is kept,
not the message.
-/

namespace Einpy

/-- Exception classes raised by the modelled code (`/repo/src/einsteinpy`, builtin exceptions,
`utils/exceptions.py:1-20` for `coordinateError`, and sympy's `NonInvertibleMatrixError`,
a subclass of `ValueError`). -/
inductive PyErr
  | valueError
  | typeError
  | keyError
  | indexError
  | attributeError
  | notImplementedError
  | exception
  | coordinateError
  | zeroDivisionError
  | nonInvertible
  | nameError
  | syntaxError
  /-- Not an exception: an IEEE `nan` or `inf` result.  Real-number models have no such value; a computation that
  produces one is reported with this tag and everything computed from it carries the tag. -/
  | notANumber
  deriving DecidableEq, Repr

/-- Result of a Python call: a value or a raised exception. -/
abbrev Py (α : Type _) := Except PyErr α

end Einpy
