/-!
# Python exceptions and warnings as values

A Python function that may raise becomes a Lean function into `PyM`.  Only the exception
class is modelled, not the message.  Functions which may `warn` additionally return a list of
warnings.
-/

namespace Verif

/-- Python exception classes which the modelled code can raise. -/
inductive PyErr
  | valueError
  | typeError
  | runtimeError
  | indexError
  | keyError
  | attributeError
  | notImplementedError
  | overflowError
  | unboundLocalError
  | zeroDivisionError
  | assertionError
  /-- not an exception: the floating-point result is NaN (division 0/0 or 0*inf) -/
  | nanResult
  deriving DecidableEq, Repr

/-- Result of a Python computation: a value or an exception. -/
abbrev PyM (α : Type _) := Except PyErr α

end Verif
