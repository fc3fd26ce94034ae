import Mathlib.Data.Real.Basic
/-!
# Binary floating-point numbers

`p` binary digits, exponents from `emin` on; the exponent is not bounded above (no overflow).  Subnormal numbers are
included: all numbers are multiples of `2 ^ emin`.  IEEE double precision: `p = 53`, `emin = -1074`.
-/

namespace Verif.Spec

/-- `x` is a floating-point number. -/
def IsFloat (p : ℕ) (emin : ℤ) (x : ℝ) : Prop :=
  ∃ m e : ℤ, |m| < 2 ^ p ∧ emin ≤ e ∧ x = m * (2 : ℝ) ^ e

/-- `rd x` is a floating-point number closest to `x`, with any rule for ties. -/
def RoundsToNearest (p : ℕ) (emin : ℤ) (rd : ℝ → ℝ) : Prop :=
  ∀ x, IsFloat p emin (rd x) ∧ ∀ y, IsFloat p emin y → |x - rd x| ≤ |x - y|

end Verif.Spec
