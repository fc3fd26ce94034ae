import Mathlib.Algebra.Order.Floor.Ring
import Mathlib.Algebra.Order.Round
import Mathlib.Data.Rat.Floor
/-!
# IEEE-754 values as far as comparisons decide control flow

Every finite double is a rational number.  `IEEE` adds the two infinities and NaN.  Signed zeros
are not distinguished here (comparisons do not distinguish them).
-/

namespace Verif

/-- A float: finite (an exact rational), infinite, or NaN. -/
inductive IEEE
  | fin (q : ℚ)
  | pinf
  | ninf
  | nan
  deriving DecidableEq, Repr

namespace IEEE

/-- `a <= b` of IEEE-754: false as soon as one operand is NaN. -/
def le : IEEE → IEEE → Bool
  | nan, _ => false
  | _, nan => false
  | ninf, _ => true
  | _, pinf => true
  | fin a, fin b => decide (a ≤ b)
  | pinf, _ => false
  | fin _, ninf => false

/-- `a < b` of IEEE-754: false as soon as one operand is NaN. -/
def lt : IEEE → IEEE → Bool
  | nan, _ => false
  | _, nan => false
  | ninf, ninf => false
  | ninf, _ => true
  | pinf, _ => false
  | fin _, pinf => true
  | fin a, fin b => decide (a < b)
  | fin _, ninf => false

/-- `a >= b` -/
def ge (a b : IEEE) : Bool := le b a
/-- `a > b` -/
def gt (a b : IEEE) : Bool := lt b a

/-- `a == b`: NaN is different from everything. -/
def eqB : IEEE → IEEE → Bool
  | fin a, fin b => decide (a = b)
  | pinf, pinf => true
  | ninf, ninf => true
  | _, _ => false

/-- Truncation towards zero. -/
def truncZ (q : ℚ) : ℤ := if 0 ≤ q then ⌊q⌋ else ⌈q⌉

/-- Smallest 64-bit integer. -/
def intMin : ℤ := -2^63

/-- `ndarray.astype(int)` from float64 on x86-64: truncation towards zero; values not representable
as a 64-bit integer (including NaN and infinities) give the "integer indefinite" value -2^63. -/
def astypeInt : IEEE → ℤ
  | fin q => if -2^63 ≤ truncZ q ∧ truncZ q < 2^63 then truncZ q else intMin
  | _ => intMin

/-- multiplication by a positive rational constant -/
def mulPos (c : ℚ) : IEEE → IEEE
  | fin q => fin (c * q)
  | x => x

/-- addition of a rational constant -/
def addConst (c : ℚ) : IEEE → IEEE
  | fin q => fin (q + c)
  | x => x

end IEEE
end Verif
