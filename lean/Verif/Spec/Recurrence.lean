import Mathlib.Algebra.Polynomial.Derivative
import Mathlib.Algebra.Polynomial.Degree.Operations
import Mathlib.Data.Real.Basic
/-! Monic polynomials defined by a three-term recurrence (docstring of `rule_from_recurrence`). -/

namespace Verif.Spec
open Polynomial

/-- `P[0] = 1`, `P[1] = x - alpha[0]`, `P[n+1] = (x - alpha[n]) P[n] - beta[n] P[n-1]`. -/
noncomputable def opoly (alpha beta : ℕ → ℝ) : ℕ → ℝ[X]
  | 0 => 1
  | 1 => X - C (alpha 0)
  | n + 2 => (X - C (alpha (n + 1))) * opoly alpha beta (n + 1) - C (beta (n + 1)) * opoly alpha beta n

end Verif.Spec
