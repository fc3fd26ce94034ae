import Mathlib.Algebra.Polynomial.Derivative
import Mathlib.Algebra.Polynomial.Degree.Operations
import Mathlib.Analysis.Real.Sqrt
/-! Textbook definition of the Legendre polynomials (Bonnet's recurrence). -/

namespace Verif.Spec
open Polynomial

/-- Legendre polynomials over a field: `P₀ = 1`, `P₁ = X`,
`(n+2) P_{n+2} = (2n+3) X P_{n+1} - (n+1) P_n`. -/
noncomputable def legendre : ℕ → ℝ[X]
  | 0 => 1
  | 1 => X
  | n + 2 => C (1 / ((n : ℝ) + 2)) *
      (C (2 * (n : ℝ) + 3) * X * legendre (n + 1) - C ((n : ℝ) + 1) * legendre n)

/-- Legendre sum `∑ₖ c_k P_k(t)`. -/
noncomputable def legendreSum (c : List ℝ) (t : ℝ) : ℝ :=
  ∑ k : Fin c.length, c.get k * (legendre k).eval t

/-- The function on the segment `[a, b]` expanded in scaled Legendre polynomials with coefficients
`c`: `sqrt(2/(b-a)) ∑ₖ c_k P_k(t)`, where `t` maps `[a, b]` linearly to `[-1, 1]`. -/
noncomputable def segFun (a b : ℝ) (c : List ℝ) (x : ℝ) : ℝ :=
  Real.sqrt (2 / (b - a)) * legendreSum c ((2 * x - (a + b)) / (b - a))

end Verif.Spec
