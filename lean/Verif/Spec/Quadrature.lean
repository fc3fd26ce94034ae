import Mathlib.Algebra.Polynomial.Eval.Defs
import Mathlib.Algebra.Polynomial.Degree.Defs
import Mathlib.MeasureTheory.Integral.IntervalIntegral.Basic
import Verif.Spec.Roots
/-! What it means that nodes and weights form a quadrature formula. -/

namespace Verif.Spec
open Polynomial

/-- The quadrature sum `∑ᵢ wᵢ f(xᵢ)`. -/
noncomputable def quad (x w : List ℝ) (f : ℝ → ℝ) : ℝ := (List.zipWith (fun x w => w * f x) x w).sum

/-- Exact for polynomials of degree at most `d` on `[a, b]`. -/
def ExactTo (x w : List ℝ) (a b : ℝ) (d : ℕ) : Prop :=
  ∀ p : ℝ[X], p.natDegree ≤ d → quad x w (fun t => p.eval t) = ∫ t in a..b, p.eval t

/-- `f` agrees with a polynomial of degree at most `d` inside every segment between neighbouring
edges (no condition at the edges themselves). -/
def PiecewisePoly (edges : List ℝ) (d : ℕ) (f : ℝ → ℝ) : Prop :=
  ∀ a b, Roots.Adjacent edges a b → ∃ p : ℝ[X], p.natDegree ≤ d ∧ ∀ t, a < t → t < b → f t = p.eval t

end Verif.Spec
