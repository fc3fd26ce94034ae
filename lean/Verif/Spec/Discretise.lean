import Verif.Spec.Quadrature
/-! What it means that functions are resolved by Gauss nodes on a grid. -/

namespace Verif.Spec

/-- The nodes and weights are exact for piecewise polynomials of degree `2n - 2` on the grid. -/
structure ExactOn (g : List ℝ) (n : ℕ) {X : Type} [Fintype X] (x w : X → ℝ) : Prop where
  wpos : ∀ i, 0 ≤ w i
  inside : ∀ i, |x i| ≤ 1
  exact : ∀ f, PiecewisePoly g (2 * n - 2) f → ∑ i, w i * f (x i) = ∫ t in (-1 : ℝ)..1, f t

/-- `f` is close to a piecewise polynomial of degree `n - 1`. -/
def Near (g : List ℝ) (n : ℕ) (ε : ℝ) (f : ℝ → ℝ) : Prop :=
  ∃ q, PiecewisePoly g (n - 1) q ∧ ∀ t, |t| ≤ 1 → |f t - q t| ≤ ε

end Verif.Spec
