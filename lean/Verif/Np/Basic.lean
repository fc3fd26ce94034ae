import Mathlib.Data.Real.Basic
/-! Small numpy primitives over the reals. -/

namespace Verif.Np

/-- `np.isclose(a, b)` with default tolerances (finite values): `|a - b| <= atol + rtol * |b|`. -/
def isClose (a b : ℝ) : Prop := |a - b| ≤ 1e-8 + 1e-5 * |b|

/-- `np.linspace(a, b, num, endpoint=False)` for scalars: `arange(num) * ((b - a)/num) + a`. -/
noncomputable def linspaceOpen (a b : ℝ) (num : ℕ) : List ℝ :=
  (List.range num).map fun i : ℕ => (i : ℝ) * ((b - a) / (num : ℝ)) + a

end Verif.Np
