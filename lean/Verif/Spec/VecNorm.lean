import Verif.Spec.LeastSquares
import Mathlib.Data.Matrix.Mul
import Mathlib.Data.Real.Sqrt
/-! Euclidean norm of vectors and the bound it gives on matrices, for statements about errors. -/

namespace Verif.Spec
open Matrix

variable {𝕜 : Type} [RCLike 𝕜]

/-- Euclidean norm of a vector. -/
noncomputable def norm2 {ι : Type} [Fintype ι] (x : ι → 𝕜) : ℝ := Real.sqrt (sqNorm x)

/-- The matrix stretches no vector by more than `c`. -/
def OpLe {m n : ℕ} (B : Matrix (Fin m) (Fin n) 𝕜) (c : ℝ) : Prop := ∀ x, norm2 (B *ᵥ x) ≤ c * norm2 x

end Verif.Spec
