import Mathlib.Analysis.RCLike.Basic
import Mathlib.LinearAlgebra.Matrix.ConjTranspose
import Mathlib.Data.Matrix.Mul
/-! Specification: thin singular value decompositions and least-squares solutions. -/

namespace Verif.Spec
open Matrix

variable {𝕜 : Type*} [RCLike 𝕜]

/-- Squared Euclidean norm. -/
noncomputable def sqNorm {ι : Type*} [Fintype ι] (x : ι → 𝕜) : ℝ := ∑ i, ‖x i‖ ^ 2

/-- `A = (u * s) @ vH` with orthonormal columns of `u`, orthonormal rows of `vH`, and singular values which are
non-negative and do not increase. -/
structure IsThinSvd {m n k : ℕ} (A : Matrix (Fin m) (Fin n) 𝕜) (u : Matrix (Fin m) (Fin k) 𝕜) (s : Fin k → ℝ)
    (vH : Matrix (Fin k) (Fin n) 𝕜) : Prop where
  u_orth : uᴴ * u = 1
  v_orth : vH * vHᴴ = 1
  nonneg : ∀ i, 0 ≤ s i
  anti : Antitone s
  eq : A = u * Matrix.diagonal (fun i => (s i : 𝕜)) * vH

/-- `y` minimises `‖A y - x‖`, and has the smallest norm of all minimisers. -/
def IsLeastSquares {m n : ℕ} (A : Matrix (Fin m) (Fin n) 𝕜) (x : Fin m → 𝕜) (y : Fin n → 𝕜) : Prop :=
  (∀ y', sqNorm (A *ᵥ y - x) ≤ sqNorm (A *ᵥ y' - x)) ∧
  ∀ y', sqNorm (A *ᵥ y' - x) = sqNorm (A *ᵥ y - x) → sqNorm y ≤ sqNorm y'

end Verif.Spec
