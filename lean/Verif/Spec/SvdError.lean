import Verif.Model.Svd
/-! Singular value decompositions with an error. -/

namespace Verif.Props
open Verif Verif.Svd Matrix

/-- The Frobenius norm. -/
noncomputable def frob {m n : ℕ} (A : Matrix (Fin m) (Fin n) ℝ) : ℝ := Real.sqrt (∑ i, ∑ j, A i j ^ 2)

/-- The factors are a decomposition of a matrix that is close to `A`, relative to the norm of `A`. -/
structure NearSvd {m n : ℕ} (A : Matrix (Fin m) (Fin n) ℝ) (f : Factors ℝ m n) (δ : ℝ) : Prop where
  near : frob (A - f.u * Matrix.diagonal f.s * f.vᵀ) ≤ δ * frob A
  u_orth : f.uᵀ * f.u = 1
  v_orth : f.vᵀ * f.v = 1
  nonneg : ∀ i, 0 ≤ f.s i
  anti : Antitone f.s

end Verif.Props
