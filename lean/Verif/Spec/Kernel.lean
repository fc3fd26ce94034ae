import Mathlib.Analysis.SpecialFunctions.ExpDeriv
/-! Integral kernels as written in the literature. -/

namespace Verif.Spec

/-- Logistic kernel `exp(-Λ y (x+1)/2) / (1 + exp(-Λ y))`. -/
noncomputable def logisticK (lam x y : ℝ) : ℝ :=
  Real.exp (-lam * y * (x + 1) / 2) / (1 + Real.exp (-lam * y))

/-- Regularised Bose kernel for `y ≠ 0`: `y exp(-Λ y (x+1)/2) / (1 - exp(-Λ y))`. -/
noncomputable def boseK (lam x y : ℝ) : ℝ :=
  y * Real.exp (-lam * y * (x + 1) / 2) / (1 - Real.exp (-lam * y))

end Verif.Spec
