import Mathlib.Analysis.SpecialFunctions.Trigonometric.Basic
import Mathlib.Analysis.SpecialFunctions.Integrals.Basic
/-! The Fourier integral that `uhat` stands for. -/

namespace Verif.Spec
open Complex

/-- `(1/√2) ∫_{-1}^{1} e^{iπn(x+1)/2} f(x) dx` -/
noncomputable def ft (f : ℝ → ℝ) (n : ℤ) : ℂ :=
  1 / (Real.sqrt 2 : ℂ) * ∫ x in (-1 : ℝ)..1, exp (I * Real.pi * n * (x + 1) / 2) * (f x : ℂ)

/-- `∫_0^β e^{iπnτ/β} u(τ) dτ`, the Fourier transform in imaginary time at reduced frequency `n`. -/
noncomputable def ftTau (beta : ℝ) (u : ℝ → ℝ) (n : ℤ) : ℂ :=
  ∫ t in (0 : ℝ)..beta, exp (I * Real.pi * n * t / beta) * (u t : ℂ)

end Verif.Spec
