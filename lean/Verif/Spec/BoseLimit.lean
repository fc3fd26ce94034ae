import Verif.Spec.Kernel
/-! The regularised Bose kernel on the whole square. -/

namespace Verif.Spec

/-- The regularised Bose kernel, at `y = 0` its limit `1 / Λ`. -/
noncomputable def boseLim (lam x y : ℝ) : ℝ := if y = 0 then 1 / lam else boseK lam x y

end Verif.Spec
