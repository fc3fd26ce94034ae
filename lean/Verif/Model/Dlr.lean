import Verif.Model.FiniteTemp
import Verif.Model.Kernel
import Verif.Model.Sampling
import Verif.Model.Svd
import Mathlib.Analysis.SpecialFunctions.Trigonometric.Basic
/-!
# Model of `src/sparse_ir/dlr.py`

Arrays of times and frequencies are one-dimensional (`ravel_argument` is modelled in `Model/Ravel.lean`).  A complex
value which is not finite is represented by `none`.
-/

namespace Verif.Dlr
open Verif Verif.Np Verif.Poly Verif.FiniteTemp Verif.Sampling

/-- `dlr.py:150-154`, attributes of `TauPoles`. -/
structure TauPoles where
  statistics : String
  beta : ℝ
  poles : List ℝ
  wmax : ℝ

/-- `dlr.py:150-154`, `TauPoles.__init__(statistics, beta, poles)`: the maximum of an empty array is a ValueError. -/
noncomputable def tauPoles (statistics : String) (beta : ℝ) (poles : List ℝ) : PyM TauPoles :=
  match (poles.map fun w => |w|).max? with
  | none => .error .valueError
  | some wmax => .ok ⟨statistics, beta, poles, wmax⟩

/-- Arguments of the kernel call on `dlr.py:163-167`. -/
noncomputable def TauPoles.args (p : TauPoles) {t : ℕ} (tau : Fin t → ℝ) : Kernel.Args (Fin t × Fin p.poles.length) where
  x i := 2 * tau i.1 / p.beta - 1
  y i := p.poles.get i.2 / p.wmax
  xPlus := none
  xMinus := none
  xScalar := false
  yScalar := false

open Classical in
/-- `dlr.py:156-168`, `TauPoles.__call__(tau)`.  If `wmax` is zero, `y` is NaN and refused by the domain check of the
kernel; likewise `x` for zero `beta`. -/
noncomputable def TauPoles.call (p : TauPoles) {t : ℕ} (tau : Fin t → ℝ) : PyM (Fin p.poles.length → Fin t → ℝ) :=
  if (∃ i, tau i < 0) ∨ ∃ i, tau i > p.beta then .error .runtimeError
  else if p.wmax = 0 ∨ p.beta = 0 then .error .valueError
  else match (Kernel.logistic (p.beta * p.wmax)).call (p.args tau) with
    | .error e => .error e
    | .ok k => .ok fun i j => -k (j, i)

/-- `dlr.py:133-136`, attributes of `MatsubaraPoles`. -/
structure MatsubaraPoles where
  statistics : String
  beta : ℝ
  poles : List ℝ

/-- Complex division, `none` if the divisor is zero. -/
noncomputable def divC (a b : ℂ) : Option ℂ :=
  open Classical in if b = 0 then none else some (a / b)

/-- `dlr.py:138-146`, `MatsubaraPoles.__call__(n)` (for non-zero `beta`). -/
noncomputable def MatsubaraPoles.call (p : MatsubaraPoles) {t : ℕ} (n : Fin t → ℤ) :
    Fin p.poles.length → Fin t → Option ℂ := fun i j =>
  let iv : ℂ := Complex.I * n j * Real.pi / p.beta
  if p.statistics = "F" then divC 1 (iv - p.poles.get i)
  else divC (Real.tanh (0.5 * p.beta * p.poles.get i) : ℝ) (iv - p.poles.get i)

/-- `basis.v(poles)`, as matrix with one column per pole. -/
noncomputable def evalV (b : Basis) : (poles : List ℝ) → PyM (Matrix (Fin b.size) (Fin poles.length) ℝ)
  | [] => .ok fun _ i => i.elim0
  | w :: ws => match b.v.call w with
    | .error e => .error e
    | .ok v => match evalV b ws with
      | .error e => .error e
      | .ok rest => .ok fun l i => Fin.cases (v l) (fun i => rest l i) i

/-- `dlr.py:49`, the fitting matrix `-basis.s[:, None] * basis.v(poles)`. -/
noncomputable def fittingMatrix (b : Basis) (poles : List ℝ) : PyM (Matrix (Fin b.size) (Fin poles.length) ℝ) :=
  match evalV b poles with
  | .error e => .error e
  | .ok v => .ok fun l i => -b.s l * v l i

/-- `dlr.py:35-56`, attributes of `DiscreteLehmannRepresentation`. -/
structure DLR where
  basis : Basis
  poles : List ℝ
  u : TauPoles
  uhat : MatsubaraPoles
  matrix : DecMat ℂ basis.size poles.length

/-- `dlr.py:56`, the triple `(uF, sF, vF.T)`, as complex matrices. -/
noncomputable def tripleOf {m n : ℕ} (f : Svd.Factors ℝ m n) : Triple ℂ :=
  ⟨m, f.k, f.k, f.k, n, f.u.map Complex.ofReal, f.s, f.v.transpose.map Complex.ofReal⟩

/-- `dlr.py:35-56`, `DiscreteLehmannRepresentation.__init__(basis, sampling_points)`.  `defaultOmega` is
`basis.default_omega_sampling_points()`, `isLogistic` the test of the class of the kernel. -/
noncomputable def init (libs : Svd.Libs ℝ) (isLogistic : KernelInfo → Bool) (defaultOmega : PyM (List ℝ)) (b : Basis)
    (points : Option (List ℝ)) : PyM (DLR × List Svd.Warning) := do
  let poles ← match points with
    | some p => .ok p
    | none => defaultOmega
  if !isLogistic b.kernel then .error .valueError
  let u ← tauPoles b.statistics b.beta poles
  let F ← fittingMatrix b poles
  let (f, w) ← Svd.compute libs false F none "accurate"
  let matrix ← decompose (F.map Complex.ofReal) (tripleOf f)
  .ok (⟨b, poles, u, ⟨b.statistics, b.beta, poles⟩, matrix⟩, w)

namespace DLR

/-- `dlr.py:76`, `size` -/
def size (d : DLR) : ℕ := d.poles.length

/-- `dlr.py:103-110`, `from_IR(gl, axis=0)` -/
noncomputable def fromIR (d : DLR) (gl : NdArray ℂ) (axis : Option ℤ := some 0) : PyM (NdArray ℂ) :=
  d.matrix.lstsq gl axis

/-- `dlr.py:112-119`, `to_IR(g_dlr, axis=0)` -/
def toIR (d : DLR) (g : NdArray ℂ) (axis : Option ℤ := some 0) : PyM (NdArray ℂ) := d.matrix.matmulAxis g axis

end DLR

end Verif.Dlr
