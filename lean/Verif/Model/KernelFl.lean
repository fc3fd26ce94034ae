import Verif.Model.Kernel
/-!
# Model of the evaluation of the kernels in floating-point arithmetic (`src/sparse_ir/kernel.py`)

The same functions as in `Model/Kernel.lean`, for one point, with every arithmetic operation and every call of an
elementary function replaced by an operation of a given arithmetic, in the order in which the code performs them.
`abs`, the change of sign and comparisons are exact.
-/

namespace Verif.Kernel

/-- An arithmetic: the four operations and the elementary functions (`np.exp`, `np.expm1`, `np.sinh`, `np.cosh`). -/
structure Arith where
  add : ℝ → ℝ → ℝ
  sub : ℝ → ℝ → ℝ
  mul : ℝ → ℝ → ℝ
  div : ℝ → ℝ → ℝ
  exp : ℝ → ℝ
  expm1 : ℝ → ℝ
  sinh : ℝ → ℝ
  cosh : ℝ → ℝ

/-- Real arithmetic. -/
noncomputable def Arith.exact : Arith :=
  ⟨fun a b => a + b, fun a b => a - b, fun a b => a * b, fun a b => a / b, Real.exp, fun a => Real.exp a - 1,
    Real.sinh, Real.cosh⟩

/-- `kernel.py:521-529`, `_compute_uv`. -/
noncomputable def computeUVFl (A : Arith) (lam x y : ℝ) (xPlus xMinus : Option ℝ) : ℝ × ℝ × ℝ :=
  (A.mul 0.5 (xPlus.getD (A.add 1 x)), A.mul 0.5 (xMinus.getD (A.sub 1 x)), A.mul lam y)

/-- `kernel.py:170-182`, `LogisticKernel._compute`. -/
noncomputable def logisticComputeFl (A : Arith) (uPlus uMinus v : ℝ) : ℝ :=
  let absV := |v|
  let enum := A.exp (A.mul (-absV) (if v > 0 then uPlus else uMinus))
  let denom := A.add 1 (A.exp (-absV))
  A.div enum denom

/-- `kernel.py:271-291`, `RegularizedBoseKernel._compute`. -/
noncomputable def boseComputeFl (A : Arith) (lam uPlus uMinus v : ℝ) : ℝ :=
  let absV := |v|
  let enum := A.exp (A.mul (-absV) (if v ≥ 0 then uPlus else uMinus))
  let denom := if absV ≥ 1e-200 then A.div absV (A.expm1 (-absV)) else -1
  A.mul (A.mul (A.div (-1) lam) enum) denom

/-- `kernel.py:162-165`, `LogisticKernel.__call__` at a point of the domain. -/
noncomputable def logisticFl (A : Arith) (lam x y : ℝ) (xPlus xMinus : Option ℝ) : ℝ :=
  let q := computeUVFl A lam x y xPlus xMinus
  logisticComputeFl A q.1 q.2.1 q.2.2

/-- `kernel.py:266-269`, `RegularizedBoseKernel.__call__` at a point of the domain. -/
noncomputable def boseFl (A : Arith) (lam x y : ℝ) (xPlus xMinus : Option ℝ) : ℝ :=
  let q := computeUVFl A lam x y xPlus xMinus
  boseComputeFl A lam q.1 q.2.1 q.2.2

open Classical in
/-- `kernel.py:383-393`, `ReducedKernel.__call__` at a point of the domain, with `x_plus` given. -/
noncomputable def reducedFl (A : Arith) (inner : ℝ → ℝ → Option ℝ → Option ℝ → ℝ) (sign x y xPlus : ℝ)
    (xMinus : Option ℝ) : ℝ :=
  let xPlus := A.add 1 xPlus
  let kPlus := inner x y (some xPlus) xMinus
  let kMinus := inner x (-y) (some xPlus) xMinus
  if sign = 1 then A.add kPlus kMinus else A.sub kPlus kMinus

/-- `kernel.py:448-460`, `_LogisticKernelOdd.__call__`. -/
noncomputable def logisticOddFl (A : Arith) (lam sign x y xPlus : ℝ) (xMinus : Option ℝ) : ℝ :=
  let result := reducedFl A (logisticFl A lam) sign x y xPlus xMinus
  let vHalf := A.mul (A.div lam 2) y
  if A.mul x vHalf < 1 ∧ vHalf < 85 then A.div (-A.sinh (A.mul vHalf x)) (A.cosh vHalf) else result

/-- `kernel.py:471-485`, `_RegularizedBoseKernelOdd.__call__`. -/
noncomputable def boseOddFl (A : Arith) (lam sign x y xPlus : ℝ) (xMinus : Option ℝ) : ℝ :=
  let result := reducedFl A (boseFl A lam) sign x y xPlus xMinus
  let vHalf := A.mul (A.div lam 2) y
  let xvHalf := A.mul x vHalf
  if xvHalf < 1 ∧ vHalf > 1e-200 ∧ vHalf < 85 then A.div (A.mul (-y) (A.sinh xvHalf)) (A.sinh vHalf) else result

end Verif.Kernel
