import Verif.Model.SveCompute
import Verif.Model.KernelFl
/-!
# Model of `sve.compute` for kernels evaluated in floating-point arithmetic

As `logisticKern` and `boseKern` of `Model/SveCompute.lean`, with the values of the kernels as computed in a given arithmetic
(`Model/KernelFl.lean`).  The nodes and weights of the quadrature and the factors `sqrt(w)` are left exact.
-/

namespace Verif.SveCompute
open Verif Verif.Np Verif.Kernel Verif.Sve Verif.FiniteTemp

variable {ι : Type}

/-- `kernel.py:138-186`, `LogisticKernel(lambda_)`. -/
noncomputable def logisticObjFl (A : Arith) (lam : ℝ) : KernelObj ι where
  call a := match checkDomainR (-1, 1) (-1, 1) a.x a.y with
    | .error e => .error e
    | .ok _ => .ok fun i => logisticFl A lam (a.x i) (a.y i) (a.xPlus.map (· i)) (a.xMinus.map (· i))
  xrange := (-1, 1)
  yrange := (-1, 1)
  centrosymmetric := true

/-- `kernel.py:383-393`, `ReducedKernel.__call__`, for values `call x y x_plus x_minus` at the points. -/
noncomputable def reducedCallFl (call : ℝ → ℝ → ℝ → Option ℝ → ℝ) (a : Args ι) : PyM (ι → ℝ) :=
  match checkDomainR (0, 1) (0, 1) a.x a.y with
  | .error e => .error e
  | .ok _ => match a.xPlus with
    | none => .error .typeError
    | some p => .ok fun i => call (a.x i) (a.y i) (p i) (a.xMinus.map (· i))

/-- `kernel.py:448-460`, `_LogisticKernelOdd.__call__` (as `logisticOddCall`). -/
noncomputable def oddCallFl (call : ℝ → ℝ → ℝ → Option ℝ → ℝ) (a : Args ι) : PyM (ι → ℝ) :=
  match reducedCallFl call a with
  | .error e => .error e
  | .ok k => if a.xScalar && a.yScalar then .error .typeError else .ok k

open Classical in
/-- `kernel.py:188-191`, `LogisticKernel.get_symmetrized(sign)`. -/
noncomputable def logisticSymmetrizedFl (A : Arith) (lam sign : ℝ) : PyM (KernelObj ι) :=
  if sign = -1 then reducedInit (logisticObjFl A lam) sign (oddCallFl (logisticOddFl A lam sign))
  else reducedInit (logisticObjFl A lam) sign (reducedCallFl (reducedFl A (logisticFl A lam) sign))

/-- `LogisticKernel(lambda_)` as `compute` uses it. -/
noncomputable def logisticKernFl (A : Arith) (lam : ℝ) : Kern where
  full := ⟨fun _ => .ok (logisticObjFl A lam), logisticHints lam⟩
  centro := (logisticObjFl (ι := Unit) A lam).centrosymmetric
  symmetrized sign := ⟨fun _ => logisticSymmetrizedFl A lam sign, fun eps => reducedHints (logisticHints lam eps)⟩

/-- `kernel.py:251-298`, `RegularizedBoseKernel(lambda_)` (as `boseWith`). -/
noncomputable def boseObjFl (A : Arith) (lam : ℝ) : KernelObj ι where
  call a := match checkDomainR (-1, 1) (-1, 1) a.x a.y with
    | .error e => .error e
    | .ok _ =>
      if a.yScalar then .error .typeError
      else .ok fun i => boseFl A lam (a.x i) (a.y i) (a.xPlus.map (· i)) (a.xMinus.map (· i))
  xrange := (-1, 1)
  yrange := (-1, 1)
  centrosymmetric := true

/-- `kernel.py:383-393` and `471-485`, `ReducedKernel.__call__` and `_RegularizedBoseKernelOdd.__call__`: the inner kernel
does not accept zero-dimensional `y`. -/
noncomputable def boseCallFl (call : ℝ → ℝ → ℝ → Option ℝ → ℝ) (a : Args ι) : PyM (ι → ℝ) :=
  match reducedCallFl call a with
  | .error e => .error e
  | .ok k => if a.yScalar then .error .typeError else .ok k

open Classical in
/-- `kernel.py:300-303`, `RegularizedBoseKernel.get_symmetrized(sign)`. -/
noncomputable def boseSymmetrizedFl (A : Arith) (lam sign : ℝ) : PyM (KernelObj ι) :=
  if sign = -1 then reducedInit (boseObjFl A lam) sign (boseCallFl (boseOddFl A lam sign))
  else reducedInit (boseObjFl A lam) sign (boseCallFl (reducedFl A (boseFl A lam) sign))

/-- `RegularizedBoseKernel(lambda_)` as `compute` uses it. -/
noncomputable def boseKernFl (A : Arith) (lam : ℝ) : Kern where
  full := ⟨fun _ => .ok (boseObjFl A lam), boseHints lam⟩
  centro := (boseObjFl (ι := Unit) A lam).centrosymmetric
  symmetrized sign := ⟨fun _ => boseSymmetrizedFl A lam sign, fun eps => reducedHints (boseHints lam eps)⟩

/-- `basis.py:57-58`, `sve.compute(kernel, eps)`, with the kernel in the arithmetic `A`. -/
noncomputable def computeOfFl (A : Arith) (env : Env) (k : KernelInfo) (eps : Option ℝ) : PyM SveResult :=
  match k.lambda with
  | none => .error .attributeError
  | some lam => compute env (if k.ypower = 0 then logisticKernFl A lam else boseKernFl A lam) (eps.map .real) none none none
      none none none

end Verif.SveCompute
