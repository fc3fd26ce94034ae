import Verif.Py
import Verif.Np.Basic
import Mathlib.Analysis.SpecialFunctions.Log.Base
import Mathlib.Analysis.SpecialFunctions.Trigonometric.DerivHyp
/-!
# Model of `src/sparse_ir/kernel.py`

Exact real arithmetic.  Arrays are functions on an index type `ι` after broadcasting; what remains of
the shapes is whether the arguments are zero-dimensional, because numpy refuses zero-dimensional
results as `out=` argument (ufuncs return scalars, not arrays, for zero-dimensional input).  `x_plus`
and `x_minus` are taken to have the shape of `x`.  The domain check over IEEE values including NaN is
modelled in `Model/Domain.lean`.
-/

namespace Verif.Kernel
open Verif Verif.Np

variable {ι : Type}

/-- Arguments of a kernel call (`kernel.py:25`): `x`, `y`, `x_plus`, `x_minus`, and whether `x` and `y`
are zero-dimensional. -/
structure Args (ι : Type) where
  x : ι → ℝ
  y : ι → ℝ
  xPlus : Option (ι → ℝ)
  xMinus : Option (ι → ℝ)
  xScalar : Bool
  yScalar : Bool

/-- What the rest of the library sees of a kernel object: calling it and its properties `xrange`, `yrange`,
`is_centrosymmetric`. -/
structure KernelObj (ι : Type) where
  call : Args ι → PyM (ι → ℝ)
  xrange : ℝ × ℝ
  yrange : ℝ × ℝ
  centrosymmetric : Bool

open Classical in
/-- `kernel.py:497-508`, `_check_domain(kernel, x, y)` for finite values. -/
noncomputable def checkDomainR (xr yr : ℝ × ℝ) (x y : ι → ℝ) : PyM Unit :=
  if ¬ ((∀ i, x i ≥ xr.1) ∧ (∀ i, x i ≤ xr.2)) then .error .valueError
  else if ¬ ((∀ i, y i ≥ yr.1) ∧ (∀ i, y i ≤ yr.2)) then .error .valueError
  else .ok ()

/-- `kernel.py:521-529`, `_compute_uv`: `(u_plus, u_minus, v)` for one point. -/
noncomputable def computeUV (lam x y : ℝ) (xPlus xMinus : Option ℝ) : ℝ × ℝ × ℝ :=
  (0.5 * xPlus.getD (1 + x), 0.5 * xMinus.getD (1 - x), lam * y)

/-- `kernel.py:170-182`, `LogisticKernel._compute` for one point; `exp` is `np.exp`. -/
noncomputable def logisticCompute (exp : ℝ → ℝ) (uPlus uMinus v : ℝ) : ℝ :=
  let absV := |v|
  let enum := exp (-absV * (if v > 0 then uPlus else uMinus))
  let denom := 1 + exp (-absV)
  enum / denom

/-- `kernel.py:271-291`, `RegularizedBoseKernel._compute` for one point (for zero-dimensional `v` see
`bose`).  `expm1` is `np.expm1`. -/
noncomputable def boseCompute (exp expm1 : ℝ → ℝ) (lam uPlus uMinus v : ℝ) : ℝ :=
  let absV := |v|
  let enum := exp (-absV * (if v ≥ 0 then uPlus else uMinus))
  let denom := if absV ≥ 1e-200 then absV / expm1 (-absV) else -1;
  -1 / lam * enum * denom

/-- Point `i` of the evaluated argument arrays. -/
noncomputable def Args.uv (a : Args ι) (lam : ℝ) (i : ι) : ℝ × ℝ × ℝ :=
  computeUV lam (a.x i) (a.y i) (a.xPlus.map (· i)) (a.xMinus.map (· i))

/-- `kernel.py:138-186`, `LogisticKernel(lambda_)`; `exp` is `np.exp`. -/
noncomputable def logisticWith (exp : ℝ → ℝ) (lam : ℝ) : KernelObj ι where
  call a := match checkDomainR (-1, 1) (-1, 1) a.x a.y with
    | .error e => .error e
    | .ok _ => .ok fun i => logisticCompute exp (a.uv lam i).1 (a.uv lam i).2.1 (a.uv lam i).2.2
  xrange := (-1, 1)
  yrange := (-1, 1)
  centrosymmetric := true

/-- `kernel.py:138-186`, `LogisticKernel(lambda_)` with the exact exponential. -/
noncomputable def logistic (lam : ℝ) : KernelObj ι := logisticWith Real.exp lam

/-- `kernel.py:251-298`, `RegularizedBoseKernel(lambda_)`.  For zero-dimensional `y`, line 288 makes `denom`
a numpy scalar, and `np.divide(..., out=denom)` on line 289 raises TypeError.  (`lambda_ = 0` gives inf or
NaN; excluded in the theorems.) -/
noncomputable def boseWith (exp expm1 : ℝ → ℝ) (lam : ℝ) : KernelObj ι where
  call a := match checkDomainR (-1, 1) (-1, 1) a.x a.y with
    | .error e => .error e
    | .ok _ =>
      if a.yScalar then .error .typeError
      else .ok fun i => boseCompute exp expm1 lam (a.uv lam i).1 (a.uv lam i).2.1 (a.uv lam i).2.2
  xrange := (-1, 1)
  yrange := (-1, 1)
  centrosymmetric := true

/-- `RegularizedBoseKernel` with exact `exp` and `expm1`. -/
noncomputable def bose (lam : ℝ) : KernelObj ι := boseWith Real.exp (fun t => Real.exp t - 1) lam

open Classical in
/-- `kernel.py:383-393`, `ReducedKernel.__call__`.  Without `x_plus` line 389 computes `1 + None`. -/
noncomputable def reducedCall (inner : KernelObj ι) (sign : ℝ) (a : Args ι) : PyM (ι → ℝ) :=
  match checkDomainR (0, inner.xrange.2) (0, inner.yrange.2) a.x a.y with
  | .error e => .error e
  | .ok _ =>
    match a.xPlus with
    | none => .error .typeError
    | some xp =>
      let xp := fun i => 1 + xp i
      match inner.call { a with xPlus := some xp } with
      | .error e => .error e
      | .ok kp =>
        match inner.call { a with y := fun i => - a.y i, xPlus := some xp } with
        | .error e => .error e
        | .ok km => .ok fun i => if sign = 1 then kp i + km i else kp i - km i

open Classical in
/-- `kernel.py:374-403`, `ReducedKernel.__init__`, with the call behaviour `call` of the (sub)class. -/
noncomputable def reducedInit (inner : KernelObj ι) (sign : ℝ) (call : Args ι → PyM (ι → ℝ)) :
    PyM (KernelObj ι) :=
  if inner.centrosymmetric = false then .error .valueError
  else if |sign| ≠ 1 then .error .valueError
  else .ok ⟨call, (0, inner.xrange.2), (0, inner.yrange.2), false⟩

/-- `kernel.py:448-460`, `_LogisticKernelOdd.__call__`: where `x*v/2 < 1` and `v/2 < 85` the difference
is replaced by the closed form.  A zero-dimensional result cannot be used as `out=`. -/
noncomputable def logisticOddCall (inner : KernelObj ι) (lam sign : ℝ) (a : Args ι) : PyM (ι → ℝ) :=
  match reducedCall inner sign a with
  | .error e => .error e
  | .ok result =>
    if a.xScalar && a.yScalar then .error .typeError
    else .ok fun i =>
      let vHalf := lam / 2 * a.y i
      if a.x i * vHalf < 1 ∧ vHalf < 85 then
        -Real.sinh (vHalf * a.x i) / Real.cosh vHalf
      else result i

/-- `kernel.py:471-485`, `_RegularizedBoseKernelOdd.__call__`. -/
noncomputable def boseOddCall (inner : KernelObj ι) (lam sign : ℝ) (a : Args ι) : PyM (ι → ℝ) :=
  match reducedCall inner sign a with
  | .error e => .error e
  | .ok result =>
    if a.xScalar && a.yScalar then .error .typeError
    else .ok fun i =>
      let vHalf := lam / 2 * a.y i
      let xvHalf := a.x i * vHalf
      if xvHalf < 1 ∧ vHalf > 1e-200 ∧ vHalf < 85 then
        (-a.y i * Real.sinh xvHalf) / Real.sinh vHalf
      else result i

open Classical in
/-- `kernel.py:188-191`, `LogisticKernel.get_symmetrized(sign)`. -/
noncomputable def logisticSymmetrized (lam sign : ℝ) : PyM (KernelObj ι) :=
  if sign = -1 then reducedInit (logistic lam) sign (logisticOddCall (logistic lam) lam sign)
  else reducedInit (logistic lam) sign (reducedCall (logistic lam) sign)

open Classical in
/-- `kernel.py:300-303`, `RegularizedBoseKernel.get_symmetrized(sign)`. -/
noncomputable def boseSymmetrized (lam sign : ℝ) : PyM (KernelObj ι) :=
  if sign = -1 then reducedInit (bose lam) sign (boseOddCall (bose lam) lam sign)
  else reducedInit (bose lam) sign (reducedCall (bose lam) sign)

/-! ## Discretisation hints -/

/-- `np.cumsum` -/
noncomputable def cumsumFrom (s : ℝ) : List ℝ → List ℝ
  | [] => []
  | a :: l => (s + a) :: cumsumFrom (s + a) l

/-- `np.round` (to even) followed by `int`. -/
noncomputable def roundEven (x : ℝ) : ℤ :=
  let f := ⌊x⌋
  if x - f < 1 / 2 then f else if x - f > 1 / 2 then f + 1 else if f % 2 = 0 then f else f + 1

open Classical in
/-- `max(int(np.round(c * np.log10(lambda_))), m)` as on lines 221, 235, 329, 343.  `log10(0) = -inf` and
`int(-inf)` raises OverflowError, `int(nan)` ValueError. -/
noncomputable def nzerosOf (c : ℝ) (m : ℤ) (lam : ℝ) : PyM ℕ :=
  if lam = 0 then .error .overflowError
  else if lam < 0 then .error .valueError
  else .ok (max (roundEven (c * Real.logb 10 lam)) m).toNat

/-- `kernel.py:222-225` and `330-333`: symmetric grid on the `x` axis with `nzeros` positive points; `k` is
the constant in `1/cosh(k * arange(nzeros))`.  `zeros_pos[-1]` fails on an empty array. -/
noncomputable def gridX (k : ℝ) (nzeros : ℕ) : PyM (List ℝ) :=
  let diffs := (List.range nzeros).map fun j : ℕ => 1 / Real.cosh (k * (j : ℝ))
  let zeros := cumsumFrom 0 diffs
  match zeros.getLast? with
  | none => .error .indexError
  | some last =>
    let zeros := zeros.map (· / last)
    .ok (zeros.reverse.map (- ·) ++ [0] ++ zeros)

/-- `kernel.py:240-243` and `347-350`: grid on the `y` axis from the spacings `diffs`. -/
noncomputable def gridY (diffs : List ℝ) : PyM (List ℝ) :=
  let zeros := cumsumFrom 0 diffs
  match zeros.getLast? with
  | none => .error .indexError
  | some last =>
    let zeros := (zeros.dropLast.map (· / last)).map (· - 1)
    .ok ([-1] ++ zeros ++ [0] ++ zeros.reverse.map (- ·) ++ [1])

/-- `kernel.py:230-233` -/
noncomputable def leadingDiffs : List ℝ :=
  [0.01523, 0.03314, 0.04848, 0.05987, 0.06703, 0.07028, 0.07030,
   0.06791, 0.06391, 0.05896, 0.05358, 0.04814, 0.04288, 0.03795,
   0.03342, 0.02932, 0.02565, 0.02239, 0.01951, 0.01699]

/-- `kernel.py:236-239`: spacings for the logistic kernel: the first ones are tabulated. -/
noncomputable def logisticDiffs (nzeros : ℕ) : List ℝ :=
  let leading := if nzeros < 20 then leadingDiffs.take nzeros else leadingDiffs
  let diffs := (List.range nzeros).map fun i : ℕ => 0.25 / Real.exp (0.141 * (i : ℝ))
  leading ++ diffs.drop leading.length

/-- `kernel.py:220-225`, `_SVEHintsLogistic.segments_x`. -/
noncomputable def logisticSegX (lam : ℝ) : PyM (List ℝ) :=
  match nzerosOf 15 1 lam with
  | .error e => .error e
  | .ok n => gridX 0.143 n

/-- `kernel.py:228-243`, `_SVEHintsLogistic.segments_y`. -/
noncomputable def logisticSegY (lam : ℝ) : PyM (List ℝ) :=
  match nzerosOf 20 2 lam with
  | .error e => .error e
  | .ok n => gridY (logisticDiffs n)

/-- `kernel.py:327-333`, `_SVEHintsRegularizedBose.segments_x`. -/
noncomputable def boseSegX (lam : ℝ) : PyM (List ℝ) :=
  match nzerosOf 15 15 lam with
  | .error e => .error e
  | .ok n => gridX 0.18 n

/-- `kernel.py:336-350`, `_SVEHintsRegularizedBose.segments_y`. -/
noncomputable def boseSegY (lam : ℝ) : PyM (List ℝ) :=
  match nzerosOf 20 20 lam with
  | .error e => .error e
  | .ok n => gridY ((List.range n).map fun i : ℕ =>
      0.12 / Real.exp (0.0337 * (i : ℝ) * Real.log ((i : ℝ) + 1)))

open Classical in
/-- `kernel.py:511-518`, `_symm_segments(x)`. -/
noncomputable def symmSegments (x : List ℝ) : PyM (List ℝ) :=
  if ¬ (∀ p ∈ x.zip (x.reverse.map (- ·)), isClose p.1 p.2) then .error .valueError
  else
    let xpos := x.drop (x.length / 2)
    match xpos.head? with
    | none => .error .indexError
    | some h => if h ≠ 0 then .ok (0 :: xpos) else .ok xpos

open Classical in
/-- `kernel.py:217` and `324`, `ngauss`. -/
noncomputable def ngauss (eps : ℝ) : ℕ := if eps ≥ 1e-8 then 10 else 16

/-- `kernel.py:246-248`, `_SVEHintsLogistic.nsvals` for `lambda_ > 0`. -/
noncomputable def logisticNsvals (lam : ℝ) : ℤ :=
  let l := max 1 (Real.logb 10 lam)
  roundEven ((25 + l) * l)

/-- `kernel.py:353-355`, `_SVEHintsRegularizedBose.nsvals` for `lambda_ > 0` (`int` truncates). -/
noncomputable def boseNsvals (lam : ℝ) : ℤ :=
  let l := max 1 (Real.logb 10 lam)
  ⌊28 * l⌋

/-- `kernel.py:437`, `_SVEHintsReduced.nsvals`. -/
def reducedNsvals (inner : ℤ) : ℤ := (inner + 1) / 2

/-! ## Weight functions -/

/-- Python's `a in b` for strings: substring test. -/
def pyIn (a b : String) : Bool := b.toList.tails.any fun t => a.toList.isPrefixOf t

/-- `kernel.py:94-98`, `AbstractKernel.weight_func(statistics)`. -/
noncomputable def abstractWeight (statistics : String) : PyM (ℝ → ℝ) :=
  if pyIn statistics "FB" then .ok fun _ => 1 else .error .valueError

/-- `kernel.py:196-208`, `LogisticKernel.weight_func(statistics)`; the value at `y = 0` is inf for bosons
(in the model `1/0`, excluded in the theorems). -/
noncomputable def logisticWeight (lam : ℝ) (statistics : String) : PyM (ℝ → ℝ) :=
  if !pyIn statistics "FB" then .error .valueError
  else if statistics = "F" then .ok fun _ => 1
  else .ok fun y => 1 / Real.tanh (0.5 * lam * y)

/-- `kernel.py:311-315`, `RegularizedBoseKernel.weight_func(statistics)`. -/
noncomputable def boseWeight (statistics : String) : PyM (ℝ → ℝ) :=
  if statistics ≠ "B" then .error .valueError else .ok fun y => 1 / y

end Verif.Kernel
