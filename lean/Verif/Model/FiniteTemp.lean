import Verif.Model.Sve
import Verif.Model.PolyFT
import Verif.Model.BasisPoints
import Mathlib.Data.List.FinRange
/-!
# Model of `src/sparse_ir/basis.py`, class `FiniteTempBasis`, and of `src/sparse_ir/basis_set.py`

Exact real arithmetic, except that the product `beta * wmax` and the quotient `lambda / new_beta`, which
decide about the consistency check of the kernel, are computed by given functions (rounded in the code).
The singular value expansion itself (`sve.compute`) is a parameter.
-/

namespace Verif.FiniteTemp
open Verif Verif.Np Verif.Poly Verif.Sve Verif.Kernel

/-- The two floating-point operations which decide about control flow. -/
structure Fp where
  mul : ℝ → ℝ → ℝ
  div : ℝ → ℝ → ℝ

/-- Exact arithmetic. -/
noncomputable def Fp.exact : Fp := ⟨fun a b => a * b, fun a b => a / b⟩

/-- What `basis.py` uses of a kernel object: `lambda_` (may be missing) and `ypower`. -/
structure KernelInfo where
  lambda : Option ℝ
  ypower : ℤ

/-- `kernel.py:159-160` with `ypower` of line 79. -/
def logisticInfo (lam : ℝ) : KernelInfo := ⟨some lam, 0⟩
/-- `kernel.py:263-264` with `ypower` of line 306. -/
def boseInfo (lam : ℝ) : KernelInfo := ⟨some lam, 1⟩

/-- `sve.py:117-125`, attributes of `SVEResult`. -/
structure SveResult where
  n : ℕ
  u : PPoly (Fin n)
  s : Fin n → ℝ
  v : PPoly (Fin n)
  eps : Option ℝ

/-- `sve.py:127-136`, `SVEResult.part`: the indices kept (of the first sequence; the three sequences are cut
in the same way). -/
noncomputable def SveResult.part (r : SveResult) (eps : Option ℝ) (maxSize : Option ℤ) :
    PyM (List (Fin r.n)) :=
  (Sve.part (List.finRange r.n) (List.ofFn r.s) (List.finRange r.n) r.eps eps maxSize).map (·.1)

/-- `basis.py:43-91`, attributes of `FiniteTempBasis`. -/
structure Basis where
  statistics : String
  beta : ℝ
  wmax : ℝ
  kernel : KernelInfo
  sve : SveResult
  size : ℕ
  accuracy : ℝ
  u : PPoly (Fin size)
  v : PPoly (Fin size)
  s : Fin size → ℝ
  uhatFull : PFT (Fin sve.n)
  uhat : PFT (Fin size)

open Classical in
/-- `basis.py:315-329`, `_get_kernel(statistics, lambda_, kernel)`.  `np.allclose(a, b, atol=0, rtol=4e-16)` is
`|a - b| <= 4e-16 * |b|`. -/
noncomputable def getKernel (statistics : String) (lam : ℝ) (kernel : Option KernelInfo) : PyM KernelInfo :=
  if !pyIn statistics "BF" then .error .valueError
  else match kernel with
    | none => .ok (logisticInfo lam)
    | some k => match k.lambda with
      | none => .ok k
      | some lk => if |lk - lam| ≤ 4e-16 * |lam| then .ok k else .error .valueError

open Classical in
/-- `basis.py:66-69`: `accuracy`. -/
noncomputable def accuracyOf (r : SveResult) (idx : List (Fin r.n)) : PyM ℝ :=
  match idx.head?, idx.getLast? with
  | some i0, some last =>
    if r.s i0 = 0 then .error .nanResult
    else if h : idx.length < r.n then .ok (r.s ⟨idx.length, h⟩ / r.s i0)
    else .ok (r.s last / r.s i0)
  | _, _ => .error .indexError

/-- `basis.py:74-75`: polynomials with knots mapped by `k` and widths scaled by `c`. -/
noncomputable def rescaled {κ : Type} (p : PPoly κ) (k : ℝ → ℝ) (c : ℝ) : PyM (PPoly κ) :=
  PPoly.ctor p.nseg p.polyorder p.coef ((List.ofFn p.knots).map k) (some fun i => c * p.dx i) (some p.symm)

/-- `basis.py:88`: `{'F': 'odd', 'B': 'even'}[statistics]`. -/
def freqOf (statistics : String) : PyM Freq :=
  if statistics = "F" then .ok .odd else if statistics = "B" then .ok .even else .error .keyError

open Classical in
/-- `basis.py:80`: the factor `sqrt(beta/2 * wmax) * wmax**(-ypower)` of the singular values. -/
noncomputable def sScale (beta wmax : ℝ) (ypower : ℤ) : PyM ℝ :=
  if wmax = 0 ∧ 0 < ypower then .error .zeroDivisionError
  else .ok (Real.sqrt (beta / 2 * wmax) * wmax ^ (-ypower))

/-- `basis.py:84-86`: the polynomials whose Fourier transforms are taken, scaled by `sqrt(beta)`. -/
noncomputable def uhatBase (beta : ℝ) (u : PPoly κ) : PPoly κ :=
  { u with coef := fun i l => (u.coef i l).map (Real.sqrt beta * ·) }

/-- `basis.py:57-58`: a given expansion is used as it is (it is not compared with the kernel). -/
def getSve (compute : KernelInfo → Option ℝ → PyM SveResult) (k : KernelInfo) (eps : Option ℝ) :
    Option SveResult → PyM SveResult
  | none => compute k eps
  | some r => .ok r

/-- `kernel.lambda_`, AttributeError if missing (line 87). -/
def KernelInfo.getLambda (k : KernelInfo) : PyM ℝ :=
  match k.lambda with
  | none => .error .attributeError
  | some l => .ok l

open Classical in
/-- `basis.py:43-91`, `FiniteTempBasis.__init__`.  `compute` is `sve.compute(kernel, eps)`. -/
noncomputable def init (fp : Fp) (compute : KernelInfo → Option ℝ → PyM SveResult) (statistics : String)
    (beta wmax : ℝ) (eps : Option ℝ) (maxSize : Option ℤ) (kernel : Option KernelInfo)
    (sveResult : Option SveResult) : PyM Basis :=
  if ¬ beta > 0 then .error .valueError
  else if ¬ wmax ≥ 0 then .error .valueError
  else do
    let kernel ← getKernel statistics (fp.mul beta wmax) kernel
    let r ← getSve compute kernel eps sveResult
    let idx ← r.part eps maxSize
    let accuracy ← accuracyOf r idx
    let u ← rescaled (r.u.select idx.get) (fun t => beta / 2 * (t + 1)) (beta / 2)
    let v ← rescaled (r.v.select idx.get) (fun t => wmax * t) wmax
    let scale ← sScale beta wmax kernel.ypower
    let lam ← kernel.getLambda
    let freq ← freqOf statistics
    let uhatFull ← PFT.ctor (fun l => l.1) (uhatBase beta r.u) freq (some (40 * lam)) none
    let uhat ← uhatFull.select (fun l => l.1) idx.get
    .ok ⟨statistics, beta, wmax, kernel, r, idx.length, accuracy, u, v, fun l => scale * r.s (idx.get l),
      uhatFull, uhat⟩

/-- An index expression `basis[...]`: a slice with optional integer bounds, or anything else. -/
inductive PyIndex
  | slice (start stop step : Option ℤ)
  | other

/-- `basis.py:332-339`, `_slice_to_size(index)`. -/
def sliceToSize : PyIndex → PyM (Option ℤ)
  | .other => .error .valueError
  | .slice start stop step =>
    if start ≠ none ∧ start ≠ some 0 then .error .valueError
    else if step ≠ none ∧ step ≠ some 1 then .error .valueError
    else .ok stop

namespace Basis

/-- `basis.py:93-97`, `__getitem__`. -/
noncomputable def getitem (fp : Fp) (compute : KernelInfo → Option ℝ → PyM SveResult) (b : Basis)
    (index : PyIndex) : PyM Basis := do
  let stop ← sliceToSize index
  init fp compute b.statistics b.beta b.wmax none stop (some b.kernel) (some b.sve)

/-- `basis.py:199-209`, `rescale(new_beta)`. -/
noncomputable def rescale (fp : Fp) (compute : KernelInfo → Option ℝ → PyM SveResult) (b : Basis)
    (newBeta : ℝ) : PyM Basis :=
  match b.kernel.lambda with
  | none => .error .attributeError
  | some lam =>
    if newBeta = 0 then .error .zeroDivisionError
    else init fp compute b.statistics newBeta (fp.div lam newBeta) none (some b.size) (some b.kernel)
      (some b.sve)

/-- `basis.py:109`, `lambda_` -/
def lambda (fp : Fp) (b : Basis) : ℝ := fp.mul b.beta b.wmax

open Classical in
/-- `basis.py:156-157`, `significance = s / s[0]`. -/
noncomputable def significance (b : Basis) : PyM (Fin b.size → ℝ) :=
  if h : 0 < b.size then
    if b.s ⟨0, h⟩ = 0 then .error .nanResult else .ok fun l => b.s l / b.s ⟨0, h⟩
  else .error .indexError

/-- `basis.py:172-176`, `default_tau_sampling_points(npoints)`, with the flag of the warning; `F` and `G` are
the float values seen by the root search of `sve_result.u`. -/
noncomputable def defaultTau (b : Basis) (eps : ℝ) (F : Fin b.sve.n → ℝ → FVal ℝ) (G : ℝ → FVal ℝ)
    (npoints : Option ℕ) : Option (PyM (List ℝ × Bool)) :=
  (Verif.Basis.defaultPoints b.sve.u eps F G (npoints.getD b.size)).map fun r =>
    r.map fun q => (Verif.Basis.scaleTau b.beta q.1, q.2)

/-- `basis.py:185-197`, `default_omega_sampling_points(npoints)`. -/
noncomputable def defaultOmega (b : Basis) (eps : ℝ) (F : Fin b.sve.n → ℝ → FVal ℝ) (G : ℝ → FVal ℝ)
    (npoints : Option ℕ) : Option (PyM (List ℝ × Bool)) :=
  (Verif.Basis.defaultPoints b.sve.v eps F G (npoints.getD b.size)).map fun r =>
    r.map fun q => (Verif.Basis.scaleOmega b.wmax q.1, q.2)

/-- `basis.py:178-183`, `default_matsubara_sampling_points(npoints, positive_only)`. -/
noncomputable def defaultMatsubara (b : Basis) (F : Fin b.sve.n → ℤ → FVal ℝ) (npoints : Option ℕ)
    (positiveOnly : Bool) : Option (PyM (List ℤ × Bool)) :=
  Verif.Basis.defaultMatsubara b.uhatFull F (npoints.getD b.size) false positiveOnly

end Basis

/-- `basis.py:212-225`, `finite_temp_bases(beta, wmax, eps, sve_result)`; also `basis_set.py:35-44`, which
passes a given `sve_result` on in the same way. -/
noncomputable def finiteTempBases (fp : Fp) (compute : KernelInfo → Option ℝ → PyM SveResult)
    (beta wmax : ℝ) (eps : Option ℝ) (sveResult : Option SveResult) : PyM (Basis × Basis) := do
  let r ← getSve compute (logisticInfo (fp.mul beta wmax)) eps sveResult
  let bf ← init fp compute "F" beta wmax eps none none (some r)
  let bb ← init fp compute "B" beta wmax eps none none (some r)
  .ok (bf, bb)

/-- `basis.py:45-48` over IEEE values: the checks of `beta` and `wmax`. -/
def checkParams (beta wmax : IEEE) : PyM Unit :=
  if !(beta.gt (.fin 0)) then .error .valueError
  else if !(wmax.ge (.fin 0)) then .error .valueError
  else .ok ()

end Verif.FiniteTemp
