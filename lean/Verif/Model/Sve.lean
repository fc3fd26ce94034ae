import Verif.Model.Poly
import Verif.Model.Gauss
import Verif.Model.Kernel
import Mathlib.Data.Sign.Basic
import Mathlib.Data.List.Sort
import Mathlib.Data.Fin.Tuple.Basic
/-!
# Model of `src/sparse_ir/sve.py`

Exact real arithmetic.  A matrix whose columns belong to singular values is the list (or function) of its
columns.  `astype` and `dtype` arguments only change the number format and are not modelled.
-/

namespace Verif.Sve
open Verif Verif.Np Verif.Poly Verif.Gauss Verif.Kernel

/-! ## Truncation -/

/-- A Python number as far as `_truncate` distinguishes integers from floats. -/
inductive PyNum
  | int (n : ℤ)
  | float (x : ℝ)

/-- The value of a number. -/
def PyNum.val : PyNum → ℝ
  | .int n => n
  | .float x => x

/-- One entry of the lists `u`, `s`, `v` in `compute`: left vectors (columns), singular values, right vectors. -/
structure Block (α β : Type) where
  u : List α
  s : List ℝ
  v : List β

/-- `x[:k]` for a Python integer `k` (`k < 0` counts from the end). -/
def pyTake {α : Type _} (k : ℤ) (l : List α) : List α :=
  if 0 ≤ k then l.take k.toNat else l.take (l.length + k).toNat

open Classical in
/-- `sve.py:375-377`, `cutoff = max(cutoff, ssort[sall.size - lmax - 1])`: an array cannot be indexed by a
float. -/
noncomputable def lmaxCutoff (ssort : List ℝ) (cutoff : ℝ) : Option PyNum → PyM ℝ
  | none => .ok cutoff
  | some (.float x) => if x < ssort.length then .error .indexError else .ok cutoff
  | some (.int k) =>
    if k < ssort.length then
      match ssort[(ssort.length - k - 1).toNat]? with
      | none => .error .indexError
      | some c => .ok (max cutoff c)
    else .ok cutoff

open Classical in
/-- `sve.py:353-385`, `_truncate(u, s, v, rtol, lmax)`.  (`np.hstack(())` and `ssort[-1]` raise for no
singular values at all; the former ValueError, the latter IndexError.) -/
noncomputable def truncate {α β : Type} (blocks : List (Block α β)) (rtol : ℝ) (lmax : Option PyNum) :
    PyM (List (Block α β)) :=
  if ∃ k ∈ lmax, k.val < 0 ∨ (truncR k.val : ℝ) ≠ k.val then .error .valueError
  else if ¬ (0 ≤ rtol ∧ rtol ≤ 1) then .error .valueError
  else if blocks = [] then .error .valueError
  else
    let sall := (blocks.map (·.s)).flatten
    let ssort := sall.mergeSort
    match ssort.getLast? with
    | none => .error .indexError
    | some top =>
      match lmaxCutoff ssort (rtol * top) lmax with
      | .error e => .error e
      | .ok cutoff => .ok (blocks.map fun b =>
          let count := b.s.countP (fun t => decide (t > cutoff))
          ⟨b.u.take count, b.s.take count, b.v.take count⟩)
where
  /-- `int(x)`, truncation towards zero -/
  truncR (x : ℝ) : ℤ := if 0 ≤ x then ⌊x⌋ else ⌈x⌉

open Classical in
/-- `sve.py:127-136`, `SVEResult.part(eps, max_size)` on the three sequences.  `None * float` raises
TypeError. -/
noncomputable def part {α β : Type} (u : List α) (s : List ℝ) (v : List β) (selfEps eps : Option ℝ)
    (maxSize : Option ℤ) : PyM (List α × List ℝ × List β) :=
  match (eps.or selfEps), s.head? with
  | _, none => .error .indexError
  | none, some _ => .error .typeError
  | some eps, some s0 =>
    let cut : ℤ := s.countP (fun t => decide (t ≥ eps * s0))
    let cut : ℤ := match maxSize with
      | none => cut
      | some m => if m < cut then m else cut
    if cut = s.length then .ok (u, s, v) else .ok (pyTake cut u, pyTake cut s, pyTake cut v)

/-! ## Sampling SVE -/

/-- The hints `K.sve_hints(eps)` a kernel gives. -/
structure Hints where
  ngauss : ℕ
  nsvals : ℤ
  segX : PyM (List ℝ)
  segY : PyM (List ℝ)

/-- `sve.py:162-177`, the attributes of `SamplingSVE`. -/
structure Sampling where
  nGauss : ℕ
  nsvals : ℤ
  rule : Rule
  segX : List ℝ
  segY : List ℝ
  gaussX : Rule
  gaussY : Rule

/-- `sve.py:162-177`, `SamplingSVE.__init__`; `legendre` is `_gauss.legendre`. -/
noncomputable def samplingInit (legendre : ℕ → PyM Rule) (h : Hints) (nGauss : Option ℕ) : PyM Sampling :=
  let n := nGauss.getD h.ngauss
  match legendre n with
  | .error e => .error e
  | .ok rule => match h.segX with
    | .error e => .error e
    | .ok segX => match h.segY with
      | .error e => .error e
      | .ok segY => match rule.piecewise segX with
        | .error e => .error e
        | .ok gx => match rule.piecewise segY with
          | .error e => .error e
          | .ok gy => .ok ⟨n, h.nsvals, rule, segX, segY, gx, gy⟩

/-- `kernel.py:488-494`, `matrix_from_gauss(kernel, gauss_x, gauss_y)`: the arguments of the kernel call
(two-dimensional arrays).  `x_forward` and `x_backward` have the length of `x` for all rules of
`_gauss.py`. -/
noncomputable def gaussArgs (gx gy : Rule) : Args (Fin gx.x.length × Fin gy.x.length) where
  x i := gx.x.get i.1
  y i := gy.x.get i.2
  xPlus := some fun i => (gx.xForward[i.1.1]?).getD 0
  xMinus := some fun i => (gx.xBackward[i.1.1]?).getD 0
  xScalar := false
  yScalar := false

/-- `sve.py:180-184`, `SamplingSVE.matrices`: row `i.1`, column `i.2`. -/
noncomputable def matrix (sv : Sampling)
    (K : KernelObj (Fin sv.gaussX.x.length × Fin sv.gaussY.x.length)) :
    PyM (Fin sv.gaussX.x.length × Fin sv.gaussY.x.length → ℝ) :=
  match K.call (gaussArgs sv.gaussX sv.gaussY) with
  | .error e => .error e
  | .ok k => .ok fun i => k i * Real.sqrt ((sv.gaussX.w[i.1.1]?).getD 0) *
      Real.sqrt ((sv.gaussY.w[i.2.1]?).getD 0)

/-- Matrix (list of rows) times vector. -/
noncomputable def matMul (m : List (List ℝ)) (x : List ℝ) : List ℝ :=
  m.map fun row => (List.zipWith (· * ·) row x).sum

/-- Row `i` of `x.reshape(-1, n)`. -/
def chunk (n i : ℕ) (x : List ℝ) : List ℝ := (x.drop (i * n)).take n

open Classical in
/-- `sve.py:194-210` for one of the two sets of vectors `u` (columns): Legendre coefficients of every segment
and the piecewise polynomial.  Weights that are not positive give inf or NaN. -/
noncomputable def singularFunctions {κ : Type} (n : ℕ) (cmat : List (List ℝ)) (segs w : List ℝ)
    (u : κ → List ℝ) : PyM (PPoly κ) :=
  if ∃ t ∈ w, t ≤ 0 then .error .nanResult
  else if ∃ l, (u l).length ≠ (segs.length - 1) * n then .error .valueError
  else
    let ux := fun l => List.zipWith (fun a t => a / Real.sqrt t) (u l) w
    PPoly.ctor (segs.length - 1) n
      (fun i l => (matMul cmat (chunk n i (ux l))).map
        (· * Real.sqrt (0.5 * ((segs[i.1 + 1]?).getD 0 - (segs[i.1]?).getD 0))))
      segs none none

open Classical in
/-- `sve.py:340-350`, `_canonicalize(ulx, vly)`.  A function that vanishes at 1 gets infinite or NaN
coefficients. -/
noncomputable def canonicalize {κ : Type} (u v : PPoly κ) : PyM (PPoly κ × PPoly κ) :=
  match u.call 1 with
  | .error e => .error e
  | .ok val =>
    if ∃ l, val l = 0 then .error .nanResult
    else
      let gauge := fun l => ((SignType.sign (val l) : SignType) : ℝ)
      .ok ({ u with coef := fun i l => (u.coef i l).map (· * (1 / gauge l)) },
           { v with coef := fun i l => (v.coef i l).map (· * gauge l) })

/-- `sve.py:117-125`, the attributes `u`, `s`, `v` of `SVEResult`. -/
structure Result (κ : Type) where
  u : PPoly κ
  s : κ → ℝ
  v : PPoly κ

/-- `sve.py:186-216`, `SamplingSVE.postprocess(u, s, v)`. -/
noncomputable def postprocess {κ : Type} (sv : Sampling) (u : κ → List ℝ) (s : κ → ℝ) (v : κ → List ℝ) :
    PyM (Result κ) :=
  match legendreCollocation sv.rule none with
  | .error e => .error e
  | .ok cmat =>
    match singularFunctions sv.nGauss cmat sv.segX sv.gaussX.w u with
    | .error e => .error e
    | .ok ulx => match singularFunctions sv.nGauss cmat sv.segY sv.gaussY.w v with
      | .error e => .error e
      | .ok vly => match canonicalize ulx vly with
        | .error e => .error e
        | .ok (ulx, vly) => .ok ⟨ulx, s, vly⟩

/-! ## Even and odd parts -/

/-- `data[:, i, l]` as list; out of range: empty. -/
def coefAt {κ : Type} (p : PPoly κ) (i : ℕ) (l : κ) : List ℝ :=
  if h : i < p.nseg then p.coef ⟨i, h⟩ l else []

/-- `sve.py:267-279`: entries `sort` of the concatenation of an even and an odd sequence. -/
def merged {α : Type} {ke ko : ℕ} (even : Fin ke → α) (odd : Fin ko → α)
    (sort : Fin (ke + ko) → Fin (ke + ko)) : Fin (ke + ko) → α := fun l => Fin.append even odd (sort l)

/-- `sve.py:281-294` for one of the two sets: merged data, scaled by `1/sqrt(2)`, continued to the negative
side by `(-1)**p * sign`. -/
noncomputable def extendParity {ke ko : ℕ} (even : PPoly (Fin ke)) (odd : PPoly (Fin ko))
    (sort : Fin (ke + ko) → Fin (ke + ko)) (signs : Fin (ke + ko) → ℝ) (segs : List ℝ) :
    PyM (PPoly (Fin (ke + ko))) :=
  if even.nseg ≠ odd.nseg ∨ even.polyorder ≠ odd.polyorder then .error .valueError
  else
    let n := even.nseg
    let data : ℕ → Fin (ke + ko) → List ℝ := fun i l =>
      (merged (coefAt even i) (coefAt odd i) sort l).map (· * (1 / Real.sqrt 2))
    PPoly.ctor (n + n) even.polyorder
      (fun i l =>
        if i.1 < n then (data (n - 1 - i.1) l).mapIdx fun p c => c * (-1) ^ p * signs l
        else data (i.1 - n) l)
      segs none (some signs)

/-- `sve.py:266-295`, the merging part of `CentrosymmSVE.postprocess`.  `argsort` is `s.argsort()`; `segX`,
`segY` are the segments hinted by the full kernel. -/
noncomputable def mergeParity {ke ko : ℕ} (argsort : (Fin (ke + ko) → ℝ) → Fin (ke + ko) → Fin (ke + ko))
    (even : Result (Fin ke)) (odd : Result (Fin ko)) (segX segY : List ℝ) : PyM (Result (Fin (ke + ko))) :=
  let s := Fin.append even.s odd.s
  let sort := fun l => argsort s (Fin.rev l)
  let signs := merged (fun _ => (1 : ℝ)) (fun _ => (-1 : ℝ)) sort
  match extendParity even.u odd.u sort signs segX with
  | .error e => .error e
  | .ok u => match extendParity even.v odd.v sort signs segY with
    | .error e => .error e
    | .ok v => .ok ⟨u, fun l => s (sort l), v⟩

/-- `sve.py:262-295`, `CentrosymmSVE.postprocess`. -/
noncomputable def centrosymmPostprocess {ke ko : ℕ}
    (argsort : (Fin (ke + ko) → ℝ) → Fin (ke + ko) → Fin (ke + ko)) (even odd : Sampling)
    (ue : Fin ke → List ℝ) (se : Fin ke → ℝ) (ve : Fin ke → List ℝ)
    (uo : Fin ko → List ℝ) (so : Fin ko → ℝ) (vo : Fin ko → List ℝ) (full : Hints) :
    PyM (Result (Fin (ke + ko))) :=
  match postprocess even ue se ve with
  | .error e => .error e
  | .ok re => match postprocess odd uo so vo with
    | .error e => .error e
    | .ok ro => match full.segX with
      | .error e => .error e
      | .ok sx => match full.segY with
        | .error e => .error e
        | .ok sy => mergeParity argsort re ro sx sy

end Verif.Sve
