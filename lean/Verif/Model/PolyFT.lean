import Verif.Model.Poly
import Verif.Model.Util
import Mathlib.Analysis.SpecialFunctions.Trigonometric.Basic
import Mathlib.Analysis.SpecialFunctions.Complex.Log
import Mathlib.Algebra.Order.Round
/-!
# Model of `src/sparse_ir/poly.py`, `PiecewiseLegendreFT` and its helpers

Exact real/complex arithmetic, one frequency at a time (the code is element-wise over the ravelled
array of frequencies; raveling is C03).
-/

namespace Verif.Poly
open Verif Verif.Np

/-- `poly.py:303-309`, `_imag_power(n)`: `cycle[n % 4]` with `cycle = [1, 1j, -1, -1j]`. -/
noncomputable def imagPower (n : ℤ) : ℂ :=
  match n % 4 with
  | 0 => 1
  | 1 => Complex.I
  | 2 => -1
  | _ => -Complex.I

/-- `scipy.special.spherical_jn(l, z)` for real `z`: `j₀ = sin z/z`, `j₁ = sin z/z² - cos z/z`, and
the recurrence `j_{l+2} = (2l+3)/z j_{l+1} - j_l` (DLMF 10.49, 10.51); at `z = 0` it is `δ_{l0}`.
The library routine is trusted to compute this function. -/
noncomputable def sphericalJn (l : ℕ) (z : ℝ) : ℝ :=
  if z = 0 then (if l = 0 then 1 else 0)
  else match l with
    | 0 => Real.sin z / z
    | 1 => Real.sin z / z ^ 2 - Real.cos z / z
    | l + 2 => (2 * (l : ℝ) + 3) / z * sphericalJn (l + 1) z - sphericalJn l z

/-- `poly.py:312-321`, `_get_tnl(l, w)`. -/
noncomputable def getTnl (l : ℕ) (w : ℝ) : ℂ :=
  let result := 2 * imagPower l * (sphericalJn l |w| : ℂ)
  if w < 0 then (starRingEnd ℂ) result else result

/-- `np.round` of one value: to the nearest integer, ties to even. -/
noncomputable def npRound (x : ℝ) : ℤ :=
  if Int.fract x < 1 / 2 then ⌊x⌋
  else if 1 / 2 < Int.fract x then ⌊x⌋ + 1
  else if Even ⌊x⌋ then ⌊x⌋ else ⌊x⌋ + 1

namespace PPoly
variable {ι : Type _}

/-- `poly.py:332`, `xmid_m1 = dx.cumsum() - dx_half` -/
noncomputable def xmidM1 (p : PPoly ι) (i : Fin p.nseg) : ℝ :=
  (∑ j ∈ Finset.univ.filter (· ≤ i), p.dx j) - p.dx i / 2
/-- `poly.py:333`, `xmid_p1 = -dx[::-1].cumsum()[::-1] + dx_half` -/
noncomputable def xmidP1 (p : PPoly ι) (i : Fin p.nseg) : ℝ :=
  -(∑ j ∈ Finset.univ.filter (i ≤ ·), p.dx j) + p.dx i / 2
/-- `poly.py:334`, `xmid_0 = knots[1:] - dx_half` -/
noncomputable def xmid0 (p : PPoly ι) (i : Fin p.nseg) : ℝ := p.knots i.succ - p.dx i / 2

/-- `poly.py:324-338`, `_shift_xmid(knots, dx)`: `(diff, shift)` of one segment.  `np.choose` raises
ValueError if `shift + 1` is not one of 0, 1, 2. -/
noncomputable def shiftXmid (p : PPoly ι) (i : Fin p.nseg) : PyM (ℝ × ℤ) :=
  let shift := npRound (p.xmid0 i)
  match shift + 1 with
  | 0 => .ok (p.xmidM1 i, shift)
  | 1 => .ok (p.xmid0 i, shift)
  | 2 => .ok (p.xmidP1 i, shift)
  | _ => .error .valueError

/-- `poly.py:341-369`, `_phase_stable(poly, wn)` for one segment and one frequency of integer type
(lines 359-360, 367-369). -/
noncomputable def phaseStable (p : PPoly ι) (wn : ℤ) (i : Fin p.nseg) : PyM ℂ :=
  match p.shiftXmid i with
  | .error e => .error e
  | .ok (diff, shift) =>
    .ok (imagPower ((shift + 1) * wn) * Complex.exp (0.5 * Complex.I * Real.pi * (wn * diff : ℝ)))

/-- `poly.py:361-365`, the branch of `_phase_stable` for frequencies of float type: `np.modf` splits
off the integral part (towards zero). -/
noncomputable def phaseStableFloat (p : PPoly ι) (wn : ℝ) (i : Fin p.nseg) : PyM ℂ :=
  match p.shiftXmid i with
  | .error e => .error e
  | .ok (diff, shift) =>
    let n : ℤ := if 0 ≤ wn then ⌊wn⌋ else ⌈wn⌉
    let delta : ℝ := wn - n
    .ok (imagPower ((shift + 1) * n) *
      Complex.exp (0.5 * Complex.I * Real.pi * (n * diff + delta * (shift + diff) : ℝ)))

open Classical in
/-- `poly.py:372-388`, `_compute_unl_inner(poly, wn)` for one integer frequency: `∑_{p,i} t_{pin}
data_{pil} sqrt(dx_i/4)`.  The number of orders is the attribute `polyorder`; if it differs from the
actual number of coefficients the reshapes in lines 387-388 raise ValueError. -/
noncomputable def computeUnl (p : PPoly ι) (wn : ℤ) : PyM (ι → ℂ) :=
  if ∀ i l, (p.coef i l).length = p.polyorder then
    if h : ∀ i, ∃ z, p.phaseStable wn i = .ok z then
      .ok fun l => ∑ k ∈ Finset.range p.polyorder, ∑ i : Fin p.nseg,
        getTnl k (Real.pi / 2 * wn * (p.dx i / 2)) * (h i).choose *
          (((p.coef i l).getD k 0 * Real.sqrt (p.dx i / 2 / 2) : ℝ) : ℂ)
    else .error .valueError
  else .error .valueError

/-- `poly.py:423-428`, `_derivs(ppoly, x)`: value and repeated derivatives at `x`. -/
noncomputable def derivsLoop (p : PPoly ι) (x : ℝ) : ℕ → PyM (List (ι → ℝ))
  | 0 => match p.call x with
    | .error e => .error e
    | .ok v => .ok [v]
  | k + 1 => match p.call x with
    | .error e => .error e
    | .ok v => match derivsLoop (p.deriv 1) x k with
      | .error e => .error e
      | .ok vs => .ok (v :: vs)

end PPoly

/-- `poly.py:431-438`, `_power_moments(stat, deriv_x1)`: entry for order `m` and function at position
`l` of the last axis. -/
noncomputable def powerMoment (statsign : ℝ) (m l : ℕ) (deriv : ℝ) : ℝ :=
  -statsign / Real.sqrt 2 * (((-1) ^ (m + 1) + statsign * (-1) ^ l) * deriv)

/-- The moments for all orders; `pos l` is the position of function `l` on the last axis (line 436:
`np.arange(lmax)`), i.e. always 0 for a single polynomial. -/
noncomputable def powerMoments {ι : Type _} (statsign : ℝ) (pos : ι → ℕ) (derivs : List (ι → ℝ)) :
    List (ι → ℝ) :=
  derivs.zipIdx.map fun q l => powerMoment statsign q.2 (pos l) (q.1 l)

/-- `poly.py:406-417`, `_PowerModel.giw(wn)` for one frequency: Horner scheme over the reversed
moments; `inv_iw` is left at `1j*pi/2*0 = 0` for `wn = 0` (`where=(wn != 0)`). -/
noncomputable def giw {ι : Type _} (moments : List (ι → ℝ)) (wn : ℤ) : ι → ℂ :=
  let iw : ℂ := Complex.I * Real.pi / 2 * wn
  let invIw : ℂ := if wn ≠ 0 then iw⁻¹ else iw
  fun l => moments.reverse.foldl (fun result mom => (result + (mom l : ℂ)) * invIw) 0

/-- `poly.py:218`: the argument `freq`. -/
inductive Freq
  | any | even | odd
  deriving DecidableEq

/-- `poly.py:218`, `zeta` -/
def Freq.zeta : Freq → Option ℤ
  | .any => none
  | .even => some 0
  | .odd => some 1

/-- `poly.py:433`, `statsign`; 'any' raises KeyError. -/
def Freq.statsign : Freq → PyM ℝ
  | .any => .error .keyError
  | .even => .ok 1
  | .odd => .ok (-1)

/-- `poly.py:213-227`, attributes of `PiecewiseLegendreFT`; `nAsymp = none` is `np.inf`. -/
structure PFT (ι : Type _) where
  poly : PPoly ι
  freq : Freq
  nAsymp : Option ℝ
  model : Option (List (ι → ℝ))

/-- `poly.py:441-446`, `_power_model(stat, poly)`. -/
noncomputable def powerModel {ι : Type _} (pos : ι → ℕ) (freq : Freq) (poly : PPoly ι) :
    PyM (List (ι → ℝ)) :=
  match poly.derivsLoop 1 (poly.polyorder - 1) with
  | .error e => .error e
  | .ok ds => match freq.statsign with
    | .error e => .error e
    | .ok s => .ok (powerMoments s pos ds)

namespace PFT
variable {ι : Type _}

/-- `poly.py:213-227`, `__init__`.  `pos` gives the position of each function on the last axis. -/
noncomputable def ctor (pos : ι → ℕ) (poly : PPoly ι) (freq : Freq) (nAsymp : Option ℝ)
    (model : Option (List (ι → ℝ))) : PyM (PFT ι) :=
  if poly.xmin ≠ -1 ∨ poly.xmax ≠ 1 then .error .notImplementedError
  else match nAsymp with
    | none => .ok ⟨poly, freq, none, none⟩
    | some na => match model with
      | some m => .ok ⟨poly, freq, some na, some m⟩
      | none => match powerModel pos freq poly with
        | .error e => .error e
        | .ok m => .ok ⟨poly, freq, some na, some m⟩

/-- `poly.py:238-240` and `419-420`, `__getitem__`: select from the polynomial and, if there is one,
from the moments, and construct a new object.  With `n_asymp = inf` there is no model; the
constructor is then given `n_asymp = inf` (not `None`) and *builds a model* from the selected
polynomial, which is never used as `abs(n) >= inf` is false; it can however raise. -/
noncomputable def select {κ : Type _} (pos : κ → ℕ) (f : PFT ι) (σ : κ → ι) : PyM (PFT κ) :=
  let poly := f.poly.select σ
  if poly.xmin ≠ -1 ∨ poly.xmax ≠ 1 then .error .notImplementedError
  else match f.model with
    | some m => .ok ⟨poly, f.freq, f.nAsymp, some (m.map fun v l => v (σ l))⟩
    | none => match powerModel pos f.freq poly with
      | .error e => .error e
      | .ok m => .ok ⟨poly, f.freq, f.nAsymp, some m⟩

open Classical in
/-- `poly.py:242-255`, `__call__(n)` for one frequency. -/
noncomputable def call (f : PFT ι) (n : ℤ) : PyM (ι → ℂ) :=
  match Util.checkReducedMatsubara (.ints [n]) f.freq.zeta with
  | .error e => .error e
  | .ok _ => match f.poly.computeUnl n with
    | .error e => .error e
    | .ok result => match f.nAsymp with
      | none => .ok result
      | some na =>
        if |(n : ℝ)| ≥ na then
          match f.model with
          | none => .error .attributeError
          | some m => .ok (giw m n)
        else .ok result

end PFT
end Verif.Poly
