import Verif.Model.PolyFT
import Verif.Model.Roots
/-!
# Model of `src/sparse_ir/poly.py`, `PiecewiseLegendreFT.extrema`, `.sign_changes` and helpers

The search routines are those of `Model.Roots`.  They see the real or imaginary part of the
transform as a function `F` into floats (value and sign bit); `PFT.Samples` says that `F` has the
values of the chosen part.
-/

namespace Verif.Poly
open Verif Verif.Np

/-- `poly.py:285`, the argument `part` (any other string is `invalid`). -/
inductive PartArg
  | none | real | imag | invalid
  deriving DecidableEq

/-- The part that is searched. -/
inductive Part
  | real | imag
  deriving DecidableEq

/-- `real`/`imag` attribute of a complex number -/
def Part.get : Part → ℂ → ℝ
  | .real => Complex.re
  | .imag => Complex.im

open Classical in
/-- `poly.py:285-299`, `_func_for_part(part)`: which part is evaluated.  `np.allclose(parity, ±1)` is
`isClose`. -/
noncomputable def partFor (symm : ℝ) (zeta : Option ℤ) (part : PartArg) : PyM Part :=
  match part with
  | .none =>
    if isClose symm 1 then .ok (if zeta = some 0 then .real else .imag)
    else if isClose symm (-1) then .ok (if zeta = some 0 then .imag else .real)
    else .error .valueError
  | .real => .ok .real
  | .imag => .ok .imag
  | .invalid => .error .valueError

/-- `poly.py:294-297`: the searched function at `n`; for `freq='any'` `2*n + None` raises TypeError. -/
noncomputable def PFT.partFun (f : PFT Unit) (pt : Part) (n : ℤ) : PyM ℝ :=
  match f.freq.zeta with
  | none => .error .typeError
  | some z => match f.call (2 * n + z) with
    | .error e => .error e
    | .ok v => .ok (pt.get (v ()))

/-- `F` is the searched function, up to the sign bit of zeros. -/
def PFT.Samples (f : PFT Unit) (pt : Part) (F : ℤ → FVal ℝ) : Prop :=
  ∀ n, f.partFun pt n = .ok (F n).val

/-- `poly.py:455-466`, `_symmetrize_matsubara(x0)` -/
def symmetrizeMatsubara (x0 : List ℤ) : PyM (List ℤ) :=
  match x0 with
  | [] => .ok []
  | a :: rest =>
    if ((a :: rest).zip rest).all fun q => decide (q.2 ≥ q.1) then
      if a ≥ 0 then
        if a = 0 then .ok ((a :: rest).reverse.map (- ·) ++ rest)
        else .ok ((a :: rest).reverse.map (- ·) ++ (a :: rest))
      else .error .valueError
    else .error .valueError

/-- `poly.py:210-211`, `_DEFAULT_GRID`: `arange(2**6)` followed by
`(2**linspace(6, 25, 16*(25-6)+1)).astype(int)` (truncation of a positive number). -/
noncomputable def defaultGrid : List ℤ :=
  (List.range (2 ^ 6)).map (fun n : ℕ => (n : ℤ)) ++
    (List.range (16 * (25 - 6) + 1)).map
      (fun k : ℕ => ⌊(2 : ℝ) ^ ((k : ℝ) * ((25 - 6) / (16 * (25 - 6) : ℝ)) + 6)⌋)

/-- `poly.py:265-269` and `279-283`: map the indices found to frequencies and symmetrise. -/
def toMatsubara (zeta : ℤ) (positiveOnly : Bool) (x0 : List ℤ) : PyM (List ℤ) :=
  let x0 := x0.map fun x => 2 * x + zeta
  if positiveOnly then .ok x0 else symmetrizeMatsubara x0

/-- `poly.py:271-283`, `sign_changes` of a single polynomial (the check of `poly.shape` in line 273 is
typing).  `none`: no termination. -/
noncomputable def PFT.signChanges (f : PFT Unit) (F : ℤ → FVal ℝ) (part : PartArg)
    (grid : List ℤ) (positiveOnly : Bool) : Option (PyM (List ℤ)) :=
  match partFor (f.poly.symm ()) f.freq.zeta part with
  | .error e => some (.error e)
  | .ok _ => match f.freq.zeta with
    | none => some (.error .typeError)
    | some z => match Roots.findAllDiscr F grid with
      | none => none
      | some (.error e) => some (.error e)
      | some (.ok x0) => some (toMatsubara z positiveOnly x0)

/-- `poly.py:257-269`, `extrema` of a single polynomial. -/
noncomputable def PFT.extrema (f : PFT Unit) (F : ℤ → FVal ℝ) (part : PartArg)
    (grid : List ℤ) (positiveOnly : Bool) : PyM (List ℤ) :=
  match partFor (f.poly.symm ()) f.freq.zeta part with
  | .error e => .error e
  | .ok _ => match f.freq.zeta with
    | none => .error .typeError
    | some z => match Roots.discreteExtrema F grid with
      | .error e => .error e
      | .ok x0 => toMatsubara z positiveOnly x0

end Verif.Poly
