import Verif.Py
import Verif.Np.Ieee
import Mathlib.Data.Int.Bitwise
/-!
# Model of `src/sparse_ir/_util.py` (argument checks)
-/

namespace Verif.Util
open Verif

/-- A numpy array argument, flattened, by dtype kind: integers or floats. -/
inductive NumArr
  | ints (xs : List ℤ)
  | floats (xs : List IEEE)
  deriving DecidableEq, Repr

/-- `_util.py:40-61`, `check_reduced_matsubara(n, zeta=None)`.

* lines 53-57: a non-integer dtype is converted with `astype(int)` and compared with the original
  (the comparison promotes back to float64; the truncated value of a float64 is itself a float64,
  so the promotion is exact);
* lines 58-60: `n & 1 == zeta` (in Python `&` binds tighter than `==`), bitwise and on
  two's-complement integers.

Simplification: the array is flattened, as the checks are `.all()` over all elements. -/
def checkReducedMatsubara (n : NumArr) (zeta : Option ℤ) : PyM (List ℤ) :=
  let conv : PyM (List ℤ) := match n with
    | .ints xs => .ok xs
    | .floats xs =>
      let ns := xs.map IEEE.astypeInt
      if (List.zipWith (fun (i : ℤ) x => IEEE.eqB (.fin i) x) ns xs).all id then .ok ns
      else .error .valueError
  match conv with
  | .error e => .error e
  | .ok ns =>
    match zeta with
    | none => .ok ns
    | some z => if ns.all (fun i => decide (Int.land i 1 = z)) then .ok ns else .error .valueError

/-- `_util.py:64-71`, `check_range(x, xmin, xmax)`: first the lower, then the upper bound. -/
def checkRange (xs : List IEEE) (xmin xmax : IEEE) : PyM (List IEEE) :=
  if !(xs.all fun x => x.ge xmin) then .error .valueError
  else if !(xs.all fun x => x.le xmax) then .error .valueError
  else .ok xs

/-- `_util.py:74-88`, `check_svd_result(svd_result, matrix_shape)`: shapes only.
`u : m_u × k_u`, `s : k_s`, `vH : k_v × n_v`.  Returns the common rank. -/
def checkSvdResult (mu ku ks kv nv : ℕ) (matrixShape : Option (ℕ × ℕ)) : PyM ℕ :=
  if ku ≠ ks ∨ ks ≠ kv then .error .valueError
  else match matrixShape with
    | none => .ok ks
    | some (m, n) => if mu ≠ m ∨ nv ≠ n then .error .valueError else .ok ks

end Verif.Util
