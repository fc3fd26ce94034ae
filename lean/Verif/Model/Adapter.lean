import Verif.Model.BasisPoints
import Mathlib.Analysis.SpecialFunctions.Log.Basic
import Mathlib.Analysis.SpecialFunctions.Trigonometric.Basic
/-!
# Model of the sampling points of `src/sparse_ir/adapter.py`

Functions are given by their (real) values; products of values are exact.
-/

namespace Verif.Adapter
open Verif Verif.Np

/-- `adapter.py:154-159`, the bisection of `_find_roots`; none means that it does not terminate. -/
noncomputable def bisect (u : ℝ → ℝ) (eps ua a b : ℝ) : Option (ℝ × ℝ) :=
  open Classical in
  if a - b > eps then
    let half := 0.5 * (a + b)
    if u half * ua > 0 then bisect u eps ua half b else bisect u eps ua a half
  else some (a, b)
partial_fixpoint

open Classical in
/-- `adapter.py:148-161`, the loop of `_find_roots` over a grid. -/
noncomputable def rootsOn (u : ℝ → ℝ) (eps : ℝ) : List ℝ → Option (List ℝ)
  | x :: y :: xs =>
    if u x * u y < 0 then
      match bisect u eps (u y) y x with
      | none => none
      | some (a, b) => (rootsOn u eps (y :: xs)).map fun r => 0.5 * (a + b) :: r
    else rootsOn u eps (y :: xs)
  | _ => some []

/-- `adapter.py:143-146`, the grid. -/
noncomputable def grid : List ℝ :=
  (List.range 10000).map fun i : ℕ =>
    Real.tanh (0.5 * Real.pi * Real.sinh (-3 + 6 * (i : ℝ) / 9999))

/-- `adapter.py:141-161`, `_find_roots(ulx)` -/
noncomputable def findRoots (u : ℝ → ℝ) : Option (List ℝ) := rootsOn u 1e-14 grid

/-- `0.5 * (x[:-1] + x[1:])` -/
noncomputable def midpoints (l : List ℝ) : List ℝ := List.zipWith (fun a b => 0.5 * (a + b)) l l.tail

/-- `adapter.py:223-227`, `sampling_points_x(b, whichl)`, for `u = b._u[whichl]`. -/
noncomputable def samplingPointsX (u : ℝ → ℝ) : Option (List ℝ) :=
  (findRoots u).map fun r => midpoints (-1 :: (r ++ [1]))

/-- `np.sort` -/
noncomputable def npSort (l : List ℝ) : List ℝ := open Classical in l.mergeSort fun a b => decide (a ≤ b)

/-- `adapter.py:230-240`, `sampling_points_y(b, whichl)`, for `v(y) = b.vly(whichl, y)`. -/
noncomputable def samplingPointsY (v : ℝ → ℝ) (whichl : ℤ) : Option (List ℝ) :=
  (findRoots fun y => v ((y + 1) / 2)).map fun r =>
    let pos := r.map fun z => 0.5 * z + 0.5
    let neg := pos.map fun z => -z
    let ex := if whichl % 2 = 0 then npSort (-1 :: (neg ++ (pos ++ [1])))
      else npSort (-1 :: (neg ++ (0 :: (pos ++ [1]))))
    midpoints ex

open Classical in
/-- Index of the first largest entry, given that of the part already seen. -/
noncomputable def argmaxLoop : ℕ → ℝ → ℕ → List ℝ → ℕ
  | best, _, _, [] => best
  | best, bv, i, x :: xs => if bv < x then argmaxLoop i x (i + 1) xs else argmaxLoop best bv (i + 1) xs

/-- `a.argmax()`: the first largest entry; ValueError for an empty array. -/
noncomputable def argmax : List ℝ → PyM ℕ
  | [] => .error .valueError
  | x :: xs => .ok (argmaxLoop 0 x 1 xs)

open Classical in
/-- `adapter.py:190`, positions `i` with `fn[i+1] * fn[i] < 0`. -/
noncomputable def flips (fn : List ℝ) : List ℕ :=
  (List.range (fn.length - 1)).filter fun i : ℕ => decide (fn.getD (i + 1) 0 * fn.getD i 0 < 0)

/-- `adapter.py:191`, `sign_flip_bounds` -/
noncomputable def flipBounds (fn : List ℝ) : List ℕ := 0 :: ((flips fn).map (· + 1) ++ [fn.length])

/-- `adapter.py:193-194`, the loop over the segments. -/
noncomputable def segPoints (fnAbs : List ℝ) : List ℕ → PyM (List ℕ)
  | a :: b :: bs => match argmax ((fnAbs.drop a).take (b - a)) with
    | .error e => .error e
    | .ok k => match segPoints fnAbs (b :: bs) with
      | .error e => .error e
      | .ok r => .ok ((k + a) :: r)
  | _ => .ok []

/-- `adapter.py:186-195`, `_sampling_points(fn)` -/
noncomputable def samplingPoints (fn : List ℝ) : PyM (List ℕ) := segPoints (fn.map fun x => |x|) (flipBounds fn)

/-- `adapter.py:164-169`, `_start_guesses(n)`; conversion to integers rounds towards zero. -/
noncomputable def startGuesses (n : ℕ) : List ℤ :=
  Basis.npUnique ((List.range n).map (fun i : ℕ => (i : ℤ)) ++ (List.range n).map fun i : ℕ =>
    ⌊Real.exp (Real.log n + (Real.log 1e8 - Real.log n) * i / (n - 1 : ℝ))⌋)

/-- `adapter.py:198-207`, `_full_interval(sample, stat)` -/
def fullInterval (sample : List ℤ) (stat : String) : PyM (List ℤ) :=
  if stat = "F" then .ok (sample.reverse.map (fun n => -n - 1) ++ sample)
  else match sample with
    | [] => .error .indexError
    | n :: rest =>
      let s := if n = 0 then rest else n :: rest
      .ok (s.reverse.map (fun n => -n) ++ (0 :: s))

open Classical in
/-- `adapter.py:176-183`, the second part of `_get_unl_real`; `np.allclose(x, 0)` is `|x| <= 1e-8` throughout. -/
noncomputable def realPart (stat : String) (l : ℤ) (unl : List ℂ) : PyM (List ℝ) :=
  let zeta : ℤ := if stat = "F" then 1 else 0
  if l % 2 = zeta then
    if ∀ z ∈ unl, |z.im| ≤ 1e-8 then .ok (unl.map Complex.re) else .error .assertionError
  else if ∀ z ∈ unl, |z.re| ≤ 1e-8 then .ok (unl.map Complex.im) else .error .assertionError

/-- What the sampling needs of a basis: `hat l n` is `b._uhat[l](n)`. -/
structure Basis where
  statistics : String
  dim : ℕ
  hat : ℤ → ℤ → PyM ℂ

/-- `adapter.py:94-98`, `compute_unl(n, l)` for a list of at least two frequencies. -/
def Basis.computeUnl (b : Basis) (l : ℤ) : List ℤ → PyM (List ℂ)
  | [] => .ok []
  | n :: ns => match b.hat l (2 * n + if b.statistics = "F" then 1 else 0) with
    | .error e => .error e
    | .ok z => match b.computeUnl l ns with
      | .error e => .error e
      | .ok zs => .ok (z :: zs)

/-- `adapter.py:210-220`, `_get_mats_sampling(basis_xy, lmax)`, on the probe grid `x`. -/
noncomputable def getMatsSampling (b : Basis) (x : List ℤ) (lmax : Option ℤ) : PyM (List ℤ) := do
  let l : ℤ := lmax.getD (b.dim - 1)
  let unl ← b.computeUnl l x
  let y ← realPart b.statistics l unl
  let idx ← samplingPoints y
  fullInterval (idx.filterMap fun i => x[i]?) b.statistics

/-- `adapter.py:243-267`, `sampling_points_matsubara(b, whichl)` -/
noncomputable def samplingPointsMatsubara (b : Basis) (whichl : ℤ) : PyM (List ℤ) :=
  if ¬ (b.statistics = "F" ∨ b.statistics = "B" ∨ b.statistics = "barB") then .error .assertionError
  else if whichl > b.dim - 1 then .error .runtimeError
  else getMatsSampling b (startGuesses 1000) (some whichl)

end Verif.Adapter
