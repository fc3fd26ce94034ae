import Verif.Py
import Verif.Np.FVal
import Mathlib.Data.Int.Init
import Mathlib.Data.List.Sort
/-!
# Model of `src/sparse_ir/_roots.py`

Arrays are lists.  A Boolean mask applied to `[:-1]`/`[1:]` views is modelled as a filter over the
list of neighbouring pairs.  The `while True` loops are `partial_fixpoint` functions into `Option`:
`none` means that the loop does not terminate.  Exact arithmetic; values carry a sign bit (`FVal`).
-/

namespace Verif.Roots
open Verif Verif.Np

variable {K : Type _} [Field K] [LinearOrder K] [IsStrictOrderedRing K]

/-- One entry of the parallel arrays `a, b, fa, fb`. -/
structure Bracket (X K : Type _) [Zero K] [LT K] where
  a : X
  b : X
  fa : FVal K
  fb : FVal K

/-- `_roots.py:73-75, 79-84`: the new entry of `a, b, fa, fb` for one bracket, given `mid`. -/
def Bracket.step {X : Type _} (f : X → FVal K) (mid : X) (br : Bracket X K) : Bracket X K :=
  if br.fa.signbit != (f mid).signbit then
    ⟨br.a, mid, br.fa, f mid⟩
  else ⟨mid, br.b, f mid, br.fb⟩

/-- `(a + b) // 2` -/
def Bracket.midZ (br : Bracket ℤ K) : ℤ := (br.a + br.b).fdiv 2

/-- `found = a == mid` -/
def Bracket.foundZ (br : Bracket ℤ K) : Bool := br.a == br.midZ

/-- `_roots.py:71-90`, `_bisect_discr`, vectorised over brackets. -/
def bisectDiscr (f : ℤ → FVal K) (st : List (Bracket ℤ K)) : Option (List ℤ) :=
  if st.any Bracket.foundZ then
    let roots := (st.filter Bracket.foundZ).map Bracket.midZ
    if st.all Bracket.foundZ then some roots
    else do
      let more ← bisectDiscr f (st.filter fun br => !br.foundZ)
      some (roots ++ more)
  else bisectDiscr f (st.map fun br => br.step f br.midZ)
partial_fixpoint

/-- `0.5 * (a + b)` -/
def Bracket.midC (br : Bracket K K) : K := (1 / 2) * (br.a + br.b)

/-- `found = b - a < xeps` -/
def foundC (xeps : K) (br : Bracket K K) : Bool := decide (br.b - br.a < xeps)

/-- `_roots.py:50-68`, `_bisect_cont`, vectorised over brackets.  The pair keeps the `mid` computed
in the current pass together with the updated bracket. -/
def bisectCont (f : K → FVal K) (xeps : K) (st : List (Bracket K K)) : Option (List K) :=
  let upd := st.map fun br => (br.midC, br.step f br.midC)
  if upd.any (fun p => foundC xeps p.2) then
    let roots := (upd.filter fun p => foundC xeps p.2).map Prod.fst
    if upd.all (fun p => foundC xeps p.2) then some roots
    else do
      let more ← bisectCont f xeps ((upd.filter fun p => !foundC xeps p.2).map Prod.snd)
      some (roots ++ more)
  else bisectCont f xeps (upd.map Prod.snd)
partial_fixpoint

/-- `_roots.py:9-47`, `find_all`, up to the dispatch on `type`, which is the parameter `bisect`.
Lines 16-18: grid zeros; lines 23-24: sign changes between neighbours, excluding zeros; line 25:
early return (of the unsorted hits); lines 31-36: the brackets; line 47: sort. -/
def findAllWith {X : Type _} [LinearOrder X] (f : X → FVal K)
    (bisect : List (Bracket X K) → Option (PyM (List X))) (xgrid : List X) :
    Option (PyM (List X)) :=
  let pts := xgrid.map fun x => (x, f x)
  let xHit := (pts.filter fun p => decide (p.2.val = 0)).map Prod.fst
  let signChange := (pts.zip pts.tail).filter fun q =>
    (q.1.2.signbit != q.2.2.signbit) && !decide (q.1.2.val = 0) && !decide (q.2.2.val = 0)
  if signChange.isEmpty then some (.ok xHit)
  else do
    let xBisect ← bisect (signChange.map fun q => ⟨q.1.1, q.2.1, q.1.2, q.2.2⟩)
    some (xBisect.map fun xs => (xHit ++ xs).mergeSort fun x y => decide (x ≤ y))

/-- `find_all(f, xgrid, type='discrete')` -/
def findAllDiscr (f : ℤ → FVal K) (xgrid : List ℤ) : Option (PyM (List ℤ)) :=
  findAllWith f (fun st => (bisectDiscr f st).map .ok) xgrid

/-- `np.abs(xgrid).max()` (only evaluated on non-empty grids). -/
def absMax (xgrid : List K) : K := xgrid.foldl (fun m x => max m |x|) 0

/-- `find_all(f, xgrid, type='continuous')`; `eps` is `np.finfo(dtype).eps`. -/
def findAllCont (eps : K) (f : K → FVal K) (xgrid : List K) : Option (PyM (List K)) :=
  findAllWith f (fun st => (bisectCont f (eps * absMax xgrid) st).map .ok) xgrid

/-- `find_all` with any other `type`: the error is only raised if there are sign changes. -/
def findAllInvalid {X : Type _} [LinearOrder X] (f : X → FVal K) (xgrid : List X) :
    Option (PyM (List X)) :=
  findAllWith f (fun _ => some (.error .valueError)) xgrid

/-- `_roots.py:125-140`, `_bisect_discr_extremum`; `g` is `x ↦ np.abs(f(x))`. -/
def bisectDiscrExtremum (g : ℤ → K) (a b : ℤ) (ga gb : K) : ℤ :=
  if b - a ≤ 1 then (if ga > gb then a else b)
  else if b - a = 2 then a + 1
  else
    let m := (a + b).fdiv 2
    let n := m + 1
    if g m > g n then bisectDiscrExtremum g a n ga (g n)
    else bisectDiscrExtremum g m b (g m) gb
termination_by (b - a).toNat
decreasing_by
  all_goals
    simp only [Int.fdiv_eq_ediv_of_nonneg _ (show (0 : ℤ) ≤ 2 by decide)]
    omega

/-- `_roots.py:98-112`: neighbouring triples `x[i], x[i+1], x[i+2]` where the secant changes sign
(sign bit of the forward difference), as pairs `(a, b) = (x[i], x[i+2])` with values. -/
def secantChanges (pts : List (ℤ × FVal K)) : List ((ℤ × FVal K) × (ℤ × FVal K)) :=
  match pts with
  | p :: q :: r :: rest =>
    if (q.2.sub p.2).signbit != (r.2.sub q.2).signbit then
      (p, r) :: secantChanges (q :: r :: rest)
    else secantChanges (q :: r :: rest)
  | _ => []

/-- `_roots.py:111-112`: one extremum per secant sign change. -/
def interiorExtrema (f : ℤ → FVal K) (xgrid : List ℤ) : List ℤ :=
  (secantChanges (xgrid.map fun x => (x, f x))).map fun p =>
    bisectDiscrExtremum (fun x => (f x).abs) p.1.1 p.2.1 p.1.2.abs p.2.2.abs

/-- `_roots.py:93-122`, `discrete_extrema`.  Fewer than two grid points: `absfx[1]` (or
`absfx[0]`) raises IndexError. -/
def discreteExtrema (f : ℤ → FVal K) (xgrid : List ℤ) : PyM (List ℤ) :=
  match xgrid, xgrid.reverse with
  | x0 :: x1 :: _, y0 :: y1 :: _ =>
    let res := interiorExtrema f xgrid
    let res := if (f x0).abs > (f x1).abs ∨ (f x0).signbit ≠ (f x1).signbit then x0 :: res else res
    let res := if (f y0).abs > (f y1).abs ∨ (f y0).signbit ≠ (f y1).signbit then res ++ [y0] else res
    .ok res
  | _, _ => .error .indexError

end Verif.Roots
