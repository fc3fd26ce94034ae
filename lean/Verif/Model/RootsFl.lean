import Verif.Model.Roots
import Mathlib.Data.Real.Basic
import Mathlib.Data.Real.Archimedean
/-!
# Model of the continuous root search of `src/sparse_ir/_roots.py` in floating-point arithmetic

As in `Model/Roots.lean`, with every operation followed by a rounding `rd`.  The values of the function are given
(`f` is the function as computed); comparisons, `abs` and `max` are exact.
-/

namespace Verif.Roots
open Verif Verif.Np

/-- `_roots.py:53`, `0.5 * (a + b)` -/
noncomputable def Bracket.midFl (rd : ℝ → ℝ) (br : Bracket ℝ ℝ) : ℝ := rd ((1 / 2) * rd (br.a + br.b))

/-- `_roots.py:60`, `found = b - a < xeps` -/
noncomputable def foundFl (rd : ℝ → ℝ) (xeps : ℝ) (br : Bracket ℝ ℝ) : Bool := decide (rd (br.b - br.a) < xeps)

/-- `_roots.py:50-68`, `_bisect_cont`, vectorised over brackets (see `bisectCont`). -/
noncomputable def bisectContFl (rd : ℝ → ℝ) (f : ℝ → FVal ℝ) (xeps : ℝ) (st : List (Bracket ℝ ℝ)) : Option (List ℝ) :=
  let upd := st.map fun br => (br.midFl rd, br.step f (br.midFl rd))
  if upd.any (fun p => foundFl rd xeps p.2) then
    let roots := (upd.filter fun p => foundFl rd xeps p.2).map Prod.fst
    if upd.all (fun p => foundFl rd xeps p.2) then some roots
    else do
      let more ← bisectContFl rd f xeps ((upd.filter fun p => !foundFl rd xeps p.2).map Prod.snd)
      some (roots ++ more)
  else bisectContFl rd f xeps (upd.map Prod.snd)
partial_fixpoint

/-- `_roots.py:9-47`, `find_all(f, xgrid, type='continuous')`; `eps` is `np.finfo(dtype).eps`. -/
noncomputable def findAllContFl (rd : ℝ → ℝ) (eps : ℝ) (f : ℝ → FVal ℝ) (xgrid : List ℝ) : Option (PyM (List ℝ)) :=
  findAllWith f (fun st => (bisectContFl rd f (rd (eps * absMax xgrid)) st).map .ok) xgrid

end Verif.Roots
