import Verif.Model.BasisSet
import Verif.Model.Dlr
import Verif.Model.Augment
/-!
# What the sampling classes use of the other bases

`TauSampling` and `MatsubaraSampling` (`sampling.py`) with a `DiscreteLehmannRepresentation` (`dlr.py`) or an
`AugmentedBasis` (`augment.py`) in place of a `FiniteTempBasis`.  The functions are evaluated at one point after the
other; if several points are refused, with different exceptions, the model reports the first one in the list.
-/

namespace Verif.Sampling
open Verif Verif.Np

/-- All values, if none of them is NaN. -/
def allValues {α : Type} : List (Option α) → Option (List α)
  | [] => some []
  | none :: _ => none
  | some a :: l => (allValues l).map (a :: ·)

/-- Row of the matrix of a sampling class.  A matrix with NaNs is refused by the singular value decomposition
(`sampling.py:231`, LinAlgError), represented by `nanResult`. -/
def row {α : Type} (n : ℕ) (l : List (Option α)) : PyM (Fin n → α) :=
  match allValues l with
  | none => .error .nanResult
  | some vs => if h : vs.length = n then .ok fun i => vs.get (Fin.cast h.symm i) else .error .valueError

end Verif.Sampling

namespace Verif.Dlr
open Verif Verif.Np Verif.FiniteTemp Verif.Sampling

/-- `dlr.py:59-76` and `121-129`: `u`, `uhat`, `size`, the default points (those of the underlying basis) and
`is_well_conditioned`. -/
noncomputable def DLR.sampled (d : DLR) (q : Search) : SBasis where
  size := d.size
  u t := match d.u.call fun _ : Fin 1 => t with
    | .error e => .error e
    | .ok k => row d.size (List.ofFn fun i => some (k i 0))
  uhat n := row d.size (List.ofFn fun i => d.uhat.call (fun _ : Fin 1 => n) i 0)
  wellConditioned := false
  defaultTau := outcome (d.basis.defaultTau q.tol (q.u d.basis.sve) (q.du d.basis.sve) none)
  defaultMatsubara := fun po => outcome (d.basis.defaultMatsubara (q.uhat d.basis.statistics d.basis.sve) none po)

end Verif.Dlr

namespace Verif.Augment
open Verif Verif.Np Verif.FiniteTemp Verif.Sampling

/-- `augment.py:62-68`, `82-87` and `109-130`: `u` and `uhat` for arrays of floating-point times and of frequencies,
`size`, the default points and `is_well_conditioned`. -/
noncomputable def AugBasis.sampled (a : AugBasis) (q : Search) : SBasis where
  size := a.size
  u t := match a.u.call ⟨t, false⟩ with
    | .error e => .error e
    | .ok l => row a.size l
  uhat n := match a.uhat.call ⟨n, false⟩ with
    | .error e => .error e
    | .ok l => row a.size (l.map some)
  wellConditioned := a.isWellConditioned
  defaultTau := outcome (a.defaultTau q.tol (q.u a.basis.sve) (q.du a.basis.sve) none)
  defaultMatsubara := fun po => outcome (a.defaultMatsubara (q.uhat a.basis.statistics a.basis.sve) none po)

end Verif.Augment
