import Verif.Np.NdArray
/-! Specification of "apply a map of vectors to every fibre along an axis". -/

namespace Verif.Spec
open Verif.Np

/-- `r` arises from `x` by applying `f` to every fibre along axis `k`; all other axes stay in place. -/
structure AppliedAlong {α β : Type _} {p q : ℕ} (f : (Fin p → α) → Fin q → β) (k : ℕ) (x : NdArray α)
    (r : NdArray β) : Prop where
  axis : x.shape[k]? = some p
  shape : r.shape = x.shape.set k q
  val : ∀ idx, NdArray.InBounds r.shape idx → ∃ (i : Fin q) (fibre : Fin p → α), idx[k]? = some i.1 ∧
    (∀ j : Fin p, x.get? (idx.set k j) = some (fibre j)) ∧ r.get? idx = some (f fibre i)

end Verif.Spec

namespace Verif.Spec

/-- `axis` denotes axis number `k` of an array of rank `ndim`; negative axes count from the end. -/
def ValidAxis (axis : ℤ) (ndim k : ℕ) : Prop := k < ndim ∧ (axis = k ∨ axis = (k : ℤ) - ndim)

end Verif.Spec
