import Verif.Np.FVal
/-! Specification of root/sign-change searches, independent of the model. -/

namespace Verif.Roots
open Verif Verif.Np

/-- `a`, `b` are neighbouring entries of the grid. -/
def Adjacent {X : Type _} (grid : List X) (a b : X) : Prop :=
  ∃ l1 l2, grid = l1 ++ a :: b :: l2

/-- What `find_all` is supposed to return.  `Good a b m` says what is promised about the point `m`
returned for a sign change between the neighbouring grid points `a` and `b`. -/
structure FindAllSpec {K : Type _} [Field K] [LinearOrder K] [IsStrictOrderedRing K]
    {X : Type _} [LinearOrder X] (f : X → FVal K) (grid : List X)
    (Good : X → X → X → Prop) (r : List X) : Prop where
  /-- strictly ascending -/
  sorted : r.Pairwise (· < ·)
  /-- nothing but grid zeros and one good point of a bracket with a sign change -/
  sound : ∀ x ∈ r, (x ∈ grid ∧ (f x).val = 0) ∨
    ∃ a b, Adjacent grid a b ∧ (f a).val * (f b).val < 0 ∧ Good a b x
  /-- all grid zeros are listed -/
  zeros : ∀ x ∈ grid, (f x).val = 0 → x ∈ r
  /-- every sign change is listed exactly once -/
  changes : ∀ a b, Adjacent grid a b → (f a).val * (f b).val < 0 →
    ∃ x, (x ∈ r ∧ a ≤ x ∧ x < b) ∧ Good a b x ∧ ∀ y, y ∈ r ∧ a ≤ y ∧ y < b → y = x

end Verif.Roots
