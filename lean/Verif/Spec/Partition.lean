import Mathlib.Data.Real.Basic
import Mathlib.Data.List.Perm.Basic
/-! What it means that segments partition an interval. -/

namespace Verif.Spec

/-- Segments of positive length which join up, in order, from `a` to `b`. -/
def IsChain (a b : ℝ) : List (ℝ × ℝ) → Prop
  | [] => a = b
  | s :: l => s.1 = a ∧ s.1 < s.2 ∧ IsChain s.2 b l

/-- Segments, in any order, which partition the interval from `a` to `b`. -/
def Partition (a b : ℝ) (l : List (ℝ × ℝ)) : Prop := ∃ l', l'.Perm l ∧ IsChain a b l'

end Verif.Spec
