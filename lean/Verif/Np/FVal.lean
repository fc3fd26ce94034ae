import Mathlib.Algebra.Order.Field.Basic
import Mathlib.Algebra.Order.Ring.Rat
/-!
# Floating-point values with a sign bit

A finite float is modelled by its (exact) value in an ordered field together with its sign bit.
For non-zero values the sign bit is determined; a zero may carry either sign bit (IEEE signed zero),
which matters because the code uses `np.signbit`.  Rounding is not modelled.
-/

namespace Verif.Np

/-- A finite float: value and sign bit. -/
structure FVal (K : Type _) [Zero K] [LT K] where
  val : K
  neg : Bool
  neg_of_lt : val < 0 → neg = true
  pos_of_gt : 0 < val → neg = false

namespace FVal
variable {K : Type _} [Field K] [LinearOrder K] [IsStrictOrderedRing K]

/-- `np.signbit` -/
def signbit (v : FVal K) : Bool := v.neg

/-- A value with positive zero. -/
def mk' (x : K) : FVal K :=
  ⟨x, decide (x < 0), fun h => by simpa using h, fun h => by simpa using h.le⟩

/-- Floating-point subtraction (exact value; the sign of a zero difference follows IEEE 754
round-to-nearest: `-0 - +0 = -0`, any other zero difference is `+0`). -/
def sub (a b : FVal K) : FVal K where
  val := a.val - b.val
  neg := decide (a.val - b.val < 0) ||
    (decide (a.val = 0) && decide (b.val = 0) && a.neg && !b.neg)
  neg_of_lt h := by simp [h]
  pos_of_gt h := by
    have h1 : ¬ a.val - b.val < 0 := not_lt.2 h.le
    have h2 : ¬ (a.val = 0 ∧ b.val = 0) := by
      rintro ⟨h3, h4⟩; rw [h3, h4, sub_zero] at h; exact lt_irrefl _ h
    simp only [Bool.or_eq_false_iff, decide_eq_false_iff_not, h1, not_false_eq_true, true_and]
    by_cases h3 : a.val = 0 <;> by_cases h4 : b.val = 0 <;> simp [h3, h4] <;> exact absurd ⟨h3, h4⟩ h2

/-- `np.abs` (as a plain value) -/
def abs (v : FVal K) : K := |v.val|

theorem nonpos_of_neg {v : FVal K} (h : v.neg = true) : v.val ≤ 0 := by
  by_contra h1
  rw [v.pos_of_gt (not_le.1 h1)] at h
  exact Bool.noConfusion h

theorem nonneg_of_not_neg {v : FVal K} (h : v.neg = false) : 0 ≤ v.val := by
  by_contra h1
  rw [v.neg_of_lt (not_le.1 h1)] at h
  exact Bool.noConfusion h

/-- For two non-zero values the sign bits differ iff the product is negative. -/
theorem signbit_ne_iff {v w : FVal K} (hv : v.val ≠ 0) (hw : w.val ≠ 0) :
    v.signbit ≠ w.signbit ↔ v.val * w.val < 0 := by
  unfold signbit
  rcases lt_or_gt_of_ne hv with h1 | h1 <;> rcases lt_or_gt_of_ne hw with h2 | h2
  · simp [v.neg_of_lt h1, w.neg_of_lt h2, (mul_pos_of_neg_of_neg h1 h2).le]
  · simp [v.neg_of_lt h1, w.pos_of_gt h2, mul_neg_of_neg_of_pos h1 h2]
  · simp [v.pos_of_gt h1, w.neg_of_lt h2, mul_neg_of_pos_of_neg h1 h2]
  · simp [v.pos_of_gt h1, w.pos_of_gt h2, (mul_pos h1 h2).le]

/-- Different sign bits imply a sign change or a zero in the values. -/
theorem mul_nonpos_of_signbit_ne {v w : FVal K} (h : v.signbit ≠ w.signbit) :
    v.val * w.val ≤ 0 := by
  unfold signbit at h
  cases hv : v.neg <;> cases hw : w.neg
  · simp [hv, hw] at h
  · exact mul_nonpos_of_nonneg_of_nonpos (nonneg_of_not_neg hv) (nonpos_of_neg hw)
  · exact mul_nonpos_of_nonpos_of_nonneg (nonpos_of_neg hv) (nonneg_of_not_neg hw)
  · simp [hv, hw] at h

end FVal
end Verif.Np
