import Verif.Model.Util
import Mathlib.Tactic.Linarith
/-!
# C02 — out-of-range and NaN arguments are rejected before evaluation
(kernel and DLR domain checks are in `Props/C02_Domain.lean`)
-/

namespace Verif.Props
open Verif Verif.Util

/-- Specification: `x` is a number in the closed interval `[lo, hi]`. -/
def InClosed (lo hi : ℚ) (x : IEEE) : Prop := ∃ q : ℚ, x = .fin q ∧ lo ≤ q ∧ q ≤ hi

theorem ieee_inClosed_iff (lo hi : ℚ) (x : IEEE) :
    (x.ge (.fin lo) = true ∧ x.le (.fin hi) = true) ↔ InClosed lo hi x := by
  cases x <;> simp [IEEE.ge, IEEE.le, InClosed]

/-- `check_range` accepts exactly the arrays all of whose elements are numbers in the closed
interval, and returns them unchanged. -/
theorem C02_check_range_iff (xs ys : List IEEE) (lo hi : ℚ) :
    checkRange xs (.fin lo) (.fin hi) = .ok ys ↔ ys = xs ∧ ∀ x ∈ xs, InClosed lo hi x := by
  unfold checkRange
  simp only [← ieee_inClosed_iff]
  by_cases h1 : xs.all (fun x => x.ge (.fin lo)) = true
  · by_cases h2 : xs.all (fun x => x.le (.fin hi)) = true
    · rw [h1, h2]
      simp only [Bool.not_true, Bool.false_eq_true, if_false, Except.ok.injEq]
      rw [List.all_eq_true] at h1 h2
      constructor
      · rintro rfl; exact ⟨rfl, fun x hx => ⟨h1 x hx, h2 x hx⟩⟩
      · rintro ⟨rfl, -⟩; rfl
    · simp only [h1, Bool.not_eq_true _ |>.mp h2]
      simp only [Bool.not_true, Bool.false_eq_true, if_false, Bool.not_false, if_true, reduceCtorEq,
        false_iff, not_and]
      intro _ h3; apply h2; rw [List.all_eq_true]; exact fun x hx => (h3 x hx).2
  · simp only [Bool.not_eq_true _ |>.mp h1]
    simp only [Bool.not_false, if_true, reduceCtorEq, false_iff, not_and]
    intro _ h3; apply h1; rw [List.all_eq_true]; exact fun x hx => (h3 x hx).1

/-- Everything else raises `ValueError`. -/
theorem C02_check_range_rejects (xs : List IEEE) (lo hi : ℚ)
    (h : ∃ x ∈ xs, ¬ InClosed lo hi x) :
    checkRange xs (.fin lo) (.fin hi) = .error .valueError := by
  have h1 : ∀ ys, checkRange xs (.fin lo) (.fin hi) ≠ .ok ys := by
    intro ys hy; rw [C02_check_range_iff] at hy
    obtain ⟨x, hx, hb⟩ := h; exact hb (hy.2 x hx)
  unfold checkRange at *
  split
  · rfl
  · split
    · rfl
    · rename_i h2 h3; exact absurd (by rw [if_neg h2, if_neg h3]) (h1 xs)

/-- In particular any array containing NaN is rejected. -/
theorem C02_nan_rejected (xs : List IEEE) (lo hi : ℚ) (h : IEEE.nan ∈ xs) :
    checkRange xs (.fin lo) (.fin hi) = .error .valueError :=
  C02_check_range_rejects xs lo hi ⟨_, h, by rintro ⟨q, hq, -⟩; cases hq⟩

example : checkRange [.fin (-1), .fin (1/3), .fin 1] (.fin (-1)) (.fin 1)
    = .ok [.fin (-1), .fin (1/3), .fin 1] :=
  (C02_check_range_iff _ _ _ _).2 ⟨rfl, by
    intro x hx; simp only [List.mem_cons, List.not_mem_nil, or_false] at hx
    rcases hx with rfl | rfl | rfl <;> exact ⟨_, rfl, by norm_num, by norm_num⟩⟩
example : ∃ x ∈ [IEEE.fin 0, .pinf], ¬ InClosed (-1) 1 x := ⟨.pinf, by simp, by
  rintro ⟨q, hq, -⟩; cases hq⟩

end Verif.Props
