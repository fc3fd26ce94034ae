import Verif.Lemmas.RefineGrid
import Mathlib.Tactic.NormNum
/-!
# C13 — grid refinement keeps the knots
-/

namespace Verif.Props
open Verif Verif.Np Verif.Poly

/-- For a strictly increasing grid and `alpha >= 1` the refined grid is strictly increasing, has
`alpha` entries per interval plus one; entry `i*alpha + j` is `knots[i] + j/alpha * (knots[i+1] -
knots[i])`, so that all knots are kept (`j = 0`), and the last entry is the last knot. -/
theorem C13_refine (knots : List ℝ) (alpha : ℕ) (ha : 1 ≤ alpha) (hne : knots ≠ [])
    (h : knots.Pairwise (· < ·)) :
    ∃ r, refineGrid knots alpha = .ok r ∧ r.Pairwise (· < ·) ∧
      r.length = (knots.length - 1) * alpha + 1 ∧
      (∀ i (hi : i + 1 < knots.length), ∀ j < alpha, r[i * alpha + j]? =
        some (knots[i] + (j : ℝ) / alpha * (knots[i + 1] - knots[i]))) ∧
      (∀ i (hi : i < knots.length), r[i * alpha]? = some knots[i]) := by
  obtain ⟨a, l, rfl⟩ := List.exists_cons_of_ne_nil hne
  obtain ⟨r, hr, hp, hlen, -, hget, hlast⟩ := refineGrid_spec alpha (by omega) a l h
  refine ⟨a :: r, hr, hp, by simpa using hlen, ?_, ?_⟩
  · intro i hi j hj
    rw [hget i (by simpa using hi) j hj]
    simp only [List.getElem_cons_succ]
    congr 2
    ring
  · intro i hi
    rcases Nat.lt_or_ge i l.length with h' | h'
    · have := hget i h' 0 (by omega)
      simpa using this
    · have : i = l.length := by simp at hi; omega
      subst this
      rw [hlast, List.getLast_eq_getElem]
      simp

/-- Exactly `alpha - 1` of the points lie strictly between two neighbouring knots. -/
theorem C13_count (knots : List ℝ) (alpha : ℕ) (ha : 1 ≤ alpha) (h : knots.Pairwise (· < ·))
    (i : ℕ) (hi : i + 1 < knots.length) (r : List ℝ) (hr : refineGrid knots alpha = .ok r) :
    (r.filter fun x => decide (knots[i] < x ∧ x < knots[i + 1])).length = alpha - 1 := by
  have hne : knots ≠ [] := by rintro rfl; simp at hi
  obtain ⟨r', hr', hp, hlen, hget, hk⟩ := C13_refine knots alpha ha hne h
  rw [hr] at hr'
  cases hr'
  -- positions of the points strictly inside: i*alpha+1 .. i*alpha + alpha-1
  have hlen2 : (i + 1) * alpha < r.length := by
    rw [hlen]
    have := Nat.mul_le_mul_right alpha (show i + 1 ≤ knots.length - 1 by omega)
    omega
  have e1 := hk i (by omega)
  have e2 := hk (i + 1) hi
  rw [List.getElem?_eq_some_iff] at e1 e2
  obtain ⟨l1, e1⟩ := e1
  obtain ⟨l2, e2⟩ := e2
  have hmono : ∀ a b (ha : a < r.length) (hb : b < r.length), r[a] < r[b] ↔ a < b := by
    intro a b ha hb
    constructor
    · intro hlt
      by_contra hc
      rcases Nat.lt_or_ge b a with h1 | h1
      · exact absurd hlt (not_lt.2 (List.pairwise_iff_getElem.1 hp _ _ hb ha h1).le)
      · have : a = b := by omega
        subst this; exact lt_irrefl _ hlt
    · intro hlt; exact List.pairwise_iff_getElem.1 hp _ _ ha hb hlt
  -- split the list into three parts
  have hsplit : r = r.take (i * alpha + 1) ++ ((r.drop (i * alpha + 1)).take (alpha - 1) ++
      (r.drop (i * alpha + 1)).drop (alpha - 1)) := by
    rw [List.take_append_drop, List.take_append_drop]
  have hm : (i + 1) * alpha = i * alpha + alpha := by ring
  rw [hsplit, List.filter_append, List.filter_append, List.length_append, List.length_append]
  have f1 : ((r.take (i * alpha + 1)).filter fun x => decide (knots[i] < x ∧ x < knots[i + 1])) = [] := by
    rw [List.filter_eq_nil_iff]
    intro x hx
    obtain ⟨k, hk, rfl⟩ := List.getElem_of_mem hx
    rw [List.length_take] at hk
    rw [List.getElem_take, ← e1, decide_eq_true_iff, hmono]
    omega
  have f3 : (((r.drop (i * alpha + 1)).drop (alpha - 1)).filter
      fun x => decide (knots[i] < x ∧ x < knots[i + 1])) = [] := by
    rw [List.filter_eq_nil_iff]
    intro x hx
    obtain ⟨k, hk, rfl⟩ := List.getElem_of_mem hx
    rw [List.length_drop, List.length_drop] at hk
    rw [List.getElem_drop, List.getElem_drop, ← e2, decide_eq_true_iff]
    rw [hmono _ ((i + 1) * alpha)]
    omega
  have f2 : (((r.drop (i * alpha + 1)).take (alpha - 1)).filter
      fun x => decide (knots[i] < x ∧ x < knots[i + 1])) = (r.drop (i * alpha + 1)).take (alpha - 1) := by
    rw [List.filter_eq_self]
    intro x hx
    obtain ⟨k, hk, rfl⟩ := List.getElem_of_mem hx
    rw [List.length_take, List.length_drop] at hk
    rw [List.getElem_take, List.getElem_drop, ← e1, ← e2, decide_eq_true_iff, hmono, hmono]
    omega
  rw [f1, f2, f3, List.length_take, List.length_drop]
  simp only [List.length_nil]
  omega

/- Non-vacuity. -/
example : refineGrid [0, 1, 3] 2 = .ok [0, 1 / 2, 1, 2, 3] := by
  unfold refineGrid linspaceOpen
  simp [List.range_succ]
  norm_num

end Verif.Props
