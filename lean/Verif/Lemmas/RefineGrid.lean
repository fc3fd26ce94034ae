import Verif.Model.Poly
import Mathlib.Tactic.Linarith
import Mathlib.Tactic.FieldSimp
import Mathlib.Tactic.Ring
/-! Lemmas on `_refine_grid`. -/

namespace Verif.Poly
open Verif Verif.Np

theorem refineGrid_single (a : ℝ) (n : ℕ) : refineGrid [a] n = .ok [a] := by
  simp [refineGrid]

theorem refineGrid_nil (n : ℕ) : refineGrid [] n = .error .indexError := rfl

theorem refineGrid_cons (a b : ℝ) (l : List ℝ) (n : ℕ) (r : List ℝ)
    (h : refineGrid (b :: l) n = .ok r) :
    refineGrid (a :: b :: l) n = .ok (linspaceOpen a b n ++ r) := by
  unfold refineGrid at h ⊢
  rw [List.getLast?_cons_cons]
  cases hl : (b :: l).getLast? with
  | none => rw [hl] at h; cases h
  | some last =>
    rw [hl] at h
    simp only [Except.ok.injEq] at h ⊢
    rw [← h]
    simp

theorem length_linspaceOpen (a b : ℝ) (n : ℕ) : (linspaceOpen a b n).length = n := by
  simp [linspaceOpen]

theorem mem_linspaceOpen {a b x : ℝ} {n : ℕ} (hab : a < b) (h : x ∈ linspaceOpen a b n) :
    a ≤ x ∧ x < b := by
  unfold linspaceOpen at h
  obtain ⟨i, hi, rfl⟩ := List.mem_map.1 h
  have hi := List.mem_range.1 hi
  have hn : (0 : ℝ) < n := by exact_mod_cast (by omega : 0 < n)
  have hi' : (i : ℝ) < n := by exact_mod_cast hi
  have hd : 0 < (b - a) / n := div_pos (by linarith) hn
  constructor
  · have := mul_nonneg (Nat.cast_nonneg (α := ℝ) i) hd.le
    linarith
  · have : (i : ℝ) * ((b - a) / n) < n * ((b - a) / n) := by
      exact mul_lt_mul_of_pos_right hi' hd
    rw [mul_div_cancel₀ _ hn.ne'] at this
    linarith

theorem linspaceOpen_pairwise {a b : ℝ} (n : ℕ) (hab : a < b) :
    (linspaceOpen a b n).Pairwise (· < ·) := by
  unfold linspaceOpen
  rw [List.pairwise_map]
  apply List.Pairwise.imp_of_mem _ (List.pairwise_lt_range (n := n))
  intro i j hi hj hij
  have hn : (0 : ℝ) < n := by exact_mod_cast lt_of_le_of_lt (Nat.zero_le _) (List.mem_range.1 hi)
  have hd : 0 < (b - a) / n := div_pos (by linarith) hn
  have : (i : ℝ) < j := by exact_mod_cast hij
  have := mul_lt_mul_of_pos_right this hd
  linarith

/-- All facts about the refined grid. -/
theorem refineGrid_spec (n : ℕ) (hn : 0 < n) (a : ℝ) (l : List ℝ)
    (h : (a :: l).Pairwise (· < ·)) :
    ∃ r, refineGrid (a :: l) n = .ok (a :: r) ∧ (a :: r).Pairwise (· < ·) ∧
      (a :: r).length = l.length * n + 1 ∧
      (∀ x, x ∈ a :: r → x ≤ (a :: l).getLast (by simp)) ∧
      (∀ i (hi : i < l.length), ∀ j < n, (a :: r)[i * n + j]? =
        some ((a :: l)[i]'(by simp; omega) +
          (j : ℝ) * ((l[i] - (a :: l)[i]'(by simp; omega)) / n))) ∧
      (a :: r)[l.length * n]? = some ((a :: l).getLast (by simp)) := by
  induction l generalizing a with
  | nil => exact ⟨[], refineGrid_single a n, by simp⟩
  | cons b l ih =>
    obtain ⟨r, hr, hp, hlen, hle, hget, hlast⟩ := ih b (List.pairwise_cons.1 h).2
    have hab : a < b := (List.pairwise_cons.1 h).1 b (by simp)
    have hl : ∃ t, linspaceOpen a b n = a :: t := by
      obtain ⟨m, rfl⟩ : ∃ m, n = m + 1 := ⟨n - 1, by omega⟩
      unfold linspaceOpen
      rw [List.range_succ_eq_map]
      simp
    obtain ⟨t, ht⟩ := hl
    have hL := length_linspaceOpen a b n
    have hR := refineGrid_cons a b l n (b :: r) hr
    refine ⟨t ++ b :: r, by rw [hR, ht]; rfl, ?_⟩
    rw [← List.cons_append, ← ht]
    refine ⟨?_, ?_, ?_, ?_, ?_⟩
    · rw [List.pairwise_append]
      refine ⟨linspaceOpen_pairwise n hab, hp, ?_⟩
      intro x hx y hy
      have hx := (mem_linspaceOpen hab hx).2
      rcases List.mem_cons.1 hy with rfl | hy
      · exact hx
      · exact hx.trans ((List.pairwise_cons.1 hp).1 y hy)
    · rw [List.length_append, hL, hlen, List.length_cons]; ring
    · intro x hx
      rw [List.getLast_cons (by simp)]
      rcases List.mem_append.1 hx with hx | hx
      · exact le_trans (mem_linspaceOpen hab hx).2.le (hle b (by simp))
      · exact hle x hx
    · intro i hi j hj
      cases i with
      | zero =>
        rw [zero_mul, zero_add, List.getElem?_append_left (by omega)]
        unfold linspaceOpen
        rw [List.getElem?_map, List.getElem?_range hj]
        simp
        ring
      | succ i =>
        rw [List.getElem?_append_right (by rw [hL]; nlinarith), hL,
          show (i + 1) * n + j - n = i * n + j by rw [Nat.succ_mul]; omega,
          hget i (by simpa using hi) j hj]
        simp
    · rw [List.getElem?_append_right (by rw [hL, List.length_cons]; nlinarith), hL,
        List.length_cons, show (l.length + 1) * n - n = l.length * n by rw [Nat.succ_mul]; omega,
        hlast, List.getLast_cons (by simp : b :: l ≠ [])]

end Verif.Poly
