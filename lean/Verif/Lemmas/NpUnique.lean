import Verif.Model.BasisPoints
import Mathlib.Data.List.Sort
import Mathlib.Tactic.Linarith
import Mathlib.Tactic.NormNum
/-! `np.unique` and `np.round`. -/

namespace Verif.Basis
open Verif Verif.Poly

theorem mem_npUnique (l : List ℤ) (x : ℤ) : x ∈ npUnique l ↔ x ∈ l := by
  unfold npUnique
  rw [(List.mergeSort_perm _ _).mem_iff, List.mem_dedup]

theorem npUnique_sorted (l : List ℤ) : (npUnique l).Pairwise (· < ·) := by
  unfold npUnique
  have h1 : (l.dedup.mergeSort fun a b => decide (a ≤ b)).Pairwise (· ≤ ·) := by
    have := List.pairwise_mergeSort (le := fun a b : ℤ => decide (a ≤ b))
      (by intro a b c; simp; omega) (by intro a b; simp; omega) l.dedup
    exact this.imp (by intro a b h; simpa using h)
  have h2 : (l.dedup.mergeSort fun a b => decide (a ≤ b)).Nodup :=
    (List.mergeSort_perm _ _).nodup_iff.2 (List.nodup_dedup l)
  exact h1.imp₂ (S := (· ≠ ·)) (by intro a b h3 h4; exact lt_of_le_of_ne h3 h4) h2

theorem sorted_ext {l₁ l₂ : List ℤ} (h1 : l₁.Pairwise (· < ·)) (h2 : l₂.Pairwise (· < ·))
    (h : ∀ x, x ∈ l₁ ↔ x ∈ l₂) : l₁ = l₂ := by
  have hp : l₁.Perm l₂ := (List.perm_ext_iff_of_nodup (h1.imp (fun h => ne_of_lt h))
    (h2.imp (fun h => ne_of_lt h))).2 h
  exact hp.eq_of_pairwise (fun a b _ _ hab hba => absurd hab (lt_asymm hba)) h1 h2

theorem npUnique_of_sorted {l : List ℤ} (h : l.Pairwise (· < ·)) : npUnique l = l :=
  sorted_ext (npUnique_sorted l) h (mem_npUnique l)

theorem npRound_int (n : ℤ) : npRound (n : ℝ) = n := by
  unfold npRound
  simp

theorem npRound_neg (x : ℝ) : npRound (-x) = - npRound x := by
  rcases eq_or_ne (Int.fract x) 0 with h0 | h0
  · obtain ⟨n, rfl⟩ : ∃ n : ℤ, x = n := ⟨⌊x⌋, by rw [← Int.self_sub_floor] at h0; linarith⟩
    rw [← Int.cast_neg, npRound_int, npRound_int]
  · have hf : Int.fract (-x) = 1 - Int.fract x := Int.fract_neg h0
    have hfl : ⌊-x⌋ = -⌊x⌋ - 1 := by
      rw [Int.floor_eq_iff]
      have h1 := Int.floor_add_fract x
      have h2 := Int.fract_lt_one x
      have h3 : 0 < Int.fract x := lt_of_le_of_ne (Int.fract_nonneg x) (Ne.symm h0)
      push_cast
      constructor <;> linarith
    have hev : Even (-⌊x⌋ - 1) ↔ ¬ Even ⌊x⌋ := by
      rw [Int.even_sub_one, even_neg]
    unfold npRound
    rw [hf, hfl]
    by_cases h1 : Int.fract x < 1 / 2
    · rw [if_pos h1, if_neg (by linarith), if_pos (by linarith)]; omega
    · rw [if_neg h1]
      by_cases h2 : 1 / 2 < Int.fract x
      · rw [if_pos h2, if_pos (by linarith)]; omega
      · rw [if_neg h2, if_neg (by linarith), if_neg (by linarith)]
        by_cases h3 : Even ⌊x⌋
        · rw [if_pos h3, if_neg (by rw [hev]; exact fun h => h h3)]; omega
        · rw [if_neg h3, if_pos (hev.2 h3)]; omega

theorem npRound_bounds (x : ℝ) : x - 1 / 2 ≤ npRound x ∧ (npRound x : ℝ) ≤ x + 1 / 2 := by
  have h := Int.floor_add_fract x
  unfold npRound
  split
  · constructor <;> [linarith; linarith [Int.fract_nonneg x]]
  · rename_i h1
    split
    · push_cast
      constructor <;> [linarith [Int.fract_lt_one x]; linarith]
    · rename_i h2
      have h3 : Int.fract x = 1 / 2 := le_antisymm (not_lt.1 h2) (not_lt.1 h1)
      split
      · constructor <;> linarith
      · push_cast; constructor <;> linarith

end Verif.Basis
