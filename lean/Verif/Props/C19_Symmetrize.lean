import Verif.Model.FTExtrema
import Mathlib.Data.List.Sort
import Mathlib.Tactic.Ring
/-!
# C19 — symmetrisation of frequency sets
-/

namespace Verif.Props
open Verif Verif.Poly

/-- What the symmetrised list `r` of the list `x` is. -/
structure IsSymmetrisation (x r : List ℤ) : Prop where
  /-- ascending -/
  ascending : r.Pairwise (· ≤ ·)
  /-- closed under `n ↦ -n` (with multiplicity): the reversed negated list is the list itself -/
  mirror : (r.map (- ·)).reverse = r
  /-- the positive part is the positive part of the input -/
  positive : r.filter (0 < ·) = x.filter (0 < ·)
  /-- zero appears once if it appeared once, and not at all if it did not -/
  zero : x.count 0 ≤ 1 → r.count 0 = x.count 0

theorem zip_all_le (a : ℤ) (l : List ℤ) :
    (((a :: l).zip l).all fun q => decide (q.2 ≥ q.1)) = true ↔ (a :: l).Pairwise (· ≤ ·) := by
  rw [← List.isChain_iff_pairwise]
  induction l generalizing a with
  | nil => simp
  | cons b l ih =>
    rw [List.isChain_cons_cons, ← ih b]
    simp

theorem symm_ascending {x : List ℤ} (hs : x.Pairwise (· ≤ ·)) (hn : ∀ y ∈ x, 0 ≤ y) (t : List ℤ)
    (ht : t.Sublist x) : (x.reverse.map (- ·) ++ t).Pairwise (· ≤ ·) := by
  rw [List.pairwise_append]
  refine ⟨?_, hs.sublist ht, ?_⟩
  · rw [List.pairwise_map, List.pairwise_reverse]
    exact hs.imp (by intro a b h; omega)
  · intro a ha b hb
    simp only [List.mem_map, List.mem_reverse] at ha
    obtain ⟨c, hc, rfl⟩ := ha
    have := hn c hc
    have := hn b (ht.subset hb)
    omega

theorem symm_result {x : List ℤ} (hs : x.Pairwise (· ≤ ·)) (hn : ∀ y ∈ x, 0 ≤ y) :
    ∃ r, symmetrizeMatsubara x = .ok r ∧ IsSymmetrisation x r := by
  match x, hs, hn with
  | [], _, _ => exact ⟨[], rfl, by constructor <;> simp⟩
  | a :: l, hs, hn =>
    unfold symmetrizeMatsubara
    have ha : 0 ≤ a := hn a (by simp)
    simp only
    rw [if_pos ((zip_all_le a l).2 hs), if_pos ha]
    have hneg : ∀ m : List ℤ, (∀ y ∈ m, 0 ≤ y) → (m.reverse.map (- ·)).filter (fun y => decide (0 < y)) = [] := by
      intro m hm
      rw [List.filter_eq_nil_iff]
      intro y hy
      simp only [List.mem_map, List.mem_reverse] at hy
      obtain ⟨c, hc, rfl⟩ := hy
      have := hm c hc
      simp; omega
    by_cases h0 : a = 0
    · rw [if_pos h0]
      refine ⟨_, rfl, symm_ascending hs hn l (List.sublist_cons_self a l), ?_, ?_, ?_⟩
      · subst h0
        simp [List.map_append, List.map_map, List.map_reverse, Function.comp_def]
      · rw [List.filter_append, hneg _ hn, List.nil_append, List.filter_cons_of_neg (by simp [h0])]
      · subst h0
        intro h1
        have hl0 : l.count 0 = 0 := by simpa using h1
        rw [List.count_append, hl0, List.count_cons_self, hl0]
        have : ((0 :: l).reverse.map (- ·)).count 0 = (0 :: l).reverse.count 0 := by
          have := List.count_map_of_injective (0 :: l).reverse (fun y : ℤ => -y) neg_injective 0
          simpa using this
        rw [this, List.count_reverse, List.count_cons_self, hl0]
    · rw [if_neg h0]
      have hpos : ∀ y ∈ a :: l, 0 < y := by
        intro y hy
        rcases List.mem_cons.1 hy with rfl | hy
        · omega
        · have := List.rel_of_pairwise_cons hs hy; omega
      refine ⟨_, rfl, symm_ascending hs hn _ (List.Sublist.refl _), ?_, ?_, ?_⟩
      · simp [List.map_append, List.map_map, List.map_reverse, Function.comp_def]
      · rw [List.filter_append, hneg _ hn, List.nil_append]
      · intro _
        have e1 : (a :: l).count 0 = 0 := List.count_eq_zero.2 fun h => by
          have := hpos 0 h; omega
        have e2 : ((a :: l).reverse.map (- ·)).count 0 = 0 := List.count_eq_zero.2 fun h => by
          simp only [List.mem_map, List.mem_reverse] at h
          obtain ⟨c, hc, h⟩ := h
          have := hpos c hc; omega
        rw [List.count_append, e1, e2]

/-- Every ascending list of non-negative frequencies is accepted and symmetrised; every other list
is rejected with ValueError. -/
theorem C19_symmetrize (x : List ℤ) :
    (x.Pairwise (· ≤ ·) ∧ (∀ y ∈ x, 0 ≤ y) →
      ∃ r, symmetrizeMatsubara x = .ok r ∧ IsSymmetrisation x r) ∧
    (¬ (x.Pairwise (· ≤ ·) ∧ ∀ y ∈ x, 0 ≤ y) → symmetrizeMatsubara x = .error .valueError) := by
  refine ⟨fun h => symm_result h.1 h.2, ?_⟩
  intro h
  match x, h with
  | [], h => exact absurd ⟨List.Pairwise.nil, by simp⟩ h
  | a :: l, h =>
    unfold symmetrizeMatsubara
    simp only
    by_cases hs : (a :: l).Pairwise (· ≤ ·)
    · rw [if_pos ((zip_all_le a l).2 hs), if_neg]
      intro ha
      apply h
      refine ⟨hs, ?_⟩
      intro y hy
      rcases List.mem_cons.1 hy with rfl | hy
      · exact ha
      · have := List.rel_of_pairwise_cons hs hy; omega
    · rw [if_neg]
      rw [zip_all_le]; exact hs

/-- For strictly ascending input the output is strictly ascending, its members are exactly the
input and its negatives, and its non-negative part is the input. -/
theorem C19_strict (x : List ℤ) (hs : x.Pairwise (· < ·)) (hn : ∀ y ∈ x, 0 ≤ y) :
    ∃ r, symmetrizeMatsubara x = .ok r ∧ r.Pairwise (· < ·) ∧
      (∀ y, y ∈ r ↔ y ∈ x ∨ -y ∈ x) ∧ (∀ y ∈ r, -y ∈ r) ∧ r.filter (0 ≤ ·) = x := by
  match x, hs, hn with
  | [], _, _ => exact ⟨[], rfl, by simp⟩
  | a :: l, hs, hn =>
    have ha : 0 ≤ a := hn a (by simp)
    have hgt : ∀ y ∈ l, a < y := fun y hy => List.rel_of_pairwise_cons hs hy
    have hl : ∀ y ∈ l, 0 < y := fun y hy => lt_of_le_of_lt ha (hgt y hy)
    have hrev : ((a :: l).reverse.map (- ·)).Pairwise (· < ·) := by
      rw [List.pairwise_map, List.pairwise_reverse]
      exact hs.imp (by intro a b h; omega)
    have hfl : l.filter (fun y => decide (0 ≤ y)) = l :=
      List.filter_eq_self.2 fun y hy => by have := hl y hy; simp; omega
    have hfr : (l.reverse.map (- ·)).filter (fun y => decide (0 ≤ y)) = [] := by
      rw [List.filter_eq_nil_iff]
      intro y hy
      simp only [List.mem_map, List.mem_reverse] at hy
      obtain ⟨c, hc, rfl⟩ := hy
      have := hl c hc
      simp; omega
    unfold symmetrizeMatsubara
    simp only
    rw [if_pos ((zip_all_le a l).2 (hs.imp (by intro a b h; omega))), if_pos ha]
    by_cases h0 : a = 0
    · rw [if_pos h0]
      refine ⟨_, rfl, ?_, ?_, ?_, ?_⟩
      · rw [List.pairwise_append]
        refine ⟨hrev, (List.pairwise_cons.1 hs).2, ?_⟩
        intro b hb c hc
        simp only [List.mem_map, List.mem_reverse] at hb
        obtain ⟨d, hd, rfl⟩ := hb
        have := hn d hd
        have := hl c hc
        omega
      · intro y
        simp only [List.mem_append, List.mem_map, List.mem_reverse, List.mem_cons]
        constructor
        · rintro (⟨c, rfl | hc, rfl⟩ | h)
          · right; left; omega
          · right; right; simpa using hc
          · left; right; exact h
        · rintro ((rfl | h) | h)
          · left; exact ⟨0, Or.inl h0.symm, by omega⟩
          · right; exact h
          · left; exact ⟨-y, h, by omega⟩
      · intro y
        simp only [List.mem_append, List.mem_map, List.mem_reverse, List.mem_cons]
        rintro (⟨c, rfl | hc, rfl⟩ | h)
        · left; exact ⟨c, Or.inl rfl, by omega⟩
        · right; simpa using hc
        · left; exact ⟨y, Or.inr h, rfl⟩
      · rw [List.filter_append, hfl, List.reverse_cons, List.map_append, List.filter_append, hfr]
        simp [h0]
    · rw [if_neg h0]
      refine ⟨_, rfl, ?_, ?_, ?_, ?_⟩
      · rw [List.pairwise_append]
        refine ⟨hrev, hs, ?_⟩
        intro b hb c hc
        simp only [List.mem_map, List.mem_reverse] at hb
        obtain ⟨d, hd, rfl⟩ := hb
        have := hn d hd
        have h1 : 0 < c := by
          rcases List.mem_cons.1 hc with rfl | hc
          · omega
          · exact hl c hc
        omega
      · intro y
        simp only [List.mem_append, List.mem_map, List.mem_reverse]
        constructor
        · rintro (⟨c, hc, rfl⟩ | h)
          · right; simpa using hc
          · left; exact h
        · rintro (h | h)
          · right; exact h
          · left; exact ⟨-y, h, by omega⟩
      · intro y
        simp only [List.mem_append, List.mem_map, List.mem_reverse]
        rintro (⟨c, hc, rfl⟩ | h)
        · right; simpa using hc
        · left; exact ⟨y, h, rfl⟩
      · rw [List.filter_append, List.reverse_cons, List.map_append, List.filter_append, hfr]
        simp only [List.map_cons, List.map_nil, List.nil_append]
        rw [List.filter_cons_of_neg (by simp; omega), List.filter_cons_of_pos (by simpa using ha), hfl]
        simp

/- Non-vacuity -/
example : symmetrizeMatsubara [0, 2, 6] = .ok [-6, -2, 0, 2, 6] := by decide
example : symmetrizeMatsubara [1, 5] = .ok [-5, -1, 1, 5] := by decide
example : symmetrizeMatsubara [5, 1] = .error .valueError := by decide

end Verif.Props
