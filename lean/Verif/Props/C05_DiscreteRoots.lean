import Verif.Lemmas.FindAll
import Mathlib.Algebra.Order.Ring.Rat
import Mathlib.Tactic.NormNum
/-!
# C05 — discrete sign-change search is sound, complete and terminates
-/

namespace Verif.Props
open Verif Verif.Np Verif.Roots

variable {K : Type _} [Field K] [LinearOrder K] [IsStrictOrderedRing K]

/-- For every function on the integers and every strictly increasing grid, `find_all(f, grid,
'discrete')` terminates without an exception; the result is strictly ascending, consists of exactly
the grid zeros and exactly one integer `m` per sign change between neighbours `a < b`; that `m`
satisfies `a ≤ m < b` and `f` has different sign bits at `m` and `m + 1`. -/
theorem C05_find_all_discrete (f : ℤ → FVal K) (grid : List ℤ) (hgrid : grid.Pairwise (· < ·)) :
    ∃ r, findAllDiscr f grid = some (.ok r) ∧
      FindAllSpec f grid (fun a b m => a ≤ m ∧ m < b ∧ (f m).signbit ≠ (f (m + 1)).signbit) r := by
  refine findAllWith_spec f _ grid hgrid _ (fun a b m h => ⟨h.1, h.2.1⟩) ?_
  intro st hne hinv _
  obtain ⟨rs, hrs, ms, hp, hf⟩ := bisectDiscr_spec f st hne hinv
  exact ⟨rs, by rw [hrs]; rfl, ms, hp, hf⟩

/-- If moreover `f` has no zero on the integers, the product form: `f(m) f(m+1) < 0`. -/
theorem C05_sign_product (f : ℤ → FVal K) (hf : ∀ n, (f n).val ≠ 0) (grid : List ℤ)
    (hgrid : grid.Pairwise (· < ·)) :
    ∃ r, findAllDiscr f grid = some (.ok r) ∧ ∀ m ∈ r, (f m).val * (f (m + 1)).val < 0 := by
  obtain ⟨r, hr, hs⟩ := C05_find_all_discrete f grid hgrid
  refine ⟨r, hr, fun m hm => ?_⟩
  rcases hs.sound m hm with h | ⟨a, b, -, -, -, -, h⟩
  · exact absurd h.2 (hf m)
  · exact (FVal.signbit_ne_iff (hf _) (hf _)).1 h

/-- The vectorised bisection itself: on any non-empty collection of sign-changing brackets it
terminates and returns, up to order, one sign change inside each bracket. -/
theorem C05_bisect (f : ℤ → FVal K) (br : List (ℤ × ℤ)) (hne : br ≠ [])
    (hbr : ∀ p ∈ br, p.1 < p.2 ∧ (f p.1).signbit ≠ (f p.2).signbit) :
    ∃ rs, bisectDiscr f (br.map fun p => ⟨p.1, p.2, f p.1, f p.2⟩) = some rs ∧
      ∃ ms, rs.Perm ms ∧ List.Forall₂ (fun p m => p.1 ≤ m ∧ m < p.2 ∧
        (f m).signbit ≠ (f (m + 1)).signbit) br ms := by
  obtain ⟨rs, hrs, ms, hp, hf⟩ := bisectDiscr_spec f (br.map fun p => ⟨p.1, p.2, f p.1, f p.2⟩)
    (by simpa using hne)
    (by
      intro b hb
      rw [List.mem_map] at hb
      obtain ⟨p, hp, rfl⟩ := hb
      exact ⟨(hbr p hp).1, rfl, rfl, (hbr p hp).2⟩)
  rw [List.forall₂_map_left_iff] at hf
  exact ⟨rs, hrs, ms, hp, hf⟩

/-- An invalid `type` is only noticed when there is a sign change. -/
theorem C05_invalid_type (f : ℤ → FVal K) (grid : List ℤ) (hgrid : grid.Pairwise (· < ·)) :
    findAllInvalid f grid = some (.error .valueError) ↔
      ∃ a b, Adjacent grid a b ∧ (f a).val * (f b).val < 0 := by
  unfold findAllInvalid findAllWith
  constructor
  · intro h
    by_contra hno
    push Not at hno
    simp only at h
    split at h
    · simp at h
    · rename_i hne
      apply hne
      rw [List.isEmpty_iff, List.filter_eq_nil_iff]
      rintro ⟨p, q⟩ hq hcond
      rw [← List.map_tail, List.zip_map, List.mem_map] at hq
      obtain ⟨⟨a, b⟩, hab, hpq⟩ := hq
      simp only [Prod.map, Prod.mk.injEq] at hpq
      obtain ⟨rfl, rfl⟩ := hpq
      simp only [Bool.and_eq_true, bne_iff_ne, Bool.not_eq_eq_eq_not, Bool.not_true,
        decide_eq_false_iff_not] at hcond
      exact absurd ((FVal.signbit_ne_iff hcond.1.2 hcond.2).1 hcond.1.1)
        (not_lt.2 (hno a b ((mem_zip_tail_iff _ _ _).1 hab)))
  · rintro ⟨a, b, hab, hlt⟩
    simp only
    rw [if_neg]
    · rfl
    · rw [List.isEmpty_iff, List.filter_eq_nil_iff]
      intro h
      have h2 : (f a).val ≠ 0 := by intro h2; rw [h2, zero_mul] at hlt; exact lt_irrefl _ hlt
      have h3 : (f b).val ≠ 0 := by intro h2; rw [h2, mul_zero] at hlt; exact lt_irrefl _ hlt
      apply h ((a, f a), (b, f b))
      · rw [← List.map_tail, List.zip_map, List.mem_map]
        exact ⟨(a, b), (mem_zip_tail_iff _ _ _).2 hab, rfl⟩
      · simp only [Bool.and_eq_true, bne_iff_ne, Bool.not_eq_eq_eq_not, Bool.not_true,
          decide_eq_false_iff_not]
        exact ⟨⟨(FVal.signbit_ne_iff h2 h3).2 hlt, h2⟩, h3⟩

/- Non-vacuity: `f(n) = n² - 10` on the grid 0, 5, 20: the sign change between 3 and 4 is found. -/
example : ∃ r, findAllDiscr (fun n : ℤ => FVal.mk' ((n : ℚ) ^ 2 - 10)) [0, 5, 20] = some (.ok r) ∧
    3 ∈ r := by
  obtain ⟨r, hr, hs⟩ := C05_find_all_discrete (fun n : ℤ => FVal.mk' ((n : ℚ) ^ 2 - 10))
    [0, 5, 20] (by decide)
  refine ⟨r, hr, ?_⟩
  obtain ⟨x, ⟨hx, h0, h5⟩, ⟨-, -, hg⟩, -⟩ := hs.changes 0 5 ⟨[], [20], rfl⟩
    (by norm_num [FVal.mk'])
  have : x = 0 ∨ x = 1 ∨ x = 2 ∨ x = 3 ∨ x = 4 := by omega
  rcases this with rfl | rfl | rfl | rfl | rfl
  all_goals first | exact hx | (exfalso; revert hg; norm_num [FVal.signbit, FVal.mk'])

end Verif.Props
