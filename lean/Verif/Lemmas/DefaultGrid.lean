import Verif.Model.FTExtrema
import Mathlib.Tactic.NormNum
import Mathlib.Tactic.Linarith
import Mathlib.Tactic.FieldSimp
/-! The default frequency grid is strictly increasing and non-negative. -/

namespace Verif.Poly
open Verif

/-- The point `2^(6 + k/16)` before truncation. -/
noncomputable def gridPoint (k : ℕ) : ℝ := (2 : ℝ) ^ ((k : ℝ) * ((25 - 6) / (16 * (25 - 6) : ℝ)) + 6)

theorem gridPoint_eq (k : ℕ) : gridPoint k = 64 * ((2 : ℝ) ^ ((1 : ℝ) / 16)) ^ k := by
  unfold gridPoint
  rw [Real.rpow_add (by norm_num), show ((25 - 6) / (16 * (25 - 6)) : ℝ) = 1 / 16 by norm_num,
    mul_comm (k : ℝ), Real.rpow_mul (by norm_num), Real.rpow_natCast,
    show (2 : ℝ) ^ (6 : ℝ) = 64 by
      rw [show (6 : ℝ) = ((6 : ℕ) : ℝ) by norm_num, Real.rpow_natCast]; norm_num]
  ring

theorem root16_pow : ((2 : ℝ) ^ ((1 : ℝ) / 16)) ^ 16 = 2 := by
  rw [← Real.rpow_natCast, ← Real.rpow_mul (by norm_num)]
  norm_num

theorem root16_ge : (65 / 64 : ℝ) ≤ (2 : ℝ) ^ ((1 : ℝ) / 16) := by
  by_contra h
  have h1 : ((2 : ℝ) ^ ((1 : ℝ) / 16)) ^ 16 < (65 / 64) ^ 16 :=
    pow_lt_pow_left₀ (not_le.1 h) (by positivity) (by norm_num)
  rw [root16_pow] at h1
  norm_num at h1

theorem gridPoint_ge (k : ℕ) : 64 ≤ gridPoint k := by
  rw [gridPoint_eq]
  have : 1 ≤ ((2 : ℝ) ^ ((1 : ℝ) / 16)) ^ k := one_le_pow₀ (by linarith [root16_ge])
  linarith

theorem gridPoint_succ (k : ℕ) : gridPoint k + 1 ≤ gridPoint (k + 1) := by
  have h1 := gridPoint_ge k
  have h2 : gridPoint (k + 1) = gridPoint k * (2 : ℝ) ^ ((1 : ℝ) / 16) := by
    rw [gridPoint_eq, gridPoint_eq, pow_succ]; ring
  have h3 := root16_ge
  rw [h2]
  nlinarith

/-- `2^(6+k/16)` truncated -/
noncomputable def gridFloor (k : ℕ) : ℤ := ⌊gridPoint k⌋

theorem gridFloor_strictMono : StrictMono gridFloor := by
  apply strictMono_nat_of_lt_succ
  intro k
  unfold gridFloor
  rw [Int.lt_iff_add_one_le, Int.le_floor]
  have := Int.floor_le (gridPoint k)
  have := gridPoint_succ k
  push_cast
  linarith

theorem gridFloor_ge (k : ℕ) : 64 ≤ gridFloor k := by
  unfold gridFloor
  rw [Int.le_floor]
  exact_mod_cast gridPoint_ge k

theorem defaultGrid_eq : defaultGrid =
    (List.range 64).map (fun n : ℕ => (n : ℤ)) ++ (List.range 305).map gridFloor := rfl

theorem defaultGrid_sorted : defaultGrid.Pairwise (· < ·) := by
  rw [defaultGrid_eq, List.pairwise_append]
  refine ⟨?_, ?_, ?_⟩
  · rw [List.pairwise_map]
    exact List.pairwise_lt_range.imp (by intro a b h; exact_mod_cast h)
  · rw [List.pairwise_map]
    exact List.pairwise_lt_range.imp (fun h => gridFloor_strictMono h)
  · intro a ha b hb
    simp only [List.mem_map, List.mem_range] at ha hb
    obtain ⟨n, hn, rfl⟩ := ha
    obtain ⟨k, -, rfl⟩ := hb
    have := gridFloor_ge k
    omega

theorem defaultGrid_nonneg : ∀ x ∈ defaultGrid, 0 ≤ x := by
  intro x hx
  rw [defaultGrid_eq] at hx
  simp only [List.mem_append, List.mem_map, List.mem_range] at hx
  rcases hx with ⟨n, -, rfl⟩ | ⟨k, -, rfl⟩
  · omega
  · have := gridFloor_ge k; omega

theorem defaultGrid_length : defaultGrid.length = 369 := by
  rw [defaultGrid_eq]; simp

/-- Explicit grid points. -/
theorem gridFloor_eq (k : ℕ) (n : ℕ) (h1 : n ^ 16 ≤ 64 ^ 16 * 2 ^ k) (h2 : 64 ^ 16 * 2 ^ k < (n + 1) ^ 16) :
    gridFloor k = n := by
  have hp : gridPoint k ^ 16 = 64 ^ 16 * 2 ^ k := by
    rw [gridPoint_eq, mul_pow, ← pow_mul, mul_comm k 16, pow_mul, root16_pow]
  have hg := gridPoint_ge k
  unfold gridFloor
  rw [Int.floor_eq_iff]
  constructor
  · by_contra h
    have h3 : gridPoint k ^ 16 < (n : ℝ) ^ 16 :=
      pow_lt_pow_left₀ (by push_cast at h; linarith) (by linarith) (by norm_num)
    rw [hp] at h3
    have : (n : ℝ) ^ 16 ≤ 64 ^ 16 * 2 ^ k := by exact_mod_cast h1
    linarith
  · by_contra h
    have h3 : ((n : ℝ) + 1) ^ 16 ≤ gridPoint k ^ 16 :=
      pow_le_pow_left₀ (by positivity) (by push_cast at h; linarith) 16
    rw [hp] at h3
    have : (64 : ℝ) ^ 16 * 2 ^ k < ((n : ℝ) + 1) ^ 16 := by exact_mod_cast h2
    linarith

end Verif.Poly
