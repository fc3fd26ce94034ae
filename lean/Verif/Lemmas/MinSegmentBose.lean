import Verif.Lemmas.MinSegment
/-!
# The shortest segments hinted by the regularized Bose kernel
-/

namespace Verif.Spec
open Roots Props

theorem bose_count {c : ℝ} {m : ℤ} {lam : ℝ} {n : ℕ} (hl : 0 < lam) (h : PointCount c m lam n) (hc : 0 ≤ c) (hm : (m : ℝ) ≤ c) :
    1 ≤ Real.logb 10 (max lam 10) ∧ (n : ℝ) ≤ c * Real.logb 10 (max lam 10) + 1 / 2 := by
  have hu1 : 1 ≤ Real.logb 10 (max lam 10) := by
    rw [Real.le_logb_iff_rpow_le (by norm_num) (lt_max_of_lt_left hl)]
    simp
  have hu2 : Real.logb 10 lam ≤ Real.logb 10 (max lam 10) := Real.logb_le_logb_of_le (by norm_num) hl (le_max_left _ _)
  refine ⟨hu1, ?_⟩
  obtain ⟨k, hk, hn⟩ := h
  have hk1 := abs_le.1 hk.1
  have hn' : ((n : ℤ) : ℝ) = max (k : ℝ) m := by rw [hn]; push_cast; rfl
  rw [Int.cast_natCast] at hn'
  rw [hn']
  have h1 := mul_le_mul_of_nonneg_left hu1 hc
  have h2 := mul_le_mul_of_nonneg_left hu2 hc
  exact max_le (by linarith) (by linarith)

theorem log_ten {L : ℝ} : Real.log L = Real.logb 10 L * Real.log 10 := by
  rw [Real.logb, div_mul_cancel₀]
  have := ten_log
  linarith

/-- Segments in `x`. -/
theorem bose_minX {lam : ℝ} (hl : 0 < lam) {g : List ℝ} (hg : Kernel.boseSegX lam = .ok g) :
    SegAtLeast (1 / (14 * max lam 10 ^ (4 / 3 : ℝ))) g := by
  obtain ⟨g', hg', hs⟩ := (C33_grids lam hl).2.2.1
  obtain ⟨g2, n, hg2, hlen, hcount, hsp⟩ := (C33_spacings lam hl).2.2.1
  cases hg'.symm.trans hg
  cases hg2.symm.trans hg
  obtain ⟨hu1, hn⟩ := bose_count hl hcount (by norm_num) (by norm_num)
  have hL : 0 < max lam 10 := lt_max_of_lt_left hl
  have hlog := log_ten (L := max lam 10)
  generalize max lam 10 = L at *
  have e : 1 / (14 * L ^ (4 / 3 : ℝ)) = 1 / L ^ (4 / 3 : ℝ) / 14 := by field_simp
  rw [e]
  refine segX_of hs hlen hsp (by positivity) (fun j hj => ?_) ?_ (by norm_num)
  · refine one_div_le_one_div_of_le (Real.cosh_pos _) ?_
    have hj' : (j : ℝ) + 1 ≤ n := by exact_mod_cast hj
    have h2 : Real.cosh (0.18 * j) ≤ Real.exp (0.18 * j) := by
      rw [Real.cosh_eq]
      have : Real.exp (-(0.18 * (j : ℝ))) ≤ Real.exp (0.18 * j) := Real.exp_le_exp.2 (by
        have : (0 : ℝ) ≤ j := Nat.cast_nonneg _
        linarith)
      linarith
    refine h2.trans ?_
    rw [Real.rpow_def_of_pos hL]
    refine Real.exp_le_exp.2 ?_
    rw [hlog]
    nlinarith [ten_log]
  · calc ∑ k ∈ Finset.range n, 1 / Real.cosh (0.18 * (k : ℝ)) ≤ ∑ k ∈ Finset.range n, 2 * Real.exp (-0.18) ^ k := by
          refine Finset.sum_le_sum fun k _ => ?_
          rw [← Real.exp_nat_mul, div_le_iff₀ (Real.cosh_pos _), Real.cosh_eq]
          have e1 : Real.exp (k * (-0.18)) * Real.exp (0.18 * k) = 1 := by
            rw [← Real.exp_add, ← Real.exp_zero]
            congr 1
            ring
          nlinarith [Real.exp_pos ((k : ℝ) * (-0.18)), Real.exp_pos (-(0.18 * (k : ℝ))),
            mul_pos (Real.exp_pos ((k : ℝ) * (-0.18))) (Real.exp_pos (-(0.18 * (k : ℝ))))]
      _ = 2 * ∑ k ∈ Finset.range n, Real.exp (-0.18) ^ k := (Finset.mul_sum _ _ _).symm
      _ ≤ 2 * (1 / (1 - Real.exp (-0.18))) := by
          refine mul_le_mul_of_nonneg_left (geom_le (Real.exp_pos _).le ?_ n) (by norm_num)
          have := exp_neg_le (t := 0.18) (by norm_num)
          have h3 : (1 : ℝ) / (1 + 0.18) ≤ 0.8475 := by norm_num
          linarith
      _ ≤ 14 := by
          have := exp_neg_le (t := 0.18) (by norm_num)
          have h3 : (1 : ℝ) / (1 + 0.18) ≤ 0.8475 := by norm_num
          rw [mul_one_div, div_le_iff₀ (by linarith)]
          linarith

/-- Segments in `y`. -/
theorem bose_minY {lam : ℝ} (hl : 0 < lam) (h12 : lam ≤ 10 ^ 12) {g : List ℝ} (hg : Kernel.boseSegY lam = .ok g) :
    SegAtLeast (1 / (45 * max lam 10 ^ (5 / 3 : ℝ))) g := by
  obtain ⟨g', hg', hs⟩ := (C33_grids lam hl).2.2.2
  obtain ⟨g2, n, hg2, hlen, hcount, hsp⟩ := (C33_spacings lam hl).2.2.2
  cases hg'.symm.trans hg
  cases hg2.symm.trans hg
  obtain ⟨hu1, hn⟩ := bose_count hl hcount (by norm_num) (by norm_num)
  have hL : 0 < max lam 10 := lt_max_of_lt_left hl
  have hu12 : Real.logb 10 (max lam 10) ≤ 12 := by
    rw [Real.logb_le_iff_le_rpow (by norm_num) hL]
    refine max_le ?_ ?_
    · exact_mod_cast h12
    · have : (10 : ℝ) ^ (12 : ℝ) = 10 ^ 12 := by exact_mod_cast Real.rpow_natCast 10 12
      rw [this]
      norm_num
  have hlog := log_ten (L := max lam 10)
  generalize max lam 10 = L at *
  have e : 1 / (45 * L ^ (5 / 3 : ℝ)) = 5.4 / 45 * (1 / L ^ (5 / 3 : ℝ)) / 5.4 := by field_simp
  rw [e]
  refine segY_of hs hlen hsp (by positivity) (fun j hj => ?_) ?_ (by norm_num)
  · have hj' : (j : ℝ) + 1 ≤ n := by exact_mod_cast hj
    have hj0 : (0 : ℝ) ≤ j := Nat.cast_nonneg _
    have h1 : Real.log ((j : ℝ) + 1) ≤ 5.546 := by
      have h2 : (j : ℝ) + 1 ≤ 2 ^ 8 := by norm_num; linarith
      have h3 := Real.log_le_log (by linarith) h2
      rw [Real.log_pow] at h3
      have := Real.log_two_lt_d9
      push_cast at h3
      linarith
    have h4 : 1 / L ^ (5 / 3 : ℝ) ≤ Real.exp (-0.0337 * j * Real.log (j + 1)) := by
      rw [Real.rpow_def_of_pos hL, one_div, ← Real.exp_neg]
      refine Real.exp_le_exp.2 ?_
      have h5 := mul_le_mul_of_nonneg_left h1 hj0
      rw [hlog]
      nlinarith [ten_log]
    norm_num at h4 ⊢
    linarith
  · have hq : Real.exp (-0.02335) ≤ 0.9772 := by
      have h3 : (1 : ℝ) / (1 + 0.02335) ≤ 0.9772 := by norm_num
      exact (exp_neg_le (t := 0.02335) (by norm_num)).trans h3
    calc ∑ k ∈ Finset.range n, 0.12 * Real.exp (-0.0337 * (k : ℝ) * Real.log (k + 1))
        ≤ ∑ k ∈ Finset.range n, 0.12 * Real.exp (-0.02335) ^ k := by
          refine Finset.sum_le_sum fun k _ => mul_le_mul_of_nonneg_left ?_ (by norm_num)
          rw [← Real.exp_nat_mul]
          refine Real.exp_le_exp.2 ?_
          rcases Nat.eq_zero_or_pos k with rfl | hk
          · simp
          · have hk' : (1 : ℝ) ≤ k := by exact_mod_cast hk
            have h2 : Real.log 2 ≤ Real.log ((k : ℝ) + 1) := Real.log_le_log (by norm_num) (by linarith)
            have := Real.log_two_gt_d9
            nlinarith
      _ = 0.12 * ∑ k ∈ Finset.range n, Real.exp (-0.02335) ^ k := (Finset.mul_sum _ _ _).symm
      _ ≤ 0.12 * (1 / (1 - Real.exp (-0.02335))) :=
          mul_le_mul_of_nonneg_left (geom_le (Real.exp_pos _).le (by linarith) n) (by norm_num)
      _ ≤ 5.4 := by
          rw [mul_one_div, div_le_iff₀ (by linarith)]
          linarith

end Verif.Spec
