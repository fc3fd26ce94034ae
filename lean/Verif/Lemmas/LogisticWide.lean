import Verif.Lemmas.LogisticGrid
/-!
# The segments in `x` hinted by the logistic kernel, for large cut-offs
-/

namespace Verif.Spec
open Roots Props

/-- The segments resolve the kernel up to the cut-off `10 ^ U` with a factor `θ` per node. -/
theorem logistic_fineX_wide {θ U : ℝ} (hθ : 0 ≤ θ) (r : ℕ) (hr1 : 1 ≤ 2 * θ * ∑ k ∈ Finset.range r, (0.866 : ℝ) ^ (k + 1))
    (hU : 2 * (10 * Real.exp (-2.145)) ^ U ≤ 2 * θ * (190 / 3) * Real.exp (-(0.143 * (r + 1 / 2))))
    {lam : ℝ} (h1 : 10 ≤ lam) (h2 : lam ≤ 10 ^ U) {m : ℕ} (hm : 10 ≤ m) :
    ∃ g, Kernel.logisticSegX lam = .ok g ∧ SymGrid g ∧ FineX lam m θ g := by
  have hl : 0 < lam := by linarith
  obtain ⟨g', hg', hs⟩ := (C33_grids lam hl).1
  obtain ⟨g, n, hg, hlen, hcount, hsp⟩ := (C33_spacings lam hl).1
  cases hg'.symm.trans hg
  refine ⟨g', hg, hs, fineX_of hs hlen (d := fun j => 1 / Real.cosh (0.143 * j)) (fun j => by
    have := Real.cosh_pos (0.143 * j); positivity) hsp hθ fun j hj => ?_⟩
  set d : ℕ → ℝ := fun j => 1 / Real.cosh (0.143 * j) with hd
  have hdpos : ∀ j, 0 < d j := fun j => by have := Real.cosh_pos (0.143 * j); simp only [hd]; positivity
  obtain ⟨k, hk, hn⟩ := hcount
  set u := Real.logb 10 lam with hu
  have hk1 := abs_le.1 hk.1
  have hu1 : 1 ≤ u := by
    rw [hu, Real.le_logb_iff_rpow_le (by norm_num) hl]
    simpa using h1
  have huU : u ≤ U := by
    rw [hu, Real.logb_le_iff_le_rpow (by norm_num) hl]
    exact h2
  have hlam : lam = (10 : ℝ) ^ u := (Real.rpow_logb (by norm_num) (by norm_num) hl).symm
  have hn15 : 15 ≤ n := by
    have : (14 : ℝ) < k := by linarith
    have : (14 : ℤ) < k := by exact_mod_cast this
    omega
  have hnu : 15 * u - 1 / 2 ≤ n := by
    have : (k : ℝ) ≤ (n : ℤ) := by exact_mod_cast (by omega : k ≤ (n : ℤ))
    have : (k : ℝ) ≤ n := by exact_mod_cast this
    linarith
  change d j / 2 ≤ θ * max (∑ k ∈ Finset.range n, d k - ∑ k ∈ Finset.range (j + 1), d k)
    ((∑ k ∈ Finset.range n, d k) * (2 * m / (3 * lam)))
  by_cases hr : j + r < n
  · have h3 : (∑ k ∈ Finset.range r, (0.866 : ℝ) ^ (k + 1)) * d j ≤
        ∑ k ∈ Finset.range n, d k - ∑ k ∈ Finset.range (j + 1), d k := by
      refine le_trans ?_ (tail_ge hdpos hr)
      have h4 : ∀ k : ℕ, 0.866 ^ (k + 1) * d j ≤ d (j + 1 + k) := by
        intro k
        have h5 := sech_shift (0.143 * j) (0.143 * ((k + 1 : ℕ) : ℝ)) (by positivity)
        rw [exp_pow] at h5
        simp only [hd]
        refine le_trans ?_ (h5.trans (le_of_eq ?_))
        · exact mul_le_mul_of_nonneg_right (pow_le_pow_left₀ (by norm_num) exp_143 _) (hdpos j).le
        · congr 2
          push_cast
          ring
      rw [Finset.sum_mul]
      exact Finset.sum_le_sum fun k _ => h4 k
    have h4 := le_max_left (∑ k ∈ Finset.range n, d k - ∑ k ∈ Finset.range (j + 1), d k)
      ((∑ k ∈ Finset.range n, d k) * (2 * m / (3 * lam)))
    have h5 := mul_le_mul_of_nonneg_left (h3.trans h4) hθ
    have h6 := mul_le_mul_of_nonneg_right hr1 (hdpos j).le
    linarith
  · have hS : (9.5 : ℝ) ≤ ∑ k ∈ Finset.range n, d k := by
      have h3 : ∑ k ∈ Finset.range 15, d k ≤ ∑ k ∈ Finset.range n, d k :=
        Finset.sum_le_sum_of_subset_of_nonneg (Finset.range_subset_range.2 hn15) fun k _ _ => (hdpos k).le
      refine le_trans ?_ h3
      have h4 : ∀ k : ℕ, 2 * 0.866 ^ k / (1 + (0.866 ^ k) ^ 2) ≤ d k := by
        intro k
        simp only [hd]
        rw [sech_exp, exp_pow]
        have h5 : (0.866 : ℝ) ^ k ≤ Real.exp (-0.143) ^ k := pow_le_pow_left₀ (by norm_num) exp_143 k
        have h6 : Real.exp (-0.143) ^ k ≤ 1 := pow_le_one₀ (Real.exp_pos _).le (Real.exp_le_one_iff.2 (by norm_num))
        generalize Real.exp (-0.143) ^ k = p at *
        have h7 : (0 : ℝ) < 0.866 ^ k := by positivity
        generalize (0.866 : ℝ) ^ k = q at *
        rw [div_le_div_iff₀ (by positivity) (by positivity)]
        have : q * p ≤ 1 := mul_le_one₀ (h5.trans h6) (h7.le.trans h5) h6
        nlinarith
      refine le_trans ?_ (Finset.sum_le_sum fun k _ => h4 k)
      norm_num [Finset.sum_range_succ]
    have hdj : d j * lam ≤ 2 * θ * (190 / 3) := by
      have h3 : d j ≤ 2 * Real.exp (-(0.143 * j)) := by
        simp only [hd]
        rw [sech_exp, div_le_iff₀ (by positivity)]
        have := mul_pos (Real.exp_pos (-(0.143 * (j : ℝ)))) (pow_pos (Real.exp_pos (-(0.143 * (j : ℝ)))) 2)
        nlinarith
      have h4 : (n : ℝ) - r ≤ j := by
        have : n ≤ j + r := by omega
        have : (n : ℝ) ≤ j + r := by exact_mod_cast this
        linarith
      have h5 : Real.exp (-(0.143 * j)) ≤ Real.exp (0.143 * (r + 1 / 2)) * Real.exp (-2.145) ^ u := by
        rw [← Real.exp_mul, ← Real.exp_add, Real.exp_le_exp]
        nlinarith
      have h6 : (10 * Real.exp (-2.145)) ^ u ≤ (10 * Real.exp (-2.145)) ^ U := by
        refine Real.rpow_le_rpow_of_exponent_le ?_ huU
        rw [Real.exp_neg, ← div_eq_mul_inv, le_div_iff₀ (Real.exp_pos _), one_mul]
        calc Real.exp 2.145 ≤ Real.exp ((3 : ℕ) * 1 - 0.855) := by rw [Real.exp_le_exp]; norm_num
          _ ≤ 10 := by
            rw [Real.exp_sub, Real.exp_nat_mul, div_le_iff₀ (Real.exp_pos _)]
            have e1 := pow_le_pow_left₀ (Real.exp_pos 1).le Real.exp_one_lt_d9.le 3
            have e2 := quad_exp (x := 0.855) (by norm_num)
            refine e1.trans (le_trans ?_ (mul_le_mul_of_nonneg_left e2 (by norm_num)))
            norm_num
      calc d j * lam ≤ 2 * (Real.exp (0.143 * (r + 1 / 2)) * Real.exp (-2.145) ^ u) * (10 : ℝ) ^ u := by
            rw [hlam]
            refine mul_le_mul_of_nonneg_right (h3.trans ?_) (by positivity)
            linarith
        _ = Real.exp (0.143 * (r + 1 / 2)) * (2 * (10 * Real.exp (-2.145)) ^ u) := by
            rw [Real.mul_rpow (by norm_num) (Real.exp_pos _).le]
            ring
        _ ≤ Real.exp (0.143 * (r + 1 / 2)) * (2 * θ * (190 / 3) * Real.exp (-(0.143 * (r + 1 / 2)))) :=
            mul_le_mul_of_nonneg_left (le_trans (by linarith) hU) (Real.exp_pos _).le
        _ = 2 * θ * (190 / 3) := by
            rw [Real.exp_neg]
            have := (Real.exp_pos (0.143 * ((r : ℝ) + 1 / 2))).ne'
            field_simp
    have h4 := le_max_right (∑ k ∈ Finset.range n, d k - ∑ k ∈ Finset.range (j + 1), d k)
      ((∑ k ∈ Finset.range n, d k) * (2 * m / (3 * lam)))
    have hm' : (10 : ℝ) ≤ m := by exact_mod_cast hm
    have h5 : 9.5 * (20 / (3 * lam)) ≤ (∑ k ∈ Finset.range n, d k) * (2 * m / (3 * lam)) := by
      refine mul_le_mul hS ?_ (by positivity) (by linarith)
      gcongr
      linarith
    have h6 : d j / 2 ≤ θ * (9.5 * (20 / (3 * lam))) := by
      have e : θ * (9.5 * (20 / (3 * lam))) = (θ * (190 / 3)) / lam := by
        field_simp
        ring
      rw [e, le_div_iff₀ hl]
      linarith
    exact h6.trans (mul_le_mul_of_nonneg_left (h5.trans h4) hθ)

/-- Up to `10⁹` with a factor 1/6. -/
theorem logistic_fineX_9 {lam : ℝ} (h1 : 10 ≤ lam) (h2 : lam ≤ 10 ^ 9) {m : ℕ} (hm : 10 ≤ m) :
    ∃ g, Kernel.logisticSegX lam = .ok g ∧ SymGrid g ∧ FineX lam m (1 / 6) g := by
  refine logistic_fineX_wide (U := (9 : ℕ)) (by norm_num) 5 (by norm_num [Finset.sum_range_succ]) ?_ h1
    (by rw [Real.rpow_natCast]; exact h2) hm
  rw [Real.rpow_natCast, mul_pow, ← Real.exp_nat_mul]
  have e : Real.exp (-(0.143 * (((5 : ℕ) : ℝ) + 1 / 2))) = Real.exp (((9 : ℕ) : ℝ) * -2.145) * Real.exp 18.5185 := by
    rw [← Real.exp_add]
    norm_num
  have h3 : (1.08e8 : ℝ) ≤ Real.exp 18.5185 := by
    rw [show (18.5185 : ℝ) = (18 : ℕ) * 1 + 0.5185 by norm_num, Real.exp_add, Real.exp_nat_mul]
    have h1 := pow_le_pow_left₀ (by norm_num) Real.exp_one_gt_d9.le 18
    have h2 := quad_exp (x := 0.5185) (by norm_num)
    calc (1.08e8 : ℝ) ≤ 2.7182818283 ^ 18 * (1 + 0.5185 + 0.5185 ^ 2 / 2) := by norm_num
      _ ≤ _ := mul_le_mul h1 h2 (by norm_num) (by positivity)
  rw [e]
  have hp := Real.exp_pos (((9 : ℕ) : ℝ) * -2.145)
  generalize Real.exp (((9 : ℕ) : ℝ) * -2.145) = p at *
  nlinarith

/-- Up to `10¹⁴` with a factor 1/4. -/
theorem logistic_fineX_14 {lam : ℝ} (h1 : 10 ≤ lam) (h2 : lam ≤ 10 ^ 14) {m : ℕ} (hm : 10 ≤ m) :
    ∃ g, Kernel.logisticSegX lam = .ok g ∧ SymGrid g ∧ FineX lam m (1 / 4) g := by
  refine logistic_fineX_wide (U := (14 : ℕ)) (by norm_num) 3 (by norm_num [Finset.sum_range_succ]) ?_ h1
    (by rw [Real.rpow_natCast]; exact h2) hm
  rw [Real.rpow_natCast, mul_pow, ← Real.exp_nat_mul]
  have e : Real.exp (-(0.143 * (((3 : ℕ) : ℝ) + 1 / 2))) = Real.exp (((14 : ℕ) : ℝ) * -2.145) * Real.exp 29.5295 := by
    rw [← Real.exp_add]
    norm_num
  have h3 : (6.5e12 : ℝ) ≤ Real.exp 29.5295 := by
    rw [show (29.5295 : ℝ) = (29 : ℕ) * 1 + 0.5295 by norm_num, Real.exp_add, Real.exp_nat_mul]
    have h1 := pow_le_pow_left₀ (by norm_num) Real.exp_one_gt_d9.le 29
    have h2 := quad_exp (x := 0.5295) (by norm_num)
    calc (6.5e12 : ℝ) ≤ 2.7182818283 ^ 29 * (1 + 0.5295 + 0.5295 ^ 2 / 2) := by norm_num
      _ ≤ _ := mul_le_mul h1 h2 (by norm_num) (by positivity)
  rw [e]
  have hp := Real.exp_pos (((14 : ℕ) : ℝ) * -2.145)
  generalize Real.exp (((14 : ℕ) : ℝ) * -2.145) = p at *
  nlinarith

end Verif.Spec
