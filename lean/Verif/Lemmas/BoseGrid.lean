import Verif.Lemmas.LogisticGrid
/-!
# The segments hinted by the regularized Bose kernel resolve it
-/

namespace Verif.Spec
open Roots Props

/-! ## Numbers -/

theorem exp_frac_le {p q : ℕ} {c : ℝ} (hq : 0 < q) (hc : 0 < c) (h : (2.7182818286 : ℝ) ^ p ≤ c ^ q) :
    Real.exp ((p : ℝ) / q) ≤ c := by
  refine le_of_pow_le_pow_left₀ hq.ne' hc.le ?_
  rw [← Real.exp_nat_mul]
  have hq' : (q : ℝ) ≠ 0 := by exact_mod_cast hq.ne'
  rw [show (q : ℝ) * ((p : ℝ) / q) = (p : ℝ) * 1 by field_simp, Real.exp_nat_mul]
  exact (pow_le_pow_left₀ (Real.exp_pos 1).le Real.exp_one_lt_d9.le p).trans h

theorem le_exp_neg {p q : ℕ} {c t : ℝ} (hq : 0 < q) (hc : 0 < c) (ht : t ≤ (p : ℝ) / q)
    (h : (2.7182818286 : ℝ) ^ p * c ^ q ≤ 1) : c ≤ Real.exp (-t) := by
  have h1 : Real.exp ((p : ℝ) / q) ≤ 1 / c := by
    refine exp_frac_le hq (by positivity) ?_
    rw [div_pow, one_pow, le_div_iff₀ (by positivity)]
    exact h
  have h2 : Real.exp t ≤ 1 / c := (Real.exp_le_exp.2 ht).trans h1
  rw [Real.exp_neg, ← one_div, le_div_iff₀ (Real.exp_pos _), mul_comm]
  rwa [le_div_iff₀ hc] at h2

theorem log_le_two {a : ℝ} (ha : 0 < a) {p q : ℕ} (h : a ^ q ≤ 2 ^ p) : (q : ℝ) * Real.log a ≤ p * 0.6931471808 := by
  have h1 := Real.log_le_log (by positivity) h
  rw [Real.log_pow, Real.log_pow] at h1
  exact h1.trans (mul_le_mul_of_nonneg_left Real.log_two_lt_d9.le (Nat.cast_nonneg _))

theorem two_le_log {a : ℝ} {p q : ℕ} (h : 2 ^ p ≤ a ^ q) : (p : ℝ) * 0.6931471803 ≤ q * Real.log a := by
  have h1 := Real.log_le_log (by positivity) h
  rw [Real.log_pow, Real.log_pow] at h1
  exact (mul_le_mul_of_nonneg_left Real.log_two_gt_d9.le (Nat.cast_nonneg _)).trans h1

theorem exp_18 : (0.835 : ℝ) ≤ Real.exp (-0.18) :=
  le_exp_neg (p := 9) (q := 50) (by norm_num) (by norm_num) (by norm_num) (by norm_num)

/-! ## Segments in `x` -/

theorem bose_fineX {lam : ℝ} (hl : 0 < lam) {m : ℕ} (hm : 10 ≤ m) :
    ∃ g, Kernel.boseSegX lam = .ok g ∧ SymGrid g ∧ FineX lam m (1 / 8) g := by
  obtain ⟨g', hg', hs⟩ := (C33_grids lam hl).2.2.1
  obtain ⟨g, n, hg, hlen, hcount, hsp⟩ := (C33_spacings lam hl).2.2.1
  cases hg'.symm.trans hg
  refine ⟨g', hg, hs, fineX_of hs hlen (d := fun j => 1 / Real.cosh (0.18 * j)) (fun j => by
    have := Real.cosh_pos (0.18 * j); positivity) hsp (θ := 1 / 8) (by norm_num) fun j hj => ?_⟩
  set d : ℕ → ℝ := fun j => 1 / Real.cosh (0.18 * j) with hd
  have hdpos : ∀ j, 0 < d j := fun j => by have := Real.cosh_pos (0.18 * j); simp only [hd]; positivity
  obtain ⟨k, hk, hn⟩ := hcount
  set u := Real.logb 10 lam with hu
  have hk1 := abs_le.1 hk.1
  have hlam : lam = (10 : ℝ) ^ u := (Real.rpow_logb (by norm_num) (by norm_num) hl).symm
  have hn15 : 15 ≤ n := by omega
  have hnu : 15 * u - 1 / 2 ≤ n := by
    have : (k : ℝ) ≤ (n : ℤ) := by exact_mod_cast (by omega : k ≤ (n : ℤ))
    have : (k : ℝ) ≤ n := by exact_mod_cast this
    linarith
  change d j / 2 ≤ 1 / 8 * max (∑ k ∈ Finset.range n, d k - ∑ k ∈ Finset.range (j + 1), d k)
    ((∑ k ∈ Finset.range n, d k) * (2 * m / (3 * lam)))
  by_cases hr : j + 9 < n
  · have h3 : 4 * d j ≤ ∑ k ∈ Finset.range n, d k - ∑ k ∈ Finset.range (j + 1), d k := by
      refine le_trans ?_ (tail_ge hdpos hr)
      have h4 : ∀ k : ℕ, 0.835 ^ (k + 1) * d j ≤ d (j + 1 + k) := by
        intro k
        have h5 := sech_shift (0.18 * j) (0.18 * ((k + 1 : ℕ) : ℝ)) (by positivity)
        rw [exp_pow] at h5
        simp only [hd]
        refine le_trans ?_ (h5.trans (le_of_eq ?_))
        · exact mul_le_mul_of_nonneg_right (pow_le_pow_left₀ (by norm_num) exp_18 _) (hdpos j).le
        · congr 2
          push_cast
          ring
      calc 4 * d j ≤ ∑ k ∈ Finset.range 9, 0.835 ^ (k + 1) * d j := by
            rw [← Finset.sum_mul]
            refine mul_le_mul_of_nonneg_right ?_ (hdpos j).le
            norm_num [Finset.sum_range_succ]
        _ ≤ _ := Finset.sum_le_sum fun k _ => h4 k
    have h4 := le_max_left (∑ k ∈ Finset.range n, d k - ∑ k ∈ Finset.range (j + 1), d k)
      ((∑ k ∈ Finset.range n, d k) * (2 * m / (3 * lam)))
    linarith
  · have hS : (8 : ℝ) ≤ ∑ k ∈ Finset.range n, d k := by
      have h3 : ∑ k ∈ Finset.range 15, d k ≤ ∑ k ∈ Finset.range n, d k :=
        Finset.sum_le_sum_of_subset_of_nonneg (Finset.range_subset_range.2 hn15) fun k _ _ => (hdpos k).le
      refine le_trans ?_ h3
      have h4 : ∀ k : ℕ, 2 * 0.835 ^ k / (1 + (0.835 ^ k) ^ 2) ≤ d k := by
        intro k
        simp only [hd]
        rw [sech_exp, exp_pow]
        have h5 : (0.835 : ℝ) ^ k ≤ Real.exp (-0.18) ^ k := pow_le_pow_left₀ (by norm_num) exp_18 k
        have h6 : Real.exp (-0.18) ^ k ≤ 1 := pow_le_one₀ (Real.exp_pos _).le (Real.exp_le_one_iff.2 (by norm_num))
        generalize Real.exp (-0.18) ^ k = p at *
        have h7 : (0 : ℝ) < 0.835 ^ k := by positivity
        generalize (0.835 : ℝ) ^ k = q at *
        rw [div_le_div_iff₀ (by positivity) (by positivity)]
        have : q * p ≤ 1 := mul_le_one₀ (h5.trans h6) (h7.le.trans h5) h6
        nlinarith
      refine le_trans ?_ (Finset.sum_le_sum fun k _ => h4 k)
      norm_num [Finset.sum_range_succ]
    have hdj : d j * lam ≤ 13 := by
      have h3 : d j ≤ 2 * Real.exp (-(0.18 * j)) := by
        simp only [hd]
        rw [sech_exp, div_le_iff₀ (by positivity)]
        have := mul_pos (Real.exp_pos (-(0.18 * (j : ℝ)))) (pow_pos (Real.exp_pos (-(0.18 * (j : ℝ)))) 2)
        nlinarith
      rcases le_total lam 10 with h10 | h10
      · have h4 : (6 : ℝ) ≤ j := by exact_mod_cast (by omega : 6 ≤ j)
        have h5 : Real.exp (-(0.18 * j)) ≤ 1 / 2 := by
          rw [Real.exp_neg, ← one_div]
          refine one_div_le_one_div_of_le (by norm_num) ?_
          have := Real.add_one_le_exp (0.18 * (j : ℝ))
          linarith
        calc d j * lam ≤ 1 * 10 := mul_le_mul (by linarith) h10 hl.le (by norm_num)
          _ ≤ 13 := by norm_num
      · have hu1 : 1 ≤ u := by
          rw [hu, Real.le_logb_iff_rpow_le (by norm_num) hl]
          simpa using h10
        have h4 : (n : ℝ) - 9 ≤ j := by
          have : n ≤ j + 9 := by omega
          have : (n : ℝ) ≤ j + 9 := by exact_mod_cast this
          linarith
        have h5 : Real.exp (-(0.18 * j)) ≤ Real.exp 1.71 * Real.exp (-2.7) ^ u := by
          rw [← Real.exp_mul, ← Real.exp_add, Real.exp_le_exp]
          nlinarith
        have h6 : (10 * Real.exp (-2.7)) ^ u ≤ (10 * Real.exp (-2.7)) ^ (1 : ℝ) := by
          refine Real.rpow_le_rpow_of_exponent_ge (by positivity) ?_ hu1
          rw [Real.exp_neg, ← div_eq_mul_inv, div_le_one (Real.exp_pos _), show (2.7 : ℝ) = (2 : ℕ) * 1 + 0.7 by norm_num,
            Real.exp_add, Real.exp_nat_mul]
          have e1 := pow_le_pow_left₀ (by norm_num) Real.exp_one_gt_d9.le 2
          have e2 := quad_exp (x := 0.7) (by norm_num)
          calc (10 : ℝ) ≤ 2.7182818283 ^ 2 * (1 + 0.7 + 0.7 ^ 2 / 2) := by norm_num
            _ ≤ _ := mul_le_mul e1 e2 (by norm_num) (by positivity)
        have h8 : Real.exp 1.71 * Real.exp (-2.7) ≤ 0.6 := by
          rw [← Real.exp_add, show (1.71 + -2.7 : ℝ) = -0.99 by norm_num, Real.exp_neg, inv_le_comm₀ (Real.exp_pos _) (by norm_num)]
          have := Real.add_one_le_exp (0.99 : ℝ)
          norm_num at this ⊢
          linarith
        calc d j * lam ≤ 2 * (Real.exp 1.71 * Real.exp (-2.7) ^ u) * (10 : ℝ) ^ u := by
              rw [hlam]
              refine mul_le_mul_of_nonneg_right (h3.trans ?_) (by positivity)
              linarith
          _ = 2 * Real.exp 1.71 * (10 * Real.exp (-2.7)) ^ u := by
              rw [Real.mul_rpow (by norm_num) (Real.exp_pos _).le]
              ring
          _ ≤ 2 * Real.exp 1.71 * (10 * Real.exp (-2.7)) ^ (1 : ℝ) := mul_le_mul_of_nonneg_left h6 (by positivity)
          _ ≤ 13 := by rw [Real.rpow_one]; linarith
    have h4 := le_max_right (∑ k ∈ Finset.range n, d k - ∑ k ∈ Finset.range (j + 1), d k)
      ((∑ k ∈ Finset.range n, d k) * (2 * m / (3 * lam)))
    have hm' : (10 : ℝ) ≤ m := by exact_mod_cast hm
    have h5 : 8 * (20 / (3 * lam)) ≤ (∑ k ∈ Finset.range n, d k) * (2 * m / (3 * lam)) := by
      refine mul_le_mul hS ?_ (by positivity) (by linarith)
      gcongr
      linarith
    have h6 : d j / 2 ≤ 1 / 8 * (8 * (20 / (3 * lam))) := by
      have e : 1 / 8 * (8 * (20 / (3 * lam))) = (20 / 3) / lam := by field_simp
      rw [e, le_div_iff₀ hl]
      linarith
    linarith

/-! ## Segments in `y` -/

/-- The spacings in `y`, up to a factor. -/
noncomputable def spacB (j : ℕ) : ℝ := 0.12 * Real.exp (-0.0337 * j * Real.log (j + 1))

theorem spacB_pos (j : ℕ) : 0 < spacB j := by unfold spacB; positivity

theorem spacB_ratio {j : ℕ} {N : ℝ} (h : (j : ℝ) + 2 ≤ N) :
    Real.exp (-(0.0337 * (1 + Real.log N))) * spacB j ≤ spacB (j + 1) := by
  unfold spacB
  rw [mul_left_comm, ← Real.exp_add]
  refine mul_le_mul_of_nonneg_left (Real.exp_le_exp.2 ?_) (by norm_num)
  have hj : (0 : ℝ) ≤ j := Nat.cast_nonneg j
  have h1 : Real.log (j + 2) ≤ Real.log N := Real.log_le_log (by linarith) h
  have h2 : (j : ℝ) * (Real.log (j + 2) - Real.log (j + 1)) ≤ 1 := by
    rw [← Real.log_div (by linarith) (by linarith)]
    have h3 := Real.log_le_sub_one_of_pos (show 0 < ((j : ℝ) + 2) / (j + 1) by positivity)
    have h4 : ((j : ℝ) + 2) / (j + 1) - 1 = 1 / (j + 1) := by field_simp; ring
    rw [h4] at h3
    have h5 : (j : ℝ) * (1 / (j + 1)) ≤ 1 := by
      rw [mul_one_div, div_le_one (by linarith)]
      linarith
    exact (mul_le_mul_of_nonneg_left h3 hj).trans h5
  push_cast
  rw [show (j : ℝ) + 1 + 1 = j + 2 by ring]
  nlinarith

theorem spacB_pow {N r : ℝ} (hr0 : 0 ≤ r) (hr : r ≤ Real.exp (-(0.0337 * (1 + Real.log N)))) (j k : ℕ)
    (h : (j : ℝ) + k + 1 ≤ N) : r ^ k * spacB j ≤ spacB (j + k) := by
  induction k with
  | zero => simp
  | succ k ih =>
    push_cast at h
    have h1 := ih (by linarith)
    have h2 := spacB_ratio (j := j + k) (N := N) (by push_cast; linarith)
    calc r ^ (k + 1) * spacB j = r * (r ^ k * spacB j) := by ring
      _ ≤ r * spacB (j + k) := mul_le_mul_of_nonneg_left h1 hr0
      _ ≤ Real.exp (-(0.0337 * (1 + Real.log N))) * spacB (j + k) := mul_le_mul_of_nonneg_right hr (spacB_pos _).le
      _ ≤ _ := h2

theorem spacB_ratio_11 : (0.888 : ℝ) ≤ Real.exp (-(0.0337 * (1 + Real.log 11))) := by
  have h := log_le_two (a := 11) (by norm_num) (p := 7) (q := 2) (by norm_num)
  push_cast at h
  exact le_exp_neg (p := 2) (q := 17) (by norm_num) (by norm_num) (by push_cast; linarith) (by norm_num)

theorem spacB_ratio_21 : (0.871 : ℝ) ≤ Real.exp (-(0.0337 * (1 + Real.log 21))) := by
  have h := log_le_two (a := 21) (by norm_num) (p := 22) (q := 5) (by norm_num)
  push_cast at h
  exact le_exp_neg (p := 7) (q := 51) (by norm_num) (by norm_num) (by push_cast; linarith) (by norm_num)

theorem spacB_ratio_50 : (0.846 : ℝ) ≤ Real.exp (-(0.0337 * (1 + Real.log 50))) := by
  have h := log_le_two (a := 50) (by norm_num) (p := 17) (q := 3) (by norm_num)
  push_cast at h
  exact le_exp_neg (p := 1) (q := 6) (by norm_num) (by norm_num) (by push_cast; linarith) (by norm_num)

theorem spacB_ratio_170 : (0.811 : ℝ) ≤ Real.exp (-(0.0337 * (1 + Real.log 170))) := by
  have h := log_le_two (a := 170) (by norm_num) (p := 15) (q := 2) (by norm_num)
  push_cast at h
  exact le_exp_neg (p := 9) (q := 43) (by norm_num) (by norm_num) (by push_cast; linarith) (by norm_num)

theorem spacB_zero : spacB 0 = 0.12 := by simp [spacB]

theorem spacB_sum {n : ℕ} (hn : 20 ≤ n) : (0.955 : ℝ) ≤ ∑ k ∈ Finset.range n, spacB k := by
  have h3 : ∑ k ∈ Finset.range 20, spacB k ≤ ∑ k ∈ Finset.range n, spacB k :=
    Finset.sum_le_sum_of_subset_of_nonneg (Finset.range_subset_range.2 hn) fun k _ _ => (spacB_pos k).le
  refine le_trans ?_ h3
  rw [show 20 = 10 + 10 from rfl, Finset.sum_range_add]
  have h1 : ∀ k < 11, 0.888 ^ k * 0.12 ≤ spacB k := by
    intro k hk
    have hk' : (k : ℝ) ≤ 10 := by exact_mod_cast (by omega : k ≤ 10)
    have := spacB_pow (N := 11) (r := 0.888) (by norm_num) spacB_ratio_11 0 k (by push_cast; linarith)
    rwa [zero_add, spacB_zero] at this
  have h2 : ∀ k < 10, 0.871 ^ k * (0.888 ^ 10 * 0.12) ≤ spacB (10 + k) := by
    intro k hk
    have hk' : (k : ℝ) ≤ 9 := by exact_mod_cast (by omega : k ≤ 9)
    have := spacB_pow (N := 21) (r := 0.871) (by norm_num) spacB_ratio_21 10 k (by push_cast; linarith)
    exact (mul_le_mul_of_nonneg_left (h1 10 (by norm_num)) (by positivity)).trans this
  have e1 := Finset.sum_le_sum fun k (hk : k ∈ Finset.range 10) => h1 k (by have := Finset.mem_range.1 hk; omega)
  have e2 := Finset.sum_le_sum fun k (hk : k ∈ Finset.range 10) => h2 k (Finset.mem_range.1 hk)
  refine le_trans ?_ (add_le_add e1 e2)
  norm_num [Finset.sum_range_succ]

theorem boseA {n j r : ℕ} (lam : ℝ) (h : j + r < n) (h1 : 4 * spacB j ≤ ∑ k ∈ Finset.range r, spacB (j + 1 + k)) :
    spacB j / 2 ≤ 1 / 8 * max ((∑ k ∈ Finset.range n, spacB k) * (2 / lam))
      (0.89 * (∑ k ∈ Finset.range n, spacB k - ∑ k ∈ Finset.range (j + 1), spacB k + spacB j / 2)) := by
  have h2 := tail_ge spacB_pos h
  have h3 := le_max_right ((∑ k ∈ Finset.range n, spacB k) * (2 / lam))
      (0.89 * (∑ k ∈ Finset.range n, spacB k - ∑ k ∈ Finset.range (j + 1), spacB k + spacB j / 2))
  have h4 := spacB_pos j
  linarith

theorem boseB {n j : ℕ} {lam : ℝ} (hl : 0 < lam) (hn : 20 ≤ n) (h1 : spacB j * lam ≤ 0.4775) :
    spacB j / 2 ≤ 1 / 8 * max ((∑ k ∈ Finset.range n, spacB k) * (2 / lam))
      (0.89 * (∑ k ∈ Finset.range n, spacB k - ∑ k ∈ Finset.range (j + 1), spacB k + spacB j / 2)) := by
  have h2 := spacB_sum hn
  have h3 := le_max_left ((∑ k ∈ Finset.range n, spacB k) * (2 / lam))
      (0.89 * (∑ k ∈ Finset.range n, spacB k - ∑ k ∈ Finset.range (j + 1), spacB k + spacB j / 2))
  refine le_trans ?_ (mul_le_mul_of_nonneg_left h3 (by norm_num))
  have e : 1 / 8 * ((∑ k ∈ Finset.range n, spacB k) * (2 / lam)) = 0.25 * (∑ k ∈ Finset.range n, spacB k) / lam := by
    ring
  rw [e, le_div_iff₀ hl]
  linarith

theorem spacB_tail {N r : ℝ} (hr0 : 0 ≤ r) (hr : r ≤ Real.exp (-(0.0337 * (1 + Real.log N)))) (j m : ℕ)
    (h : (j : ℝ) + m + 1 ≤ N) (h4 : 4 ≤ ∑ k ∈ Finset.range m, r ^ (k + 1)) :
    4 * spacB j ≤ ∑ k ∈ Finset.range m, spacB (j + 1 + k) := by
  calc 4 * spacB j ≤ ∑ k ∈ Finset.range m, r ^ (k + 1) * spacB j := by
        rw [← Finset.sum_mul]
        exact mul_le_mul_of_nonneg_right h4 (spacB_pos j).le
    _ ≤ _ := Finset.sum_le_sum fun k hk => by
        have hk' : ((k + 1 : ℕ) : ℝ) ≤ m := by exact_mod_cast Finset.mem_range.1 hk
        rw [show j + 1 + k = j + (k + 1) by ring]
        exact spacB_pow hr0 hr j (k + 1) (by linarith)

/-- An upper bound, by the tangent of `x log (x + 1)`. -/
theorem spacB_le {a : ℝ} (ha : 1 ≤ a) (j : ℕ) : spacB j ≤ 0.12 * Real.exp (0.0337 * (a - (1 + Real.log a) * j)) := by
  unfold spacB
  refine mul_le_mul_of_nonneg_left (Real.exp_le_exp.2 ?_) (by norm_num)
  have hj : (0 : ℝ) ≤ j := Nat.cast_nonneg j
  have h1 := Real.one_sub_inv_le_log_of_pos (show 0 < ((j : ℝ) + 1) / a by positivity)
  rw [Real.log_div (by linarith) (by linarith), inv_div] at h1
  have h2 := mul_le_mul_of_nonneg_left h1 hj
  have h3 : (j : ℝ) * (a / (j + 1)) ≤ a := by
    rw [mul_div_assoc', div_le_iff₀ (by linarith)]
    nlinarith
  nlinarith

theorem lam_le_exp {lam u : ℝ} (hl : 0 < lam) (h : Real.logb 10 lam ≤ u) (hu : 0 ≤ u) :
    lam ≤ Real.exp (2.3104906027 * u) := by
  have h1 := log_le_two (a := 10) (by norm_num) (p := 10) (q := 3) (by norm_num)
  push_cast at h1
  rw [Real.logb, div_le_iff₀ (Real.log_pos (by norm_num))] at h
  calc lam = Real.exp (Real.log lam) := (Real.exp_log hl).symm
    _ ≤ _ := Real.exp_le_exp.2 (by nlinarith)

theorem bose_fineY {lam : ℝ} (hl : 0 < lam) (h12 : lam ≤ 10 ^ 12) :
    ∃ g, Kernel.boseSegY lam = .ok g ∧ SymGrid g ∧ FineY lam (1 / 8) g := by
  obtain ⟨g', hg', hs⟩ := (C33_grids lam hl).2.2.2
  obtain ⟨g, n, hg, hlen, hcount, hsp⟩ := (C33_spacings lam hl).2.2.2
  cases hg'.symm.trans hg
  refine ⟨g', hg, hs, fineY_of hs hlen spacB_pos hsp (θ := 1 / 8) (by norm_num) fun j hj => ?_⟩
  obtain ⟨k, hk, hn⟩ := hcount
  set u := Real.logb 10 lam with hu
  have hk1 := abs_le.1 hk.1
  have hn20 : 20 ≤ n := by omega
  have hnu : u ≤ (n + 1 / 2) / 20 := by
    have : (k : ℝ) ≤ (n : ℤ) := by exact_mod_cast (by omega : k ≤ (n : ℤ))
    have : (k : ℝ) ≤ n := by exact_mod_cast this
    linarith
  have hn20' : (20 : ℝ) ≤ n := by exact_mod_cast hn20
  have hlam := lam_le_exp hl hnu (by linarith)
  have mul_exp : ∀ {a b : ℝ} {p q : ℕ}, 0 < q → spacB j ≤ 0.12 * Real.exp a → lam ≤ Real.exp b → a + b ≤ (p : ℝ) / q →
      (2.7182818286 : ℝ) ^ p ≤ 3.97 ^ q → spacB j * lam ≤ 0.4775 := by
    intro a b p q hq h1 h2 h3 h4
    have h5 : Real.exp a * Real.exp b ≤ 3.97 := by
      rw [← Real.exp_add]
      exact (Real.exp_le_exp.2 h3).trans (exp_frac_le hq (by norm_num) h4)
    calc spacB j * lam ≤ 0.12 * Real.exp a * Real.exp b := mul_le_mul h1 h2 hl.le (by positivity)
      _ ≤ 0.4775 := by nlinarith
  by_cases h50 : n ≤ 50
  · by_cases hr : j + 8 < n
    · refine boseA lam hr (spacB_tail (by norm_num) spacB_ratio_50 j 8 ?_ ?_)
      · have : ((j + 8 + 1 : ℕ) : ℝ) ≤ 50 := by exact_mod_cast (by omega : j + 8 + 1 ≤ 50)
        push_cast at this ⊢
        linarith
      · norm_num [Finset.sum_range_succ]
    · have h3 : (n : ℝ) ≤ j + 8 := by exact_mod_cast (by omega : n ≤ j + 8)
      have h4 := two_le_log (a := 12) (p := 25) (q := 7) (by norm_num)
      push_cast at h4
      have h5 := mul_le_mul_of_nonneg_right h4 (Nat.cast_nonneg (α := ℝ) j)
      refine boseB hl hn20 (mul_exp (p := 137) (q := 100) (by norm_num) (spacB_le (a := 12) (by norm_num) j) hlam ?_ (by norm_num))
      push_cast
      linarith
  · have h51 : (51 : ℝ) ≤ n := by exact_mod_cast (by omega : 51 ≤ n)
    by_cases hr : j + 13 < n
    · by_cases h157 : j ≤ 156
      · refine boseA lam hr (spacB_tail (by norm_num) spacB_ratio_170 j 13 ?_ ?_)
        · have : (j : ℝ) ≤ 156 := by exact_mod_cast h157
          push_cast
          linarith
        · norm_num [Finset.sum_range_succ]
      · have h3 : (157 : ℝ) ≤ j := by exact_mod_cast (by omega : 157 ≤ j)
        have h4 := two_le_log (a := 158) (p := 80) (q := 11) (by norm_num)
        push_cast at h4
        have h5 : Real.log 158 ≤ Real.log (j + 1) := Real.log_le_log (by norm_num) (by linarith)
        have h6 : (157 : ℝ) * 5.04 ≤ j * Real.log (j + 1) := mul_le_mul h3 (by linarith) (by norm_num) (by linarith)
        have h7 := lam_le_exp hl (u := 12) (by
          rw [Real.logb_le_iff_le_rpow (by norm_num) hl]
          exact_mod_cast h12) (by norm_num)
        refine boseB hl hn20 (mul_exp (p := 137) (q := 100) (by norm_num) (le_refl (spacB j)) h7 ?_ (by norm_num))
        push_cast
        linarith
    · have h3 : (n : ℝ) ≤ j + 13 := by exact_mod_cast (by omega : n ≤ j + 13)
      have h4 := two_le_log (a := 30) (p := 49) (q := 10) (by norm_num)
      push_cast at h4
      have h5 := mul_le_mul_of_nonneg_right h4 (Nat.cast_nonneg (α := ℝ) j)
      refine boseB hl hn20 (mul_exp (p := 137) (q := 100) (by norm_num) (spacB_le (a := 30) (by norm_num) j) hlam ?_ (by norm_num))
      push_cast
      linarith

end Verif.Spec
