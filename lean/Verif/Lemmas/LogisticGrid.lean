import Verif.Lemmas.LogisticApprox
/-!
# The segments hinted by the logistic kernel resolve it
-/

namespace Verif.Spec
open Roots Props

/-! ## Symmetric grids with given spacings -/

theorem sym_get {g : List ℝ} (hs : SymGrid g) {n : ℕ} (hlen : g.length = 2 * n + 1) {i : ℕ} (hi : i ≤ 2 * n) {a : ℝ}
    (h : g[i]? = some a) : g[2 * n - i]? = some (-a) := by
  have h1 := congrArg (·[i]?) hs.symm
  simp only [List.getElem?_map, h, Option.map_some] at h1
  rw [List.getElem?_reverse (by omega), hlen] at h1
  rw [show 2 * n - i = 2 * n + 1 - 1 - i by omega]
  exact h1.symm

theorem sym_mid {g : List ℝ} (hs : SymGrid g) {n : ℕ} (hlen : g.length = 2 * n + 1) : g[n]? = some 0 := by
  have h1 : g[n]? = some g[n] := List.getElem?_eq_getElem (by omega)
  have h2 := sym_get hs hlen (by omega) h1
  rw [show 2 * n - n = n by omega, h1, Option.some.injEq] at h2
  rw [h1]
  congr 1
  linarith

theorem sums_of_spacings {g : List ℝ} {i n : ℕ} {d : ℕ → ℝ} {a0 a1 : ℝ} (h0 : g[i]? = some a0) (h1 : g[i + n]? = some a1)
    (h : SpacingsFrom g i n d) :
    ∃ c > 0, c * ∑ k ∈ Finset.range n, d k = a1 - a0 ∧ ∀ j ≤ n, g[i + j]? = some (a0 + c * ∑ k ∈ Finset.range j, d k) := by
  obtain ⟨c, hc, hsp⟩ := h
  have key : ∀ j ≤ n, g[i + j]? = some (a0 + c * ∑ k ∈ Finset.range j, d k) := by
    intro j
    induction j with
    | zero => intro _; simpa using h0
    | succ j ih =>
      intro hj
      obtain ⟨a, b, e1, e2, e3⟩ := hsp j (by omega)
      rw [ih (by omega), Option.some.injEq] at e1
      rw [← add_assoc, e2, Finset.sum_range_succ, Option.some.injEq]
      linarith
  refine ⟨c, hc, ?_, key⟩
  have := key n le_rfl
  rw [h1, Option.some.injEq] at this
  linarith

theorem adjacent_index {g : List ℝ} {a b : ℝ} (h : Adjacent g a b) :
    ∃ i, i + 1 < g.length ∧ g[i]? = some a ∧ g[i + 1]? = some b := by
  obtain ⟨l1, l2, rfl⟩ := h
  exact ⟨l1.length, by simp, by simp, by simp⟩

/-- What has to be shown in `x`. -/
theorem fineX_of {g : List ℝ} (hs : SymGrid g) {n : ℕ} (hlen : g.length = 2 * n + 1) {d : ℕ → ℝ} (hd : ∀ j, 0 < d j)
    (hsp : SpacingsFrom g n n d) {lam θ : ℝ} {m : ℕ} (hθ : 0 ≤ θ) (h : ∀ j < n, d j / 2 ≤ θ * max
      (∑ k ∈ Finset.range n, d k - ∑ k ∈ Finset.range (j + 1), d k) ((∑ k ∈ Finset.range n, d k) * (2 * m / (3 * lam)))) :
    FineX lam m θ g := by
  have h1 : g[n + n]? = some 1 := by
    have := hs.last
    rw [List.getLast?_eq_getElem?, hlen] at this
    rw [← this]
    congr 1
    omega
  obtain ⟨c, hc, hS, hg⟩ := sums_of_spacings (sym_mid hs hlen) h1 hsp
  simp only [zero_add, sub_zero] at hg hS
  have right : ∀ (j : ℕ) (a b : ℝ), j < n → g[n + j]? = some a → g[n + (j + 1)]? = some b →
      (b - a) / 2 ≤ θ * max (1 - max |a| |b|) (2 * m / (3 * lam)) := by
    intro j a b hj ha hb
    rw [hg j hj.le, Option.some.injEq] at ha
    rw [hg (j + 1) hj, Option.some.injEq] at hb
    have hn0 : ∀ i, 0 ≤ ∑ k ∈ Finset.range i, d k := fun i => Finset.sum_nonneg fun k _ => (hd k).le
    have ha0 : 0 ≤ a := by rw [← ha]; exact mul_nonneg hc.le (hn0 j)
    have hba : b - a = c * d j := by rw [← ha, ← hb, Finset.sum_range_succ]; ring
    have hab : a ≤ b := by have := mul_pos hc (hd j); linarith
    rw [abs_of_nonneg ha0, abs_of_nonneg (ha0.trans hab), max_eq_right hab, hba]
    have h2 := mul_le_mul_of_nonneg_left (h j hj) hc.le
    have e : c * (θ * max (∑ k ∈ Finset.range n, d k - ∑ k ∈ Finset.range (j + 1), d k)
        ((∑ k ∈ Finset.range n, d k) * (2 * m / (3 * lam)))) = θ * max (1 - b) (2 * m / (3 * lam)) := by
      rw [mul_left_comm, ← mul_max_of_nonneg _ _ hc.le |>.symm, mul_sub, ← mul_assoc, hS, hb, one_mul]
    rw [e] at h2
    linarith
  intro a b hab
  obtain ⟨i, hi, ha, hb⟩ := adjacent_index hab
  rcases le_or_gt n i with h2 | h2
  · exact right (i - n) a b (by omega) (by rw [show n + (i - n) = i by omega]; exact ha)
      (by rw [show n + (i - n + 1) = i + 1 by omega]; exact hb)
  · have ha' := sym_get hs hlen (by omega) ha
    have hb' := sym_get hs hlen (by omega) hb
    have := right (n - 1 - i) (-b) (-a) (by omega) (by rw [← hb']; congr 1; omega) (by rw [← ha']; congr 1; omega)
    rw [abs_neg, abs_neg, max_comm |b|] at this
    rwa [show -a - -b = b - a by ring] at this

/-- What has to be shown in `y`. -/
theorem fineY_of {g : List ℝ} (hs : SymGrid g) {n : ℕ} (hlen : g.length = 2 * n + 1) {d : ℕ → ℝ} (hd : ∀ j, 0 < d j)
    (hsp : SpacingsFrom g 0 n d) {lam θ : ℝ} (hθ : 0 ≤ θ) (h : ∀ j < n, d j / 2 ≤ θ * max
      ((∑ k ∈ Finset.range n, d k) * (2 / lam))
      (0.89 * (∑ k ∈ Finset.range n, d k - ∑ k ∈ Finset.range (j + 1), d k + d j / 2))) :
    FineY lam θ g := by
  have h0 : g[0]? = some (-1 : ℝ) := by rw [← List.head?_eq_getElem?]; exact hs.first
  obtain ⟨c, hc, hS, hg⟩ := sums_of_spacings h0 (by rw [zero_add]; exact sym_mid hs hlen) hsp
  simp only [zero_add, sub_neg_eq_add] at hg hS
  have left : ∀ (j : ℕ) (a b : ℝ), j < n → g[j]? = some a → g[j + 1]? = some b →
      (b - a) / 2 ≤ θ * max (2 / lam) (0.89 * |(a + b) / 2|) := by
    intro j a b hj ha hb
    rw [hg j hj.le, Option.some.injEq] at ha
    rw [hg (j + 1) hj, Option.some.injEq] at hb
    have hba : b - a = c * d j := by rw [← ha, ← hb, Finset.sum_range_succ]; ring
    have hmid : -((a + b) / 2) = c * (∑ k ∈ Finset.range n, d k - ∑ k ∈ Finset.range (j + 1), d k + d j / 2) := by
      rw [mul_add, mul_sub, hS]
      linarith
    have hT : 0 ≤ ∑ k ∈ Finset.range n, d k - ∑ k ∈ Finset.range (j + 1), d k := by
      rw [sub_nonneg]
      exact Finset.sum_le_sum_of_subset_of_nonneg (Finset.range_subset_range.2 hj) fun k _ _ => (hd k).le
    rw [← abs_neg, hmid, abs_of_nonneg (mul_nonneg hc.le (add_nonneg hT (half_pos (hd j)).le)), hba]
    have h2 := mul_le_mul_of_nonneg_left (h j hj) hc.le
    have e : c * (θ * max ((∑ k ∈ Finset.range n, d k) * (2 / lam))
        (0.89 * (∑ k ∈ Finset.range n, d k - ∑ k ∈ Finset.range (j + 1), d k + d j / 2))) =
        θ * max (2 / lam) (0.89 * (c * (∑ k ∈ Finset.range n, d k - ∑ k ∈ Finset.range (j + 1), d k + d j / 2))) := by
      rw [mul_left_comm, ← mul_max_of_nonneg _ _ hc.le |>.symm, ← mul_assoc, hS, mul_left_comm]
      norm_num
    rw [e] at h2
    linarith
  intro a b hab
  obtain ⟨i, hi, ha, hb⟩ := adjacent_index hab
  rcases lt_or_ge i n with h2 | h2
  · exact left i a b h2 ha hb
  · have ha' := sym_get hs hlen (by omega) ha
    have hb' := sym_get hs hlen (by omega) hb
    have := left (2 * n - (i + 1)) (-b) (-a) (by omega) hb' (by rw [← ha']; congr 1; omega)
    rw [show (-b + -a) / 2 = -((a + b) / 2) by ring, abs_neg, show -a - -b = b - a by ring] at this
    exact this

/-! ## Numbers -/

theorem exp_143 : (0.866 : ℝ) ≤ Real.exp (-0.143) := by
  have h := Real.exp_bound (x := (-0.143 : ℝ)) (n := 4) (by rw [abs_le]; norm_num) (by norm_num)
  have h1 := (abs_le.1 h).1
  have e : |(-0.143 : ℝ)| = 0.143 := by rw [abs_of_neg] <;> norm_num
  rw [e] at h1
  norm_num [Finset.sum_range_succ, Nat.factorial] at h1 ⊢
  linarith

theorem exp_141 : (0.8684 : ℝ) ≤ Real.exp (-0.141) := by
  have h := Real.exp_bound (x := (-0.141 : ℝ)) (n := 4) (by rw [abs_le]; norm_num) (by norm_num)
  have h1 := (abs_le.1 h).1
  have e : |(-0.141 : ℝ)| = 0.141 := by rw [abs_of_neg] <;> norm_num
  rw [e] at h1
  norm_num [Finset.sum_range_succ, Nat.factorial] at h1 ⊢
  linarith

theorem quad_exp {x : ℝ} (hx : 0 ≤ x) : 1 + x + x ^ 2 / 2 ≤ Real.exp x := Real.quadratic_le_exp_of_nonneg hx

theorem exp_117975 : (126600 : ℝ) ≤ Real.exp 11.7975 := by
  have e : (11.7975 : ℝ) = (11 : ℕ) * 1 + 0.7975 := by norm_num
  rw [e, Real.exp_add, Real.exp_nat_mul]
  have h1 := pow_le_pow_left₀ (by norm_num) Real.exp_one_gt_d9.le 11
  have h2 := quad_exp (x := 0.7975) (by norm_num)
  calc (126600 : ℝ) ≤ 2.7182818283 ^ 11 * (1 + 0.7975 + 0.7975 ^ 2 / 2) := by norm_num
    _ ≤ _ := mul_le_mul h1 h2 (by norm_num) (by positivity)

theorem exp_26931 : (14.2 : ℝ) ≤ Real.exp 2.6931 := by
  have e : (2.6931 : ℝ) = (2 : ℕ) * 1 + 0.6931 := by norm_num
  rw [e, Real.exp_add, Real.exp_nat_mul]
  have h1 := pow_le_pow_left₀ (by norm_num) Real.exp_one_gt_d9.le 2
  have h2 := quad_exp (x := 0.6931) (by norm_num)
  calc (14.2 : ℝ) ≤ 2.7182818283 ^ 2 * (1 + 0.6931 + 0.6931 ^ 2 / 2) := by norm_num
    _ ≤ _ := mul_le_mul h1 h2 (by norm_num) (by positivity)

theorem exp_282 : (15.9 : ℝ) ≤ Real.exp 2.82 := by
  have e : (2.82 : ℝ) = (2 : ℕ) * 1 + 0.82 := by norm_num
  rw [e, Real.exp_add, Real.exp_nat_mul]
  have h1 := pow_le_pow_left₀ (by norm_num) Real.exp_one_gt_d9.le 2
  have h2 := quad_exp (x := 0.82) (by norm_num)
  calc (15.9 : ℝ) ≤ 2.7182818283 ^ 2 * (1 + 0.82 + 0.82 ^ 2 / 2) := by norm_num
    _ ≤ _ := mul_le_mul h1 h2 (by norm_num) (by positivity)

/-! ## Segments in `x` -/

theorem sech_exp (t : ℝ) : 1 / Real.cosh t = 2 * Real.exp (-t) / (1 + Real.exp (-t) ^ 2) := by
  have h : Real.exp t * Real.exp (-t) = 1 := by rw [← Real.exp_add, add_neg_cancel, Real.exp_zero]
  rw [Real.cosh_eq, div_eq_div_iff (by positivity) (by positivity)]
  linear_combination (-1) * h

theorem sech_shift (a b : ℝ) (hb : 0 ≤ b) : Real.exp (-b) * (1 / Real.cosh a) ≤ 1 / Real.cosh (a + b) := by
  have h1 := Real.cosh_pos a
  have h2 := Real.cosh_pos (a + b)
  rw [mul_one_div, div_le_div_iff₀ h1 h2, one_mul]
  have h3 : Real.cosh (a + b) ≤ Real.cosh a * Real.exp b := by
    rw [Real.cosh_eq, Real.cosh_eq, Real.exp_add, neg_add, Real.exp_add]
    have h4 : Real.exp (-b) ≤ Real.exp b := Real.exp_le_exp.2 (by linarith)
    have := mul_le_mul_of_nonneg_left h4 (Real.exp_pos (-a)).le
    linarith
  calc Real.exp (-b) * Real.cosh (a + b) ≤ Real.exp (-b) * (Real.cosh a * Real.exp b) :=
        mul_le_mul_of_nonneg_left h3 (Real.exp_pos _).le
    _ = Real.cosh a * (Real.exp (-b) * Real.exp b) := by ring
    _ = Real.cosh a := by rw [← Real.exp_add, neg_add_cancel, Real.exp_zero, mul_one]

theorem exp_pow (x : ℝ) (k : ℕ) : Real.exp (-(x * k)) = Real.exp (-x) ^ k := by
  rw [← Real.exp_nat_mul]
  congr 1
  ring

theorem tail_ge {d : ℕ → ℝ} (hd : ∀ j, 0 < d j) {n j r : ℕ} (h : j + r < n) :
    ∑ k ∈ Finset.range r, d (j + 1 + k) ≤ ∑ k ∈ Finset.range n, d k - ∑ k ∈ Finset.range (j + 1), d k := by
  have h1 : ∑ k ∈ Finset.range (j + 1 + r), d k ≤ ∑ k ∈ Finset.range n, d k :=
    Finset.sum_le_sum_of_subset_of_nonneg (Finset.range_subset_range.2 (by omega)) fun k _ _ => (hd k).le
  rw [Finset.sum_range_add] at h1
  linarith

/-- For `10 ≤ lam ≤ 10⁶` the hinted segments in `x` are fine enough. -/
theorem logistic_fineX {lam : ℝ} (h1 : 10 ≤ lam) (h2 : lam ≤ 10 ^ 6) {m : ℕ} (hm : 10 ≤ m) :
    ∃ g, Kernel.logisticSegX lam = .ok g ∧ SymGrid g ∧ FineX lam m (1 / 8) g := by
  have hl : 0 < lam := by linarith
  obtain ⟨g', hg', hs⟩ := (C33_grids lam hl).1
  obtain ⟨g, n, hg, hlen, hcount, hsp⟩ := (C33_spacings lam hl).1
  cases hg'.symm.trans hg
  refine ⟨g', hg, hs, fineX_of hs hlen (d := fun j => 1 / Real.cosh (0.143 * j)) (fun j => by
    have := Real.cosh_pos (0.143 * j); positivity) hsp (θ := 1 / 8) (by norm_num) fun j hj => ?_⟩
  set d : ℕ → ℝ := fun j => 1 / Real.cosh (0.143 * j) with hd
  have hdpos : ∀ j, 0 < d j := fun j => by have := Real.cosh_pos (0.143 * j); simp only [hd]; positivity
  obtain ⟨k, hk, hn⟩ := hcount
  set u := Real.logb 10 lam with hu
  have hk1 := abs_le.1 hk.1
  have hu1 : 1 ≤ u := by
    rw [hu, Real.le_logb_iff_rpow_le (by norm_num) hl]
    simpa using h1
  have hu6 : u ≤ 6 := by
    rw [hu, Real.logb_le_iff_le_rpow (by norm_num) hl]
    exact_mod_cast h2
  have hlam : lam = (10 : ℝ) ^ u := (Real.rpow_logb (by norm_num) (by norm_num) hl).symm
  have hn15 : 15 ≤ n := by
    have : (14 : ℝ) < k := by linarith
    have : (14 : ℤ) < k := by exact_mod_cast this
    omega
  have hnu : 15 * u - 1 / 2 ≤ n := by
    have : (k : ℝ) ≤ (n : ℤ) := by exact_mod_cast (by omega : k ≤ (n : ℤ))
    have : (k : ℝ) ≤ n := by exact_mod_cast this
    linarith
  change d j / 2 ≤ 1 / 8 * max (∑ k ∈ Finset.range n, d k - ∑ k ∈ Finset.range (j + 1), d k)
    ((∑ k ∈ Finset.range n, d k) * (2 * m / (3 * lam)))
  by_cases hr : j + 7 < n
  · have h3 : 4 * d j ≤ ∑ k ∈ Finset.range n, d k - ∑ k ∈ Finset.range (j + 1), d k := by
      refine le_trans ?_ (tail_ge hdpos hr)
      have h4 : ∀ k : ℕ, 0.866 ^ (k + 1) * d j ≤ d (j + 1 + k) := by
        intro k
        have h5 := sech_shift (0.143 * j) (0.143 * ((k + 1 : ℕ) : ℝ)) (by positivity)
        rw [exp_pow] at h5
        simp only [hd]
        refine le_trans ?_ (h5.trans (le_of_eq ?_))
        · exact mul_le_mul_of_nonneg_right (pow_le_pow_left₀ (by norm_num) exp_143 _) (hdpos j).le
        · congr 2
          push_cast
          ring
      calc 4 * d j ≤ ∑ k ∈ Finset.range 7, 0.866 ^ (k + 1) * d j := by
            rw [← Finset.sum_mul]
            refine mul_le_mul_of_nonneg_right ?_ (hdpos j).le
            norm_num [Finset.sum_range_succ]
        _ ≤ _ := Finset.sum_le_sum fun k _ => h4 k
    have h4 := le_max_left (∑ k ∈ Finset.range n, d k - ∑ k ∈ Finset.range (j + 1), d k)
      ((∑ k ∈ Finset.range n, d k) * (2 * m / (3 * lam)))
    linarith
  · have hS : (9.5 : ℝ) ≤ ∑ k ∈ Finset.range n, d k := by
      have h3 : ∑ k ∈ Finset.range 15, d k ≤ ∑ k ∈ Finset.range n, d k :=
        Finset.sum_le_sum_of_subset_of_nonneg (Finset.range_subset_range.2 hn15) fun k _ _ => (hdpos k).le
      refine le_trans ?_ h3
      have h4 : ∀ k : ℕ, 2 * 0.866 ^ k / (1 + (0.866 ^ k) ^ 2) ≤ d k := by
        intro k
        simp only [hd]
        rw [sech_exp, exp_pow]
        have h5 : (0.866 : ℝ) ^ k ≤ Real.exp (-0.143) ^ k := pow_le_pow_left₀ (by norm_num) exp_143 k
        have h6 : Real.exp (-0.143) ^ k ≤ 1 := pow_le_one₀ (Real.exp_pos _).le (Real.exp_le_one_iff.2 (by norm_num))
        generalize Real.exp (-0.143) ^ k = p at *
        have h7 : (0 : ℝ) < 0.866 ^ k := by positivity
        generalize (0.866 : ℝ) ^ k = q at *
        rw [div_le_div_iff₀ (by positivity) (by positivity)]
        have : q * p ≤ 1 := mul_le_one₀ (h5.trans h6) (h7.le.trans h5) h6
        nlinarith
      refine le_trans ?_ (Finset.sum_le_sum fun k _ => h4 k)
      norm_num [Finset.sum_range_succ]
    have hdj : d j * lam ≤ 15.8 := by
      have h3 : d j ≤ 2 * Real.exp (-(0.143 * j)) := by
        simp only [hd]
        rw [sech_exp, div_le_iff₀ (by positivity)]
        have := mul_pos (Real.exp_pos (-(0.143 * (j : ℝ)))) (pow_pos (Real.exp_pos (-(0.143 * (j : ℝ)))) 2)
        nlinarith
      have h4 : (n : ℝ) - 7 ≤ j := by
        have : n ≤ j + 7 := by omega
        have : (n : ℝ) ≤ j + 7 := by exact_mod_cast this
        linarith
      have h5 : Real.exp (-(0.143 * j)) ≤ Real.exp (1.0725) * Real.exp (-2.145) ^ u := by
        rw [← Real.exp_mul, ← Real.exp_add, Real.exp_le_exp]
        nlinarith
      have h6 : (10 * Real.exp (-2.145)) ^ u ≤ (10 * Real.exp (-2.145)) ^ (6 : ℝ) := by
        refine Real.rpow_le_rpow_of_exponent_le ?_ hu6
        rw [Real.exp_neg, ← div_eq_mul_inv, le_div_iff₀ (Real.exp_pos _), one_mul]
        calc Real.exp 2.145 ≤ Real.exp ((3 : ℕ) * 1 - 0.855) := by rw [Real.exp_le_exp]; norm_num
          _ ≤ 10 := by
            rw [Real.exp_sub, Real.exp_nat_mul, div_le_iff₀ (Real.exp_pos _)]
            have e1 := pow_le_pow_left₀ (Real.exp_pos 1).le Real.exp_one_lt_d9.le 3
            have e2 := quad_exp (x := 0.855) (by norm_num)
            refine e1.trans (le_trans ?_ (mul_le_mul_of_nonneg_left e2 (by norm_num)))
            norm_num
      have h7 : (10 * Real.exp (-2.145)) ^ (6 : ℝ) = 10 ^ 6 * Real.exp (-12.87) := by
        rw [show (6 : ℝ) = ((6 : ℕ) : ℝ) by norm_num, Real.rpow_natCast, mul_pow, ← Real.exp_nat_mul]
        norm_num
      have h8 : Real.exp 1.0725 * Real.exp (-12.87) * 126600 ≤ 1 := by
        rw [← Real.exp_add, show (1.0725 + -12.87 : ℝ) = -11.7975 by norm_num, Real.exp_neg]
        rw [inv_mul_le_iff₀ (Real.exp_pos _), mul_one]
        exact exp_117975
      calc d j * lam ≤ 2 * (Real.exp 1.0725 * Real.exp (-2.145) ^ u) * (10 : ℝ) ^ u := by
            rw [hlam]
            refine mul_le_mul_of_nonneg_right (h3.trans ?_) (by positivity)
            linarith
        _ = 2 * Real.exp 1.0725 * (10 * Real.exp (-2.145)) ^ u := by
            rw [Real.mul_rpow (by norm_num) (Real.exp_pos _).le]
            ring
        _ ≤ 2 * Real.exp 1.0725 * (10 ^ 6 * Real.exp (-12.87)) := by
            rw [← h7]
            exact mul_le_mul_of_nonneg_left h6 (by positivity)
        _ ≤ 15.8 := by nlinarith
    have h4 := le_max_right (∑ k ∈ Finset.range n, d k - ∑ k ∈ Finset.range (j + 1), d k)
      ((∑ k ∈ Finset.range n, d k) * (2 * m / (3 * lam)))
    have hm' : (10 : ℝ) ≤ m := by exact_mod_cast hm
    have h5 : 9.5 * (20 / (3 * lam)) ≤ (∑ k ∈ Finset.range n, d k) * (2 * m / (3 * lam)) := by
      refine mul_le_mul hS ?_ (by positivity) (by linarith)
      gcongr
      linarith
    have h6 : d j / 2 ≤ 1 / 8 * (9.5 * (20 / (3 * lam))) := by
      have e : 1 / 8 * (9.5 * (20 / (3 * lam))) = (95 / 12) / lam := by field_simp; norm_num
      rw [e, le_div_iff₀ hl]
      linarith
    linarith

/-! ## Segments in `y` -/

/-- The spacings in `y`, up to a factor. -/
noncomputable def spacY (j : ℕ) : ℝ := if j < 20 then ([0.01523, 0.03314, 0.04848, 0.05987, 0.06703, 0.07028, 0.07030,
  0.06791, 0.06391, 0.05896, 0.05358, 0.04814, 0.04288, 0.03795, 0.03342, 0.02932, 0.02565, 0.02239, 0.01951,
  0.01699] : List ℝ).getD j 0 else 0.25 * Real.exp (-0.141 * j)

/-- Smaller numbers, without the exponential. -/
noncomputable def lowY (j : ℕ) : ℝ := if j < 20 then ([0.01523, 0.03314, 0.04848, 0.05987, 0.06703, 0.07028, 0.07030,
  0.06791, 0.06391, 0.05896, 0.05358, 0.04814, 0.04288, 0.03795, 0.03342, 0.02932, 0.02565, 0.02239, 0.01951,
  0.01699] : List ℝ).getD j 0 else 0.25 * 0.8684 ^ j

theorem exp_141_nat (j : ℕ) : Real.exp (-0.141 * j) = Real.exp (-0.141) ^ j := by
  rw [← Real.exp_nat_mul]
  congr 1
  ring

theorem lowY_le (j : ℕ) : lowY j ≤ spacY j := by
  unfold lowY spacY
  split
  · exact le_rfl
  · rw [exp_141_nat]
    exact mul_le_mul_of_nonneg_left (pow_le_pow_left₀ (by norm_num) exp_141 j) (by norm_num)

theorem lowY_pos (j : ℕ) : 0 < lowY j := by
  unfold lowY
  split
  · rename_i h
    interval_cases j <;> norm_num
  · positivity

theorem spacY_pos (j : ℕ) : 0 < spacY j := (lowY_pos j).trans_le (lowY_le j)

theorem spacY_sum {n : ℕ} (hn : 20 ≤ n) : (0.8849 : ℝ) ≤ ∑ k ∈ Finset.range n, spacY k := by
  have h3 : ∑ k ∈ Finset.range 20, spacY k ≤ ∑ k ∈ Finset.range n, spacY k :=
    Finset.sum_le_sum_of_subset_of_nonneg (Finset.range_subset_range.2 hn) fun k _ _ => (spacY_pos k).le
  refine le_trans ?_ h3
  norm_num [Finset.sum_range_succ, spacY]

theorem condA {n j r : ℕ} (lam : ℝ) (h : j + r < n) (h1 : 4.1817 * spacY j ≤ ∑ k ∈ Finset.range r, spacY (j + 1 + k)) :
    spacY j / 2 ≤ 3 / 25 * max ((∑ k ∈ Finset.range n, spacY k) * (2 / lam))
      (0.89 * (∑ k ∈ Finset.range n, spacY k - ∑ k ∈ Finset.range (j + 1), spacY k + spacY j / 2)) := by
  have h2 := tail_ge spacY_pos h
  have h3 := le_max_right ((∑ k ∈ Finset.range n, spacY k) * (2 / lam))
      (0.89 * (∑ k ∈ Finset.range n, spacY k - ∑ k ∈ Finset.range (j + 1), spacY k + spacY j / 2))
  have h4 := spacY_pos j
  linarith

theorem condA_low {n j r : ℕ} (lam : ℝ) (h : j + r < n) (h1 : 4.1817 * spacY j ≤ ∑ k ∈ Finset.range r, lowY (j + 1 + k)) :
    spacY j / 2 ≤ 3 / 25 * max ((∑ k ∈ Finset.range n, spacY k) * (2 / lam))
      (0.89 * (∑ k ∈ Finset.range n, spacY k - ∑ k ∈ Finset.range (j + 1), spacY k + spacY j / 2)) :=
  condA lam h (h1.trans (Finset.sum_le_sum fun k _ => lowY_le _))

theorem condB {n j : ℕ} {lam : ℝ} (hl : 0 < lam) (hn : 20 ≤ n) (h1 : spacY j * lam ≤ 0.4247) :
    spacY j / 2 ≤ 3 / 25 * max ((∑ k ∈ Finset.range n, spacY k) * (2 / lam))
      (0.89 * (∑ k ∈ Finset.range n, spacY k - ∑ k ∈ Finset.range (j + 1), spacY k + spacY j / 2)) := by
  have h2 := spacY_sum hn
  have h3 := le_max_left ((∑ k ∈ Finset.range n, spacY k) * (2 / lam))
      (0.89 * (∑ k ∈ Finset.range n, spacY k - ∑ k ∈ Finset.range (j + 1), spacY k + spacY j / 2))
  refine le_trans ?_ (mul_le_mul_of_nonneg_left h3 (by norm_num))
  have e : 3 / 25 * ((∑ k ∈ Finset.range n, spacY k) * (2 / lam)) = 0.24 * (∑ k ∈ Finset.range n, spacY k) / lam := by
    ring
  rw [e, le_div_iff₀ hl]
  linarith

theorem le_log {x lam : ℝ} (hx : 0 < x) (h : x ≤ lam) {p q : ℕ} (hq : 0 < q) (hp : (10 : ℝ) ^ p ≤ x ^ q) :
    (p : ℝ) / q ≤ Real.logb 10 lam := by
  have hq' : (0 : ℝ) < q := by exact_mod_cast hq
  rw [div_le_iff₀ hq', mul_comm, ← Real.logb_pow, Real.le_logb_iff_rpow_le (by norm_num) (pow_pos (hx.trans_le h) q), Real.rpow_natCast]
  exact hp.trans (pow_le_pow_left₀ hx.le h q)

theorem ratio_0 : 4.1817 * spacY 0 ≤ ∑ k ∈ Finset.range 19, lowY (0 + 1 + k) := by
  norm_num [Finset.sum_range_succ, spacY, lowY]

theorem ratio_1 : 4.1817 * spacY 1 ≤ ∑ k ∈ Finset.range 18, lowY (1 + 1 + k) := by
  norm_num [Finset.sum_range_succ, spacY, lowY]

theorem ratio_2 : 4.1817 * spacY 2 ≤ ∑ k ∈ Finset.range 17, lowY (2 + 1 + k) := by
  norm_num [Finset.sum_range_succ, spacY, lowY]

theorem ratio_3 : 4.1817 * spacY 3 ≤ ∑ k ∈ Finset.range 16, lowY (3 + 1 + k) := by
  norm_num [Finset.sum_range_succ, spacY, lowY]

theorem ratio_4 : 4.1817 * spacY 4 ≤ ∑ k ∈ Finset.range 15, lowY (4 + 1 + k) := by
  norm_num [Finset.sum_range_succ, spacY, lowY]

theorem ratio_5 : 4.1817 * spacY 5 ≤ ∑ k ∈ Finset.range 14, lowY (5 + 1 + k) := by
  norm_num [Finset.sum_range_succ, spacY, lowY]

theorem ratio_6 : 4.1817 * spacY 6 ≤ ∑ k ∈ Finset.range 13, lowY (6 + 1 + k) := by
  norm_num [Finset.sum_range_succ, spacY, lowY]

theorem ratio_7 : 4.1817 * spacY 7 ≤ ∑ k ∈ Finset.range 12, lowY (7 + 1 + k) := by
  norm_num [Finset.sum_range_succ, spacY, lowY]

theorem ratio_8 : 4.1817 * spacY 8 ≤ ∑ k ∈ Finset.range 11, lowY (8 + 1 + k) := by
  norm_num [Finset.sum_range_succ, spacY, lowY]

theorem ratio_9 : 4.1817 * spacY 9 ≤ ∑ k ∈ Finset.range 10, lowY (9 + 1 + k) := by
  norm_num [Finset.sum_range_succ, spacY, lowY]

theorem ratio_10 : 4.1817 * spacY 10 ≤ ∑ k ∈ Finset.range 9, lowY (10 + 1 + k) := by
  norm_num [Finset.sum_range_succ, spacY, lowY]

theorem ratio_11 : 4.1817 * spacY 11 ≤ ∑ k ∈ Finset.range 8, lowY (11 + 1 + k) := by
  norm_num [Finset.sum_range_succ, spacY, lowY]

theorem ratio_12 : 4.1817 * spacY 12 ≤ ∑ k ∈ Finset.range 7, lowY (12 + 1 + k) := by
  norm_num [Finset.sum_range_succ, spacY, lowY]

theorem ratio_13 : 4.1817 * spacY 13 ≤ ∑ k ∈ Finset.range 7, lowY (13 + 1 + k) := by
  norm_num [Finset.sum_range_succ, spacY, lowY]

theorem ratio_14 : 4.1817 * spacY 14 ≤ ∑ k ∈ Finset.range 7, lowY (14 + 1 + k) := by
  norm_num [Finset.sum_range_succ, spacY, lowY]

theorem ratio_15 : 4.1817 * spacY 15 ≤ ∑ k ∈ Finset.range 7, lowY (15 + 1 + k) := by
  norm_num [Finset.sum_range_succ, spacY, lowY]

theorem ratio_16 : 4.1817 * spacY 16 ≤ ∑ k ∈ Finset.range 7, lowY (16 + 1 + k) := by
  norm_num [Finset.sum_range_succ, spacY, lowY]

theorem ratio_17 : 4.1817 * spacY 17 ≤ ∑ k ∈ Finset.range 7, lowY (17 + 1 + k) := by
  norm_num [Finset.sum_range_succ, spacY, lowY]

theorem ratio_18 : 4.1817 * spacY 18 ≤ ∑ k ∈ Finset.range 8, lowY (18 + 1 + k) := by
  norm_num [Finset.sum_range_succ, spacY, lowY]

theorem ratio_19 : 4.1817 * spacY 19 ≤ ∑ k ∈ Finset.range 8, lowY (19 + 1 + k) := by
  norm_num [Finset.sum_range_succ, spacY, lowY]

theorem small_13 : spacY 13 * 11 ≤ 0.4247 := by norm_num [spacY]

theorem small_14 : spacY 14 * 12.5 ≤ 0.4247 := by norm_num [spacY]

theorem small_15 : spacY 15 * 14 ≤ 0.4247 := by norm_num [spacY]

theorem small_16 : spacY 16 * 16 ≤ 0.4247 := by norm_num [spacY]

theorem small_17 : spacY 17 * 18 ≤ 0.4247 := by norm_num [spacY]

theorem small_18 : spacY 18 * 21.5 ≤ 0.4247 := by norm_num [spacY]

theorem small_19 : spacY 19 * 24.5 ≤ 0.4247 := by norm_num [spacY]

/-- For `lam ≥ 10` the hinted segments in `y` are fine enough. -/
theorem logistic_fineY {lam : ℝ} (h1 : 10 ≤ lam) :
    ∃ g, Kernel.logisticSegY lam = .ok g ∧ SymGrid g ∧ FineY lam (3 / 25) g := by
  have hl : 0 < lam := by linarith
  obtain ⟨g', hg', hs⟩ := (C33_grids lam hl).2.1
  obtain ⟨g, n, hg, hlen, hcount, hsp⟩ := (C33_spacings lam hl).2.1
  cases hg'.symm.trans hg
  refine ⟨g', hg, hs, fineY_of hs hlen (d := spacY) spacY_pos hsp (by norm_num) fun j hj => ?_⟩
  obtain ⟨k, hk, hn⟩ := hcount
  set u := Real.logb 10 lam with hu
  have hk1 := abs_le.1 hk.1
  have hu1 : 1 ≤ u := by
    rw [hu, Real.le_logb_iff_rpow_le (by norm_num) hl]
    simpa using h1
  have hlam : lam = (10 : ℝ) ^ u := (Real.rpow_logb (by norm_num) (by norm_num) hl).symm
  have hnu : 20 * u - 1 / 2 ≤ n := by
    have : (k : ℝ) ≤ (n : ℤ) := by exact_mod_cast (by omega : k ≤ (n : ℤ))
    have : (k : ℝ) ≤ n := by exact_mod_cast this
    linarith
  have hn20 : 20 ≤ n := by
    have : (19 : ℝ) < n := by linarith
    have : 19 < n := by exact_mod_cast this
    omega
  have count : ∀ (x : ℝ) (N : ℕ), 0 < x → x ≤ lam → (10 : ℝ) ^ (8 * N - 3) ≤ x ^ 160 → N ≤ n := by
    intro x N hx hxl hp
    rcases Nat.eq_zero_or_pos N with rfl | hN
    · exact Nat.zero_le _
    have h2 := le_log hx hxl (by norm_num : 0 < 160) hp
    rw [← hu, Nat.cast_sub (by omega)] at h2
    push_cast at h2
    have h3 : (N : ℝ) < n + 1 := by linarith
    have : N < n + 1 := by exact_mod_cast h3
    omega
  rcases lt_or_ge j 20 with hj20 | hj20
  · interval_cases j
    · exact condA_low lam (by omega) ratio_0
    · exact condA_low lam (by omega) ratio_1
    · exact condA_low lam (by omega) ratio_2
    · exact condA_low lam (by omega) ratio_3
    · exact condA_low lam (by omega) ratio_4
    · exact condA_low lam (by omega) ratio_5
    · exact condA_low lam (by omega) ratio_6
    · exact condA_low lam (by omega) ratio_7
    · exact condA_low lam (by omega) ratio_8
    · exact condA_low lam (by omega) ratio_9
    · exact condA_low lam (by omega) ratio_10
    · exact condA_low lam (by omega) ratio_11
    · exact condA_low lam (by omega) ratio_12
    · rcases le_total lam 11 with h2 | h2
      · exact condB hl hn20 ((mul_le_mul_of_nonneg_left h2 (spacY_pos _).le).trans small_13)
      · have h3 := count 11 21 (by norm_num) h2 (by norm_num)
        exact condA_low lam (by omega) ratio_13
    · rcases le_total lam 12.5 with h2 | h2
      · exact condB hl hn20 ((mul_le_mul_of_nonneg_left h2 (spacY_pos _).le).trans small_14)
      · have h3 := count 12.5 22 (by norm_num) h2 (by norm_num)
        exact condA_low lam (by omega) ratio_14
    · rcases le_total lam 14 with h2 | h2
      · exact condB hl hn20 ((mul_le_mul_of_nonneg_left h2 (spacY_pos _).le).trans small_15)
      · have h3 := count 14 23 (by norm_num) h2 (by norm_num)
        exact condA_low lam (by omega) ratio_15
    · rcases le_total lam 16 with h2 | h2
      · exact condB hl hn20 ((mul_le_mul_of_nonneg_left h2 (spacY_pos _).le).trans small_16)
      · have h3 := count 16 24 (by norm_num) h2 (by norm_num)
        exact condA_low lam (by omega) ratio_16
    · rcases le_total lam 18 with h2 | h2
      · exact condB hl hn20 ((mul_le_mul_of_nonneg_left h2 (spacY_pos _).le).trans small_17)
      · have h3 := count 18 25 (by norm_num) h2 (by norm_num)
        exact condA_low lam (by omega) ratio_17
    · rcases le_total lam 21.5 with h2 | h2
      · exact condB hl hn20 ((mul_le_mul_of_nonneg_left h2 (spacY_pos _).le).trans small_18)
      · have h3 := count 21.5 27 (by norm_num) h2 (by norm_num)
        exact condA_low lam (by omega) ratio_18
    · rcases le_total lam 24.5 with h2 | h2
      · exact condB hl hn20 ((mul_le_mul_of_nonneg_left h2 (spacY_pos _).le).trans small_19)
      · have h3 := count 24.5 28 (by norm_num) h2 (by norm_num)
        exact condA_low lam (by omega) ratio_19
  · have hdj : spacY j = 0.25 * Real.exp (-0.141 * j) := if_neg (by omega)
    have hj' : (20 : ℝ) ≤ j := by exact_mod_cast hj20
    by_cases hr : j + 8 < n
    · refine condA lam hr ?_
      have h4 : ∀ k : ℕ, 0.8684 ^ (k + 1) * spacY j ≤ spacY (j + 1 + k) := by
        intro k
        rw [hdj, show spacY (j + 1 + k) = 0.25 * Real.exp (-0.141 * (j + 1 + k : ℕ)) from if_neg (by omega), exp_141_nat,
          exp_141_nat, show j + 1 + k = (k + 1) + j by omega, pow_add _ (k + 1) j]
        have := mul_le_mul_of_nonneg_right (pow_le_pow_left₀ (by norm_num) exp_141 (k + 1))
          (pow_pos (Real.exp_pos (-0.141)) j).le
        linarith
      calc 4.1817 * spacY j ≤ ∑ k ∈ Finset.range 8, 0.8684 ^ (k + 1) * spacY j := by
            rw [← Finset.sum_mul]
            refine mul_le_mul_of_nonneg_right ?_ (spacY_pos j).le
            norm_num [Finset.sum_range_succ]
        _ ≤ _ := Finset.sum_le_sum fun k _ => h4 k
    · refine condB hl hn20 ?_
      rcases le_total lam 24 with h24 | h24
      · have h5 : Real.exp (-0.141 * j) ≤ Real.exp (-2.82) := Real.exp_le_exp.2 (by linarith)
        have h6 : Real.exp (-2.82) * 15.9 ≤ 1 := by
          rw [Real.exp_neg, inv_mul_le_iff₀ (Real.exp_pos _), mul_one]
          exact exp_282
        rw [hdj]
        have := mul_le_mul (mul_le_mul_of_nonneg_left h5 (by norm_num : (0 : ℝ) ≤ 0.25)) h24 hl.le (by positivity)
        linarith
      · have hu2 : 1.38 ≤ u := by
          have := le_log (by norm_num) h24 (p := 69) (q := 50) (by norm_num) (by norm_num)
          rw [← hu] at this
          norm_num at this ⊢
          exact this
        have h4 : (n : ℝ) - 8 ≤ j := by
          have : n ≤ j + 8 := by omega
          have : (n : ℝ) ≤ j + 8 := by exact_mod_cast this
          linarith
        have h5 : Real.exp (-0.141 * j) ≤ Real.exp 1.1985 * Real.exp (-2.82) ^ u := by
          rw [← Real.exp_mul, ← Real.exp_add, Real.exp_le_exp]
          nlinarith
        have h10 : 10 * Real.exp (-2.82) ≤ 1 := by
          rw [Real.exp_neg, ← div_eq_mul_inv, div_le_one (Real.exp_pos _)]
          exact le_trans (by norm_num) exp_282
        have h6 : lam * Real.exp (-2.82) ^ u ≤ 24 * Real.exp (-2.82 * 1.38) := by
          have h11 : (10 : ℝ) ^ (1.38 : ℝ) ≤ 24 := by
            have := le_log (x := 24) (lam := 24) (by norm_num) le_rfl (p := 69) (q := 50) (by norm_num) (by norm_num)
            rw [← Real.le_logb_iff_rpow_le (by norm_num) (by norm_num)]
            norm_num at this ⊢
            exact this
          have h12 := Real.rpow_le_rpow_of_exponent_ge (by positivity) h10 hu2
          rw [Real.mul_rpow (by norm_num) (Real.exp_pos _).le, Real.mul_rpow (by norm_num) (Real.exp_pos _).le, ← hlam,
            ← Real.exp_mul _ 1.38] at h12
          exact h12.trans (mul_le_mul_of_nonneg_right h11 (Real.exp_pos _).le)
        have h8 : Real.exp 1.1985 * Real.exp (-2.82 * 1.38) * 14.2 ≤ 1 := by
          rw [← Real.exp_add, show (1.1985 + -2.82 * 1.38 : ℝ) = -2.6931 by norm_num, Real.exp_neg]
          rw [inv_mul_le_iff₀ (Real.exp_pos _), mul_one]
          exact exp_26931
        rw [hdj]
        calc 0.25 * Real.exp (-0.141 * j) * lam ≤ 0.25 * (Real.exp 1.1985 * Real.exp (-2.82) ^ u) * lam := by gcongr
          _ = 0.25 * Real.exp 1.1985 * (lam * Real.exp (-2.82) ^ u) := by ring
          _ ≤ 0.25 * Real.exp 1.1985 * (24 * Real.exp (-2.82 * 1.38)) := mul_le_mul_of_nonneg_left h6 (by positivity)
          _ ≤ 0.4247 := by linarith

end Verif.Spec
