import Verif.Lemmas.LogisticGrid
import Verif.Lemmas.BoseGrid
/-!
# The shortest segments hinted by the logistic kernel
-/

namespace Verif.Spec
open Roots Props

/-- Every segment has at least the length `h`. -/
def SegAtLeast (h : ℝ) (g : List ℝ) : Prop := ∀ a b, Adjacent g a b → h ≤ b - a

theorem segX_of {g : List ℝ} (hs : SymGrid g) {n : ℕ} (hlen : g.length = 2 * n + 1) {d : ℕ → ℝ}
    (hsp : SpacingsFrom g n n d) {m S : ℝ} (hm0 : 0 ≤ m) (hm : ∀ j < n, m ≤ d j) (hS : ∑ k ∈ Finset.range n, d k ≤ S) (hS0 : 0 < S) :
    SegAtLeast (m / S) g := by
  have h1 : g[n + n]? = some 1 := by
    have := hs.last
    rw [List.getLast?_eq_getElem?, hlen] at this
    rw [← this]
    congr 1
    omega
  obtain ⟨c, hc, hc1, hg⟩ := sums_of_spacings (sym_mid hs hlen) h1 hsp
  simp only [zero_add, sub_zero] at hg hc1
  have hcS : 1 ≤ c * S := by rw [← hc1]; exact mul_le_mul_of_nonneg_left hS hc.le
  have right : ∀ (j : ℕ) (a b : ℝ), j < n → g[n + j]? = some a → g[n + (j + 1)]? = some b → m / S ≤ b - a := by
    intro j a b hj ha hb
    rw [hg j hj.le, Option.some.injEq] at ha
    rw [hg (j + 1) hj, Option.some.injEq] at hb
    have hba : b - a = c * d j := by rw [← ha, ← hb, Finset.sum_range_succ]; ring
    rw [hba, div_le_iff₀ hS0]
    nlinarith [mul_le_mul_of_nonneg_left (hm j hj) (mul_pos hc hS0).le]
  intro a b hab
  obtain ⟨i, hi, ha, hb⟩ := adjacent_index hab
  rcases le_or_gt n i with h2 | h2
  · exact right (i - n) a b (by omega) (by rw [show n + (i - n) = i by omega]; exact ha)
      (by rw [show n + (i - n + 1) = i + 1 by omega]; exact hb)
  · have ha' := sym_get hs hlen (by omega) ha
    have hb' := sym_get hs hlen (by omega) hb
    have := right (n - 1 - i) (-b) (-a) (by omega) (by rw [← hb']; congr 1; omega) (by rw [← ha']; congr 1; omega)
    linarith

theorem segY_of {g : List ℝ} (hs : SymGrid g) {n : ℕ} (hlen : g.length = 2 * n + 1) {d : ℕ → ℝ}
    (hsp : SpacingsFrom g 0 n d) {m S : ℝ} (hm0 : 0 ≤ m) (hm : ∀ j < n, m ≤ d j) (hS : ∑ k ∈ Finset.range n, d k ≤ S) (hS0 : 0 < S) :
    SegAtLeast (m / S) g := by
  have h0 : g[0]? = some (-1 : ℝ) := by rw [← List.head?_eq_getElem?]; exact hs.first
  obtain ⟨c, hc, hc1, hg⟩ := sums_of_spacings h0 (by rw [zero_add]; exact sym_mid hs hlen) hsp
  simp only [zero_add, sub_neg_eq_add] at hg hc1
  have hcS : 1 ≤ c * S := by rw [← hc1]; exact mul_le_mul_of_nonneg_left hS hc.le
  have left : ∀ (j : ℕ) (a b : ℝ), j < n → g[j]? = some a → g[j + 1]? = some b → m / S ≤ b - a := by
    intro j a b hj ha hb
    rw [hg j hj.le, Option.some.injEq] at ha
    rw [hg (j + 1) hj, Option.some.injEq] at hb
    have hba : b - a = c * d j := by rw [← ha, ← hb, Finset.sum_range_succ]; ring
    rw [hba, div_le_iff₀ hS0]
    nlinarith [mul_le_mul_of_nonneg_left (hm j hj) (mul_pos hc hS0).le]
  intro a b hab
  obtain ⟨i, hi, ha, hb⟩ := adjacent_index hab
  rcases lt_or_ge i n with h2 | h2
  · exact left i a b h2 ha hb
  · have ha' := sym_get hs hlen (by omega) ha
    have hb' := sym_get hs hlen (by omega) hb
    have := left (2 * n - (i + 1)) (-b) (-a) (by omega) hb' (by rw [← ha']; congr 1; omega)
    linarith

theorem geom_le {q : ℝ} (h0 : 0 ≤ q) (h1 : q < 1) (n : ℕ) : ∑ j ∈ Finset.range n, q ^ j ≤ 1 / (1 - q) := by
  rw [le_div_iff₀ (by linarith), mul_comm, mul_neg_geom_sum]
  have := pow_nonneg h0 n
  linarith

theorem exp_neg_le {t : ℝ} (ht : 0 < t) : Real.exp (-t) ≤ 1 / (1 + t) := by
  rw [Real.exp_neg, ← one_div]
  exact one_div_le_one_div_of_le (by linarith) (by linarith [Real.add_one_le_exp t])

theorem ten_log : 2.2873 ≤ Real.log 10 := by
  have := two_le_log (a := 10) (p := 33) (q := 10) (by norm_num)
  norm_num at this ⊢
  linarith

/-- The number of points in terms of the logarithm of the cut-off. -/
theorem count_le {c : ℝ} {m : ℤ} {lam : ℝ} {n : ℕ} (h : PointCount c m lam n) (hm : (m : ℝ) ≤ c * Real.logb 10 lam + 1 / 2) :
    (n : ℝ) ≤ c * Real.logb 10 lam + 1 / 2 := by
  obtain ⟨k, hk, hn⟩ := h
  have hk1 := abs_le.1 hk.1
  have hn' : ((n : ℤ) : ℝ) = max (k : ℝ) m := by rw [hn]; push_cast; rfl
  rw [Int.cast_natCast] at hn'
  rw [hn']
  exact max_le (by linarith) hm

/-- Segments in `x`. -/
theorem logistic_minX {lam : ℝ} (h1 : 10 ≤ lam) {g : List ℝ} (hg : Kernel.logisticSegX lam = .ok g) :
    SegAtLeast (1 / (16 * lam)) g := by
  have hl : 0 < lam := by linarith
  obtain ⟨g', hg', hs⟩ := (C33_grids lam hl).1
  obtain ⟨g2, n, hg2, hlen, hcount, hsp⟩ := (C33_spacings lam hl).1
  cases hg'.symm.trans hg
  cases hg2.symm.trans hg
  have hu1 : 1 ≤ Real.logb 10 lam := by
    rw [Real.le_logb_iff_rpow_le (by norm_num) hl]
    simpa using h1
  have hn := count_le hcount (by push_cast; linarith)
  have hlog : Real.log lam = Real.logb 10 lam * Real.log 10 := by
    rw [Real.logb, div_mul_cancel₀]
    have := ten_log
    linarith
  have e : 1 / (16 * lam) = 1 / lam / 16 := by field_simp
  rw [e]
  refine segX_of hs hlen hsp (by positivity) (fun j hj => ?_) ?_ (by norm_num)
  · refine one_div_le_one_div_of_le (Real.cosh_pos _) ?_
    have hj' : (j : ℝ) + 1 ≤ n := by exact_mod_cast hj
    have h2 : Real.cosh (0.143 * j) ≤ Real.exp (0.143 * j) := by
      rw [Real.cosh_eq]
      have : Real.exp (-(0.143 * (j : ℝ))) ≤ Real.exp (0.143 * j) := Real.exp_le_exp.2 (by
        have : (0 : ℝ) ≤ j := Nat.cast_nonneg _
        linarith)
      linarith
    refine h2.trans ?_
    rw [← Real.exp_log hl]
    refine Real.exp_le_exp.2 ?_
    rw [hlog]
    nlinarith [ten_log]
  · calc ∑ k ∈ Finset.range n, 1 / Real.cosh (0.143 * (k : ℝ)) ≤ ∑ k ∈ Finset.range n, 2 * Real.exp (-0.143) ^ k := by
          refine Finset.sum_le_sum fun k _ => ?_
          rw [← Real.exp_nat_mul, div_le_iff₀ (Real.cosh_pos _), Real.cosh_eq]
          have e1 : Real.exp (k * (-0.143)) * Real.exp (0.143 * k) = 1 := by
            rw [← Real.exp_add, ← Real.exp_zero]
            congr 1
            ring
          nlinarith [Real.exp_pos ((k : ℝ) * (-0.143)), Real.exp_pos (-(0.143 * (k : ℝ))),
            mul_pos (Real.exp_pos ((k : ℝ) * (-0.143))) (Real.exp_pos (-(0.143 * (k : ℝ))))]
      _ = 2 * ∑ k ∈ Finset.range n, Real.exp (-0.143) ^ k := (Finset.mul_sum _ _ _).symm
      _ ≤ 2 * (1 / (1 - Real.exp (-0.143))) := by
          refine mul_le_mul_of_nonneg_left (geom_le (Real.exp_pos _).le ?_ n) (by norm_num)
          have := exp_neg_le (t := 0.143) (by norm_num)
          have h3 : (1 : ℝ) / (1 + 0.143) ≤ 0.8749 := by norm_num
          linarith
      _ ≤ 16 := by
          have := exp_neg_le (t := 0.143) (by norm_num)
          have h3 : (1 : ℝ) / (1 + 0.143) ≤ 0.8749 := by norm_num
          rw [mul_one_div, div_le_iff₀ (by linarith)]
          linarith

theorem spacY_table (j : ℕ) (hj : j < 20) : (0.01523 : ℝ) ≤ spacY j ∧ spacY j ≤ 0.0703 := by
  interval_cases j <;> norm_num [spacY]

/-- Segments in `y`. -/
theorem logistic_minY {lam : ℝ} (h1 : 10 ≤ lam) {g : List ℝ} (hg : Kernel.logisticSegY lam = .ok g) :
    SegAtLeast (1 / (8 * lam ^ (5 / 4 : ℝ))) g := by
  have hl : 0 < lam := by linarith
  obtain ⟨g', hg', hs⟩ := (C33_grids lam hl).2.1
  obtain ⟨g2, n, hg2, hlen, hcount, hsp⟩ := (C33_spacings lam hl).2.1
  cases hg'.symm.trans hg
  cases hg2.symm.trans hg
  change SpacingsFrom g 0 n spacY at hsp
  have hu1 : 1 ≤ Real.logb 10 lam := by
    rw [Real.le_logb_iff_rpow_le (by norm_num) hl]
    simpa using h1
  have hn := count_le hcount (by push_cast; linarith)
  have hlog : Real.log lam = Real.logb 10 lam * Real.log 10 := by
    rw [Real.logb, div_mul_cancel₀]
    have := ten_log
    linarith
  have hpow : 0 < lam ^ (5 / 4 : ℝ) := Real.rpow_pos_of_pos hl _
  have hten : (17.7 : ℝ) ≤ lam ^ (5 / 4 : ℝ) := by
    refine le_trans ?_ (Real.rpow_le_rpow (by norm_num) h1 (by norm_num))
    have h2 : ((10 : ℝ) ^ (5 / 4 : ℝ)) ^ (4 : ℕ) = 10 ^ 5 := by
      rw [← Real.rpow_natCast, ← Real.rpow_mul (by norm_num)]
      norm_num
    refine le_of_pow_le_pow_left₀ (n := 4) (by norm_num) (by positivity) ?_
    rw [h2]
    norm_num
  have e : 1 / (8 * lam ^ (5 / 4 : ℝ)) = 1 / (4 * lam ^ (5 / 4 : ℝ)) / 2 := by field_simp; norm_num
  rw [e]
  refine segY_of hs hlen hsp (by positivity) (fun j hj => ?_) ?_ (by norm_num)
  · rcases lt_or_ge j 20 with hj20 | hj20
    · refine le_trans ?_ (spacY_table j hj20).1
      rw [div_le_iff₀ (by positivity)]
      nlinarith
    · have hj' : (j : ℝ) + 1 ≤ n := by exact_mod_cast hj
      rw [spacY, if_neg (not_lt.2 hj20)]
      have h3 : Real.exp (0.141 * j) ≤ lam ^ (5 / 4 : ℝ) := by
        rw [Real.rpow_def_of_pos hl]
        refine Real.exp_le_exp.2 ?_
        rw [hlog]
        nlinarith [ten_log]
      have h4 : Real.exp (-0.141 * j) = 1 / Real.exp (0.141 * j) := by
        rw [one_div, ← Real.exp_neg]
        congr 1
        ring
      rw [h4]
      have h5 := one_div_le_one_div_of_le (Real.exp_pos _) h3
      have e2 : 1 / (4 * lam ^ (5 / 4 : ℝ)) = 0.25 * (1 / lam ^ (5 / 4 : ℝ)) := by field_simp; norm_num
      rw [e2]
      linarith
  · have h3 : ∀ k, spacY k ≤ (if k < 20 then 0.0703 else 0) + 0.25 * (if k < 20 then 0 else Real.exp (-0.141) ^ k) := by
      intro k
      by_cases hk : k < 20
      · rw [if_pos hk, if_pos hk, mul_zero, add_zero]
        exact (spacY_table k hk).2
      · rw [if_neg hk, if_neg hk, zero_add, spacY, if_neg hk, exp_141_nat]
    have hq := exp_neg_le (t := 0.141) (by norm_num)
    have h4 : (1 : ℝ) / (1 + 0.141) ≤ 0.8765 := by norm_num
    have hq1 : Real.exp (-0.141) ≤ 0.8765 := hq.trans h4
    have h5 : ∑ k ∈ Finset.range n, (if k < 20 then (0.0703 : ℝ) else 0) ≤ 1.406 := by
      rw [← Finset.sum_filter, Finset.sum_const, nsmul_eq_mul]
      have : ((Finset.range n).filter (· < 20)).card ≤ 20 := by
        calc ((Finset.range n).filter (· < 20)).card ≤ (Finset.range 20).card :=
              Finset.card_le_card fun k hk => Finset.mem_range.2 (Finset.mem_filter.1 hk).2
          _ = 20 := Finset.card_range 20
      have h6 : (((Finset.range n).filter (· < 20)).card : ℝ) ≤ 20 := by exact_mod_cast this
      nlinarith
    have h7 : ∑ k ∈ Finset.range n, (if k < 20 then 0 else Real.exp (-0.141) ^ k) ≤ 0.6 := by
      have h8 : ∀ k, (if k < 20 then 0 else Real.exp (-0.141) ^ k) ≤ (if k < 20 then 0 else (0.8765 : ℝ) ^ k) := by
        intro k
        split
        · exact le_rfl
        · exact pow_le_pow_left₀ (Real.exp_pos _).le hq1 k
      have h9 : ∀ n : ℕ, 20 ≤ n → ∑ k ∈ Finset.range n, (if k < 20 then 0 else (0.8765 : ℝ) ^ k) + ∑ k ∈ Finset.range 20, (0.8765 : ℝ) ^ k
          = ∑ k ∈ Finset.range n, (0.8765 : ℝ) ^ k := by
        intro n hn
        rw [← Finset.sum_range_add_sum_Ico _ hn, ← Finset.sum_range_add_sum_Ico (fun k => (0.8765 : ℝ) ^ k) hn]
        have e1 : ∑ k ∈ Finset.range 20, (if k < 20 then 0 else (0.8765 : ℝ) ^ k) = 0 :=
          Finset.sum_eq_zero fun k hk => if_pos (Finset.mem_range.1 hk)
        have e2 : ∑ k ∈ Finset.Ico 20 n, (if k < 20 then 0 else (0.8765 : ℝ) ^ k) = ∑ k ∈ Finset.Ico 20 n, (0.8765 : ℝ) ^ k :=
          Finset.sum_congr rfl fun k hk => if_neg (not_lt.2 (Finset.mem_Ico.1 hk).1)
        rw [e1, e2]
        ring
      refine (Finset.sum_le_sum fun k _ => h8 k).trans ?_
      have hmono : ∑ k ∈ Finset.range n, (if k < 20 then 0 else (0.8765 : ℝ) ^ k) ≤
          ∑ k ∈ Finset.range (max n 20), (if k < 20 then 0 else (0.8765 : ℝ) ^ k) :=
        Finset.sum_le_sum_of_subset_of_nonneg (Finset.range_subset_range.2 (le_max_left _ _)) fun k _ _ => by
          split
          · exact le_rfl
          · positivity
      have h10 := h9 (max n 20) (le_max_right _ _)
      have h11 := geom_le (q := 0.8765) (by norm_num) (by norm_num) (max n 20)
      have h12 : (7.51 : ℝ) ≤ ∑ k ∈ Finset.range 20, (0.8765 : ℝ) ^ k := by norm_num [Finset.sum_range_succ]
      have h13 : (1 : ℝ) / (1 - 0.8765) ≤ 8.1 := by norm_num
      linarith
    refine (Finset.sum_le_sum fun k _ => h3 k).trans ?_
    rw [Finset.sum_add_distrib, ← Finset.mul_sum]
    linarith

end Verif.Spec
