import Verif.Spec.Discretise
import Verif.Spec.Kernel
import Verif.Props.C33_Grids
import Mathlib.Analysis.Complex.CauchyIntegral
import Mathlib.Analysis.SpecialFunctions.Exponential
import Mathlib.Analysis.Complex.ExponentialBounds
import Mathlib.Analysis.SpecialFunctions.Trigonometric.Bounds
import Mathlib.Analysis.SpecificLimits.Normed
/-!
# The logistic kernel is close to piecewise polynomials
-/

namespace Verif.Spec
open Polynomial Roots

/-! ## Taylor polynomials -/

theorem exp_taylor (t : ℝ) (n : ℕ) :
    |Real.exp t - ∑ k ∈ Finset.range n, t ^ k / k.factorial| ≤ |t| ^ n / n.factorial * Real.exp |t| := by
  have h : ∀ t : ℝ, HasSum (fun k : ℕ => t ^ k / k.factorial) (Real.exp t) := fun t => by
    rw [Real.exp_eq_exp_ℝ]
    exact NormedSpace.expSeries_div_hasSum_exp t
  refine HasSum.norm_le_of_bounded ((hasSum_nat_add_iff' n).2 (h t)) ((h |t|).mul_left (|t| ^ n / n.factorial)) fun k => ?_
  rw [norm_div, norm_pow, Real.norm_eq_abs, Real.norm_eq_abs, Nat.abs_cast, div_mul_div_comm, ← pow_add, add_comm n k]
  refine div_le_div_of_nonneg_left (by positivity) (by positivity) ?_
  have := Nat.le_of_dvd (Nat.factorial_pos _) (Nat.factorial_mul_factorial_dvd_factorial_add k n)
  rw [mul_comm] at this
  exact_mod_cast this

/-- Cauchy estimate for the remainder of the Taylor polynomial. -/
theorem cauchy_taylor {f : ℂ → ℂ} {c : ℂ} {R M θ : ℝ} (hR : 0 < R) (hf : DifferentiableOn ℂ f (Metric.closedBall c R))
    (hM : ∀ z ∈ Metric.closedBall c R, ‖f z‖ ≤ M) (h1 : θ < 1) (n : ℕ) :
    ∃ a : ℕ → ℂ, ∀ w : ℂ, ‖w‖ ≤ θ * R → ‖f (c + w) - ∑ k ∈ Finset.range n, w ^ k * a k‖ ≤ M * θ ^ n / (1 - θ) := by
  lift R to NNReal using hR.le
  have hs := hf.hasFPowerSeriesOnBall (by exact_mod_cast hR)
  set p := cauchyPowerSeries f c R
  refine ⟨p.coeff, fun w hw => ?_⟩
  have hθ0 : 0 ≤ θ := by
    by_contra h
    have : θ * R < 0 := mul_neg_of_neg_of_pos (not_le.1 h) hR
    linarith [norm_nonneg w]
  have hM0 : 0 ≤ M := (norm_nonneg _).trans (hM c (Metric.mem_closedBall_self hR.le))
  have hcoef : ∀ k, ‖p.coeff k‖ ≤ M * (R : ℝ)⁻¹ ^ k := by
    intro k
    rw [← FormalMultilinearSeries.norm_apply_eq_norm_coef]
    refine (norm_cauchyPowerSeries_le f c R k).trans ?_
    rw [abs_of_pos hR]
    refine mul_le_mul_of_nonneg_right ?_ (by positivity)
    have h2 : ‖∫ t : ℝ in (0)..2 * Real.pi, ‖f (circleMap c R t)‖‖ ≤ M * |2 * Real.pi - 0| := by
      refine intervalIntegral.norm_integral_le_of_norm_le_const fun t _ => ?_
      rw [norm_norm]
      exact hM _ (circleMap_mem_closedBall c hR.le t)
    rw [sub_zero, abs_of_pos Real.two_pi_pos] at h2
    have h3 := (le_abs_self _).trans h2
    rw [inv_mul_le_iff₀ Real.two_pi_pos]
    linarith
  have hball : w ∈ Metric.eball (0 : ℂ) R := by
    rw [Metric.mem_eball, edist_dist, dist_zero_right, ENNReal.ofReal_lt_coe_iff (norm_nonneg _)]
    nlinarith
  have hsum := hs.hasSum hball
  simp only [FormalMultilinearSeries.apply_eq_pow_smul_coeff, smul_eq_mul] at hsum
  have hg : HasSum (fun k : ℕ => M * θ ^ n * θ ^ k) (M * θ ^ n * (1 - θ)⁻¹) :=
    (hasSum_geometric_of_lt_one hθ0 h1).mul_left _
  rw [div_eq_mul_inv]
  refine HasSum.norm_le_of_bounded ((hasSum_nat_add_iff' n).2 hsum) hg fun k => ?_
  rw [norm_mul, norm_pow, mul_assoc, ← pow_add, add_comm n k]
  calc ‖w‖ ^ (k + n) * ‖p.coeff (k + n)‖ ≤ (θ * R) ^ (k + n) * (M * (R : ℝ)⁻¹ ^ (k + n)) :=
        mul_le_mul (pow_le_pow_left₀ (norm_nonneg _) hw _) (hcoef _) (norm_nonneg _) (by positivity)
    _ = M * θ ^ (k + n) := by
        rw [mul_pow]
        have : (R : ℝ) ^ (k + n) * (R : ℝ)⁻¹ ^ (k + n) = 1 := by
          rw [← mul_pow, mul_inv_cancel₀ hR.ne', one_pow]
        linear_combination (M * θ ^ (k + n)) * this

/-! ## Piecewise polynomials from polynomials on the segments -/

theorem adjacent_unique {g : List ℝ} (hg : g.Pairwise (· < ·)) {a b a' b' t : ℝ} (h : Adjacent g a b) (h' : Adjacent g a' b')
    (h1 : a < t) (h2 : t < b) (h1' : a' < t) (h2' : t < b') : a = a' ∧ b = b' := by
  have key : ∀ {a b : ℝ}, Adjacent g a b → ∃ (i : ℕ) (hi : i + 1 < g.length), a = g[i] ∧ b = g[i + 1] := by
    rintro a b ⟨l1, l2, e⟩
    subst e
    refine ⟨l1.length, by simp, by simp, by simp⟩
  obtain ⟨i, hi, rfl, rfl⟩ := key h
  obtain ⟨j, hj, rfl, rfl⟩ := key h'
  have hmono : ∀ (i j : ℕ) (hi : i < g.length) (hj : j < g.length), i ≤ j → g[i] ≤ g[j] := by
    intro i j hi hj hij
    rcases Nat.lt_or_eq_of_le hij with h3 | rfl
    · exact (List.pairwise_iff_getElem.1 hg i j hi hj h3).le
    · exact le_rfl
  have : i = j := by
    rcases Nat.lt_trichotomy i j with h3 | h3 | h3
    · have := hmono (i + 1) j hi (by omega) h3
      linarith
    · exact h3
    · have := hmono (j + 1) i hj (by omega) h3
      linarith
  subst this
  exact ⟨rfl, rfl⟩

theorem near_of_segments {g : List ℝ} (hg : g.Pairwise (· < ·)) {n : ℕ} {ε : ℝ} (hε : 0 ≤ ε) {f : ℝ → ℝ}
    (h : ∀ a b, Adjacent g a b → ∃ p : ℝ[X], p.natDegree ≤ n - 1 ∧ ∀ t, a < t → t < b → |f t - p.eval t| ≤ ε) :
    Near g n ε f := by
  classical
  choose p hp he using h
  refine ⟨fun t => if h : ∃ s : ℝ × ℝ, Adjacent g s.1 s.2 ∧ s.1 < t ∧ t < s.2 then
    (p _ _ h.choose_spec.1).eval t else f t, fun a b hab => ⟨p a b hab, hp a b hab, fun t h1 h2 => ?_⟩, fun t _ => ?_⟩
  · have hex : ∃ s : ℝ × ℝ, Adjacent g s.1 s.2 ∧ s.1 < t ∧ t < s.2 := ⟨(a, b), hab, h1, h2⟩
    simp only [dif_pos hex]
    have hsp := hex.choose_spec
    obtain ⟨e1, e2⟩ := adjacent_unique hg hsp.1 hab hsp.2.1 hsp.2.2 h1 h2
    congr 1
    congr 1
  · by_cases hex : ∃ s : ℝ × ℝ, Adjacent g s.1 s.2 ∧ s.1 < t ∧ t < s.2
    · simp only [dif_pos hex]
      exact he _ _ hex.choose_spec.1 t hex.choose_spec.2.1 hex.choose_spec.2.2
    · simp only [dif_neg hex, sub_self, abs_zero]
      exact hε

/-! ## The logistic kernel -/

theorem logisticK_cosh (lam x y : ℝ) :
    logisticK lam x y = Real.exp (-(lam * y / 2) * x) / (2 * Real.cosh (lam * y / 2)) := by
  unfold logisticK
  rw [div_eq_div_iff (by positivity) (by have := Real.cosh_pos (lam * y / 2); positivity), Real.cosh_eq]
  have e1 : -lam * y * (x + 1) / 2 = -(lam * y / 2) * x + -(lam * y / 2) := by ring
  have e2 : -lam * y = -(lam * y / 2) + -(lam * y / 2) := by ring
  have e3 : Real.exp (lam * y / 2) * Real.exp (-(lam * y / 2)) = 1 := by rw [← Real.exp_add, add_neg_cancel, Real.exp_zero]
  rw [e1, e2, Real.exp_add, Real.exp_add]
  linear_combination (Real.exp (-(lam * y / 2) * x)) * e3

theorem pow_le_factorial_exp {t : ℝ} (ht : 0 ≤ t) (n : ℕ) : t ^ n / n.factorial * Real.exp (-t) ≤ 1 := by
  have h := mul_le_mul_of_nonneg_right (Real.pow_div_factorial_le_exp (x := t) ht n) (Real.exp_pos (-t)).le
  rwa [← Real.exp_add, add_neg_cancel, Real.exp_zero] at h

/-- As function of `x`, on one segment. -/
theorem logistic_seg_x {lam : ℝ} (hl : 0 < lam) {n : ℕ} {θ : ℝ} (h0 : 0 ≤ θ) {a b : ℝ} (hab : a < b) (ha : -1 ≤ a)
    (hb : b ≤ 1) (hf : (b - a) / 2 ≤ θ * max (1 - max |a| |b|) (2 * n / (3 * lam))) {y : ℝ} (hy : |y| ≤ 1) :
    ∃ p : ℝ[X], p.natDegree ≤ n - 1 ∧ ∀ t, a < t → t < b → |logisticK lam t y - p.eval t| ≤ θ ^ n := by
  set c := (a + b) / 2 with hc
  set h := (b - a) / 2 with hh
  set s := lam * y / 2 with hs
  refine ⟨∑ k ∈ Finset.range n, C (logisticK lam c y * (1 / k.factorial)) * (C (-s) * (X - C c)) ^ k, ?_, fun t h1 h2 => ?_⟩
  · refine natDegree_sum_le_of_forall_le _ _ fun k hk => (natDegree_C_mul_le _ _).trans ?_
    have hk := Finset.mem_range.1 hk
    refine natDegree_pow_le.trans ?_
    have : (C (-s) * (X - C c)).natDegree ≤ 1 := (natDegree_C_mul_le _ _).trans (natDegree_X_sub_C_le c)
    calc k * (C (-s) * (X - C c)).natDegree ≤ k * 1 := Nat.mul_le_mul_left _ this
      _ ≤ n - 1 := by omega
  · have hK : logisticK lam t y = logisticK lam c y * Real.exp (-s * (t - c)) := by
      rw [logisticK_cosh, logisticK_cosh, div_mul_eq_mul_div, ← Real.exp_add]
      congr 2
      ring
    have hp : (∑ k ∈ Finset.range n, C (logisticK lam c y * (1 / k.factorial)) * (C (-s) * (X - C c)) ^ k).eval t =
        logisticK lam c y * ∑ k ∈ Finset.range n, (-s * (t - c)) ^ k / k.factorial := by
      rw [eval_finset_sum, Finset.mul_sum]
      refine Finset.sum_congr rfl fun k _ => ?_
      simp only [eval_mul, eval_C, eval_pow, eval_sub, eval_X]
      ring
    have hs2 : |s| ≤ lam / 2 := by
      rw [hs, abs_div, abs_mul, abs_of_pos hl, abs_two]
      have := mul_le_mul_of_nonneg_left hy hl.le
      linarith
    have hca : |c| + h = max |a| |b| := by
      rcases le_total 0 c with h3 | h3
      · have : |a| ≤ b := abs_le.2 ⟨by linarith, hab.le⟩
        have hb0 : |b| = b := abs_of_nonneg ((abs_nonneg a).trans this)
        rw [hb0, max_eq_right this, abs_of_nonneg h3]
        ring
      · have : |b| ≤ -a := abs_le.2 ⟨by linarith, by linarith⟩
        have ha0 : |a| = -a := abs_of_nonpos (by linarith [abs_nonneg b])
        rw [ha0, max_eq_left this, abs_of_nonpos h3]
        ring
    set d := 1 - max |a| |b| with hd
    have hd0 : 0 ≤ d := by
      have : max |a| |b| ≤ 1 := max_le (abs_le.2 ⟨ha, by linarith⟩) (abs_le.2 ⟨by linarith, hb⟩)
      linarith
    have hKc : |logisticK lam c y| ≤ Real.exp (|s| * |c| - |s|) := by
      rw [logisticK_cosh, abs_of_pos (by have := Real.cosh_pos (lam * y / 2); positivity), ← hs,
        div_le_iff₀ (by have := Real.cosh_pos s; positivity), Real.exp_sub]
      have e1 : Real.exp (-s * c) ≤ Real.exp (|s| * |c|) := by
        rw [Real.exp_le_exp, ← abs_mul]
        calc -s * c = -(s * c) := by ring
          _ ≤ |s * c| := neg_le_abs _
      have e2 : Real.exp |s| ≤ 2 * Real.cosh s := by
        rw [← Real.cosh_abs, Real.cosh_eq]
        have := Real.exp_pos (-|s|)
        linarith
      rw [div_mul_eq_mul_div, le_div_iff₀ (Real.exp_pos _)]
      exact mul_le_mul e1 e2 (Real.exp_pos _).le (Real.exp_pos _).le
    have htc : |-s * (t - c)| ≤ |s| * h := by
      rw [abs_mul, abs_neg]
      refine mul_le_mul_of_nonneg_left (abs_le.2 ⟨?_, ?_⟩) (abs_nonneg _) <;> simp only [hc, hh] <;> linarith
    have hh0 : 0 ≤ h := by simp only [hh]; linarith
    rw [hK, hp, ← mul_sub, abs_mul]
    calc |logisticK lam c y| * |Real.exp (-s * (t - c)) - ∑ k ∈ Finset.range n, (-s * (t - c)) ^ k / k.factorial|
        ≤ Real.exp (|s| * |c| - |s|) * ((|s| * h) ^ n / n.factorial * Real.exp (|s| * h)) := by
          refine mul_le_mul hKc ((exp_taylor _ n).trans ?_) (abs_nonneg _) (Real.exp_pos _).le
          gcongr
      _ = (|s| * h) ^ n / n.factorial * Real.exp (-(|s| * d)) := by
          rw [mul_comm, mul_assoc, ← Real.exp_add]
          congr 2
          rw [hd, ← hca]
          ring
      _ ≤ θ ^ n := by
          rcases le_total (2 * n / (3 * lam)) d with h3 | h3
          · rw [max_eq_left h3] at hf
            have h4 : |s| * h ≤ θ * (|s| * d) := by
              have := mul_le_mul_of_nonneg_left hf (abs_nonneg s)
              linarith
            calc (|s| * h) ^ n / n.factorial * Real.exp (-(|s| * d))
                ≤ (θ * (|s| * d)) ^ n / n.factorial * Real.exp (-(|s| * d)) := by gcongr
              _ = θ ^ n * ((|s| * d) ^ n / n.factorial * Real.exp (-(|s| * d))) := by rw [mul_pow]; ring
              _ ≤ θ ^ n * 1 := mul_le_mul_of_nonneg_left (pow_le_factorial_exp (by positivity) n) (by positivity)
              _ = θ ^ n := mul_one _
          · rw [max_eq_right h3] at hf
            have h4 : |s| * h ≤ θ * (n / 3) := by
              calc |s| * h ≤ lam / 2 * (θ * (2 * n / (3 * lam))) := mul_le_mul hs2 hf hh0 (by positivity)
                _ = θ * (n / 3) := by field_simp
            have h5 : ((n : ℝ) / 3) ^ n / n.factorial ≤ 1 := by
              have e1 := Real.pow_div_factorial_le_exp (x := (n : ℝ)) (Nat.cast_nonneg n) n
              have e2 : Real.exp (n : ℝ) ≤ 3 ^ n := by
                have := pow_le_pow_left₀ (Real.exp_pos 1).le (Real.exp_one_lt_d9.le.trans (by norm_num : (2.7182818286 : ℝ) ≤ 3)) n
                rwa [← Real.exp_nat_mul, mul_one] at this
              rw [div_pow, div_div, mul_comm, ← div_div, div_le_one (by positivity)]
              exact e1.trans e2
            calc (|s| * h) ^ n / n.factorial * Real.exp (-(|s| * d))
                ≤ (θ * (n / 3)) ^ n / n.factorial * 1 := by
                  refine mul_le_mul (by gcongr) ?_ (Real.exp_pos _).le (by positivity)
                  rw [Real.exp_le_one_iff, neg_nonpos]
                  positivity
              _ = θ ^ n * ((n / 3) ^ n / n.factorial) := by rw [mul_pow]; ring
              _ ≤ θ ^ n * 1 := mul_le_mul_of_nonneg_left h5 (by positivity)
              _ = θ ^ n := mul_one _

/-- The kernel as function of a complex argument. -/
noncomputable def logisticC (lam x : ℝ) (z : ℂ) : ℂ :=
  Complex.exp (-(lam * z / 2) * x) / (2 * Complex.cosh (lam * z / 2))

theorem logisticC_ofReal (lam x t : ℝ) : logisticC lam x t = (logisticK lam x t : ℝ) := by
  rw [logisticC, logisticK_cosh]
  push_cast
  rfl

theorem logisticC_bound {lam x : ℝ} (hx : |x| ≤ 1) {z : ℂ}
    (h : |(lam * z / 2 : ℂ).im| ≤ 1 ∨ 1 / 2 ≤ |(lam * z / 2 : ℂ).re|) :
    Complex.cosh (lam * z / 2) ≠ 0 ∧ ‖logisticC lam x z‖ ≤ 2 := by
  unfold logisticC
  set w : ℂ := lam * z / 2
  have hnum : ‖Complex.exp (-w * x)‖ ≤ Real.exp |w.re| := by
    rw [Complex.norm_exp, Real.exp_le_exp]
    have : (-w * x).re = -(w.re * x) := by simp
    rw [this]
    calc -(w.re * x) ≤ |w.re * x| := neg_le_abs _
      _ = |w.re| * |x| := abs_mul _ _
      _ ≤ |w.re| * 1 := mul_le_mul_of_nonneg_left hx (abs_nonneg _)
      _ = |w.re| := mul_one _
  have hden : Real.exp |w.re| ≤ 4 * ‖Complex.cosh w‖ := by
    rcases h with h | h
    · have h1 : Real.cosh w.re * Real.cos w.im ≤ ‖Complex.cosh w‖ := by
        have : (Complex.cosh w).re = Real.cosh w.re * Real.cos w.im := by
          conv_lhs => rw [← Complex.re_add_im w]
          rw [Complex.cosh_add, Complex.cosh_mul_I, Complex.sinh_mul_I]
          simp [← Complex.ofReal_cosh, ← Complex.ofReal_sinh, ← Complex.ofReal_cos, ← Complex.ofReal_sin]
        rw [← this]
        exact (le_abs_self _).trans (Complex.abs_re_le_norm _)
      have h2 : 1 / 2 ≤ Real.cos w.im := by
        have := Real.one_sub_sq_div_two_le_cos (x := w.im)
        have h3 := sq_le_one_iff_abs_le_one _ |>.2 h
        linarith
      have h3 : Real.exp |w.re| ≤ 2 * Real.cosh w.re := by
        rw [← Real.cosh_abs, Real.cosh_eq]
        have := Real.exp_pos (-|w.re|)
        linarith
      have h4 := mul_le_mul_of_nonneg_left h2 (Real.cosh_pos w.re).le
      linarith
    · have h1 : Real.exp |w.re| - Real.exp (-|w.re|) ≤ 2 * ‖Complex.cosh w‖ := by
        have e : 2 * ‖Complex.cosh w‖ = ‖Complex.exp w + Complex.exp (-w)‖ := by
          rw [← Complex.two_cosh, norm_mul]
          simp
        rw [e]
        rcases le_total 0 w.re with h2 | h2
        · have h3 := norm_sub_norm_le (Complex.exp w) (-Complex.exp (-w))
          rw [sub_neg_eq_add, norm_neg, Complex.norm_exp, Complex.norm_exp, Complex.neg_re] at h3
          rwa [abs_of_nonneg h2]
        · have h3 := norm_sub_norm_le (Complex.exp (-w)) (-Complex.exp w)
          rw [sub_neg_eq_add, norm_neg, Complex.norm_exp, Complex.norm_exp, Complex.neg_re, add_comm] at h3
          rwa [abs_of_nonpos h2, neg_neg]
      have h2 : 2 * Real.exp (-|w.re|) ≤ Real.exp |w.re| := by
        have h3 : Real.exp |w.re| = Real.exp (-|w.re|) * Real.exp (2 * |w.re|) := by
          rw [← Real.exp_add]
          congr 1
          ring
        have h4 : 2 ≤ Real.exp (2 * |w.re|) := by
          have := Real.add_one_le_exp (2 * |w.re|)
          linarith
        rw [h3]
        have := Real.exp_pos (-|w.re|)
        nlinarith
      linarith
  have hpos : 0 < ‖Complex.cosh w‖ := by
    have := Real.exp_pos |w.re|
    linarith
  refine ⟨norm_pos_iff.1 hpos, ?_⟩
  rw [norm_div, norm_mul, div_le_iff₀ (by simpa using hpos)]
  have : ‖(2 : ℂ)‖ = 2 := by simp
  rw [this]
  linarith

/-- As function of `y`, on one segment. -/
theorem logistic_seg_y {lam : ℝ} (hl : 0 < lam) {n : ℕ} {θ : ℝ} (h1 : θ < 1) {a b : ℝ}
    (hf : (b - a) / 2 ≤ θ * max (2 / lam) (0.89 * |(a + b) / 2|)) {x : ℝ} (hx : |x| ≤ 1) :
    ∃ p : ℝ[X], p.natDegree ≤ n - 1 ∧ ∀ t, a < t → t < b → |logisticK lam x t - p.eval t| ≤ 2 * θ ^ n / (1 - θ) := by
  set c := (a + b) / 2 with hc
  set R := max (2 / lam) (0.89 * |c|) with hR
  have hR0 : 0 < R := lt_of_lt_of_le (by positivity) (le_max_left _ _)
  have hre : ∀ z : ℂ, (lam * z / 2 : ℂ).re = lam / 2 * z.re := fun z => by simp; ring
  have him : ∀ z : ℂ, (lam * z / 2 : ℂ).im = lam / 2 * z.im := fun z => by simp; ring
  have hball : ∀ z ∈ Metric.closedBall (c : ℂ) R, |(lam * z / 2 : ℂ).im| ≤ 1 ∨ 1 / 2 ≤ |(lam * z / 2 : ℂ).re| := by
    intro z hz
    rw [Metric.mem_closedBall, Complex.dist_eq] at hz
    rw [hre, him, abs_mul, abs_mul, abs_of_pos (half_pos hl)]
    have e1 : lam / 2 * (1 / lam) = 1 / 2 := by field_simp
    have e2 : lam / 2 * (2 / lam) = 1 := by field_simp
    by_cases h4 : 1 / lam ≤ |z.re|
    · right
      have := mul_le_mul_of_nonneg_left h4 (half_pos hl).le
      linarith
    · left
      have h5 : |z.im| ≤ 2 / lam := by
        rcases le_total (0.89 * |c|) (2 / lam) with h2 | h2
        · rw [hR, max_eq_left h2] at hz
          have h3 := (Complex.abs_im_le_norm (z - c)).trans hz
          rwa [Complex.sub_im, Complex.ofReal_im, sub_zero] at h3
        · rw [hR, max_eq_right h2] at hz
          have h3 : (z.re - c) ^ 2 + z.im ^ 2 ≤ (0.89 * |c|) ^ 2 := by
            have := pow_le_pow_left₀ (norm_nonneg _) hz 2
            rw [Complex.sq_norm, Complex.normSq_apply] at this
            simp only [Complex.sub_re, Complex.sub_im, Complex.ofReal_re, Complex.ofReal_im, sub_zero] at this
            linarith
          have h6 : |c| - 1 / lam ≤ |z.re - c| := by
            have := abs_sub_abs_le_abs_sub c z.re
            rw [abs_sub_comm] at this
            linarith [not_le.1 h4]
          have hl1 : 0 < 1 / lam := by positivity
          have e3 : 2 / lam = 2 * (1 / lam) := by ring
          have h7 : 0 ≤ |c| - 1 / lam := by linarith
          have h8 : (|c| - 1 / lam) ^ 2 ≤ (z.re - c) ^ 2 := by
            rw [← sq_abs (z.re - c)]
            exact pow_le_pow_left₀ h7 h6 2
          refine abs_le_of_sq_le_sq ?_ (by positivity)
          rw [e3]
          nlinarith [sq_nonneg (|c| / 5 - 1 / lam)]
      have := mul_le_mul_of_nonneg_left h5 (half_pos hl).le
      linarith
  obtain ⟨α, hα⟩ := cauchy_taylor (f := logisticC lam x) (c := c) (M := 2) (θ := θ) hR0 (fun z hz => by
    have := (logisticC_bound hx (hball z hz)).1
    refine DifferentiableAt.differentiableWithinAt ?_
    unfold logisticC
    refine DifferentiableAt.div (by fun_prop) (by fun_prop) ?_
    exact mul_ne_zero two_ne_zero this) (fun z hz => (logisticC_bound hx (hball z hz)).2) h1 n
  refine ⟨∑ k ∈ Finset.range n, C (α k).re * (X - C c) ^ k, ?_, fun t h2 h3 => ?_⟩
  · refine natDegree_sum_le_of_forall_le _ _ fun k hk => (natDegree_C_mul_le _ _).trans ?_
    have hk := Finset.mem_range.1 hk
    refine natDegree_pow_le.trans ?_
    calc k * (X - C c).natDegree ≤ k * 1 := Nat.mul_le_mul_left _ (natDegree_X_sub_C_le c)
      _ ≤ n - 1 := by omega
  · have htc : |t - c| ≤ (b - a) / 2 := abs_le.2 ⟨by simp only [hc]; linarith, by simp only [hc]; linarith⟩
    have h4 := hα ((t - c : ℝ) : ℂ) (by rw [Complex.norm_real, Real.norm_eq_abs]; exact htc.trans hf)
    have e1 : (c : ℂ) + ((t - c : ℝ) : ℂ) = (t : ℂ) := by push_cast; ring
    rw [e1, logisticC_ofReal] at h4
    refine le_trans ?_ h4
    have e2 : logisticK lam x t - (∑ k ∈ Finset.range n, C (α k).re * (X - C c) ^ k).eval t =
        (((logisticK lam x t : ℝ) : ℂ) - ∑ k ∈ Finset.range n, ((t - c : ℝ) : ℂ) ^ k * α k).re := by
      rw [Complex.sub_re, Complex.ofReal_re, Complex.re_sum, eval_finset_sum]
      congr 1
      refine Finset.sum_congr rfl fun k _ => ?_
      rw [← Complex.ofReal_pow, Complex.re_ofReal_mul]
      simp only [eval_mul, eval_C, eval_pow, eval_sub, eval_X]
      ring
    rw [e2]
    exact Complex.abs_re_le_norm _

/-! ## Whole grids -/

/-- Segments in `x` that resolve the logistic kernel: short compared to the distance from the ends, or to `1 / lam`. -/
def FineX (lam : ℝ) (n : ℕ) (θ : ℝ) (g : List ℝ) : Prop :=
  ∀ a b, Adjacent g a b → (b - a) / 2 ≤ θ * max (1 - max |a| |b|) (2 * n / (3 * lam))

/-- Segments in `y` that resolve the logistic kernel: short compared to the distance from zero, or to `1 / lam`. -/
def FineY (lam : ℝ) (θ : ℝ) (g : List ℝ) : Prop :=
  ∀ a b, Adjacent g a b → (b - a) / 2 ≤ θ * max (2 / lam) (0.89 * |(a + b) / 2|)

theorem logistic_near_x {lam : ℝ} (hl : 0 < lam) {n : ℕ} {θ : ℝ} (h0 : 0 ≤ θ) {g : List ℝ}
    (hg : Props.GridFromTo (-1) 1 g) (hf : FineX lam n θ g) {y : ℝ} (hy : |y| ≤ 1) :
    Near g n (θ ^ n) fun x => logisticK lam x y := by
  refine near_of_segments hg.sorted (by positivity) fun a b hab => ?_
  have hlt : a < b := by
    obtain ⟨l1, l2, rfl⟩ := hab
    have := hg.sorted
    rw [List.pairwise_append] at this
    exact (List.pairwise_cons.1 this.2.1).1 b (by simp)
  have hmem : ∀ t ∈ g, -1 ≤ t ∧ t ≤ 1 := by
    intro t ht
    obtain ⟨i, hi, rfl⟩ := List.mem_iff_getElem.1 ht
    have h1 := hg.first
    have h2 := hg.last
    rw [List.head?_eq_getElem?, List.getElem?_eq_getElem (by omega), Option.some.injEq] at h1
    rw [List.getLast?_eq_getElem?, List.getElem?_eq_getElem (by omega), Option.some.injEq] at h2
    constructor
    · rw [← h1]
      rcases Nat.eq_zero_or_pos i with rfl | h3
      · exact le_rfl
      · exact (List.pairwise_iff_getElem.1 hg.sorted 0 i _ hi h3).le
    · rw [← h2]
      rcases Nat.lt_or_eq_of_le (show i ≤ g.length - 1 by omega) with h3 | h3
      · exact (List.pairwise_iff_getElem.1 hg.sorted i _ hi (by omega) h3).le
      · simp only [← h3]; exact le_rfl
  have hab' := hab
  obtain ⟨l1, l2, e⟩ := hab
  exact logistic_seg_x hl h0 hlt (hmem a (by rw [e]; simp)).1 (hmem b (by rw [e]; simp)).2 (hf a b hab') hy

theorem logistic_near_y {lam : ℝ} (hl : 0 < lam) {n : ℕ} {θ : ℝ} (h0 : 0 ≤ θ) (h1 : θ < 1) {g : List ℝ}
    (hg : Props.GridFromTo (-1) 1 g) (hf : FineY lam θ g) {x : ℝ} (hx : |x| ≤ 1) :
    Near g n (2 * θ ^ n / (1 - θ)) (logisticK lam x) := by
  refine near_of_segments hg.sorted (div_nonneg (by positivity) (by linarith)) fun a b hab => ?_
  exact logistic_seg_y hl h1 (hf a b hab) hx

theorem logistic_continuous (lam : ℝ) : Continuous fun z : ℝ × ℝ => logisticK lam z.1 z.2 := by
  unfold logisticK
  refine Continuous.div (by fun_prop) (by fun_prop) fun z => ?_
  positivity

end Verif.Spec
