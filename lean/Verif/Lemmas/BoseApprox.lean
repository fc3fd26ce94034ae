import Verif.Lemmas.LogisticApprox
import Verif.Spec.BoseLimit
import Mathlib.Analysis.Complex.RemovableSingularity
import Mathlib.Analysis.Real.Pi.Bounds
/-!
# The regularized Bose kernel is close to piecewise polynomials
-/

namespace Verif.Spec
open Polynomial Roots

theorem boseK_sinh (lam x : ℝ) {y : ℝ} (hs : lam * y / 2 ≠ 0) :
    boseK lam x y = y * Real.exp (-(lam * y / 2) * x) / (2 * Real.sinh (lam * y / 2)) := by
  unfold boseK
  set s := lam * y / 2 with hs'
  have hsinh : Real.sinh s ≠ 0 := fun h => hs (Real.sinh_eq_zero.1 h)
  have e1 : -lam * y * (x + 1) / 2 = -s * x + -s := by rw [hs']; ring
  have e2 : -lam * y = -s + -s := by rw [hs']; ring
  have e3 : Real.exp s * Real.exp (-s) = 1 := by rw [← Real.exp_add, add_neg_cancel, Real.exp_zero]
  have e4 : (1 : ℝ) - Real.exp (-s) * Real.exp (-s) = 2 * Real.sinh s * Real.exp (-s) := by
    rw [Real.sinh_eq]
    linear_combination (-1) * e3
  rw [e1, e2, Real.exp_add, Real.exp_add, e4, div_eq_div_iff (mul_ne_zero (mul_ne_zero two_ne_zero hsinh) (Real.exp_pos _).ne')
    (mul_ne_zero two_ne_zero hsinh)]
  ring

/-! ## In `x` -/

/-- The factor between the kernels. -/
noncomputable def boseFac (lam y : ℝ) : ℝ := if y = 0 then 2 / lam else y * Real.cosh (lam * y / 2) / Real.sinh (lam * y / 2)

theorem boseLim_eq {lam : ℝ} (hl : 0 < lam) (x y : ℝ) : boseLim lam x y = boseFac lam y * logisticK lam x y := by
  unfold boseLim boseFac
  split
  · rename_i h
    subst h
    simp [logisticK]
    ring
  · rename_i h
    have hs : lam * y / 2 ≠ 0 := div_ne_zero (mul_ne_zero hl.ne' h) two_ne_zero
    have hsinh : Real.sinh (lam * y / 2) ≠ 0 := fun h => hs (Real.sinh_eq_zero.1 h)
    have hcosh := (Real.cosh_pos (lam * y / 2)).ne'
    rw [boseK_sinh lam x hs, logisticK_cosh]
    field_simp

theorem boseFac_le {lam : ℝ} (hl : 0 < lam) {y : ℝ} (hy : |y| ≤ 1) : |boseFac lam y| ≤ 1 + 2 / lam := by
  unfold boseFac
  split
  · rw [abs_of_pos (by positivity)]
    linarith
  · rename_i h
    set s := lam * y / 2 with hs'
    have hy' : y = 2 / lam * s := by rw [hs']; field_simp
    have hs : 0 < |s| := abs_pos.2 (div_ne_zero (mul_ne_zero hl.ne' h) two_ne_zero)
    have hsl : |s| ≤ lam / 2 := by
      rw [hs', abs_div, abs_mul, abs_of_pos hl, abs_two]
      have := mul_le_mul_of_nonneg_left hy hl.le
      linarith
    have h1 : |s * Real.cosh s / Real.sinh s| ≤ 1 + |s| := by
      have hc := Real.cosh_pos s
      rw [abs_div, abs_mul, abs_of_pos hc, ← Real.cosh_abs, Real.abs_sinh, div_le_iff₀ (Real.sinh_pos_iff.2 hs)]
      generalize |s| = t at hs
      have h2 := Real.self_le_sinh_iff.2 hs.le
      have h3 := Real.cosh_sub_sinh t
      have h4 : Real.exp (-t) ≤ 1 := Real.exp_le_one_iff.2 (by linarith)
      nlinarith
    have e : y * Real.cosh s / Real.sinh s = 2 / lam * (s * Real.cosh s / Real.sinh s) := by
      conv_lhs => rw [hy']
      ring
    rw [e, abs_mul, abs_of_pos (by positivity)]
    calc 2 / lam * |s * Real.cosh s / Real.sinh s| ≤ 2 / lam * (1 + lam / 2) :=
          mul_le_mul_of_nonneg_left (h1.trans (by linarith)) (by positivity)
      _ = 1 + 2 / lam := by field_simp; ring

theorem Near.const_mul {g : List ℝ} {n : ℕ} {ε c M : ℝ} {f : ℝ → ℝ} (h : Near g n ε f) (hε : 0 ≤ ε) (hc : |c| ≤ M) :
    Near g n (M * ε) fun t => c * f t := by
  obtain ⟨q, h1, h2⟩ := h
  refine ⟨fun t => c * q t, fun a b hab => ?_, fun t ht => ?_⟩
  · obtain ⟨p, h3, h4⟩ := h1 a b hab
    refine ⟨C c * p, (natDegree_C_mul_le _ _).trans h3, fun t h5 h6 => ?_⟩
    show c * q t = _
    rw [h4 t h5 h6, eval_mul, eval_C]
  · rw [← mul_sub, abs_mul]
    exact mul_le_mul hc (h2 t ht) (abs_nonneg _) ((abs_nonneg _).trans hc)

theorem bose_near_x {lam : ℝ} (hl : 0 < lam) {n : ℕ} {θ : ℝ} (h0 : 0 ≤ θ) {g : List ℝ}
    (hg : Props.GridFromTo (-1) 1 g) (hf : FineX lam n θ g) {y : ℝ} (hy : |y| ≤ 1) :
    Near g n ((1 + 2 / lam) * θ ^ n) fun x => boseLim lam x y := by
  have := (logistic_near_x hl h0 hg hf hy).const_mul (by positivity) (boseFac_le hl hy)
  simpa only [← boseLim_eq hl] using this

/-! ## In `y` -/

/-- `sinh w / w`. -/
noncomputable def sinhc : ℂ → ℂ := dslope Complex.sinh 0

theorem sinhc_differentiable : Differentiable ℂ sinhc := by
  rw [← differentiableOn_univ]
  exact (Complex.differentiableOn_dslope Filter.univ_mem).2 Complex.differentiable_sinh.differentiableOn

theorem sinhc_zero : sinhc 0 = 1 := by
  unfold sinhc
  rw [dslope_same, Complex.deriv_sinh, Complex.cosh_zero]

theorem sinhc_mul (w : ℂ) : w * sinhc w = Complex.sinh w := by
  by_cases h : w = 0
  · rw [h, zero_mul, Complex.sinh_zero]
  · unfold sinhc
    rw [dslope_of_ne _ h, slope_def_field, Complex.sinh_zero, sub_zero, sub_zero, mul_div_cancel₀ _ h]

/-- The kernel as function of a complex argument. -/
noncomputable def boseC (lam x : ℝ) (z : ℂ) : ℂ := 1 / lam * (Complex.exp (-(lam * z / 2) * x) / sinhc (lam * z / 2))

theorem sinhc_ofReal_ne (s : ℝ) : sinhc s ≠ 0 := by
  by_cases h : s = 0
  · rw [h, Complex.ofReal_zero, sinhc_zero]
    exact one_ne_zero
  · intro h1
    have := sinhc_mul s
    rw [h1, mul_zero, ← Complex.ofReal_sinh] at this
    exact h (Real.sinh_eq_zero.1 (by exact_mod_cast this.symm))

theorem boseC_ofReal {lam : ℝ} (hl : 0 < lam) (x t : ℝ) : boseC lam x t = (boseLim lam x t : ℝ) := by
  unfold boseC boseLim
  split
  · rename_i h
    subst h
    simp [sinhc_zero]
  · rename_i h
    have hs : lam * t / 2 ≠ 0 := div_ne_zero (mul_ne_zero hl.ne' h) two_ne_zero
    have e : (lam * t / 2 : ℂ) = ((lam * t / 2 : ℝ) : ℂ) := by push_cast; rfl
    rw [boseK_sinh lam x hs, e]
    set s := lam * t / 2 with hs'
    have ht : t = 2 / lam * s := by rw [hs']; field_simp
    have h1 := sinhc_mul s
    have h2 : Complex.sinh s ≠ 0 := by
      rw [← Complex.ofReal_sinh]
      exact_mod_cast fun h => hs (Real.sinh_eq_zero.1 h)
    have h3 := sinhc_ofReal_ne s
    have hl' : (lam : ℂ) ≠ 0 := by exact_mod_cast hl.ne'
    rw [ht]
    push_cast
    rw [← h1]
    have h4 : (s : ℂ) ≠ 0 := by exact_mod_cast hs
    field_simp

theorem sinhc_bound {w : ℂ} {x : ℝ} (hx : |x| ≤ 1) (h : |w.im| ≤ 1 ∨ 1 / 2 ≤ |w.re|) :
    sinhc w ≠ 0 ∧ ‖Complex.exp (-w * x) / sinhc w‖ ≤ max 4 (4 * ‖w‖) := by
  have hnum : ‖Complex.exp (-w * x)‖ ≤ Real.exp |w.re| := by
    rw [Complex.norm_exp, Real.exp_le_exp]
    have : (-w * x).re = -(w.re * x) := by simp
    rw [this]
    calc -(w.re * x) ≤ |w.re * x| := neg_le_abs _
      _ = |w.re| * |x| := abs_mul _ _
      _ ≤ |w.re| * 1 := mul_le_mul_of_nonneg_left hx (abs_nonneg _)
      _ = |w.re| := mul_one _
  have hsw : ‖w‖ * ‖sinhc w‖ = ‖Complex.sinh w‖ := by rw [← norm_mul, sinhc_mul]
  by_cases hre : 1 / 2 ≤ |w.re|
  · have hw : 0 < ‖w‖ := by
      have := Complex.abs_re_le_norm w
      linarith
    have h1 : Real.exp |w.re| - Real.exp (-|w.re|) ≤ 2 * ‖Complex.sinh w‖ := by
      have e : 2 * ‖Complex.sinh w‖ = ‖Complex.exp w - Complex.exp (-w)‖ := by
        rw [← Complex.two_sinh, norm_mul]
        simp
      rw [e]
      rcases le_total 0 w.re with h2 | h2
      · have h3 := norm_sub_norm_le (Complex.exp w) (Complex.exp (-w))
        rw [Complex.norm_exp, Complex.norm_exp, Complex.neg_re] at h3
        rwa [abs_of_nonneg h2]
      · have h3 := norm_sub_norm_le (Complex.exp (-w)) (Complex.exp w)
        rw [Complex.norm_exp, Complex.norm_exp, Complex.neg_re, norm_sub_rev] at h3
        rwa [abs_of_nonpos h2, neg_neg]
    have h2 : 2 * Real.exp (-|w.re|) ≤ Real.exp |w.re| := by
      have h3 : Real.exp |w.re| = Real.exp (-|w.re|) * Real.exp (2 * |w.re|) := by
        rw [← Real.exp_add]
        congr 1
        ring
      have h4 : 2 ≤ Real.exp (2 * |w.re|) := by
        have := Real.add_one_le_exp (2 * |w.re|)
        linarith
      rw [h3]
      have := Real.exp_pos (-|w.re|)
      nlinarith
    have h3 : Real.exp |w.re| ≤ 4 * (‖w‖ * ‖sinhc w‖) := by rw [hsw]; linarith
    have hpos : 0 < ‖sinhc w‖ := by
      by_contra h4
      have h5 : ‖sinhc w‖ = 0 := le_antisymm (not_lt.1 h4) (norm_nonneg _)
      rw [h5] at h3
      linarith [Real.exp_pos |w.re|]
    refine ⟨norm_pos_iff.1 hpos, le_trans ?_ (le_max_right _ _)⟩
    rw [norm_div, div_le_iff₀ hpos]
    linarith
  · have him : |w.im| ≤ 1 := h.resolve_right hre
    have h1 : (0.6 * ‖w‖) ≤ ‖Complex.sinh w‖ := by
      have e : (Complex.sinh w).re = Real.sinh w.re * Real.cos w.im ∧ (Complex.sinh w).im = Real.cosh w.re * Real.sin w.im := by
        constructor
        · conv_lhs => rw [← Complex.re_add_im w]
          rw [Complex.sinh_add, Complex.cosh_mul_I, Complex.sinh_mul_I]
          simp [← Complex.ofReal_cosh, ← Complex.ofReal_sinh, ← Complex.ofReal_cos, ← Complex.ofReal_sin]
        · conv_lhs => rw [← Complex.re_add_im w]
          rw [Complex.sinh_add, Complex.cosh_mul_I, Complex.sinh_mul_I]
          simp [← Complex.ofReal_cosh, ← Complex.ofReal_sinh, ← Complex.ofReal_cos, ← Complex.ofReal_sin]
      refine abs_le_of_sq_le_sq' ?_ (norm_nonneg _) |>.2
      rw [mul_pow, Complex.sq_norm, Complex.sq_norm, Complex.normSq_apply, Complex.normSq_apply, e.1, e.2]
      have hc := Real.cosh_sq w.re
      have hs := Real.sin_sq_add_cos_sq w.im
      have hu : w.re ^ 2 ≤ Real.sinh w.re ^ 2 := by
        rw [← sq_abs, ← sq_abs (Real.sinh w.re), Real.abs_sinh]
        exact pow_le_pow_left₀ (abs_nonneg _) (Real.self_le_sinh_iff.2 (abs_nonneg _)) 2
      have hv : (0.6 * w.im) ^ 2 ≤ Real.sin w.im ^ 2 := by
        have h2 := Real.mul_le_sin (abs_nonneg w.im) (by have := Real.pi_gt_three; linarith)
        have h3 : 0.6 * |w.im| ≤ Real.sin |w.im| := by
          refine le_trans (mul_le_mul_of_nonneg_right ?_ (abs_nonneg _)) h2
          rw [le_div_iff₀ Real.pi_pos]
          have := Real.pi_lt_d2
          linarith
        have h4 := pow_le_pow_left₀ (by positivity) h3 2
        have h5 : Real.sin |w.im| ^ 2 = Real.sin w.im ^ 2 := by
          rcases abs_choice w.im with h6 | h6 <;> rw [h6]
          rw [Real.sin_neg, neg_sq]
        rw [h5, mul_pow, sq_abs] at h4
        rw [mul_pow]
        exact h4
      have key : Real.sinh w.re * Real.cos w.im * (Real.sinh w.re * Real.cos w.im) +
          Real.cosh w.re * Real.sin w.im * (Real.cosh w.re * Real.sin w.im) = Real.sinh w.re ^ 2 + Real.sin w.im ^ 2 := by
        linear_combination (Real.sin w.im ^ 2) * hc + Real.sinh w.re ^ 2 * hs
      rw [key]
      nlinarith [sq_nonneg w.re]
    have h2 : 0.6 ≤ ‖sinhc w‖ := by
      by_cases hw : w = 0
      · rw [hw, sinhc_zero, norm_one]
        norm_num
      · rw [← hsw, mul_comm] at h1
        exact le_of_mul_le_mul_left h1 (norm_pos_iff.2 hw)
    have hpos : 0 < ‖sinhc w‖ := by linarith
    refine ⟨norm_pos_iff.1 hpos, le_trans ?_ (le_max_left _ _)⟩
    rw [norm_div, div_le_iff₀ hpos]
    have h3 : Real.exp |w.re| ≤ 2 := by
      calc Real.exp |w.re| ≤ Real.exp (1 / 2) := Real.exp_le_exp.2 (not_le.1 hre).le
        _ ≤ 2 := by
          refine abs_le_of_sq_le_sq' ?_ (by norm_num) |>.2
          rw [← Real.exp_nat_mul]
          have := Real.exp_one_lt_d9
          norm_num
          linarith
    linarith

/-- The disc around a segment on which the kernel is analytic. -/
theorem bose_ball {lam : ℝ} (hl : 0 < lam) {c R : ℝ} (hR : R = max (2 / lam) (0.89 * |c|)) (z : ℂ)
    (hz : z ∈ Metric.closedBall (c : ℂ) R) : |(lam * z / 2 : ℂ).im| ≤ 1 ∨ 1 / 2 ≤ |(lam * z / 2 : ℂ).re| := by
  have hre : (lam * z / 2 : ℂ).re = lam / 2 * z.re := by simp; ring
  have him : (lam * z / 2 : ℂ).im = lam / 2 * z.im := by simp; ring
  rw [Metric.mem_closedBall, Complex.dist_eq] at hz
  rw [hre, him, abs_mul, abs_mul, abs_of_pos (half_pos hl)]
  have e1 : lam / 2 * (1 / lam) = 1 / 2 := by field_simp
  have e2 : lam / 2 * (2 / lam) = 1 := by field_simp
  by_cases h4 : 1 / lam ≤ |z.re|
  · right
    have := mul_le_mul_of_nonneg_left h4 (half_pos hl).le
    linarith
  · left
    have h5 : |z.im| ≤ 2 / lam := by
      rcases le_total (0.89 * |c|) (2 / lam) with h2 | h2
      · rw [hR, max_eq_left h2] at hz
        have h3 := (Complex.abs_im_le_norm (z - c)).trans hz
        rwa [Complex.sub_im, Complex.ofReal_im, sub_zero] at h3
      · rw [hR, max_eq_right h2] at hz
        have h3 : (z.re - c) ^ 2 + z.im ^ 2 ≤ (0.89 * |c|) ^ 2 := by
          have := pow_le_pow_left₀ (norm_nonneg _) hz 2
          rw [Complex.sq_norm, Complex.normSq_apply] at this
          simp only [Complex.sub_re, Complex.sub_im, Complex.ofReal_re, Complex.ofReal_im, sub_zero] at this
          linarith
        have h6 : |c| - 1 / lam ≤ |z.re - c| := by
          have := abs_sub_abs_le_abs_sub c z.re
          rw [abs_sub_comm] at this
          linarith [not_le.1 h4]
        have hl1 : 0 < 1 / lam := by positivity
        have e3 : 2 / lam = 2 * (1 / lam) := by ring
        have h7 : 0 ≤ |c| - 1 / lam := by linarith
        have h8 : (|c| - 1 / lam) ^ 2 ≤ (z.re - c) ^ 2 := by
          rw [← sq_abs (z.re - c)]
          exact pow_le_pow_left₀ h7 h6 2
        refine abs_le_of_sq_le_sq ?_ (by positivity)
        rw [e3]
        nlinarith [sq_nonneg (|c| / 5 - 1 / lam)]
    have := mul_le_mul_of_nonneg_left h5 (half_pos hl).le
    linarith

theorem boseC_bound {lam : ℝ} (hl : 0 < lam) {x : ℝ} (hx : |x| ≤ 1) {c R : ℝ} (hc : |c| ≤ 1)
    (hR : R = max (2 / lam) (0.89 * |c|)) (z : ℂ) (hz : z ∈ Metric.closedBall (c : ℂ) R) :
    sinhc (lam * z / 2) ≠ 0 ∧ ‖boseC lam x z‖ ≤ 4 + 4 / lam := by
  obtain ⟨h1, h2⟩ := sinhc_bound hx (bose_ball hl hR z hz)
  refine ⟨h1, ?_⟩
  unfold boseC
  rw [norm_mul, norm_div, norm_one, Complex.norm_real, Real.norm_of_nonneg hl.le]
  have hz' : ‖z‖ ≤ 1.89 + 2 / lam := by
    rw [Metric.mem_closedBall, Complex.dist_eq] at hz
    have h3 := norm_add_le (z - c) c
    rw [sub_add_cancel, Complex.norm_real, Real.norm_eq_abs] at h3
    have h4 : R ≤ 2 / lam + 0.89 := by
      rw [hR]
      have : 0 < 2 / lam := by positivity
      exact max_le (by linarith) (by linarith)
    linarith
  have h3 : ‖(lam * z / 2 : ℂ)‖ = lam / 2 * ‖z‖ := by
    rw [norm_div, norm_mul, Complex.norm_real, Real.norm_of_nonneg hl.le]
    simp
    ring
  have h4 : lam / 2 * ‖z‖ ≤ lam + 1 := by
    have e : lam / 2 * (1.89 + 2 / lam) = 0.945 * lam + 1 := by field_simp; ring
    have := mul_le_mul_of_nonneg_left hz' (half_pos hl).le
    linarith
  rw [h3] at h2
  have h5 := h2.trans (max_le (show (4 : ℝ) ≤ 4 * (lam + 1) by linarith) (show 4 * (lam / 2 * ‖z‖) ≤ 4 * (lam + 1) by linarith))
  calc 1 / lam * _ ≤ 1 / lam * (4 * (lam + 1)) := mul_le_mul_of_nonneg_left h5 (by positivity)
    _ = 4 + 4 / lam := by field_simp

/-- As function of `y`, on one segment. -/
theorem bose_seg_y {lam : ℝ} (hl : 0 < lam) {n : ℕ} {θ : ℝ} (h1 : θ < 1) {a b : ℝ} (hc1 : |(a + b) / 2| ≤ 1)
    (hf : (b - a) / 2 ≤ θ * max (2 / lam) (0.89 * |(a + b) / 2|)) {x : ℝ} (hx : |x| ≤ 1) :
    ∃ p : ℝ[X], p.natDegree ≤ n - 1 ∧ ∀ t, a < t → t < b →
      |boseLim lam x t - p.eval t| ≤ (4 + 4 / lam) * θ ^ n / (1 - θ) := by
  set c := (a + b) / 2 with hc
  set R := max (2 / lam) (0.89 * |c|) with hR
  have hR0 : 0 < R := lt_of_lt_of_le (by positivity) (le_max_left _ _)
  obtain ⟨α, hα⟩ := cauchy_taylor (f := boseC lam x) (c := c) (M := 4 + 4 / lam) (θ := θ) hR0 (fun z hz => by
    have := (boseC_bound hl hx hc1 hR z hz).1
    refine DifferentiableAt.differentiableWithinAt ?_
    unfold boseC
    have h2 : DifferentiableAt ℂ (fun z : ℂ => Complex.exp (-(lam * z / 2) * x)) z := by fun_prop
    have h3 : DifferentiableAt ℂ (fun z : ℂ => sinhc (lam * z / 2)) z :=
      (sinhc_differentiable.comp (f := fun z : ℂ => (lam : ℂ) * z / 2) (by fun_prop)) z
    exact (h2.div h3 this).const_mul _) (fun z hz => (boseC_bound hl hx hc1 hR z hz).2) h1 n
  refine ⟨∑ k ∈ Finset.range n, C (α k).re * (X - C c) ^ k, ?_, fun t h2 h3 => ?_⟩
  · refine natDegree_sum_le_of_forall_le _ _ fun k hk => (natDegree_C_mul_le _ _).trans ?_
    have hk := Finset.mem_range.1 hk
    refine natDegree_pow_le.trans ?_
    calc k * (X - C c).natDegree ≤ k * 1 := Nat.mul_le_mul_left _ (natDegree_X_sub_C_le c)
      _ ≤ n - 1 := by omega
  · have htc : |t - c| ≤ (b - a) / 2 := abs_le.2 ⟨by simp only [hc]; linarith, by simp only [hc]; linarith⟩
    have h4 := hα ((t - c : ℝ) : ℂ) (by rw [Complex.norm_real, Real.norm_eq_abs]; exact htc.trans hf)
    have e1 : (c : ℂ) + ((t - c : ℝ) : ℂ) = (t : ℂ) := by push_cast; ring
    rw [e1, boseC_ofReal hl] at h4
    refine le_trans ?_ h4
    have e2 : boseLim lam x t - (∑ k ∈ Finset.range n, C (α k).re * (X - C c) ^ k).eval t =
        (((boseLim lam x t : ℝ) : ℂ) - ∑ k ∈ Finset.range n, ((t - c : ℝ) : ℂ) ^ k * α k).re := by
      rw [Complex.sub_re, Complex.ofReal_re, Complex.re_sum, eval_finset_sum]
      congr 1
      refine Finset.sum_congr rfl fun k _ => ?_
      rw [← Complex.ofReal_pow, Complex.re_ofReal_mul]
      simp only [eval_mul, eval_C, eval_pow, eval_sub, eval_X]
      ring
    rw [e2]
    exact Complex.abs_re_le_norm _

theorem grid_mem {g : List ℝ} (hg : Props.GridFromTo (-1) 1 g) {t : ℝ} (ht : t ∈ g) : -1 ≤ t ∧ t ≤ 1 := by
  obtain ⟨i, hi, rfl⟩ := List.mem_iff_getElem.1 ht
  have h1 := hg.first
  have h2 := hg.last
  rw [List.head?_eq_getElem?, List.getElem?_eq_getElem (by omega), Option.some.injEq] at h1
  rw [List.getLast?_eq_getElem?, List.getElem?_eq_getElem (by omega), Option.some.injEq] at h2
  constructor
  · rw [← h1]
    rcases Nat.eq_zero_or_pos i with rfl | h3
    · exact le_rfl
    · exact (List.pairwise_iff_getElem.1 hg.sorted 0 i _ hi h3).le
  · rw [← h2]
    rcases Nat.lt_or_eq_of_le (show i ≤ g.length - 1 by omega) with h3 | h3
    · exact (List.pairwise_iff_getElem.1 hg.sorted i _ hi (by omega) h3).le
    · simp only [← h3]; exact le_rfl

theorem bose_near_y {lam : ℝ} (hl : 0 < lam) {n : ℕ} {θ : ℝ} (h0 : 0 ≤ θ) (h1 : θ < 1) {g : List ℝ}
    (hg : Props.GridFromTo (-1) 1 g) (hf : FineY lam θ g) {x : ℝ} (hx : |x| ≤ 1) :
    Near g n ((4 + 4 / lam) * θ ^ n / (1 - θ)) (boseLim lam x) := by
  refine near_of_segments hg.sorted (div_nonneg (by positivity) (by linarith)) fun a b hab => ?_
  have hfab := hf a b hab
  obtain ⟨l1, l2, e⟩ := hab
  have ha := grid_mem hg (show a ∈ g by rw [e]; simp)
  have hb := grid_mem hg (show b ∈ g by rw [e]; simp)
  exact bose_seg_y hl h1 (abs_le.2 ⟨by linarith, by linarith⟩) hfab hx

/-! ## Further properties -/

theorem bose_continuous {lam : ℝ} (hl : 0 < lam) : Continuous fun z : ℝ × ℝ => boseLim lam z.1 z.2 := by
  have h : ∀ z : ℝ × ℝ, boseLim lam z.1 z.2 = (boseC lam z.1 z.2).re := fun z => by
    rw [boseC_ofReal hl, Complex.ofReal_re]
  simp only [h]
  refine Complex.continuous_re.comp ?_
  unfold boseC
  refine continuous_const.mul (Continuous.div (by fun_prop) (sinhc_differentiable.continuous.comp (by fun_prop)) fun z => ?_)
  have := sinhc_ofReal_ne (lam * z.2 / 2)
  push_cast at this
  exact this

theorem boseLim_symm (lam x y : ℝ) : boseLim lam (-x) (-y) = boseLim lam x y := by
  unfold boseLim
  by_cases h : y = 0
  · simp [h]
  · by_cases hl : lam = 0
    · simp [hl, h, boseK]
    · rw [if_neg h, if_neg (neg_ne_zero.2 h)]
      have hs : lam * y / 2 ≠ 0 := div_ne_zero (mul_ne_zero hl h) two_ne_zero
      rw [boseK_sinh lam x hs, boseK_sinh lam (-x) (by rw [mul_neg, neg_div]; exact neg_ne_zero.2 hs)]
      rw [show lam * -y / 2 = -(lam * y / 2) by ring, Real.sinh_neg, show - -(lam * y / 2) * -x = -(lam * y / 2) * x by ring]
      rw [neg_mul, mul_neg, neg_div_neg_eq]

theorem boseLim_le {lam : ℝ} (hl : 0 < lam) {x y : ℝ} (hx : |x| ≤ 1) (hy : |y| ≤ 1) :
    0 < boseLim lam x y ∧ boseLim lam x y ≤ 1 + 1 / lam := by
  have pos : ∀ {x y : ℝ}, |x| ≤ 1 → |y| ≤ 1 → 0 < y → 0 < boseLim lam x y ∧ boseLim lam x y ≤ 1 + 1 / lam := by
    intro x y hx hy h
    rw [boseLim, if_neg h.ne']
    unfold boseK
    have ht : 0 < lam * y := mul_pos hl h
    have h1 : Real.exp (-lam * y) < 1 := by
      rw [← Real.exp_zero]
      exact Real.exp_lt_exp.2 (by linarith)
    have hx' := abs_le.1 hx
    have hy' := abs_le.1 hy
    have h2 : Real.exp (-lam * y * (x + 1) / 2) ≤ 1 := by
      refine Real.exp_le_one_iff.2 ?_
      have := mul_nonneg ht.le (show 0 ≤ x + 1 by linarith)
      linarith
    refine ⟨div_pos (mul_pos h (Real.exp_pos _)) (by linarith), ?_⟩
    rw [div_le_iff₀ (by linarith)]
    have h3 : (1 + lam * y) * Real.exp (-lam * y) ≤ 1 := by
      have h4 := mul_le_mul_of_nonneg_right (Real.add_one_le_exp (lam * y)) (Real.exp_pos (-lam * y)).le
      rw [← Real.exp_add, show lam * y + -lam * y = 0 by ring, Real.exp_zero] at h4
      linarith
    have h5 : y ≤ (y + 1 / lam) * (1 - Real.exp (-lam * y)) := by
      have e : (y + 1 / lam) * (1 - Real.exp (-lam * y)) = y + 1 / lam * (1 - (1 + lam * y) * Real.exp (-lam * y)) := by
        field_simp
        ring
      rw [e]
      have : 0 ≤ 1 / lam * (1 - (1 + lam * y) * Real.exp (-lam * y)) := mul_nonneg (by positivity) (by linarith)
      linarith
    calc y * Real.exp (-lam * y * (x + 1) / 2) ≤ y * 1 := mul_le_mul_of_nonneg_left h2 h.le
      _ ≤ (y + 1 / lam) * (1 - Real.exp (-lam * y)) := by linarith
      _ ≤ (1 + 1 / lam) * (1 - Real.exp (-lam * y)) := mul_le_mul_of_nonneg_right (by linarith) (by linarith)
  rcases lt_trichotomy y 0 with h | h | h
  · rw [← boseLim_symm]
    exact pos (by rwa [abs_neg]) (by rwa [abs_neg]) (by linarith)
  · rw [boseLim, if_pos h]
    have : 0 < 1 / lam := by positivity
    exact ⟨this, by linarith⟩
  · exact pos hx hy h

end Verif.Spec
