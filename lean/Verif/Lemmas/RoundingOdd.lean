import Verif.Lemmas.RoundingBose
import Mathlib.Analysis.SpecialFunctions.Trigonometric.DerivHyp
import Mathlib.Analysis.Complex.ExponentialBounds
/-! Errors of the evaluation of the symmetrised kernels in floating-point arithmetic. -/

namespace Verif.Kernel
open Verif.Spec

theorem sum_error {A : Arith} {u eta : ℝ} (hA : A.Ok u eta) (hu64 : u ≤ 1 / 64) {kp km Kp Km ep em : ℝ}
    (hKp : 0 ≤ Kp) (hKm : 0 ≤ Km) (hp : |kp - Kp| ≤ ep) (hm : |km - Km| ≤ em) :
    |A.add kp km - (Kp + Km)| ≤ u * (Kp + Km) + 65 / 64 * (ep + em) ∧
    |A.sub kp km - (Kp - Km)| ≤ u * (Kp + Km) + 65 / 64 * (ep + em) := by
  have hu := hA.hu
  have hp' := abs_le.1 hp
  have hm' := abs_le.1 hm
  have hep : 0 ≤ ep := (abs_nonneg _).trans hp
  have hem : 0 ≤ em := (abs_nonneg _).trans hm
  have hue : u * (ep + em) ≤ 1 / 64 * (ep + em) := mul_le_mul_of_nonneg_right hu64 (by linarith)
  constructor
  · have h1 : |kp + km| ≤ Kp + Km + (ep + em) := by rw [abs_le]; constructor <;> linarith
    have h2 : |kp + km - (Kp + Km)| ≤ ep + em := by rw [abs_le]; constructor <;> linarith
    have h3 := (abs_sub_le (A.add kp km) (kp + km) (Kp + Km)).trans
      (add_le_add ((hA.add kp km).trans (mul_le_mul_of_nonneg_left h1 hu)) h2)
    linarith
  · have h1 : |kp - km| ≤ Kp + Km + (ep + em) := by rw [abs_le]; constructor <;> linarith
    have h2 : |kp - km - (Kp - Km)| ≤ ep + em := by rw [abs_le]; constructor <;> linarith
    have h3 := (abs_sub_le (A.sub kp km) (kp - km) (Kp - Km)).trans
      (add_le_add ((hA.sub kp km).trans (mul_le_mul_of_nonneg_left h1 hu)) h2)
    linarith

/-- Half the frequency. -/
theorem vhalf_error {A : Arith} {u eta : ℝ} (hA : A.Ok u eta) (hu64 : u ≤ 1 / 64) {lam y : ℝ} (hl : 0 ≤ lam)
    (hy0 : 0 ≤ y) (hy : y ≤ 1) : |A.mul (A.div lam 2) y - lam / 2 * y| ≤ 3 * u * (lam / 2 * y) + 3 * eta := by
  have hu := hA.hu
  have he := hA.heta
  have h1 := hA.div lam 2 two_ne_zero
  have hh : 0 ≤ lam / 2 * y := by positivity
  rw [abs_of_nonneg (by positivity : 0 ≤ lam / 2)] at h1
  generalize A.div lam 2 = d at *
  have h2 := hA.mul d y
  have h3 : |d * y - lam / 2 * y| ≤ u * (lam / 2 * y) + eta := by
    rw [← sub_mul, abs_mul, abs_of_nonneg hy0]
    have h4 := mul_le_mul_of_nonneg_right h1 hy0
    have : eta * y ≤ eta * 1 := mul_le_mul_of_nonneg_left hy he
    linarith
  have h5 : |d * y| ≤ 65 / 64 * (lam / 2 * y) + eta := by
    have h6 : |d * y| ≤ |d * y - lam / 2 * y| + |lam / 2 * y| := by
      have := abs_add_le (d * y - lam / 2 * y) (lam / 2 * y)
      rwa [sub_add_cancel] at this
    rw [abs_of_nonneg hh] at h6
    have := mul_le_mul_of_nonneg_right hu64 hh
    linarith
  have h7 := mul_le_mul_of_nonneg_left h5 hu
  have h8 : u * eta ≤ 1 / 64 * eta := mul_le_mul_of_nonneg_right hu64 he
  have h9 := mul_nonneg hu hh
  calc _ ≤ |A.mul d y - d * y| + |d * y - lam / 2 * y| := abs_sub_le _ _ _
    _ ≤ (u * |d * y| + eta) + (u * (lam / 2 * y) + eta) := add_le_add h2 h3
    _ ≤ _ := by linarith

/-- Its product with the position. -/
theorem xvhalf_error {A : Arith} {u eta : ℝ} (hA : A.Ok u eta) (hu64 : u ≤ 1 / 64) {h vh X x : ℝ} (hh : 0 ≤ h)
    (hX0 : 0 ≤ X) (hX : X ≤ 1) (hvh : |vh - h| ≤ 3 * u * h + 3 * eta) (hx : |x - X| ≤ 3 * u * X) :
    |A.mul vh x - h * X| ≤ 9 * u * (h * X) + 6 * eta ∧ |A.mul x vh - h * X| ≤ 9 * u * (h * X) + 6 * eta := by
  have hu := hA.hu
  have he := hA.heta
  have hw : 0 ≤ h * X := mul_nonneg hh hX0
  have hxa : |x| ≤ 67 / 64 * X := by
    have h6 : |x| ≤ |x - X| + |X| := by
      have := abs_add_le (x - X) X
      rwa [sub_add_cancel] at this
    rw [abs_of_nonneg hX0] at h6
    have := mul_le_mul_of_nonneg_right hu64 hX0
    linarith
  have h1 : |vh * x - h * X| ≤ 7 * u * (h * X) + 4 * eta := by
    rw [show vh * x - h * X = (vh - h) * x + h * (x - X) by ring]
    have k1 : |(vh - h) * x| ≤ (3 * u * h + 3 * eta) * (67 / 64 * X) := by
      rw [abs_mul]
      exact mul_le_mul hvh hxa (abs_nonneg _) (by positivity)
    have k2 : |h * (x - X)| ≤ h * (3 * u * X) := by
      rw [abs_mul, abs_of_nonneg hh]
      exact mul_le_mul_of_nonneg_left hx hh
    have k3 : eta * X ≤ eta * 1 := mul_le_mul_of_nonneg_left hX he
    have k4 := mul_nonneg hu hw
    have := (abs_add_le ((vh - h) * x) (h * (x - X))).trans (add_le_add k1 k2)
    linarith
  have h5 : |vh * x| ≤ 71 / 64 * (h * X) + 4 * eta := by
    have h6 : |vh * x| ≤ |vh * x - h * X| + |h * X| := by
      have := abs_add_le (vh * x - h * X) (h * X)
      rwa [sub_add_cancel] at this
    rw [abs_of_nonneg hw] at h6
    have := mul_le_mul_of_nonneg_right hu64 hw
    linarith
  have h7 := mul_le_mul_of_nonneg_left h5 hu
  have h8 : u * eta ≤ 1 / 64 * eta := mul_le_mul_of_nonneg_right hu64 he
  have h9 := mul_nonneg hu hw
  constructor
  · have := (abs_sub_le (A.mul vh x) (vh * x) (h * X)).trans (add_le_add (hA.mul vh x) h1)
    linarith
  · have h2 := hA.mul x vh
    rw [mul_comm x vh] at h2
    have := (abs_sub_le (A.mul x vh) (vh * x) (h * X)).trans (add_le_add h2 h1)
    linarith

theorem hyp_error {a b d : ℝ} (h : |a - b| ≤ d) (hd : d ≤ 1) :
    |Real.sinh a - Real.sinh b| ≤ 2 * d * Real.cosh b ∧ |Real.cosh a - Real.cosh b| ≤ 2 * d * Real.cosh b := by
  have h1 := exp_error h hd
  have h2 := exp_error (w := -b) (wh := -a) (d := d) (by rw [neg_sub_neg, abs_sub_comm]; exact h) hd
  rw [Real.sinh_eq, Real.sinh_eq, Real.cosh_eq, Real.cosh_eq]
  have h1' := abs_le.1 h1
  have h2' := abs_le.1 h2
  constructor <;> rw [abs_le] <;> constructor <;> linarith

theorem sinh_ge {w : ℝ} (hw : 0 ≤ w) : w ≤ Real.sinh w := Real.self_le_sinh_iff.2 hw

theorem cosh_small {w : ℝ} (h0 : 0 ≤ w) (h : w ≤ 11 / 10) : Real.cosh w ≤ 9 / 4 := by
  have h1 : Real.exp w ≤ Real.exp 1 * Real.exp (1 / 10) := by
    rw [← Real.exp_add]
    exact Real.exp_le_exp.2 (by linarith)
  have h2 := Real.exp_one_lt_d9
  have h3 : Real.exp (1 / 10 : ℝ) ≤ 10 / 9 := by
    have h1 := Real.add_one_le_exp (-(1 / 10) : ℝ)
    have h2 : Real.exp (1 / 10 : ℝ) * Real.exp (-(1 / 10)) = 1 := by rw [← Real.exp_add]; simp
    have h3 := Real.exp_pos (1 / 10 : ℝ)
    nlinarith
  have h4 : Real.exp (-w) ≤ 1 := Real.exp_le_one_iff.2 (by linarith)
  have h5 := Real.exp_pos (1 / 10 : ℝ)
  rw [Real.cosh_eq]
  nlinarith

/-- The hyperbolic sine of a small computed number. -/
theorem sinh_num {A : Arith} {u eta : ℝ} (hA : A.Ok u eta) (hu4 : u ≤ 1e-4) (he4 : eta ≤ 1e-4) {w wh : ℝ} (hw0 : 0 ≤ w)
    (hw : w ≤ 11 / 10) (hwh : |wh - w| ≤ 9 * u * w + 6 * eta) :
    |A.sinh wh - Real.sinh w| ≤ 43 * u * Real.sinh w + 28 * eta := by
  have hu := hA.hu
  have he := hA.heta
  have hd : 9 * u * w + 6 * eta ≤ 1 / 10 := by
    have : u * w ≤ 1e-4 * (11 / 10) := mul_le_mul hu4 hw hw0 (by norm_num)
    linarith
  have h1 := (hyp_error hwh (by linarith)).1
  have hc := cosh_small hw0 hw
  have hs := sinh_ge hw0
  have h2 : |Real.sinh wh - Real.sinh w| ≤ 81 / 2 * u * Real.sinh w + 27 * eta := by
    refine h1.trans ?_
    have k1 : 2 * (9 * u * w + 6 * eta) * Real.cosh w ≤ 2 * (9 * u * w + 6 * eta) * (9 / 4) :=
      mul_le_mul_of_nonneg_left hc (by positivity)
    have k2 := mul_le_mul_of_nonneg_left hs hu
    linarith
  have hwa : |wh| ≤ 100 := by
    have := abs_le.1 hwh
    rw [abs_le]
    constructor <;> linarith
  have h3 := hA.sinh wh hwa
  have hs0 : 0 ≤ Real.sinh w := hw0.trans hs
  have h4 : |Real.sinh wh| ≤ 2 * Real.sinh w + 27 * eta := by
    have h6 : |Real.sinh wh| ≤ |Real.sinh wh - Real.sinh w| + |Real.sinh w| := by
      have := abs_add_le (Real.sinh wh - Real.sinh w) (Real.sinh w)
      rwa [sub_add_cancel] at this
    rw [abs_of_nonneg hs0] at h6
    have := mul_le_mul_of_nonneg_right hu4 hs0
    linarith
  have h5 := mul_le_mul_of_nonneg_left h4 hu
  have h6 : u * eta ≤ 1e-4 * eta := mul_le_mul_of_nonneg_right hu4 he
  have h7 := mul_nonneg hu hs0
  have := (abs_sub_le (A.sinh wh) (Real.sinh wh) (Real.sinh w)).trans (add_le_add h3 h2)
  linarith

/-- The closed form of the odd logistic kernel. -/
theorem logistic_closed {A : Arith} {u eta : ℝ} (hA : A.Ok u eta) (hu4 : u ≤ 1e-4) (he4 : eta ≤ 1e-4)
    {h X vh wh : ℝ} (hh0 : 0 ≤ h) (hh : h ≤ 86) (hX0 : 0 ≤ X) (hX : X ≤ 1) (hw : h * X ≤ 11 / 10)
    (hvh : |vh - h| ≤ 3 * u * h + 3 * eta) (hwh : |wh - h * X| ≤ 9 * u * (h * X) + 6 * eta) :
    |A.div (-A.sinh wh) (A.cosh vh) - -Real.sinh (h * X) / Real.cosh h| ≤
      (64 + 8 * h) * u * (Real.sinh (h * X) / Real.cosh h) + 60 * eta := by
  have hu := hA.hu
  have he := hA.heta
  have hw0 : 0 ≤ h * X := mul_nonneg hh0 hX0
  have hS := sinh_num hA hu4 he4 hw0 hw hwh
  have hs0 : 0 ≤ Real.sinh (h * X) := hw0.trans (sinh_ge hw0)
  have huh : u * h ≤ 1e-4 * 86 := mul_le_mul hu4 hh hh0 (by norm_num)
  have huh0 := mul_nonneg hu hh0
  have hd : 3 * u * h + 3 * eta ≤ 1 / 10 := by linarith
  have h1 := (hyp_error hvh (by linarith)).2
  have hc1 := Real.one_le_cosh h
  have hva : |vh| ≤ 100 := by
    have := abs_le.1 hvh
    rw [abs_le]
    constructor <;> linarith
  have h2 := hA.cosh vh hva
  have h3 : Real.cosh vh ≤ 6 / 5 * Real.cosh h := by
    have := (abs_le.1 h1).2
    have := mul_le_mul_of_nonneg_right hd (by linarith : 0 ≤ Real.cosh h)
    linarith
  have hC : |A.cosh vh - Real.cosh h| ≤ (6 / 5 * u + 6 * u * h + 6 * eta) * Real.cosh h := by
    have := (abs_sub_le (A.cosh vh) (Real.cosh vh) (Real.cosh h)).trans (add_le_add h2 h1)
    have k := mul_le_mul_of_nonneg_left h3 hu
    linarith
  have hK1 : Real.sinh (h * X) / Real.cosh h ≤ 1 := by
    rw [div_le_one (by linarith)]
    have k1 : Real.sinh (h * X) ≤ Real.sinh h := Real.sinh_le_sinh.2 (by nlinarith)
    have k2 := Real.sinh_lt_cosh h
    linarith
  have hK0 : 0 ≤ Real.sinh (h * X) / Real.cosh h := div_nonneg hs0 (by linarith)
  have hq := quot_error hs0 hc1 (by positivity : 0 ≤ 43 * u) (by positivity : 0 ≤ 6 / 5 * u + 6 * u * h + 6 * eta)
    (by linarith) (by positivity : 0 ≤ 28 * eta) hS hC
  have hCne : A.cosh vh ≠ 0 := by
    have := (abs_le.1 hC).1
    nlinarith
  rw [neg_div]
  have hdv := hA.div (-A.sinh wh) (A.cosh vh) hCne
  rw [neg_div, abs_neg] at hdv
  generalize A.div (-A.sinh wh) (A.cosh vh) = R at *
  generalize A.sinh wh / A.cosh vh = q at *
  generalize Real.sinh (h * X) / Real.cosh h = K at *
  have hr : 43 * u + (6 / 5 * u + 6 * u * h + 6 * eta) ≤ 1 / 4 := by linarith
  have hqa : |q| ≤ 4 / 3 * K + 112 / 3 * eta := by
    have h6 : |q| ≤ |q - K| + |K| := by
      have := abs_add_le (q - K) K
      rwa [sub_add_cancel] at this
    rw [abs_of_nonneg hK0] at h6
    have := mul_le_mul_of_nonneg_right hr hK0
    linarith
  have h4 : |-q - -K| ≤ 4 / 3 * (43 * u + (6 / 5 * u + 6 * u * h + 6 * eta)) * K + 4 / 3 * (28 * eta) := by
    rw [neg_sub_neg, abs_sub_comm]
    exact hq
  have h5 := (abs_sub_le R (-q) (-K)).trans (add_le_add hdv h4)
  have h6 := mul_le_mul_of_nonneg_left hqa hu
  have h7 : u * eta ≤ 1e-4 * eta := mul_le_mul_of_nonneg_right hu4 he
  have h8 : K * eta ≤ 1 * eta := mul_le_mul_of_nonneg_right hK1 he
  have h9 := mul_nonneg hu hK0
  have h10 := mul_nonneg huh0 hK0
  linarith

/-- Where the positions are large enough, the difference of the two values does not cancel. -/
theorem no_cancel {Kp Km tp tm w c : ℝ} (hKm : 0 ≤ Km) (hw : 99 / 100 ≤ w) (htm : 0 ≤ tm)
    (hK : Kp = Km * Real.exp (-(2 * w))) (ht : tp = tm + 2 * w) (hc : 0 ≤ c) :
    c * ((1 + tp) * Kp + (1 + tm) * Km) ≤ 19 / 5 * c * (1 + tm) * |Kp - Km| := by
  have he : Real.exp (-(2 * w)) ≤ 3 / 8 := by
    have h1 := Real.add_one_le_exp (2 * w)
    have h2 : Real.exp (2 * w) * Real.exp (-(2 * w)) = 1 := by rw [← Real.exp_add]; simp
    have h3 := Real.exp_pos (-(2 * w))
    nlinarith
  have h1 := mul_exp_neg_le (2 * w)
  have h0 := Real.exp_pos (-(2 * w))
  generalize Real.exp (-(2 * w)) = e at *
  have h2 : Km * e ≤ Km * (3 / 8) := mul_le_mul_of_nonneg_left he hKm
  have h3 : |Kp - Km| = Km - Kp := by
    rw [abs_of_nonpos (by linarith)]
    ring
  rw [h3, hK, ht]
  have h4 : Km * (2 * w * e) ≤ Km * 1 := mul_le_mul_of_nonneg_left h1 hKm
  have h5 := mul_le_mul_of_nonneg_left h2 htm
  have h6 := mul_nonneg htm hKm
  have h7 : (1 + (tm + 2 * w)) * (Km * e) + (1 + tm) * Km ≤ 19 / 5 * (1 + tm) * (Km - Km * e) := by
    nlinarith
  have := mul_le_mul_of_nonneg_left h7 hc
  linarith

theorem plus_error {A : Arith} {u eta : ℝ} (hA : A.Ok u eta) (hu64 : u ≤ 1 / 64) {X xp : ℝ} (hX0 : 0 ≤ X)
    (hp : |xp - X| ≤ u * (1 + X)) : |A.add 1 xp - (1 + X)| ≤ 3 * u * (1 + X) := by
  have hu := hA.hu
  have h1 := hA.add 1 xp
  have h2 : |1 + xp| ≤ 65 / 64 * (1 + X) := by
    have h3 := abs_le.1 hp
    have h4 := mul_le_mul_of_nonneg_right hu64 (by linarith : 0 ≤ 1 + X)
    rw [abs_le]
    constructor <;> linarith
  have h3 : |1 + xp - (1 + X)| ≤ u * (1 + X) := by rw [add_sub_add_left_eq_sub]; exact hp
  have h4 := mul_le_mul_of_nonneg_left h2 hu
  have h5 := mul_nonneg hu (by linarith : 0 ≤ 1 + X)
  have := (abs_sub_le (A.add 1 xp) (1 + xp) (1 + X)).trans (add_le_add h1 h3)
  linarith

/-- The reduced logistic kernels. -/
theorem logistic_reduced_error {A : Arith} {u eta : ℝ} (hA : A.Ok u eta) {lam X y x xp : ℝ} {xm : Option ℝ} (hl : 0 ≤ lam)
    (hsm : 64 * (1 + lam) * (u + eta) ≤ 1) (hX0 : 0 ≤ X) (hX : X ≤ 1) (hy0 : 0 ≤ y) (hy : y ≤ 1)
    (hp : |xp - X| ≤ u * (1 + X)) (hm : |xm.getD (A.sub 1 x) - (1 - X)| ≤ 3 * u * (1 - X)) {sign : ℝ}
    (hsg : sign = 1 ∨ sign = -1) :
    |reducedFl A (logisticFl A lam) sign x y xp xm - (logisticK lam X y + sign * logisticK lam X (-y))| ≤
      24 * u * ((1 + lam * (y + y * X) / 2) * logisticK lam X y + (1 + lam * (y - y * X) / 2) * logisticK lam X (-y)) +
        82 * (1 + lam) * eta := by
  have hu := hA.hu
  have he := hA.heta
  obtain ⟨hu64, he64, huL, hLe, hall⟩ := small_of hu he hl hsm
  have hXa : |X| ≤ 1 := by rw [abs_of_nonneg hX0]; exact hX
  have hp' := plus_error hA hu64 hX0 hp
  have e1 := logistic_error hA (x := x) (xp := some (A.add 1 xp)) hl hsm hXa (by rw [abs_of_nonneg hy0]; exact hy) hp' hm
  have e2 := logistic_error hA (y := -y) (x := x) (xp := some (A.add 1 xp)) hl hsm hXa
    (by rw [abs_neg, abs_of_nonneg hy0]; exact hy) hp' hm
  rw [abs_of_nonneg hy0] at e1
  rw [abs_neg, abs_of_nonneg hy0, show y + -y * X = y - y * X by ring] at e2
  have k1 : 0 < logisticK lam X y := by unfold logisticK; positivity
  have k2 : 0 < logisticK lam X (-y) := by unfold logisticK; positivity
  obtain ⟨s1, s2⟩ := sum_error hA hu64 k1.le k2.le e1 e2
  have hyX : y * X ≤ y := by nlinarith
  have t1 : 0 ≤ lam * (y + y * X) / 2 := by positivity
  have t2 : 0 ≤ lam * (y - y * X) / 2 := by
    have : 0 ≤ y - y * X := by linarith
    positivity
  have b : u * (logisticK lam X y + logisticK lam X (-y)) + 65 / 64 *
      (22 * u * (1 + lam * (y + y * X) / 2) * logisticK lam X y + 40 * (1 + lam) * eta +
        (22 * u * (1 + lam * (y - y * X) / 2) * logisticK lam X (-y) + 40 * (1 + lam) * eta)) ≤
      24 * u * ((1 + lam * (y + y * X) / 2) * logisticK lam X y + (1 + lam * (y - y * X) / 2) * logisticK lam X (-y)) +
        82 * (1 + lam) * eta := by
    generalize lam * (y + y * X) / 2 = tp at *
    generalize lam * (y - y * X) / 2 = tm at *
    have c1 := mul_nonneg hu k1.le
    have c2 := mul_nonneg hu k2.le
    have c3 := mul_nonneg t1 c1
    have c4 := mul_nonneg t2 c2
    have c5 := mul_nonneg hl he
    linarith
  rcases hsg with rfl | rfl
  · simp only [reducedFl, if_true, one_mul]
    exact s1.trans b
  · simp only [reducedFl, if_neg (by norm_num : ¬(-1 : ℝ) = 1), neg_one_mul, ← sub_eq_add_neg]
    exact s2.trans b

/-- The reduced Bose kernels. -/
theorem bose_reduced_error {A : Arith} {u eta : ℝ} (hA : A.Ok u eta) {lam X y x xp : ℝ} {xm : Option ℝ} (hl : 0 < lam)
    (hsm : 64 * (1 + lam) * (u + eta) ≤ 1) (hu0 : 1e-199 ≤ u) (heu : eta ≤ 1e-201 * u) (hel : lam * eta ≤ u)
    (hX0 : 0 ≤ X) (hX : X ≤ 1) (hy0 : 0 ≤ y) (hy : y ≤ 1)
    (hp : |xp - X| ≤ u * (1 + X)) (hm : |xm.getD (A.sub 1 x) - (1 - X)| ≤ 3 * u * (1 - X)) {sign : ℝ}
    (hsg : sign = 1 ∨ sign = -1) :
    |reducedFl A (boseFl A lam) sign x y xp xm - (boseT lam X y + sign * boseT lam X (-y))| ≤
      22 * u * ((1 + lam * (y + y * X) / 2) * boseT lam X y + (1 + lam * (y - y * X) / 2) * boseT lam X (-y)) +
        90 * ((1 + lam) ^ 2 * (1 + 1 / lam)) * eta := by
  have hu := hA.hu
  have he := hA.heta
  obtain ⟨hu64, he64, huL, hLe, hall⟩ := small_of hu he hl.le hsm
  have hXa : |X| ≤ 1 := by rw [abs_of_nonneg hX0]; exact hX
  have hp' := plus_error hA hu64 hX0 hp
  have e1 := bose_error hA (x := x) (xp := some (A.add 1 xp)) hl hsm hu0 heu hel hXa
    (by rw [abs_of_nonneg hy0]; exact hy) hp' hm
  have e2 := bose_error hA (y := -y) (x := x) (xp := some (A.add 1 xp)) hl hsm hu0 heu hel hXa
    (by rw [abs_neg, abs_of_nonneg hy0]; exact hy) hp' hm
  rw [abs_of_nonneg hy0] at e1
  rw [abs_neg, abs_of_nonneg hy0, show y + -y * X = y - y * X by ring] at e2
  have k1 := boseT_pos hl X y
  have k2 := boseT_pos hl X (-y)
  obtain ⟨s1, s2⟩ := sum_error hA hu64 k1.le k2.le e1 e2
  have hyX : y * X ≤ y := by nlinarith
  have t1 : 0 ≤ lam * (y + y * X) / 2 := by positivity
  have t2 : 0 ≤ lam * (y - y * X) / 2 := by
    have : 0 ≤ y - y * X := by linarith
    positivity
  have b : u * (boseT lam X y + boseT lam X (-y)) + 65 / 64 *
      (20 * u * (1 + lam * (y + y * X) / 2) * boseT lam X y + 44 * ((1 + lam) ^ 2 * (1 + 1 / lam)) * eta +
        (20 * u * (1 + lam * (y - y * X) / 2) * boseT lam X (-y) + 44 * ((1 + lam) ^ 2 * (1 + 1 / lam)) * eta)) ≤
      22 * u * ((1 + lam * (y + y * X) / 2) * boseT lam X y + (1 + lam * (y - y * X) / 2) * boseT lam X (-y)) +
        90 * ((1 + lam) ^ 2 * (1 + 1 / lam)) * eta := by
    have c5 : 0 ≤ (1 + lam) ^ 2 * (1 + 1 / lam) * eta := by positivity
    generalize lam * (y + y * X) / 2 = tp at *
    generalize lam * (y - y * X) / 2 = tm at *
    generalize (1 + lam) ^ 2 * (1 + 1 / lam) = cl at *
    have c1 := mul_nonneg hu k1.le
    have c2 := mul_nonneg hu k2.le
    have c3 := mul_nonneg t1 c1
    have c4 := mul_nonneg t2 c2
    linarith
  rcases hsg with rfl | rfl
  · simp only [reducedFl, if_true, one_mul]
    exact s1.trans b
  · simp only [reducedFl, if_neg (by norm_num : ¬(-1 : ℝ) = 1), neg_one_mul, ← sub_eq_add_neg]
    exact s2.trans b

theorem quot_error' {E D Eh Dh al ga c : ℝ} (hE : 0 ≤ E) (hD : 0 < D) (hal : 0 ≤ al) (hga : 0 ≤ ga) (hga4 : ga ≤ 1 / 4)
    (hc : 0 ≤ c) (h1 : |Eh - E| ≤ al * E + c) (h2 : |Dh - D| ≤ ga * D) :
    |Eh / Dh - E / D| ≤ 4 / 3 * (al + ga) * (E / D) + 4 / 3 * (c / D) := by
  have h := quot_error (E := E / D) (D := 1) (Eh := Eh / D) (Dh := Dh / D) (c := c / D) (by positivity) le_rfl hal hga hga4
    (by positivity)
    (by
      rw [← sub_div, abs_div, abs_of_pos hD, div_le_iff₀ hD]
      refine h1.trans (le_of_eq ?_)
      field_simp)
    (by
      rw [div_sub_one hD.ne', abs_div, abs_of_pos hD, div_le_iff₀ hD]
      simpa using h2)
  rwa [div_div_div_cancel_right₀ hD.ne', div_one] at h

theorem cosh_le_sinh {h : ℝ} (hh : 0 < h) : h * Real.cosh h ≤ (1 + h) * Real.sinh h := by
  have h1 : Real.cosh h = Real.sinh h + Real.exp (-h) := by
    rw [Real.cosh_eq, Real.sinh_eq]
    ring
  have h2 := mul_exp_neg_le h
  have h3 := sinh_ge hh.le
  have h4 : h * Real.exp (-h) ≤ h * 1 := mul_le_mul_of_nonneg_left (Real.exp_le_one_iff.2 (by linarith)) hh.le
  rw [h1]
  linarith

/-- The closed form of the odd Bose kernel. -/
theorem bose_closed {A : Arith} {u eta : ℝ} (hA : A.Ok u eta) (hu4 : u ≤ 1e-4) (heu : eta ≤ 1e-240 * u)
    {h X y vh wh : ℝ} (hy0 : 0 ≤ y) (hy : y ≤ 1) (hh0 : 0 ≤ h) (hh : h ≤ 86) (hX0 : 0 ≤ X) (hw : h * X ≤ 11 / 10)
    (hvh : |vh - h| ≤ 3 * u * h + 3 * eta) (hvh0 : 1e-200 < vh) (hwh : |wh - h * X| ≤ 9 * u * (h * X) + 6 * eta) :
    0 < h ∧ |A.div (A.mul (-y) (A.sinh wh)) (A.sinh vh) - -(y * Real.sinh (h * X)) / Real.sinh h| ≤
      (72 + 10 * h) * u * (y * Real.sinh (h * X) / Real.sinh h) + 1e-38 * u := by
  have hu := hA.hu
  have he := hA.heta
  have he304 : eta ≤ 1e-244 := heu.trans ((mul_le_mul_of_nonneg_left hu4 (by norm_num)).trans (by norm_num))
  have he4 : eta ≤ 1e-4 := he304.trans (by norm_num)
  have hw0 : 0 ≤ h * X := mul_nonneg hh0 hX0
  have hS := sinh_num hA hu4 he4 hw0 hw hwh
  have hs0 : 0 ≤ Real.sinh (h * X) := hw0.trans (sinh_ge hw0)
  have huh : u * h ≤ 1e-4 * h := mul_le_mul_of_nonneg_right hu4 hh0
  have huh0 := mul_nonneg hu hh0
  have hlow : 1 / 2 * 1e-200 ≤ h := by
    have := (abs_le.1 hvh).2
    linarith
  have hh' : 0 < h := lt_of_lt_of_le (by norm_num) hlow
  refine ⟨hh', ?_⟩
  have hehu : eta ≤ 1 / 100 * (u * h) := by
    refine heu.trans ?_
    have := mul_le_mul_of_nonneg_left hlow hu
    linarith
  have hvh' : |vh - h| ≤ 303 / 100 * (u * h) := hvh.trans (by linarith)
  have hsh := sinh_ge hh0
  have hsp : 0 < Real.sinh h := lt_of_lt_of_le hh' hsh
  have h1 := (hyp_error hvh' (by linarith)).1
  have hcs := cosh_le_sinh hh'
  have h2 : |Real.sinh vh - Real.sinh h| ≤ 303 / 50 * u * (1 + h) * Real.sinh h := by
    refine h1.trans ?_
    have := mul_le_mul_of_nonneg_left hcs hu
    linarith
  have hva : |vh| ≤ 100 := by
    have := abs_le.1 hvh'
    rw [abs_le]
    constructor <;> linarith
  have h3 := hA.sinh vh hva
  have hus : u * Real.sinh h ≤ 1e-4 * Real.sinh h := mul_le_mul_of_nonneg_right hu4 hsp.le
  have hhs : h * Real.sinh h ≤ 86 * Real.sinh h := mul_le_mul_of_nonneg_right hh hsp.le
  have huhs : u * (h * Real.sinh h) ≤ 1e-4 * (86 * Real.sinh h) := mul_le_mul hu4 hhs (by positivity) (by norm_num)
  have h4 : |Real.sinh vh| ≤ 11 / 10 * Real.sinh h := by
    have h6 : |Real.sinh vh| ≤ |Real.sinh vh - Real.sinh h| + |Real.sinh h| := by
      have := abs_add_le (Real.sinh vh - Real.sinh h) (Real.sinh h)
      rwa [sub_add_cancel] at this
    rw [abs_of_pos hsp] at h6
    linarith
  have hD : |A.sinh vh - Real.sinh h| ≤ (36 / 5 * u * (1 + h)) * Real.sinh h := by
    have := (abs_sub_le (A.sinh vh) (Real.sinh vh) (Real.sinh h)).trans (add_le_add h3 h2)
    have k := mul_le_mul_of_nonneg_left h4 hu
    have k2 : 0 ≤ u * Real.sinh h := by positivity
    have k3 : 0 ≤ u * (h * Real.sinh h) := by positivity
    linarith
  have hys0 : 0 ≤ y * Real.sinh (h * X) := mul_nonneg hy0 hs0
  have hN : |-A.mul (-y) (A.sinh wh) - y * Real.sinh (h * X)| ≤ 45 * u * (y * Real.sinh (h * X)) + 30 * eta := by
    have k1 := hA.mul (-y) (A.sinh wh)
    have k2 : |y * A.sinh wh - y * Real.sinh (h * X)| ≤ 43 * u * (y * Real.sinh (h * X)) + 28 * eta := by
      rw [← mul_sub, abs_mul, abs_of_nonneg hy0]
      have := mul_le_mul_of_nonneg_left hS hy0
      have k3 : eta * y ≤ eta * 1 := mul_le_mul_of_nonneg_left hy he
      linarith
    have k4 : |y * A.sinh wh| ≤ 11 / 10 * (y * Real.sinh (h * X)) + 28 * eta := by
      have h6 : |y * A.sinh wh| ≤ |y * A.sinh wh - y * Real.sinh (h * X)| + |y * Real.sinh (h * X)| := by
        have := abs_add_le (y * A.sinh wh - y * Real.sinh (h * X)) (y * Real.sinh (h * X))
        rwa [sub_add_cancel] at this
      rw [abs_of_nonneg hys0] at h6
      have := mul_le_mul_of_nonneg_right hu4 hys0
      linarith
    have k5 : |-A.mul (-y) (A.sinh wh) - y * A.sinh wh| ≤ u * |y * A.sinh wh| + eta := by
      rw [show -A.mul (-y) (A.sinh wh) - y * A.sinh wh = -(A.mul (-y) (A.sinh wh) - -y * A.sinh wh) by ring, abs_neg,
        show |y * A.sinh wh| = |-y * A.sinh wh| by rw [neg_mul, abs_neg]]
      exact k1
    have k6 := mul_le_mul_of_nonneg_left k4 hu
    have k7 : u * eta ≤ 1e-4 * eta := mul_le_mul_of_nonneg_right hu4 he
    have k8 := mul_nonneg hu hys0
    have := (abs_sub_le (-A.mul (-y) (A.sinh wh)) (y * A.sinh wh) (y * Real.sinh (h * X))).trans (add_le_add k5 k2)
    linarith
  have hDne : A.sinh vh ≠ 0 := by
    have := (abs_le.1 hD).1
    nlinarith
  have hq := quot_error' hys0 hsp (by positivity : 0 ≤ 45 * u) (by positivity : 0 ≤ 36 / 5 * u * (1 + h)) (by linarith)
    (by positivity : 0 ≤ 30 * eta) hN hD
  have hdv := hA.div (A.mul (-y) (A.sinh wh)) (A.sinh vh) hDne
  have hcD : 30 * eta / Real.sinh h ≤ 60e-40 * u := by
    rw [div_le_iff₀ hsp]
    have := mul_le_mul_of_nonneg_left (hlow.trans hsh) hu
    linarith
  have hK0 : 0 ≤ y * Real.sinh (h * X) / Real.sinh h := by positivity
  rw [neg_div]
  generalize A.div (A.mul (-y) (A.sinh wh)) (A.sinh vh) = R at *
  rw [neg_div] at hq
  generalize A.mul (-y) (A.sinh wh) / A.sinh vh = q at *
  generalize y * Real.sinh (h * X) / Real.sinh h = K at *
  have huK := mul_nonneg hu hK0
  have huK4 := mul_le_mul_of_nonneg_right hu4 hK0
  have hhK := mul_le_mul_of_nonneg_right hh hK0
  have huhK : u * (h * K) ≤ 1e-4 * (86 * K) := mul_le_mul hu4 hhK (by positivity) (by norm_num)
  have huhK0 : 0 ≤ u * (h * K) := by positivity
  have hqa : |q| ≤ 6 / 5 * K + 80e-40 * u := by
    have h6 : |q| ≤ |-q - K| + |K| := by
      have := abs_add_le (-q - K) K
      rwa [sub_add_cancel, abs_neg] at this
    rw [abs_of_nonneg hK0] at h6
    linarith
  have h6 := mul_le_mul_of_nonneg_left hqa hu
  have h7 : u * u ≤ 1e-4 * u := mul_le_mul_of_nonneg_right hu4 hu
  have h8 : |q - -K| = |-q - K| := by
    rw [show -q - K = -(q - -K) by ring, abs_neg]
  have h9 := (abs_sub_le R q (-K)).trans (add_le_add hdv (le_of_eq h8))
  linarith

end Verif.Kernel
