import Verif.Lemmas.RoundingGauss
import Verif.Lemmas.RoundingOdd
/-! Errors of the entries of the kernel matrix in floating-point arithmetic. -/

namespace Verif.Kernel
open Verif.Gauss Verif.Spec

theorem logistic_abs (lam X y : ℝ) :
    logisticK lam X y = Real.exp (-(lam * (|y| + y * X) / 2)) / (1 + Real.exp (-(lam * |y|))) := by
  unfold logisticK
  rcases le_total 0 y with h | h
  · rw [abs_of_nonneg h]
    congr 2 <;> ring_nf
  · rw [abs_of_nonpos h, flip_logistic]
    congr 2 <;> ring_nf

/-- A relative error in the frequency, for the exponent of the numerator. -/
theorem exponent_rel {lam X y Y e : ℝ} (hl : 0 ≤ lam) (hX : |X| ≤ 1) (h : Rel e y Y) (he : e < 1) :
    |-(lam * (|y| + y * X) / 2) - -(lam * (|Y| + Y * X) / 2)| ≤ e * (lam * (|Y| + Y * X) / 2) ∧
    0 ≤ lam * (|Y| + Y * X) / 2 ∧ |(|y| - |Y|)| ≤ e * |Y| := by
  unfold Rel at h
  obtain ⟨h1, h2⟩ := abs_le.1 h
  obtain ⟨x1, x2⟩ := abs_le.1 hX
  rcases le_total 0 Y with hY | hY
  · rw [abs_of_nonneg hY] at *
    have hy : 0 ≤ y := by nlinarith
    rw [abs_of_nonneg hy]
    have hk : 0 ≤ lam * (1 + X) / 2 := by
      have := mul_nonneg hl (by linarith : 0 ≤ 1 + X)
      linarith
    refine ⟨?_, ?_, h⟩
    · rw [show -(lam * (y + y * X) / 2) - -(lam * (Y + Y * X) / 2) = (y - Y) * -(lam * (1 + X) / 2) by ring, abs_mul,
        abs_neg, abs_of_nonneg hk]
      calc |y - Y| * (lam * (1 + X) / 2) ≤ e * Y * (lam * (1 + X) / 2) := mul_le_mul_of_nonneg_right h hk
        _ = _ := by ring
    · have := mul_nonneg hY hk
      linarith
  · rw [abs_of_nonpos hY] at *
    have hy : y ≤ 0 := by nlinarith
    rw [abs_of_nonpos hy]
    have hk : 0 ≤ lam * (1 - X) / 2 := by
      have := mul_nonneg hl (by linarith : 0 ≤ 1 - X)
      linarith
    refine ⟨?_, ?_, ?_⟩
    · rw [show -(lam * (-y + y * X) / 2) - -(lam * (-Y + Y * X) / 2) = (y - Y) * (lam * (1 - X) / 2) by ring, abs_mul,
        abs_of_nonneg hk]
      calc |y - Y| * (lam * (1 - X) / 2) ≤ e * -Y * (lam * (1 - X) / 2) := mul_le_mul_of_nonneg_right h hk
        _ = _ := by ring
    · have := mul_nonneg (by linarith : 0 ≤ -Y) hk
      linarith
    · rwa [show -y - -Y = -(y - Y) by ring, abs_neg]

theorem exponent_small {lam X Y e : ℝ} (hl : 0 ≤ lam) (hX : |X| ≤ 1) (hY : |Y| ≤ 1) (he0 : 0 ≤ e)
    (he : 64 * (1 + lam) * e ≤ 1) : e * (lam * (|Y| + Y * X) / 2) ≤ 1 / 64 ∧ e * (lam * |Y|) ≤ 1 / 64 := by
  have h1 : Y * X ≤ |Y| := by
    refine (le_abs_self _).trans ?_
    rw [abs_mul]
    exact mul_le_of_le_one_right (abs_nonneg _) hX
  have h2 : lam * |Y| ≤ lam := mul_le_of_le_one_right hl hY
  have h3 : lam * (|Y| + Y * X) / 2 ≤ lam := by
    have := mul_le_mul_of_nonneg_left h1 hl
    linarith
  have h4 := mul_le_mul_of_nonneg_left h2 he0
  have h5 := mul_le_mul_of_nonneg_left h3 he0
  constructor <;> nlinarith

/-- The logistic kernel as a function of the frequency. -/
theorem logistic_lip {lam X y Y e : ℝ} (hl : 0 ≤ lam) (hX : |X| ≤ 1) (hY : |Y| ≤ 1) (h : Rel e y Y) (he0 : 0 ≤ e)
    (he : 64 * (1 + lam) * e ≤ 1) : |logisticK lam X y - logisticK lam X Y| ≤ 3 * e := by
  have he64 : e ≤ 1 / 64 := by nlinarith [mul_nonneg hl he0]
  obtain ⟨h1, h2, h3⟩ := exponent_rel hl hX h (by linarith)
  obtain ⟨h4, h5⟩ := exponent_small hl hX hY he0 he
  have hw := logistic_weight (X := X) (y := Y) hl
  rw [logistic_abs lam X y]
  rw [logistic_abs lam X Y] at *
  have h6 := exp_error h1 (by linarith)
  have h7 : |-(lam * |y|) - -(lam * |Y|)| ≤ e * (lam * |Y|) := by
    rw [show -(lam * |y|) - -(lam * |Y|) = -(lam * (|y| - |Y|)) by ring, abs_neg, abs_mul, abs_of_nonneg hl]
    have := mul_le_mul_of_nonneg_left h3 hl
    linarith
  have h8 := exp_error h7 (by linarith)
  have h9 := mul_exp_neg_le (lam * |Y|)
  generalize lam * (|Y| + Y * X) / 2 = t at *
  generalize lam * (|y| + y * X) / 2 = t' at *
  generalize lam * |Y| = V at *
  generalize lam * |y| = V' at *
  have hp := Real.exp_pos (-V)
  have h10 : |(1 + Real.exp (-V')) - (1 + Real.exp (-V))| ≤ 2 * e * (1 + Real.exp (-V)) := by
    rw [add_sub_add_left_eq_sub]
    refine h8.trans ?_
    have := mul_le_mul_of_nonneg_left h9 he0
    nlinarith
  have h11 := quot_error (E := Real.exp (-t)) (D := 1 + Real.exp (-V)) (al := 2 * e * t) (ga := 2 * e) (c := 0)
    (Real.exp_pos _).le (by linarith) (by positivity) (by positivity) (by linarith) le_rfl
    (h6.trans (by linarith)) h10
  refine h11.trans ?_
  have h12 := mul_le_mul_of_nonneg_left hw (by positivity : 0 ≤ 8 / 3 * e)
  have h13 : 4 / 3 * (2 * e * t + 2 * e) * (Real.exp (-t) / (1 + Real.exp (-V))) + 4 / 3 * 0 =
    8 / 3 * e * ((1 + t) * (Real.exp (-t) / (1 + Real.exp (-V)))) := by ring
  rw [h13]
  linarith

theorem logistic_le_one {lam X y : ℝ} (hl : 0 ≤ lam) (hX : |X| ≤ 1) : 0 ≤ logisticK lam X y ∧ logisticK lam X y ≤ 1 := by
  have hw := logistic_weight (X := X) (y := y) hl
  have h0 : 0 ≤ lam * (|y| + y * X) / 2 := (exponent_rel hl hX (Rel.refl (X := y) le_rfl) (by norm_num)).2.1
  have hp : 0 ≤ logisticK lam X y := by
    unfold logisticK
    positivity
  exact ⟨hp, by nlinarith⟩

/-- The Bose kernel as a function of the frequency. -/
theorem bose_lip {lam X y Y e : ℝ} (hl : 0 < lam) (hX : |X| ≤ 1) (hY : |Y| ≤ 1) (h : Rel e y Y) (he0 : 0 ≤ e)
    (he : 64 * (1 + lam) * e ≤ 1) : |boseT lam X y - boseT lam X Y| ≤ 3 * e * (1 + 1 / lam) := by
  have he64 : e ≤ 1 / 64 := by nlinarith [mul_nonneg hl.le he0]
  obtain ⟨h1, h2, h3⟩ := exponent_rel hl.le hX h (by linarith)
  obtain ⟨h4, h5⟩ := exponent_small hl.le hX hY he0 he
  have hw := bose_weight (X := X) (y := Y) hl hX hY
  rcases eq_or_ne Y 0 with hY0 | hY0
  · have hy0 : y = 0 := by
      unfold Rel at h
      rw [hY0, abs_zero, mul_zero, sub_zero] at h
      exact abs_nonpos_iff.1 h
    rw [hY0, hy0, sub_self, abs_zero]
    positivity
  have hVY : 0 < lam * |Y| := mul_pos hl (abs_pos.2 hY0)
  have h7 : |(lam * |y|) - (lam * |Y|)| ≤ e * (lam * |Y|) := by
    rw [show lam * |y| - lam * |Y| = lam * (|y| - |Y|) by ring, abs_mul, abs_of_pos hl]
    have := mul_le_mul_of_nonneg_left h3 hl.le
    linarith
  have hVy : 0 < lam * |y| := by
    have := (abs_le.1 h7).1
    nlinarith
  have h8 := boseG_rel hVY hVy h7
  have h6 := exp_error h1 (by linarith)
  have hg := boseG_pos hVY
  rw [boseT_abs hl X y]
  rw [boseT_abs hl X Y] at *
  generalize lam * (|Y| + Y * X) / 2 = t at *
  generalize lam * (|y| + y * X) / 2 = t' at *
  generalize boseG (lam * |Y|) = G at *
  generalize boseG (lam * |y|) = G' at *
  have hE := Real.exp_pos (-t)
  have hr1 : Rel (2 * (e * t)) (Real.exp (-t')) (Real.exp (-t)) := by
    unfold Rel
    rwa [abs_of_pos hE]
  have hr2 : Rel e G' G := by
    unfold Rel
    rwa [abs_of_pos hg]
  have hr3 := (Rel.refl (X := 1 / lam) le_rfl).mul (hr1.mul hr2 he0) (by
    have := mul_nonneg he0 h2
    positivity)
  unfold Rel at hr3
  rw [abs_of_pos (by positivity : 0 < 1 / lam * (Real.exp (-t) * G))] at hr3
  rw [mul_assoc, mul_assoc]
  rw [mul_assoc] at hw
  refine hr3.trans ?_
  have hK : 0 < 1 / lam * (Real.exp (-t) * G) := by positivity
  have h12 : 2 * (e * t) * e ≤ e * t := by
    have := mul_nonneg he0 h2
    nlinarith
  have h13 := mul_le_mul_of_nonneg_right (by linarith [mul_nonneg he0 h2] :
    0 + (2 * (e * t) + e + 2 * (e * t) * e) + 0 * (2 * (e * t) + e + 2 * (e * t) * e) ≤ 3 * e * (1 + t)) hK.le
  have h14 := mul_le_mul_of_nonneg_left hw (by positivity : 0 ≤ 3 * e)
  linarith

theorem bose_le {lam X y : ℝ} (hl : 0 < lam) (hX : |X| ≤ 1) (hy : |y| ≤ 1) : boseT lam X y ≤ 1 + 1 / lam := by
  have hw := bose_weight (X := X) (y := y) hl hX hy
  have h0 : 0 ≤ lam * (|y| + y * X) / 2 := (exponent_rel hl.le hX (Rel.refl (X := y) le_rfl) (by norm_num)).2.1
  have := boseT_pos hl X y
  nlinarith

/-- An entry of the matrix: kernel times roots of weights. -/
theorem entry_error {A : Arith} {u eta e c B k K WX WY wx wy rx ry : ℝ} (hA : A.Ok u eta) (heta : eta ≤ u ^ 2)
    (hue : 22 * u ≤ e) (he : e ≤ 1 / 64) (hc : 0 ≤ c) (hk : |k - K| ≤ c * e) (hK : |K| ≤ B)
    (hWX : 12 * u ≤ WX) (hWY : 12 * u ≤ WY) (hwx : Rel e wx WX) (hwy : Rel e wy WY)
    (hrx : Rel u rx (Real.sqrt wx)) (hry : Rel u ry (Real.sqrt wy)) :
    |A.mul (A.mul k rx) ry - K * Real.sqrt WX * Real.sqrt WY| ≤
      (11 / 10 * c + 5 / 2 * B + 1 / 10) * e * (Real.sqrt WX * Real.sqrt WY) := by
  have hu0 := hA.hu
  have he0 : 0 ≤ e := by linarith
  have hB0 : 0 ≤ B := (abs_nonneg _).trans hK
  have hee : e * e ≤ e * (1 / 64) := mul_le_mul_of_nonneg_left he he0
  have hueu : u * e ≤ e / 22 * (1 / 64) := mul_le_mul (by linarith) he he0 (by linarith)
  have key : ∀ {w W r : ℝ}, 12 * u ≤ W → Rel e w W → Rel u r (Real.sqrt w) →
      Rel (11 / 10 * e) r (Real.sqrt W) ∧ 12 * u ≤ Real.sqrt W := by
    intro w W r hW hw hr
    have hW0 : 0 ≤ W := by linarith
    refine ⟨((hw.sqrt (by linarith) hW0).trans hr hu0).mono (by nlinarith), ?_⟩
    refine Real.le_sqrt_of_sq_le ?_
    have : 12 * u ≤ 1 := by linarith
    nlinarith
  obtain ⟨h1, s1⟩ := key hWX hwx hrx
  obtain ⟨h2, s2⟩ := key hWY hwy hry
  have hsx := Real.sqrt_nonneg WX
  have hsy := Real.sqrt_nonneg WY
  set sx := Real.sqrt WX
  set sy := Real.sqrt WY
  have hS : 0 ≤ sx * sy := mul_nonneg hsx hsy
  -- the product of the roots
  have h3 : Rel (23 / 10 * e) (rx * ry) (sx * sy) := (h1.mul h2 (by positivity)).mono (by nlinarith)
  have h4 := h3.abs_le
  unfold Rel at h3
  rw [abs_of_nonneg hS] at h3 h4
  have h4' : |rx * ry| ≤ 104 / 100 * (sx * sy) := h4.trans (mul_le_mul_of_nonneg_right (by linarith) hS)
  have hryabs : |ry| ≤ 102 / 100 * sy := by
    have := h2.abs_le
    rw [abs_of_nonneg hsy] at this
    exact this.trans (mul_le_mul_of_nonneg_right (by linarith) hsy)
  have hkabs : |k| ≤ B + c * e := by
    have := abs_add_le (k - K) K
    rw [sub_add_cancel] at this
    linarith
  -- exact product of the computed numbers
  have h5 : |k * rx * ry - K * sx * sy| ≤ 104 / 100 * (c * e) * (sx * sy) + 23 / 10 * B * e * (sx * sy) := by
    have h6 : k * rx * ry - K * sx * sy = (k - K) * (rx * ry) + K * (rx * ry - sx * sy) := by ring
    rw [h6]
    refine (abs_add_le _ _).trans ?_
    rw [abs_mul (k - K), abs_mul K]
    have h7 : |k - K| * |rx * ry| ≤ c * e * (104 / 100 * (sx * sy)) :=
      mul_le_mul hk h4' (abs_nonneg _) (by positivity)
    have h8 : |K| * |rx * ry - sx * sy| ≤ B * (23 / 10 * e * (sx * sy)) :=
      mul_le_mul hK h3 (abs_nonneg _) hB0
    linarith
  -- rounding of the two products
  have h6 := hA.mul k rx
  set p := A.mul k rx
  have h7 := hA.mul p ry
  set q := A.mul p ry
  have hkS : |k * rx * ry| ≤ (B + c * e) * (104 / 100 * (sx * sy)) := by
    rw [mul_assoc, abs_mul]
    exact mul_le_mul hkabs h4' (abs_nonneg _) (by positivity)
  have heS : eta * |ry| ≤ u * (sx * sy) * (1 / 10) := by
    have h9 : eta ≤ u * (sx / 12) := heta.trans (by
      rw [sq]
      exact mul_le_mul_of_nonneg_left (by linarith) hu0)
    calc eta * |ry| ≤ u * (sx / 12) * (102 / 100 * sy) := mul_le_mul h9 hryabs (abs_nonneg _) (by positivity)
      _ ≤ u * (sx * sy) * (1 / 10) := by
        have := mul_nonneg hu0 hS
        linarith
  have heS' : eta ≤ u * (sx * sy) * (1 / 144) * 12 := by
    have h10 : 144 * (u * u) ≤ sx * sy := by
      have := mul_le_mul s1 s2 (by linarith) hsx
      linarith
    have hWW : 12 * u * (12 * u) ≤ WX * WY := mul_le_mul hWX hWY (by linarith) (by linarith)
    have h11 : 12 * u ≤ sx * sy := by
      have h12 : sx * sy = Real.sqrt (WX * WY) := (Real.sqrt_mul (by linarith) _).symm
      rw [h12]
      refine Real.le_sqrt_of_sq_le ?_
      linarith
    have := mul_le_mul_of_nonneg_left h11 hu0
    nlinarith
  have h9 : |p * ry - k * rx * ry| ≤ u * |k * rx * ry| + eta * |ry| := by
    rw [← sub_mul, abs_mul, abs_mul (k * rx) ry]
    have := mul_le_mul_of_nonneg_right h6 (abs_nonneg ry)
    linarith
  have hT : 0 ≤ (B + c * e) * (sx * sy) := by positivity
  have h10 : |p * ry - k * rx * ry| ≤ u * ((B + c * e) * (sx * sy)) * (104 / 100) + u * (sx * sy) * (1 / 10) := by
    have := mul_le_mul_of_nonneg_left hkS hu0
    linarith
  have hpry : |p * ry| ≤ (B + c * e) * (sx * sy) * (106 / 100) + (sx * sy) * (1 / 100) := by
    have h11 : p * ry = (p * ry - k * rx * ry) + k * rx * ry := by ring
    rw [h11]
    refine (abs_add_le _ _).trans ?_
    have h12 : u * ((B + c * e) * (sx * sy)) ≤ 1 / 1000 * ((B + c * e) * (sx * sy)) :=
      mul_le_mul_of_nonneg_right (by linarith) hT
    have h13 : u * (sx * sy) ≤ 1 / 1000 * (sx * sy) := mul_le_mul_of_nonneg_right (by linarith) hS
    linarith
  have h14 : q - K * sx * sy = (q - p * ry) + (p * ry - k * rx * ry) + (k * rx * ry - K * sx * sy) := by ring
  rw [h14]
  refine (abs_add_le _ _).trans ?_
  have h15 := abs_add_le (q - p * ry) (p * ry - k * rx * ry)
  have h16 := mul_le_mul_of_nonneg_left hpry hu0
  have huS : u * (sx * sy) ≤ e / 22 * (sx * sy) := mul_le_mul_of_nonneg_right (by linarith) hS
  have huT : u * ((B + c * e) * (sx * sy)) ≤ e / 22 * ((B + c * e) * (sx * sy)) :=
    mul_le_mul_of_nonneg_right (by linarith) hT
  have hcee : c * e * (e * (sx * sy)) ≤ c * (1 / 64) * (e * (sx * sy)) :=
    mul_le_mul_of_nonneg_right (mul_le_mul_of_nonneg_left he hc) (by positivity)
  have hp1 : 0 ≤ c * (e * (sx * sy)) := by positivity
  have hp2 : 0 ≤ B * (e * (sx * sy)) := by positivity
  have hp3 : 0 ≤ e * (sx * sy) := by positivity
  have expand1 : e / 22 * ((B + c * e) * (sx * sy)) = (B * (e * (sx * sy)) + c * e * (e * (sx * sy))) / 22 := by ring
  rw [expand1] at huT
  have goal' : (11 / 10 * c + 5 / 2 * B + 1 / 10) * e * (sx * sy) =
    11 / 10 * (c * (e * (sx * sy))) + 5 / 2 * (B * (e * (sx * sy))) + 1 / 10 * (e * (sx * sy)) := by ring
  rw [goal']
  have e1 : 104 / 100 * (c * e) * (sx * sy) = 104 / 100 * (c * (e * (sx * sy))) := by ring
  have e2 : 23 / 10 * B * e * (sx * sy) = 23 / 10 * (B * (e * (sx * sy))) := by ring
  have e3 : u * ((B + c * e) * (sx * sy) * (106 / 100) + sx * sy * (1 / 100)) =
    106 / 100 * (u * ((B + c * e) * (sx * sy))) + 1 / 100 * (u * (sx * sy)) := by ring
  rw [e1, e2] at h5
  rw [e3] at h16
  linarith

end Verif.Kernel
