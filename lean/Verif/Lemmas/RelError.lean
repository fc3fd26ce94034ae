import Verif.Lemmas.Rounding
/-! Relative errors of composed floating-point operations. -/

namespace Verif.Kernel

/-- `x` is `X` up to the relative error `e`. -/
def Rel (e x X : ℝ) : Prop := |x - X| ≤ e * |X|

namespace Rel
variable {e f x y X Y z : ℝ}

theorem mono (h : Rel e x X) (hef : e ≤ f) : Rel f x X := h.trans (mul_le_mul_of_nonneg_right hef (abs_nonneg _))

theorem refl (he : 0 ≤ e) : Rel e X X := by
  unfold Rel
  rw [sub_self, abs_zero]
  positivity

theorem abs_le (h : Rel e x X) : |x| ≤ (1 + e) * |X| := by
  have h1 := abs_add_le (x - X) X
  rw [sub_add_cancel] at h1
  unfold Rel at h
  linarith

theorem trans (h : Rel e x X) (h' : Rel f z x) (hf : 0 ≤ f) : Rel (e + f + e * f) z X := by
  unfold Rel at *
  have h1 := abs_sub_le z x X
  have h2 := mul_le_mul_of_nonneg_left (Rel.abs_le h) hf
  have h3 : (e + f + e * f) * |X| = e * |X| + f * ((1 + e) * |X|) := by ring
  linarith

theorem mul (h : Rel e x X) (h' : Rel f y Y) (hf : 0 ≤ f) : Rel (e + f + e * f) (x * y) (X * Y) := by
  have h1 : Rel e (x * Y) (X * Y) := by
    unfold Rel at *
    rw [← sub_mul, abs_mul, abs_mul, ← mul_assoc]
    exact mul_le_mul_of_nonneg_right h (abs_nonneg _)
  have h2 : Rel f (x * y) (x * Y) := by
    unfold Rel at *
    rw [← mul_sub, abs_mul, abs_mul]
    have := mul_le_mul_of_nonneg_left h' (abs_nonneg x)
    linarith
  exact h1.trans h2 hf

theorem add (h : Rel e x X) (h' : Rel e y Y) (hX : 0 ≤ X) (hY : 0 ≤ Y) : Rel e (x + y) (X + Y) := by
  unfold Rel at *
  rw [abs_of_nonneg hX] at h
  rw [abs_of_nonneg hY] at h'
  rw [abs_of_nonneg (add_nonneg hX hY), add_sub_add_comm]
  have := abs_add_le (x - X) (y - Y)
  linarith

theorem inv (h : Rel e x X) (he : e ≤ 1 / 10) : Rel (10 / 9 * e) x⁻¹ X⁻¹ := by
  rcases eq_or_ne X 0 with rfl | hX
  · unfold Rel at *
    rw [abs_zero, mul_zero, sub_zero] at h
    rw [abs_nonpos_iff.1 h]
    simp
  · unfold Rel at *
    have hX0 := abs_pos.2 hX
    have h1 : 9 / 10 * |X| ≤ |x| := by
      have h2 := abs_sub_abs_le_abs_sub X x
      rw [abs_sub_comm] at h2
      have := mul_le_mul_of_nonneg_right he hX0.le
      linarith
    have hx0 : 0 < |x| := by linarith [mul_pos (by norm_num : (0 : ℝ) < 9 / 10) hX0]
    have hx : x ≠ 0 := abs_pos.1 hx0
    rw [inv_sub_inv hx hX, abs_div, abs_mul, abs_inv, abs_sub_comm, div_le_iff₀ (by positivity)]
    have h3 : 10 / 9 * e * |X|⁻¹ * (|x| * |X|) = 10 / 9 * e * |x| := by
      field_simp
    rw [h3]
    have he0 : 0 ≤ e := by
      by_contra hn
      have h4 := mul_neg_of_neg_of_pos (not_le.1 hn) hX0
      linarith [abs_nonneg (x - X)]
    have := mul_le_mul_of_nonneg_left h1 (mul_nonneg (by norm_num : (0 : ℝ) ≤ 10 / 9) he0)
    linarith

theorem div (h : Rel e x X) (h' : Rel f y Y) (hf : f ≤ 1 / 10) (hf0 : 0 ≤ f) :
    Rel (e + 10 / 9 * f + e * (10 / 9 * f)) (x / y) (X / Y) := by
  rw [div_eq_mul_inv, div_eq_mul_inv]
  exact h.mul (h'.inv hf) (by linarith)

theorem nonneg (h : Rel e x X) (he : e ≤ 1) (hX : 0 ≤ X) : 0 ≤ x := by
  unfold Rel at h
  rw [abs_of_nonneg hX] at h
  have := (_root_.abs_le.1 h).1
  have := mul_le_mul_of_nonneg_right he hX
  linarith

theorem sqrt (h : Rel e x X) (he : e ≤ 1) (hX : 0 ≤ X) : Rel e (Real.sqrt x) (Real.sqrt X) := by
  have hx := h.nonneg he hX
  unfold Rel at *
  rw [abs_of_nonneg hX] at h
  rw [abs_of_nonneg (Real.sqrt_nonneg X)]
  rcases hX.eq_or_lt with rfl | hX0
  · rw [sub_zero, mul_zero] at h
    rw [abs_nonpos_iff.1 h]
    simp
  · have h1 : (Real.sqrt x - Real.sqrt X) * (Real.sqrt x + Real.sqrt X) = x - X := by
      have := Real.mul_self_sqrt hx
      have := Real.mul_self_sqrt hX
      nlinarith
    have h2 := Real.sqrt_pos.2 hX0
    have h3 := Real.sqrt_nonneg x
    have h4 : |Real.sqrt x - Real.sqrt X| * (Real.sqrt x + Real.sqrt X) ≤ e * X := by
      rw [← abs_of_nonneg (add_nonneg h3 h2.le), ← abs_mul, h1]
      exact h
    have h5 : |Real.sqrt x - Real.sqrt X| * Real.sqrt X ≤ e * Real.sqrt X * Real.sqrt X := by
      rw [mul_assoc, Real.mul_self_sqrt hX]
      have := mul_nonneg (abs_nonneg (Real.sqrt x - Real.sqrt X)) h3
      linarith
    exact le_of_mul_le_mul_right h5 h2

end Rel

namespace Arith.Ok
variable {A : Arith} {u eta : ℝ} {e f x y X Y : ℝ}

theorem rel_add (hA : A.Ok u eta) (a b : ℝ) : Rel u (A.add a b) (a + b) := hA.add a b
theorem rel_sub (hA : A.Ok u eta) (a b : ℝ) : Rel u (A.sub a b) (a - b) := hA.sub a b

theorem rel_mul (hA : A.Ok u eta) {a b : ℝ} (h : eta ≤ u * |a * b|) : Rel (2 * u) (A.mul a b) (a * b) := by
  have := hA.mul a b
  unfold Rel
  linarith

theorem rel_div (hA : A.Ok u eta) {a b : ℝ} (hb : b ≠ 0) (h : eta ≤ u * |a / b|) : Rel (2 * u) (A.div a b) (a / b) := by
  have := hA.div a b hb
  unfold Rel
  linarith

theorem mono (hA : A.Ok u eta) {u' : ℝ} (h : u ≤ u') : A.Ok u' eta where
  hu := hA.hu.trans h
  heta := hA.heta
  add a b := (hA.add a b).trans (mul_le_mul_of_nonneg_right h (abs_nonneg _))
  sub a b := (hA.sub a b).trans (mul_le_mul_of_nonneg_right h (abs_nonneg _))
  mul a b := (hA.mul a b).trans (by linarith [mul_le_mul_of_nonneg_right h (abs_nonneg (a * b))])
  div a b hb := (hA.div a b hb).trans (by linarith [mul_le_mul_of_nonneg_right h (abs_nonneg (a / b))])
  exp a ha := (hA.exp a ha).trans (by linarith [mul_le_mul_of_nonneg_right h (Real.exp_pos a).le])
  expm1 a ha := (hA.expm1 a ha).trans (mul_le_mul_of_nonneg_right h (abs_nonneg _))
  sinh a ha := (hA.sinh a ha).trans (mul_le_mul_of_nonneg_right h (abs_nonneg _))
  cosh a ha := (hA.cosh a ha).trans (mul_le_mul_of_nonneg_right h (Real.cosh_pos a).le)

end Arith.Ok

end Verif.Kernel
