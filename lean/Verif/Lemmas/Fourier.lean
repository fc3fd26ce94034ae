import Verif.Model.PolyFT
import Verif.Lemmas.Legendre
import Mathlib.Analysis.SpecialFunctions.Integrals.Basic
import Mathlib.Analysis.SpecialFunctions.ExpDeriv
import Mathlib.MeasureTheory.Integral.IntervalIntegral.FundThmCalculus
/-! Fourier integrals of polynomials over `[-1, 1]`. -/

namespace Verif.Fourier
open Polynomial Verif.Spec Complex
open Verif.Legendre hiding I

/-- `∫_{-1}^{1} e^{iwx} q(x) dx` -/
noncomputable def E (w : ℝ) (q : ℝ[X]) : ℂ := ∫ x in (-1 : ℝ)..1, exp (I * w * x) * ((q.eval x : ℝ) : ℂ)

theorem cont (w : ℝ) (q : ℝ[X]) : Continuous fun x : ℝ => exp (I * w * x) * ((q.eval x : ℝ) : ℂ) := by
  have : Continuous fun x : ℝ => q.eval x := q.continuous
  fun_prop

theorem intbl (w : ℝ) (q : ℝ[X]) (a b : ℝ) : IntervalIntegrable
    (fun x : ℝ => exp (I * w * x) * ((q.eval x : ℝ) : ℂ)) MeasureTheory.volume a b :=
  (cont w q).intervalIntegrable a b

theorem E_add (w : ℝ) (p q : ℝ[X]) : E w (p + q) = E w p + E w q := by
  unfold E
  rw [← intervalIntegral.integral_add (intbl w p _ _) (intbl w q _ _)]
  congr 1; funext x; rw [eval_add]; push_cast; ring

theorem E_C_mul (w c : ℝ) (q : ℝ[X]) : E w (C c * q) = c * E w q := by
  unfold E
  rw [← intervalIntegral.integral_const_mul]
  congr 1; funext x; rw [eval_mul, eval_C]; push_cast; ring

theorem E_zero (w : ℝ) : E w 0 = 0 := by simp [E]

theorem E_sub (w : ℝ) (p q : ℝ[X]) : E w (p - q) = E w p - E w q := by
  have := E_add w p (C (-1) * q)
  rw [E_C_mul] at this
  rw [sub_eq_add_neg, show -q = C (-1) * q by simp, this]
  push_cast; ring

theorem E_sum {ι : Type _} (w : ℝ) (s : Finset ι) (f : ι → ℝ[X]) :
    E w (∑ i ∈ s, f i) = ∑ i ∈ s, E w (f i) := by
  classical
  induction s using Finset.induction_on with
  | empty => simp [E_zero]
  | insert a s ha ih => rw [Finset.sum_insert ha, Finset.sum_insert ha, E_add, ih]

/-- Integration by parts. -/
theorem E_parts (w : ℝ) (q : ℝ[X]) : I * w * E w q + E w (derivative q) =
    exp (I * w) * ((q.eval 1 : ℝ) : ℂ) - exp (-(I * w)) * ((q.eval (-1) : ℝ) : ℂ) := by
  have hd : ∀ x : ℝ, HasDerivAt (fun x : ℝ => exp (I * w * x) * ((q.eval x : ℝ) : ℂ))
      (I * w * (exp (I * w * x) * ((q.eval x : ℝ) : ℂ)) + exp (I * w * x) * (((derivative q).eval x : ℝ) : ℂ)) x := by
    intro x
    have h1 : HasDerivAt (fun x : ℝ => I * w * (x : ℂ)) (I * w) x := by
      simpa using (ofRealCLM.hasDerivAt (x := x)).const_mul (I * (w : ℂ))
    have h2 := h1.cexp
    have h3 : HasDerivAt (fun x : ℝ => ((q.eval x : ℝ) : ℂ)) (((derivative q).eval x : ℝ) : ℂ) x :=
      (q.hasDerivAt x).ofReal_comp
    exact (h2.mul h3).congr_deriv (by ring)
  have h := intervalIntegral.integral_eq_sub_of_hasDerivAt (a := -1) (b := 1)
    (f := fun x : ℝ => exp (I * w * x) * ((q.eval x : ℝ) : ℂ)) (fun x _ => hd x)
    (((cont w q).const_mul _).add (cont w (derivative q)) |>.intervalIntegrable _ _)
  rw [intervalIntegral.integral_add (((cont w q).const_mul _).intervalIntegrable _ _)
    ((cont w (derivative q)).intervalIntegrable _ _), intervalIntegral.integral_const_mul] at h
  unfold E
  rw [h]
  simp

theorem sin_form (w : ℝ) : exp (I * w) - exp (-(I * w)) = 2 * I * (Real.sin w : ℂ) := by
  rw [ofReal_sin, Complex.sin, show -(I * (w : ℂ)) = -w * I by ring, show I * (w : ℂ) = w * I by ring]
  linear_combination (exp (w * I) - exp (-w * I)) * I_sq

theorem cos_form (w : ℝ) : exp (I * w) + exp (-(I * w)) = 2 * (Real.cos w : ℂ) := by
  rw [ofReal_cos, Complex.cos, show -(I * (w : ℂ)) = -w * I by ring, show I * (w : ℂ) = w * I by ring]
  ring

theorem sphericalJn_zero {w : ℝ} (hw : w ≠ 0) : Poly.sphericalJn 0 w = Real.sin w / w := by
  rw [Poly.sphericalJn]; simp [hw]
theorem sphericalJn_one {w : ℝ} (hw : w ≠ 0) :
    Poly.sphericalJn 1 w = Real.sin w / w ^ 2 - Real.cos w / w := by
  rw [Poly.sphericalJn]; simp [hw]
theorem sphericalJn_succ {w : ℝ} (hw : w ≠ 0) (l : ℕ) : Poly.sphericalJn (l + 2) w =
    (2 * (l : ℝ) + 3) / w * Poly.sphericalJn (l + 1) w - Poly.sphericalJn l w := by
  rw [Poly.sphericalJn]; simp [hw]

/-- `∫ e^{iwx} P_l(x) dx = 2 i^l j_l(w)` for `w ≠ 0`. -/
theorem E_legendre {w : ℝ} (hw : w ≠ 0) (l : ℕ) :
    E w (legendre l) = 2 * I ^ l * (Poly.sphericalJn l w : ℂ) := by
  have hwc : (w : ℂ) ≠ 0 := by exact_mod_cast hw
  have hIw : I * (w : ℂ) ≠ 0 := mul_ne_zero I_ne_zero hwc
  have h0 : E w (legendre 0) = 2 * (Real.sin w : ℂ) / w := by
    have := E_parts w 1
    simp only [derivative_one, E_zero, add_zero, eval_one, ofReal_one, mul_one] at this
    rw [Polynomial.eval_one, Polynomial.eval_one, ofReal_one, mul_one, mul_one, sin_form] at this
    rw [legendre_zero, eq_div_iff hwc]
    apply mul_left_cancel₀ I_ne_zero
    linear_combination this
  induction l using Nat.twoStepInduction with
  | zero =>
    rw [h0, sphericalJn_zero hw]; push_cast; ring
  | one =>
    have := E_parts w X
    rw [derivative_X, eval_X, eval_X, ← legendre_zero, h0] at this
    push_cast at this
    rw [mul_one, mul_neg, mul_one, sub_neg_eq_add, cos_form] at this
    rw [legendre_one, sphericalJn_one hw]
    push_cast at this ⊢
    apply mul_left_cancel₀ hIw
    have e : I * (w : ℂ) * E w X = 2 * cos w - 2 * sin w / w := by linear_combination this
    rw [e]
    field_simp
    ring_nf
    rw [I_sq]
    ring
  | more l ih1 ih2 =>
    have hp := E_parts w (legendre (l + 2) - legendre l)
    rw [derivative_sub, deriv_diff, E_C_mul, E_sub] at hp
    have e1 : (legendre (l + 2) - legendre l).eval 1 = 0 := by
      rw [eval_sub, Legendre.eval_one, Legendre.eval_one, sub_self]
    have e2 : (legendre (l + 2) - legendre l).eval (-1) = 0 := by
      rw [eval_sub, Legendre.eval_neg, Legendre.eval_neg, Legendre.eval_one, Legendre.eval_one]
      ring
    rw [e1, e2] at hp
    simp only [ofReal_zero, mul_zero, sub_zero] at hp
    rw [ih1, ih2] at hp
    rw [sphericalJn_succ hw]
    apply mul_left_cancel₀ hIw
    push_cast at hp ⊢
    have e : I * (w : ℂ) * E w (legendre (l + 2)) = I * w * (2 * I ^ l * (Poly.sphericalJn l w : ℂ))
        - (2 * l + 3) * (2 * I ^ (l + 1) * (Poly.sphericalJn (l + 1) w : ℂ)) := by
      linear_combination hp
    rw [e, pow_succ, pow_succ]
    field_simp
    ring_nf
    have hI3 : I ^ 2 = -1 := I_sq
    have hI4 : I ^ 3 = -I := by rw [pow_succ, I_sq]; ring
    simp only [hI3, hI4, pow_succ]
    ring

theorem E_zero_legendre (l : ℕ) : E 0 (legendre l) = if l = 0 then 2 else 0 := by
  have : E 0 (legendre l) = ((Legendre.I (legendre l * legendre 0) : ℝ) : ℂ) := by
    unfold E Legendre.I
    rw [← intervalIntegral.integral_ofReal]
    congr 1; funext x; simp
  rw [this]
  split
  · subst l; rw [norm_sq]; norm_num
  · rename_i h; rw [orthogonal h]; simp

theorem E_conj (w : ℝ) (q : ℝ[X]) : (starRingEnd ℂ) (E w q) = E (-w) q := by
  unfold E
  rw [intervalIntegral.integral_of_le (by norm_num), intervalIntegral.integral_of_le (by norm_num),
    ← integral_conj]
  congr 1; funext x
  rw [map_mul, conj_ofReal, ← exp_conj]
  congr 2
  simp

theorem imagPower_eq (n : ℤ) : Poly.imagPower n = I ^ n := by
  have h4 : (I : ℂ) ^ (4 : ℤ) = 1 := by
    rw [show (4 : ℤ) = ((4 : ℕ) : ℤ) from rfl, zpow_natCast, I_pow_four]
  have h : (I : ℂ) ^ n = I ^ (n % 4) := by
    conv_lhs => rw [← Int.mul_ediv_add_emod n 4]
    rw [zpow_add₀ I_ne_zero, zpow_mul, h4, one_zpow, one_mul]
  rw [h]
  have h0 := Int.emod_nonneg n (show (4 : ℤ) ≠ 0 by norm_num)
  have h1 := Int.emod_lt_of_pos n (show (0 : ℤ) < 4 by norm_num)
  unfold Poly.imagPower
  have : n % 4 = 0 ∨ n % 4 = 1 ∨ n % 4 = 2 ∨ n % 4 = 3 := by omega
  rcases this with e | e | e | e <;> rw [e]
  · simp
  · simp
  · rw [show (2 : ℤ) = ((2 : ℕ) : ℤ) from rfl, zpow_natCast, I_sq]; rfl
  · rw [show (3 : ℤ) = ((3 : ℕ) : ℤ) from rfl, zpow_natCast, I_pow_three]; rfl

/-- `_get_tnl(l, w)` is the Fourier integral of `P_l`, for every real `w`. -/
theorem getTnl_eq (l : ℕ) (w : ℝ) : Poly.getTnl l w = E w (legendre l) := by
  unfold Poly.getTnl
  simp only [imagPower_eq, zpow_natCast]
  rcases lt_trichotomy w 0 with h | h | h
  · rw [if_pos h, abs_of_neg h, ← E_legendre (w := -w) (by linarith), E_conj, neg_neg]
  · subst h
    rw [if_neg (lt_irrefl _), abs_zero, E_zero_legendre]
    rw [Poly.sphericalJn.eq_def, if_pos rfl]; split <;> simp_all
  · rw [if_neg (not_lt.2 h.le), abs_of_pos h, ← E_legendre h.ne']

end Verif.Fourier
