import Verif.Model.KernelFl
import Verif.Spec.Kernel
import Mathlib.Analysis.Convex.SpecificFunctions.Basic
/-! Errors of the evaluation of the kernels in floating-point arithmetic. -/

namespace Verif.Kernel
open Verif.Spec

/-- The usual model of rounding: relative error at most `u`, and an absolute error at most `eta` where a result may
underflow.  Sums and differences do not underflow.  The elementary functions are only required to be accurate
where they do not overflow. -/
structure Arith.Ok (A : Arith) (u eta : ℝ) : Prop where
  hu : 0 ≤ u
  heta : 0 ≤ eta
  add : ∀ a b, |A.add a b - (a + b)| ≤ u * |a + b|
  sub : ∀ a b, |A.sub a b - (a - b)| ≤ u * |a - b|
  mul : ∀ a b, |A.mul a b - a * b| ≤ u * |a * b| + eta
  div : ∀ a b, b ≠ 0 → |A.div a b - a / b| ≤ u * |a / b| + eta
  exp : ∀ a ≤ 1, |A.exp a - Real.exp a| ≤ u * Real.exp a + eta
  expm1 : ∀ a ≤ 1, |A.expm1 a - (Real.exp a - 1)| ≤ u * |Real.exp a - 1|
  sinh : ∀ a, |a| ≤ 100 → |A.sinh a - Real.sinh a| ≤ u * |Real.sinh a|
  cosh : ∀ a, |a| ≤ 100 → |A.cosh a - Real.cosh a| ≤ u * Real.cosh a

theorem exact_ok (u eta : ℝ) (hu : 0 ≤ u) (he : 0 ≤ eta) : Arith.exact.Ok u eta := by
  constructor <;> try assumption
  all_goals intros
  all_goals simp only [Arith.exact, sub_self, abs_zero]
  all_goals positivity

/-- Quotient of perturbed numbers. -/
theorem quot_error {E D Eh Dh al ga c : ℝ} (hE : 0 ≤ E) (hD : 1 ≤ D) (hal : 0 ≤ al) (hga : 0 ≤ ga) (hga4 : ga ≤ 1 / 4)
    (hc : 0 ≤ c) (h1 : |Eh - E| ≤ al * E + c) (h2 : |Dh - D| ≤ ga * D) :
    |Eh / Dh - E / D| ≤ 4 / 3 * (al + ga) * (E / D) + 4 / 3 * c := by
  have hDh : 3 / 4 * D ≤ Dh := by
    have := (abs_le.1 h2).1
    nlinarith
  have hD0 : 0 < D := by linarith
  have hDh0 : 0 < Dh := by linarith
  have e1 : Eh / Dh - E / D = ((Eh - E) * D + E * (D - Dh)) / (Dh * D) := by
    field_simp
    ring
  have e2 : |(Eh - E) * D + E * (D - Dh)| ≤ (al * E + c) * D + E * (ga * D) := by
    refine (abs_add_le _ _).trans (add_le_add ?_ ?_)
    · rw [abs_mul, abs_of_pos hD0]
      exact mul_le_mul_of_nonneg_right h1 hD0.le
    · rw [abs_mul, abs_of_nonneg hE, abs_sub_comm]
      exact mul_le_mul_of_nonneg_left h2 hE
  rw [e1, abs_div, abs_of_pos (mul_pos hDh0 hD0), div_le_iff₀ (mul_pos hDh0 hD0)]
  refine e2.trans ?_
  have e3 : (4 / 3 * (al + ga) * (E / D) + 4 / 3 * c) * (Dh * D) = 4 / 3 * Dh * ((al + ga) * E + c * D) := by
    field_simp
  have e4 : (al * E + c) * D + E * (ga * D) ≤ D * ((al + ga) * E + c * D) := by
    have : c * D ≤ c * D * D := by nlinarith [mul_nonneg hc hD0.le]
    nlinarith
  rw [e3]
  refine e4.trans (mul_le_mul_of_nonneg_right (by linarith) ?_)
  positivity

/-- The exponential of a perturbed number. -/
theorem exp_error {w wh d : ℝ} (h : |wh - w| ≤ d) (hd : d ≤ 1) : |Real.exp wh - Real.exp w| ≤ 2 * d * Real.exp w := by
  have h1 : Real.exp wh - Real.exp w = Real.exp w * (Real.exp (wh - w) - 1) := by
    rw [mul_sub, ← Real.exp_add]
    ring_nf
  rw [h1, abs_mul, abs_of_pos (Real.exp_pos _)]
  have h2 := Real.abs_exp_sub_one_le (h.trans hd)
  have := Real.exp_pos w
  nlinarith

/-- The product in the exponent. -/
theorem arg_error {A : Arith} {u eta : ℝ} (hA : A.Ok u eta) {L V s a sh : ℝ} (hL : 0 ≤ L)
    (hsm : 64 * (1 + L) * (u + eta) ≤ 1) (hV : |V| ≤ L) (hs0 : 0 ≤ s) (hs1 : s ≤ 1) (ha : 0 ≤ a)
    (hav : |a - V| ≤ u * |V| + eta) (hsh : |sh - s| ≤ 5 * u * s + eta) :
    |A.mul (-a) sh - -(V * s)| ≤ 8 * u * (|V| * s) + 3 * (1 + L) * eta := by
  have hu := hA.hu
  have he := hA.heta
  have hu64 : u ≤ 1 / 64 := by nlinarith [mul_nonneg hL hu, mul_nonneg hL he]
  have he64 : eta ≤ 1 / 64 := by nlinarith [mul_nonneg hL hu, mul_nonneg hL he]
  have hVn := abs_nonneg V
  have ha1 : a ≤ 65 / 64 * |V| + eta := by
    have := (abs_le.1 hav).2
    have := le_abs_self V
    nlinarith
  have hT : 0 ≤ |V| * s := mul_nonneg hVn hs0
  have hsa : |sh| ≤ 9 / 8 * s + eta := by
    have h1 : |sh| ≤ |sh - s| + |s| := by
      have := abs_add_le (sh - s) s
      rwa [sub_add_cancel] at this
    rw [abs_of_nonneg hs0] at h1
    nlinarith
  have h1 : |a * sh - V * s| ≤ a * (5 * u * s + eta) + (u * |V| + eta) * s := by
    rw [show a * sh - V * s = a * (sh - s) + (a - V) * s by ring]
    refine (abs_add_le _ _).trans (add_le_add ?_ ?_)
    · rw [abs_mul, abs_of_nonneg ha]
      exact mul_le_mul_of_nonneg_left hsh ha
    · rw [abs_mul, abs_of_nonneg hs0]
      exact mul_le_mul_of_nonneg_right hav hs0
  have h2 := hA.mul (-a) sh
  have h3 : |(-a) * sh| = a * |sh| := by rw [neg_mul, abs_neg, abs_mul, abs_of_nonneg ha]
  rw [h3] at h2
  have h4 : |A.mul (-a) sh - -(V * s)| ≤ (u * (a * |sh|) + eta) + (a * (5 * u * s + eta) + (u * |V| + eta) * s) := by
    rw [show A.mul (-a) sh - -(V * s) = (A.mul (-a) sh - (-a) * sh) + -(a * sh - V * s) by ring]
    refine (abs_add_le _ _).trans (add_le_add h2 ?_)
    rw [abs_neg]
    exact h1
  refine h4.trans ?_
  have h5 : a * |sh| ≤ (65 / 64 * |V| + eta) * (9 / 8 * s + eta) := mul_le_mul ha1 hsa (abs_nonneg _) (by positivity)
  have h6 : a * (5 * u * s + eta) ≤ (65 / 64 * |V| + eta) * (5 * u * s + eta) :=
    mul_le_mul_of_nonneg_right ha1 (by positivity)
  have h7 : u * (a * |sh|) ≤ u * ((65 / 64 * |V| + eta) * (9 / 8 * s + eta)) := mul_le_mul_of_nonneg_left h5 hu
  have k1 : |V| * eta ≤ L * eta := mul_le_mul_of_nonneg_right hV he
  have k2 : u * (L * eta) ≤ 1 / 64 * (L * eta) := mul_le_mul_of_nonneg_right hu64 (mul_nonneg hL he)
  have k3 : u * (|V| * eta) ≤ 1 / 64 * (L * eta) := le_trans (mul_le_mul_of_nonneg_left k1 hu) k2
  have k4 : u * (eta * s) ≤ 1 / 64 * eta := by
    calc u * (eta * s) ≤ 1 / 64 * (eta * s) := mul_le_mul_of_nonneg_right hu64 (mul_nonneg he hs0)
      _ ≤ 1 / 64 * eta := by nlinarith
  have k5 : eta * eta ≤ 1 / 64 * eta := mul_le_mul_of_nonneg_right he64 he
  have k6 : u * (eta * eta) ≤ 1 / 64 * eta := by
    calc u * (eta * eta) ≤ 1 * (eta * eta) := mul_le_mul_of_nonneg_right (by linarith) (mul_nonneg he he)
      _ ≤ _ := by linarith
  have k7 : eta * s ≤ eta := by nlinarith
  have k8 : 0 ≤ u * (|V| * s) := mul_nonneg hu hT
  have k9 : 0 ≤ L * eta := mul_nonneg hL he
  nlinarith

theorem small_of {u eta L : ℝ} (hu : 0 ≤ u) (he : 0 ≤ eta) (hL : 0 ≤ L) (hsm : 64 * (1 + L) * (u + eta) ≤ 1) :
    u ≤ 1 / 64 ∧ eta ≤ 1 / 64 ∧ u * L ≤ 1 / 64 ∧ L * eta ≤ 1 / 64 ∧ u + eta + u * L + L * eta ≤ 1 / 64 := by
  have h1 := mul_nonneg hL hu
  have h2 := mul_nonneg hL he
  refine ⟨by nlinarith, by nlinarith, by nlinarith, by nlinarith, by nlinarith⟩

/-- A computed absolute value is not far below zero. -/
theorem nonneg_error {u eta V a : ℝ} (hu2 : u ≤ 1 / 2) (ha : 0 ≤ a) (hav : |a - V| ≤ u * |V| + eta) (hV : V < 0) :
    |V| ≤ 2 * eta := by
  rw [abs_of_neg hV] at *
  have := (abs_le.1 hav).2
  nlinarith

theorem mul_exp_neg_le (V : ℝ) : V * Real.exp (-V) ≤ 1 := by
  have h1 := Real.add_one_le_exp V
  have h2 : Real.exp V * Real.exp (-V) = 1 := by rw [← Real.exp_add]; simp
  have h3 := Real.exp_pos (-V)
  nlinarith

theorem exp_small {t : ℝ} (h : t ≤ 1 / 2) : Real.exp t ≤ 2 := by
  have h1 := Real.add_one_le_exp (-t)
  have h2 : Real.exp t * Real.exp (-t) = 1 := by rw [← Real.exp_add]; simp
  have h3 := Real.exp_pos t
  nlinarith

/-- The numerator of both kernels. -/
theorem enum_error {A : Arith} {u eta : ℝ} (hA : A.Ok u eta) {L V s a sh : ℝ} (hL : 0 ≤ L)
    (hsm : 64 * (1 + L) * (u + eta) ≤ 1) (hV : |V| ≤ L) (hs0 : 0 ≤ s) (hs1 : s ≤ 1) (ha : 0 ≤ a)
    (hav : |a - V| ≤ u * |V| + eta) (hsh : |sh - s| ≤ 5 * u * s + eta) :
    |A.exp (A.mul (-a) sh) - Real.exp (-(V * s))| ≤
      (3 / 2 * u + 16 * u * (|V| * s) + 6 * (1 + L) * eta) * Real.exp (-(V * s)) + eta := by
  have hu := hA.hu
  have he := hA.heta
  obtain ⟨hu64, he64, huL, hLe, hall⟩ := small_of hu he hL hsm
  have hT : 0 ≤ |V| * s := mul_nonneg (abs_nonneg _) hs0
  have hTL : |V| * s ≤ L := by nlinarith [abs_nonneg V]
  have hw := arg_error hA hL hsm hV hs0 hs1 ha hav hsh
  have hd : 8 * u * (|V| * s) + 3 * (1 + L) * eta ≤ 1 / 4 := by nlinarith [mul_le_mul_of_nonneg_left hTL hu]
  have hE := Real.exp_pos (-(V * s))
  have hwle : A.mul (-a) sh ≤ 1 := by
    have h1 := (abs_le.1 hw).2
    have h2 : -(V * s) ≤ 1 / 32 := by
      rcases lt_or_ge V 0 with hneg | hpos
      · have h3 := nonneg_error (by linarith) ha hav hneg
        rw [abs_of_neg hneg] at h3
        nlinarith
      · nlinarith
    linarith
  have h1 := exp_error hw (by linarith)
  have h2 := hA.exp _ hwle
  have h3 : Real.exp (A.mul (-a) sh) ≤ 3 / 2 * Real.exp (-(V * s)) := by
    have := (abs_le.1 h1).2
    nlinarith
  calc |A.exp (A.mul (-a) sh) - Real.exp (-(V * s))|
      ≤ |A.exp (A.mul (-a) sh) - Real.exp (A.mul (-a) sh)| + |Real.exp (A.mul (-a) sh) - Real.exp (-(V * s))| :=
        abs_sub_le _ _ _
    _ ≤ (u * Real.exp (A.mul (-a) sh) + eta) + 2 * (8 * u * (|V| * s) + 3 * (1 + L) * eta) * Real.exp (-(V * s)) :=
        add_le_add h2 h1
    _ ≤ _ := by nlinarith [mul_le_mul_of_nonneg_left h3 hu]

/-- The logistic kernel, from a computed absolute value of the frequency. -/
theorem logistic_core {A : Arith} {u eta : ℝ} (hA : A.Ok u eta) {L V s a sh : ℝ} (hL : 0 ≤ L)
    (hsm : 64 * (1 + L) * (u + eta) ≤ 1) (hV : |V| ≤ L) (hs0 : 0 ≤ s) (hs1 : s ≤ 1) (ha : 0 ≤ a)
    (hav : |a - V| ≤ u * |V| + eta) (hsh : |sh - s| ≤ 5 * u * s + eta) :
    |A.div (A.exp (A.mul (-a) sh)) (A.add 1 (A.exp (-a))) - Real.exp (-(V * s)) / (1 + Real.exp (-V))| ≤
      22 * u * (1 + |V| * s) * (Real.exp (-(V * s)) / (1 + Real.exp (-V))) + 36 * (1 + L) * eta := by
  have hu := hA.hu
  have he := hA.heta
  obtain ⟨hu64, he64, huL, hLe, hall⟩ := small_of hu he hL hsm
  have hT : 0 ≤ |V| * s := mul_nonneg (abs_nonneg _) hs0
  have hTL : |V| * s ≤ L := by nlinarith [abs_nonneg V]
  have huT : u * (|V| * s) ≤ u * L := mul_le_mul_of_nonneg_left hTL hu
  have hE := Real.exp_pos (-(V * s))
  have hF := Real.exp_pos (-V)
  have hen := enum_error hA hL hsm hV hs0 hs1 ha hav hsh
  -- the denominator
  have hVF : |V| * Real.exp (-V) ≤ 1 ∧ Real.exp (-V) ≤ 2 ∧ Real.exp (-(V * s)) ≤ 2 := by
    rcases lt_or_ge V 0 with hneg | hpos
    · have h3 := nonneg_error (by linarith) ha hav hneg
      rw [abs_of_neg hneg] at h3 ⊢
      have h4 : Real.exp (-V) ≤ 2 := exp_small (by linarith)
      exact ⟨by nlinarith, h4, exp_small (by nlinarith)⟩
    · rw [abs_of_nonneg hpos]
      exact ⟨mul_exp_neg_le V, (Real.exp_le_one_iff.2 (by linarith)).trans (by norm_num),
        (Real.exp_le_one_iff.2 (by nlinarith)).trans (by norm_num)⟩
  obtain ⟨hVF1, hF2, hE2⟩ := hVF
  have hF1 : |A.exp (-a) - Real.exp (-V)| ≤ 3 * u + 5 * eta := by
    have h1 : |-a - -V| ≤ u * |V| + eta := by
      rw [show -a - -V = -(a - V) by ring, abs_neg]
      exact hav
    have h2 := exp_error h1 (by nlinarith [mul_le_mul_of_nonneg_left hV hu])
    have h3 := hA.exp (-a) (by linarith)
    have h4 : Real.exp (-a) ≤ 1 := Real.exp_le_one_iff.2 (by linarith)
    calc |A.exp (-a) - Real.exp (-V)| ≤ |A.exp (-a) - Real.exp (-a)| + |Real.exp (-a) - Real.exp (-V)| := abs_sub_le _ _ _
      _ ≤ (u * Real.exp (-a) + eta) + 2 * (u * |V| + eta) * Real.exp (-V) := add_le_add h3 h2
      _ ≤ _ := by nlinarith [mul_le_mul_of_nonneg_left h4 hu, mul_le_mul_of_nonneg_left hVF1 hu,
          mul_le_mul_of_nonneg_left hF2 he]
  have hD : |A.add 1 (A.exp (-a)) - (1 + Real.exp (-V))| ≤ (5 * u + 5 * eta) * (1 + Real.exp (-V)) := by
    have h1 := hA.add 1 (A.exp (-a))
    have h2 : |1 + A.exp (-a)| ≤ 9 / 8 * (1 + Real.exp (-V)) := by
      have := abs_le.1 hF1
      rw [abs_le]
      constructor <;> nlinarith
    calc |A.add 1 (A.exp (-a)) - (1 + Real.exp (-V))|
        ≤ |A.add 1 (A.exp (-a)) - (1 + A.exp (-a))| + |1 + A.exp (-a) - (1 + Real.exp (-V))| := abs_sub_le _ _ _
      _ ≤ u * (9 / 8 * (1 + Real.exp (-V))) + (3 * u + 5 * eta) := by
          refine add_le_add (h1.trans (mul_le_mul_of_nonneg_left h2 hu)) ?_
          rw [add_sub_add_left_eq_sub]
          exact hF1
      _ ≤ _ := by nlinarith [mul_nonneg hu hF.le, mul_nonneg he hF.le]
  have hDpos : A.add 1 (A.exp (-a)) ≠ 0 := by
    have := (abs_le.1 hD).1
    nlinarith
  have hq := quot_error hE.le (by linarith : (1 : ℝ) ≤ 1 + Real.exp (-V)) (by positivity) (by positivity)
    (by linarith : 5 * u + 5 * eta ≤ 1 / 4) he hen hD
  have hK0 : 0 < Real.exp (-(V * s)) / (1 + Real.exp (-V)) := by positivity
  have hK2 : Real.exp (-(V * s)) / (1 + Real.exp (-V)) ≤ 2 := by
    rw [div_le_iff₀ (by positivity)]
    linarith
  generalize Real.exp (-(V * s)) / (1 + Real.exp (-V)) = K at *
  have hdiv := hA.div (A.exp (A.mul (-a) sh)) _ hDpos
  generalize A.exp (A.mul (-a) sh) / A.add 1 (A.exp (-a)) = q at *
  have hab : 3 / 2 * u + 16 * u * (|V| * s) + 6 * (1 + L) * eta + (5 * u + 5 * eta) ≤ 1 / 2 := by linarith
  have hq2 : |q| ≤ 2 * K + 2 * eta := by
    have h1 : |q| ≤ |q - K| + |K| := by
      have := abs_add_le (q - K) K
      rwa [sub_add_cancel] at this
    rw [abs_of_pos hK0] at h1
    have h2 := mul_le_mul_of_nonneg_right hab hK0.le
    linarith
  calc _ ≤ |A.div (A.exp (A.mul (-a) sh)) (A.add 1 (A.exp (-a))) - q| + |q - K| := abs_sub_le _ _ _
    _ ≤ (u * (2 * K + 2 * eta) + eta) + (4 / 3 * (3 / 2 * u + 16 * u * (|V| * s) + 6 * (1 + L) * eta +
        (5 * u + 5 * eta)) * K + 4 / 3 * eta) :=
        add_le_add (hdiv.trans (add_le_add (mul_le_mul_of_nonneg_left hq2 hu) le_rfl)) hq
    _ ≤ _ := by
      have k1 : u * eta ≤ 1 / 64 * eta := mul_le_mul_of_nonneg_right hu64 he
      have k2 : K * eta ≤ 2 * eta := mul_le_mul_of_nonneg_right hK2 he
      have k3 : K * (L * eta) ≤ 2 * (L * eta) := mul_le_mul_of_nonneg_right hK2 (mul_nonneg hL he)
      have k4 : 0 ≤ u * K := mul_nonneg hu hK0.le
      have k5 : 0 ≤ u * (|V| * s) * K := mul_nonneg (mul_nonneg hu hT) hK0.le
      have k6 := mul_nonneg hL he
      linarith

/-- The halves of the distances from the edges. -/
theorem half_error {A : Arith} {u eta : ℝ} (hA : A.Ok u eta) (hu64 : u ≤ 1 / 64) {X xp : ℝ} (hX : 0 ≤ X)
    (hp : |xp - X| ≤ 3 * u * X) : |A.mul 0.5 xp - X / 2| ≤ 5 * u * (X / 2) + eta := by
  have hu := hA.hu
  have h1 := hA.mul 0.5 xp
  have h2 : |xp| ≤ 9 / 8 * X := by
    have h3 : |xp| ≤ |xp - X| + |X| := by
      have := abs_add_le (xp - X) X
      rwa [sub_add_cancel] at this
    rw [abs_of_nonneg hX] at h3
    nlinarith
  have h4 : |0.5 * xp - X / 2| ≤ 3 * u * X / 2 := by
    rw [show 0.5 * xp - X / 2 = (xp - X) / 2 by ring, abs_div, abs_two]
    linarith
  calc _ ≤ |A.mul 0.5 xp - 0.5 * xp| + |0.5 * xp - X / 2| := abs_sub_le _ _ _
    _ ≤ (u * (0.5 * (9 / 8 * X)) + eta) + 3 * u * X / 2 := by
        refine add_le_add (h1.trans ?_) h4
        rw [abs_mul, abs_of_pos (by norm_num : (0 : ℝ) < 0.5)]
        have := mul_le_mul_of_nonneg_left h2 (by norm_num : (0 : ℝ) ≤ 0.5)
        have := mul_le_mul_of_nonneg_left this hu
        linarith
    _ ≤ _ := by nlinarith [mul_nonneg hu hX]

theorem flip_logistic (a b : ℝ) : Real.exp a / (1 + Real.exp b) = Real.exp (a - b) / (1 + Real.exp (-b)) := by
  rw [div_eq_div_iff (by positivity) (by positivity)]
  have h1 : Real.exp (a - b) * Real.exp b = Real.exp a := by rw [← Real.exp_add]; ring_nf
  have h2 : Real.exp a * Real.exp (-b) = Real.exp (a - b) := by rw [← Real.exp_add]; ring_nf
  linear_combination h2 - h1

/-- The logistic kernel, where the frequency is positive or negative. -/
theorem logistic_error {A : Arith} {u eta : ℝ} (hA : A.Ok u eta) {lam X y x : ℝ} {xp xm : Option ℝ} (hl : 0 ≤ lam)
    (hsm : 64 * (1 + lam) * (u + eta) ≤ 1) (hX : |X| ≤ 1) (hy : |y| ≤ 1)
    (hp : |xp.getD (A.add 1 x) - (1 + X)| ≤ 3 * u * (1 + X)) (hm : |xm.getD (A.sub 1 x) - (1 - X)| ≤ 3 * u * (1 - X)) :
    |logisticFl A lam x y xp xm - logisticK lam X y| ≤
      22 * u * (1 + lam * (|y| + y * X) / 2) * logisticK lam X y + 40 * (1 + lam) * eta := by
  have hu := hA.hu
  have he := hA.heta
  obtain ⟨hu64, he64, huL, hLe, hall⟩ := small_of hu he hl hsm
  have hX1 := abs_le.1 hX
  have hp' := half_error hA hu64 (by linarith) hp
  have hm' := half_error hA hu64 (by linarith) hm
  have hv := hA.mul lam y
  have hLy : |lam * y| ≤ lam := by rw [abs_mul, abs_of_nonneg hl]; nlinarith
  have hK0 : 0 ≤ logisticK lam X y := by unfold logisticK; positivity
  have hK2 : logisticK lam X y ≤ 1 := by
    unfold logisticK
    rw [div_le_one (by positivity)]
    rcases le_total 0 y with h | h
    · have : Real.exp (-lam * y * (X + 1) / 2) ≤ 1 := Real.exp_le_one_iff.2 (by
        have := mul_nonneg (mul_nonneg hl h) (by linarith : 0 ≤ X + 1)
        linarith)
      linarith [Real.exp_pos (-lam * y)]
    · have : Real.exp (-lam * y * (X + 1) / 2) ≤ Real.exp (-lam * y) := Real.exp_le_exp.2 (by
        have := mul_nonneg (mul_nonneg hl (neg_nonneg.2 h)) (by linarith : 0 ≤ 1 - X)
        nlinarith)
      linarith
  -- the two ways of writing the exponent agree but for underflow
  have hfin : ∀ T : ℝ, T ≤ lam * (|y| + y * X) / 2 + 2 * eta →
      ∀ r : ℝ, |r - logisticK lam X y| ≤ 22 * u * (1 + T) * logisticK lam X y + 36 * (1 + lam) * eta →
      |r - logisticK lam X y| ≤ 22 * u * (1 + lam * (|y| + y * X) / 2) * logisticK lam X y + 40 * (1 + lam) * eta := by
    intro T hT r hr
    refine hr.trans ?_
    have h1 := mul_nonneg hu hK0
    have h2 := mul_le_mul_of_nonneg_left hT h1
    have h3 : u * logisticK lam X y ≤ 1 / 64 * 1 := mul_le_mul hu64 hK2 hK0 (by norm_num)
    have h4 := mul_le_mul_of_nonneg_right h3 he
    have h5 := mul_nonneg hl he
    nlinarith
  have hdef : logisticFl A lam x y xp xm = A.div (A.exp (A.mul (-|A.mul lam y|)
      (if A.mul lam y > 0 then A.mul 0.5 (xp.getD (A.add 1 x)) else A.mul 0.5 (xm.getD (A.sub 1 x)))))
      (A.add 1 (A.exp (-|A.mul lam y|))) := rfl
  rw [hdef]
  by_cases hpos : A.mul lam y > 0
  · rw [if_pos hpos]
    have h := logistic_core hA hl hsm hLy (by linarith : 0 ≤ (1 + X) / 2) (by linarith) (abs_nonneg (A.mul lam y))
      (by rw [abs_of_pos hpos]; exact hv) hp'
    have hk : logisticK lam X y = Real.exp (-(lam * y * ((1 + X) / 2))) / (1 + Real.exp (-(lam * y))) := by
      unfold logisticK
      congr 2 <;> ring_nf
    rw [← hk] at h
    refine hfin _ ?_ _ h
    rcases lt_or_ge (lam * y) 0 with hneg | hnn
    · have h1 := nonneg_error (by linarith : u ≤ 1 / 2) hpos.le hv hneg
      have h2 : 0 ≤ lam * (|y| + y * X) / 2 := by
        have : 0 ≤ |y| + y * X := by
          have := neg_abs_le (y * X)
          rw [abs_mul] at this
          nlinarith [abs_nonneg y]
        positivity
      nlinarith [abs_nonneg (lam * y)]
    · rcases eq_or_lt_of_le hl with h0 | h0
      · rw [← h0]
        simp [he]
      · have : 0 ≤ y := nonneg_of_mul_nonneg_right hnn h0
        rw [abs_of_nonneg hnn, abs_of_nonneg this]
        linarith
  · rw [if_neg hpos]
    have hle : A.mul lam y ≤ 0 := not_lt.1 hpos
    have hv' : |-A.mul lam y - -(lam * y)| ≤ u * |-(lam * y)| + eta := by
      rw [abs_neg, neg_sub_neg, abs_sub_comm]
      exact hv
    have h := logistic_core hA hl hsm (by rw [abs_neg]; exact hLy) (by linarith : 0 ≤ (1 - X) / 2) (by linarith)
      (abs_nonneg (A.mul lam y)) (by rw [abs_of_nonpos hle]; exact hv') hm'
    have hk : logisticK lam X y = Real.exp (-(-(lam * y) * ((1 - X) / 2))) / (1 + Real.exp (-(-(lam * y)))) := by
      unfold logisticK
      rw [flip_logistic]
      congr 2 <;> ring_nf
    rw [← hk] at h
    refine hfin _ ?_ _ h
    rcases lt_or_ge (-(lam * y)) 0 with hneg | hnn
    · have h1 := nonneg_error (by linarith : u ≤ 1 / 2) (neg_nonneg.2 hle) hv' hneg
      have h2 : 0 ≤ lam * (|y| + y * X) / 2 := by
        have : 0 ≤ |y| + y * X := by
          have := neg_abs_le (y * X)
          rw [abs_mul] at this
          nlinarith [abs_nonneg y]
        positivity
      nlinarith [abs_nonneg (-(lam * y))]
    · rcases eq_or_lt_of_le hl with h0 | h0
      · rw [← h0]
        simp [he]
      · have : y ≤ 0 := by
          by_contra hc
          have := mul_pos h0 (not_le.1 hc)
          linarith
        rw [abs_of_nonneg hnn, abs_of_nonpos this]
        linarith

/-- The weight of the logistic kernel against its condition. -/
theorem logistic_weight {lam X y : ℝ} (hl : 0 ≤ lam) :
    (1 + lam * (|y| + y * X) / 2) * logisticK lam X y ≤ 1 := by
  have hk : logisticK lam X y = Real.exp (-(lam * (|y| + y * X) / 2)) / (1 + Real.exp (-(lam * |y|))) := by
    unfold logisticK
    rcases le_total 0 y with h | h
    · rw [abs_of_nonneg h]
      congr 2 <;> ring_nf
    · rw [abs_of_nonpos h, flip_logistic]
      congr 2 <;> ring_nf
  rw [hk]
  generalize lam * (|y| + y * X) / 2 = t
  have h1 := Real.add_one_le_exp t
  have h2 : Real.exp t * Real.exp (-t) = 1 := by rw [← Real.exp_add]; simp
  have h3 := Real.exp_pos (-t)
  rw [← mul_div_assoc, div_le_one (by positivity)]
  have := Real.exp_pos (-(lam * |y|))
  nlinarith

end Verif.Kernel
