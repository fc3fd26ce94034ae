import Verif.Lemmas.Legendre
import Mathlib.Analysis.Calculus.MeanValue
import Mathlib.Analysis.Calculus.Deriv.Polynomial
/-! Bounds for Legendre polynomials and for the other solutions of their recurrence, slightly beyond `[-1, 1]`. -/

namespace Verif.Legendre
open Polynomial Verif.Spec

/-- Bonnet's recurrence for a sequence, from the index `r` on. -/
def IsSol (x : ℝ) (r : ℕ) (y : ℕ → ℝ) : Prop :=
  ∀ m, r ≤ m → ((m : ℝ) + 2) * y (m + 2) = (2 * (m : ℝ) + 3) * x * y (m + 1) - ((m : ℝ) + 1) * y m

theorem isSol_legendre (x : ℝ) : IsSol x 0 fun m => (legendre m).eval x := fun m _ => bonnet_eval m x

/-- The quadratic form which does not grow along a solution. -/
def energy (x p q : ℝ) : ℝ := (x * q - p) ^ 2 + (1 - x ^ 2) * q ^ 2

variable {x d : ℝ} {r n : ℕ} {y : ℕ → ℝ}

theorem sol_step (h : IsSol x r y) {m : ℕ} (hm : r ≤ m) :
    y (m + 2) - x * y (m + 1) = ((m : ℝ) + 1) / (m + 2) * (x * y (m + 1) - y m) := by
  have h1 := h m hm
  have h2 : (m : ℝ) + 2 ≠ 0 := by positivity
  field_simp
  linear_combination h1

theorem ratio_le (m : ℕ) : 0 ≤ ((m : ℝ) + 1) / (m + 2) ∧ ((m : ℝ) + 1) / (m + 2) ≤ 1 :=
  ⟨by positivity, by rw [div_le_one (by positivity)]; linarith⟩

theorem energy_step (h : IsSol x r y) {m : ℕ} (hm : r ≤ m) :
    energy x (y (m + 1)) (y (m + 2)) ≤ energy x (y m) (y (m + 1)) := by
  have h1 := sol_step h hm
  obtain ⟨t0, t1⟩ := ratio_le m
  have h2 : energy x (y (m + 1)) (y (m + 2)) = (y (m + 2) - x * y (m + 1)) ^ 2 + (1 - x ^ 2) * y (m + 1) ^ 2 := by
    unfold energy; ring
  rw [h2, h1, mul_pow]
  unfold energy
  have h3 : (((m : ℝ) + 1) / (m + 2)) ^ 2 ≤ 1 := by nlinarith
  have := mul_le_mul_of_nonneg_right h3 (sq_nonneg (x * y (m + 1) - y m))
  linarith

theorem energy_le (h : IsSol x r y) (j : ℕ) :
    energy x (y (r + j)) (y (r + j + 1)) ≤ energy x (y r) (y (r + 1)) := by
  induction j with
  | zero => rfl
  | succ j ih => exact (energy_step h (Nat.le_add_right r j)).trans ih

/-- Within `[-1, 1]`, a solution of energy at most one grows at most by one in each step. -/
theorem sol_le_inside (hx : |x| ≤ 1) (h : IsSol x r y) (hE : energy x (y r) (y (r + 1)) ≤ 1) (h0 : |y r| ≤ 1)
    (j : ℕ) : |y (r + j)| ≤ j + 1 := by
  induction j with
  | zero => simpa using h0
  | succ j ih =>
    have h1 := (energy_le h j).trans hE
    have h2 : (y (r + j + 1) - x * y (r + j)) ^ 2 ≤ 1 := by
      unfold energy at h1
      have hx2 : x ^ 2 ≤ 1 := (sq_le_one_iff_abs_le_one x).2 hx
      have : (y (r + j + 1) - x * y (r + j)) ^ 2 + (1 - x ^ 2) * y (r + j) ^ 2 ≤ 1 := by
        calc _ = (x * y (r + j + 1) - y (r + j)) ^ 2 + (1 - x ^ 2) * y (r + j + 1) ^ 2 := by ring
          _ ≤ 1 := h1
      have := mul_nonneg (sub_nonneg.2 hx2) (sq_nonneg (y (r + j)))
      linarith
    have h3 := (sq_le_one_iff_abs_le_one _).1 h2
    have h4 : |y (r + j + 1)| ≤ |y (r + j + 1) - x * y (r + j)| + |x * y (r + j)| := by
      have := abs_add_le (y (r + j + 1) - x * y (r + j)) (x * y (r + j))
      rwa [sub_add_cancel] at this
    rw [abs_mul] at h4
    have h5 := mul_le_mul_of_nonneg_right hx (abs_nonneg (y (r + j)))
    push_cast
    rw [← Nat.add_assoc]
    linarith

theorem sq_sub_one_le (hx1 : 1 ≤ |x|) (hx : |x| ≤ 1 + d) (hd1 : d ≤ 1 / 24) : |x ^ 2 - 1| ≤ 33 / 16 * d := by
  have hd0 : 0 ≤ d := by linarith
  have h1 : x ^ 2 = |x| ^ 2 := (sq_abs x).symm
  rw [h1, abs_of_nonneg (by nlinarith)]
  nlinarith

theorem diff_step (h : IsSol x r y) (hx1 : 1 ≤ |x|) (hx : |x| ≤ 1 + d) (hd1 : d ≤ 1 / 24) {m : ℕ} (hm : r ≤ m) :
    |y (m + 2) - x * y (m + 1)| ≤ (1 + d) * |y (m + 1) - x * y m| + 33 / 16 * d * |y m| := by
  rw [sol_step h hm, abs_mul]
  obtain ⟨t0, t1⟩ := ratio_le m
  rw [abs_of_nonneg t0]
  have h1 : x * y (m + 1) - y m = x * (y (m + 1) - x * y m) + (x ^ 2 - 1) * y m := by ring
  have h2 := abs_add_le (x * (y (m + 1) - x * y m)) ((x ^ 2 - 1) * y m)
  rw [← h1, abs_mul, abs_mul] at h2
  have h3 := mul_le_mul_of_nonneg_right hx (abs_nonneg (y (m + 1) - x * y m))
  have h4 := mul_le_mul_of_nonneg_right (sq_sub_one_le hx1 hx hd1) (abs_nonneg (y m))
  have h5 := mul_le_mul_of_nonneg_right t1 (abs_nonneg (x * y (m + 1) - y m))
  linarith

theorem value_step (hx : |x| ≤ 1 + d) (m : ℕ) : |y (m + 1)| ≤ |y (m + 1) - x * y m| + (1 + d) * |y m| := by
  have h1 := abs_add_le (y (m + 1) - x * y m) (x * y m)
  rw [sub_add_cancel, abs_mul] at h1
  have := mul_le_mul_of_nonneg_right hx (abs_nonneg (y m))
  linarith

/-- A solution which starts with `0, 1` or `1, 0` grows at most linearly, also slightly outside of `[-1, 1]`. -/
theorem sol_le (hd0 : 0 ≤ d) (hd : 24 * (n : ℝ) ^ 2 * d ≤ 1) (hx : |x| ≤ 1 + d) (h : IsSol x r y)
    (hs : (y r = 0 ∧ y (r + 1) = 1) ∨ (y r = 1 ∧ y (r + 1) = 0)) {j : ℕ} (hj : j ≤ n) (hn : 1 ≤ n) :
    |y (r + j)| ≤ 3 / 2 * (j + 1) := by
  rcases le_or_gt |x| 1 with hx1 | hx1
  · have h1 := sol_le_inside hx1 h (by rcases hs with ⟨a, b⟩ | ⟨a, b⟩ <;> rw [a, b] <;> unfold energy <;> ring_nf <;> rfl)
      (by rcases hs with ⟨a, -⟩ | ⟨a, -⟩ <;> rw [a] <;> norm_num) j
    have : (0 : ℝ) ≤ j := Nat.cast_nonneg j
    linarith
  · have hn1 : (1 : ℝ) ≤ n := by exact_mod_cast hn
    have hdn : 24 * (n : ℝ) * d ≤ 1 := by nlinarith
    have hd1 : d ≤ 1 / 24 := by nlinarith
    have key : ∀ j : ℕ, j + 1 ≤ n → |y (r + j)| ≤ 3 / 2 * (j + 1) ∧ |y (r + j + 1)| ≤ 3 / 2 * (j + 2) ∧
        |y (r + j + 1) - x * y (r + j)| ≤ 1 + d + 6 * d * n * j := by
      intro j
      induction j with
      | zero =>
        intro _
        rcases hs with ⟨a, b⟩ | ⟨a, b⟩ <;> simp only [Nat.add_zero, Nat.cast_zero, a, b] <;> refine ⟨?_, ?_, ?_⟩ <;>
          norm_num <;> linarith
      | succ j ih =>
        intro hj
        obtain ⟨i1, i2, i3⟩ := ih (by omega)
        have hjn : (j : ℝ) + 2 ≤ n := by exact_mod_cast hj
        have hj0 : (0 : ℝ) ≤ j := Nat.cast_nonneg j
        have e1 := diff_step h hx1.le hx hd1 (Nat.le_add_right r j)
        have e2 := value_step (y := y) hx (r + j + 1)
        have f1 : 6 * d * n * j ≤ 1 / 4 := by
          have : d * n * j ≤ d * n * n := mul_le_mul_of_nonneg_left (by linarith) (by positivity)
          nlinarith
        have f2 : d * |y (r + j + 1) - x * y (r + j)| ≤ d * (3 / 2) :=
          mul_le_mul_of_nonneg_left (by linarith) hd0
        have f3 : d * |y (r + j)| ≤ d * (3 / 2 * n) := mul_le_mul_of_nonneg_left (by linarith) hd0
        have f4 : d * |y (r + j + 1)| ≤ d * (3 / 2 * n) := mul_le_mul_of_nonneg_left (by linarith) hd0
        have f5 : d ≤ d * n := by nlinarith
        have e3 : |y (r + j + 2) - x * y (r + j + 1)| ≤ 1 + d + 6 * d * n * (j + 1) := by
          refine e1.trans ?_
          nlinarith
        have f6 : 6 * d * n * (j + 1) ≤ 1 / 4 := by
          have : d * n * (j + 1) ≤ d * n * n := mul_le_mul_of_nonneg_left (by linarith) (by positivity)
          nlinarith
        refine ⟨?_, ?_, ?_⟩
        · push_cast
          rw [← Nat.add_assoc]
          linarith
        · push_cast
          rw [← Nat.add_assoc]
          have : r + j + 1 + 1 = r + j + 2 := rfl
          rw [this] at e2 ⊢
          linarith
        · push_cast
          rw [← Nat.add_assoc]
          exact e3
    rcases Nat.eq_zero_or_pos j with rfl | hj0
    · exact (key 0 (by omega)).1
    · obtain ⟨i, rfl⟩ : ∃ i, j = i + 1 := ⟨j - 1, by omega⟩
      have := (key i hj).2.1
      push_cast
      rw [← Nat.add_assoc]
      linarith

/-- `|P_j(x)| ≤ 1` for `|x| ≤ 1`. -/
theorem legendre_le_one (hx : |x| ≤ 1) (j : ℕ) : |(legendre j).eval x| ≤ 1 := by
  rcases eq_or_lt_of_le hx with h1 | h1
  · rcases (abs_eq (by norm_num : (0 : ℝ) ≤ 1)).1 h1 with rfl | rfl
    · rw [eval_one]; norm_num
    · rw [eval_neg, eval_one]
      simp
  · cases j with
    | zero => simp
    | succ j =>
      have h2 := energy_le (isSol_legendre x) j
      simp only [Nat.zero_add, legendre_zero, legendre_one, eval_one, Polynomial.eval_one, eval_X] at h2
      unfold energy at h2
      have hx2 : 0 < 1 - x ^ 2 := by have := (sq_lt_one_iff_abs_lt_one x).2 h1; linarith
      have h3 : (1 - x ^ 2) * (legendre (j + 1)).eval x ^ 2 ≤ (1 - x ^ 2) * 1 := by
        have := sq_nonneg (x * (legendre (j + 1)).eval x - (legendre j).eval x)
        nlinarith
      exact (sq_le_one_iff_abs_le_one _).1 (le_of_mul_le_mul_left h3 hx2)

/-- Slightly outside of `[-1, 1]`, Legendre polynomials are hardly larger. -/
theorem legendre_le (hd0 : 0 ≤ d) (hd : 24 * (n : ℝ) ^ 2 * d ≤ 1) (hx : |x| ≤ 1 + d) {j : ℕ} (hj : j ≤ n)
    (hn : 1 ≤ n) : |(legendre j).eval x| ≤ 5 / 4 := by
  rcases le_or_gt |x| 1 with hx1 | hx1
  · exact (legendre_le_one hx1 j).trans (by norm_num)
  · have hn1 : (1 : ℝ) ≤ n := by exact_mod_cast hn
    have hdn : 24 * (n : ℝ) * d ≤ 1 := by nlinarith
    have hd1 : d ≤ 1 / 24 := by nlinarith
    have key : ∀ j : ℕ, j + 1 ≤ n → |(legendre j).eval x| ≤ 1 + 5 * d * n * j ∧
        |(legendre (j + 1)).eval x| ≤ 1 + 5 * d * n * (j + 1) ∧
        |(legendre (j + 1)).eval x - x * (legendre j).eval x| ≤ 3 * d * j := by
      intro j
      induction j with
      | zero =>
        intro _
        have : d ≤ d * n := by nlinarith
        simp only [legendre_zero, zero_add, legendre_one, Polynomial.eval_one, eval_X, Nat.cast_zero, mul_zero,
          mul_one, sub_self, abs_zero, add_zero, abs_one, le_refl, true_and, and_true]
        nlinarith
      | succ j ih =>
        intro hj
        obtain ⟨i1, i2, i3⟩ := ih (by omega)
        have hjn : (j : ℝ) + 2 ≤ n := by exact_mod_cast hj
        have hj0 : (0 : ℝ) ≤ j := Nat.cast_nonneg j
        have e1 := diff_step (isSol_legendre x) hx1.le hx hd1 (Nat.zero_le j)
        have e2 := value_step (y := fun m => (legendre m).eval x) hx (j + 1)
        have g : ∀ t : ℝ, 0 ≤ t → t ≤ n → 5 * d * n * t ≤ 5 / 24 := by
          intro t ht htn
          have : d * n * t ≤ d * n * n := mul_le_mul_of_nonneg_left htn (by positivity)
          nlinarith
        have g1 := g j hj0 (by linarith)
        have g2 := g (j + 1) (by linarith) (by linarith)
        have f2 : d * |(legendre (j + 1)).eval x - x * (legendre j).eval x| ≤ d * (1 / 8) := by
          refine mul_le_mul_of_nonneg_left (i3.trans ?_) hd0
          have : d * (j : ℝ) ≤ d * n := mul_le_mul_of_nonneg_left (by linarith) hd0
          linarith
        have f3 : d * |(legendre j).eval x| ≤ d * (5 / 4) := mul_le_mul_of_nonneg_left (by linarith) hd0
        have f4 : d * |(legendre (j + 1)).eval x| ≤ d * (5 / 4) := mul_le_mul_of_nonneg_left (by linarith) hd0
        have e3 : |(legendre (j + 2)).eval x - x * (legendre (j + 1)).eval x| ≤ 3 * d * (j + 1) := by
          refine e1.trans ?_
          nlinarith
        refine ⟨?_, ?_, ?_⟩
        · push_cast
          exact i2
        · push_cast
          have f7 : d * ((j : ℝ) + 2) ≤ d * n := mul_le_mul_of_nonneg_left hjn hd0
          have e4 : |(legendre (j + 1 + 1)).eval x| ≤ 3 * d * (j + 1) + (1 + d) * |(legendre (j + 1)).eval x| :=
            e2.trans (add_le_add e3 le_rfl)
          nlinarith
        · push_cast
          exact e3
    have fin : ∀ t : ℝ, t ≤ n → 1 + 5 * d * n * t ≤ 5 / 4 := by
      intro t htn
      have : d * n * t ≤ d * n * n := mul_le_mul_of_nonneg_left htn (by positivity)
      nlinarith
    rcases Nat.eq_zero_or_pos j with rfl | hj0
    · simp; norm_num
    · obtain ⟨i, rfl⟩ : ∃ i, j = i + 1 := ⟨j - 1, by omega⟩
      exact ((key i hj).2.1).trans (fin _ (by exact_mod_cast hj))

theorem legendre_deriv_le (hd0 : 0 ≤ d) (hd : 24 * (n : ℝ) ^ 2 * d ≤ 1) (hx : |x| ≤ 1 + d) (hn : 1 ≤ n) :
    ∀ j : ℕ, j ≤ n → |(derivative (legendre j)).eval x| ≤ 5 / 8 * (j * (j + 1))
  | 0, _ => by simp
  | 1, _ => by simp; norm_num
  | j + 2, hj => by
    have h1 := legendre_deriv_le hd0 hd hx hn j (by omega)
    have h2 := congrArg (eval x) (deriv_diff j)
    rw [eval_sub, eval_mul, eval_C] at h2
    have h3 := legendre_le hd0 hd hx (show j + 1 ≤ n by omega) hn
    rw [sub_eq_iff_eq_add.1 h2]
    refine (abs_add_le _ _).trans ?_
    have hj0 : (0 : ℝ) ≤ 2 * j + 3 := by positivity
    rw [abs_mul, abs_of_nonneg hj0]
    have := mul_le_mul_of_nonneg_left h3 hj0
    push_cast
    linarith

/-- Legendre polynomials are Lipschitz. -/
theorem legendre_lip (hd0 : 0 ≤ d) (hd : 24 * (n : ℝ) ^ 2 * d ≤ 1) {z : ℝ} (hx : |x| ≤ 1 + d) (hz : |z| ≤ 1 + d)
    (hn : 1 ≤ n) {j : ℕ} (hj : j ≤ n) :
    |(legendre j).eval z - (legendre j).eval x| ≤ 5 / 8 * (j * (j + 1)) * |z - x| := by
  have := Convex.norm_image_sub_le_of_norm_deriv_le (f := fun t => (legendre j).eval t) (s := Set.Icc (-(1 + d)) (1 + d))
    (C := 5 / 8 * (j * (j + 1))) (x := x) (y := z) (fun t _ => (legendre j).differentiableAt)
    (fun t ht => by
      rw [Polynomial.deriv, Real.norm_eq_abs]
      exact legendre_deriv_le hd0 hd (abs_le.2 ht) hn j hj)
    (convex_Icc _ _) (abs_le.1 hx) (abs_le.1 hz)
  simpa only [Real.norm_eq_abs] using this

end Verif.Legendre
