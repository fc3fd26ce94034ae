import Verif.Spec.Legendre
import Mathlib.Analysis.SpecialFunctions.Integrals.Basic
import Mathlib.Analysis.Calculus.Deriv.Polynomial
import Mathlib.MeasureTheory.Integral.IntervalIntegral.IntegrationByParts
import Mathlib.Tactic.LinearCombination
import Mathlib.Topology.Algebra.Polynomial
/-! Theory of Legendre polynomials: recurrences, parity, orthogonality. -/

namespace Verif.Legendre
open Polynomial Verif.Spec

local notation "P" => legendre

theorem bonnet (n : ℕ) : C ((n : ℝ) + 2) * P (n + 2) =
    C (2 * (n : ℝ) + 3) * X * P (n + 1) - C ((n : ℝ) + 1) * P n := by
  rw [legendre, ← mul_assoc, ← C_mul]
  have : ((n : ℝ) + 2) * (1 / ((n : ℝ) + 2)) = 1 := by
    have : (n : ℝ) + 2 ≠ 0 := by positivity
    field_simp
  rw [this]; simp

theorem bonnet_eval (n : ℕ) (x : ℝ) : ((n : ℝ) + 2) * (P (n + 2)).eval x =
    (2 * (n : ℝ) + 3) * x * (P (n + 1)).eval x - ((n : ℝ) + 1) * (P n).eval x := by
  have := congrArg (Polynomial.eval x) (bonnet n)
  simpa using this

@[simp] theorem legendre_zero : P 0 = 1 := by rw [legendre]
@[simp] theorem legendre_one : P 1 = X := by rw [legendre]

theorem eval_one (n : ℕ) : (P n).eval 1 = 1 := by
  induction n using Nat.twoStepInduction with
  | zero => simp
  | one => simp
  | more n h1 h2 =>
    have := bonnet_eval n 1
    rw [h1, h2] at this
    have h3 : (n : ℝ) + 2 ≠ 0 := by positivity
    apply mul_left_cancel₀ h3
    rw [this]; ring

theorem eval_neg (n : ℕ) (x : ℝ) : (P n).eval (-x) = (-1) ^ n * (P n).eval x := by
  induction n using Nat.twoStepInduction with
  | zero => simp
  | one => simp
  | more n h1 h2 =>
    have e1 := bonnet_eval n x
    have e2 := bonnet_eval n (-x)
    rw [h1, h2] at e2
    have h3 : (n : ℝ) + 2 ≠ 0 := by positivity
    apply mul_left_cancel₀ h3
    rw [e2]
    linear_combination -(-1) ^ n * e1

theorem deriv_relations (n : ℕ) :
    derivative (P (n + 1)) = X * derivative (P n) + C ((n : ℝ) + 1) * P n ∧
    X * derivative (P (n + 1)) - derivative (P n) = C ((n : ℝ) + 1) * P (n + 1) := by
  induction n with
  | zero => simp
  | succ n ih =>
    obtain ⟨hA, hB⟩ := ih
    have hb := bonnet n
    have hb' : C ((n : ℝ) + 2) * derivative (P (n + 2)) =
        C (2 * (n : ℝ) + 3) * (P (n + 1) + X * derivative (P (n + 1)))
          - C ((n : ℝ) + 1) * derivative (P n) := by
      have := congrArg derivative hb
      simp only [derivative_mul, derivative_C, derivative_sub, zero_mul, zero_add, derivative_X] at this
      rw [this]; ring
    have hc : (C ((n : ℝ) + 2) : ℝ[X]) ≠ 0 := by
      rw [Ne, C_eq_zero]; positivity
    have hA' : derivative (P (n + 2)) =
        X * derivative (P (n + 1)) + C ((n : ℝ) + 2) * P (n + 1) := by
      apply mul_left_cancel₀ hc
      rw [hb']
      simp only [C_add, C_mul, C_ofNat, C_1] at *
      linear_combination (C (n : ℝ) + 1) * hB
    have hB' : X * derivative (P (n + 2)) - derivative (P (n + 1)) = C ((n : ℝ) + 2) * P (n + 2) := by
      rw [hb, hA']
      simp only [C_add, C_mul, C_ofNat, C_1] at *
      linear_combination X * hB - hA
    constructor
    · rw [hA']; push_cast; rw [show ((n : ℝ) + 1 + 1) = n + 2 by ring]
    · rw [hB']; push_cast; rw [show ((n : ℝ) + 1 + 1) = n + 2 by ring]

/-- `P'_{n+2} - P'_n = (2n+3) P_{n+1}` -/
theorem deriv_diff (n : ℕ) :
    derivative (P (n + 2)) - derivative (P n) = C (2 * (n : ℝ) + 3) * P (n + 1) := by
  have h1 := (deriv_relations (n + 1)).1
  have h2 := (deriv_relations n).2
  push_cast at h1
  rw [show n + 1 + 1 = n + 2 from rfl] at h1
  simp only [C_add, C_mul, C_ofNat, C_1] at *
  linear_combination h1 + h2

/-- `(1 - x²) P'_{n+1} = (n+1) (P_n - x P_{n+1})` -/
theorem one_sub_sq_deriv (n : ℕ) :
    (1 - X ^ 2) * derivative (P (n + 1)) = C ((n : ℝ) + 1) * (P n - X * P (n + 1)) := by
  obtain ⟨hA, hB⟩ := deriv_relations n
  linear_combination hA - X * hB

/-- Legendre's differential equation. -/
theorem ode (n : ℕ) :
    derivative ((1 - X ^ 2) * derivative (P n)) = - C ((n : ℝ) * (n + 1)) * P n := by
  cases n with
  | zero => simp
  | succ n =>
    rw [one_sub_sq_deriv]
    obtain ⟨hA, hB⟩ := deriv_relations n
    simp only [derivative_mul, derivative_C, derivative_sub, zero_mul, zero_add, derivative_X]
    push_cast
    simp only [C_add, C_mul, C_1] at *
    linear_combination -(C (n : ℝ) + 1) * hB

theorem natDegree_le (n : ℕ) : (P n).natDegree ≤ n := by
  induction n using Nat.twoStepInduction with
  | zero => simp
  | one => simp
  | more n h1 h2 =>
    rw [legendre]
    refine (natDegree_C_mul_le _ _).trans ?_
    refine (natDegree_sub_le _ _).trans ?_
    rw [max_le_iff]
    constructor
    · rw [mul_assoc]
      refine (natDegree_C_mul_le _ _).trans ?_
      refine natDegree_mul_le.trans ?_
      rw [natDegree_X]; omega
    · refine (natDegree_C_mul_le _ _).trans ?_
      omega

theorem coeff_self (n : ℕ) : (P (n + 1)).coeff (n + 1) =
    (2 * (n : ℝ) + 1) / ((n : ℝ) + 1) * (P n).coeff n := by
  cases n with
  | zero => simp
  | succ n =>
    rw [legendre]
    rw [coeff_C_mul, coeff_sub, mul_assoc, coeff_C_mul, coeff_X_mul, coeff_C_mul,
      coeff_eq_zero_of_natDegree_lt (p := P n) (lt_of_le_of_lt (natDegree_le n) (by omega))]
    push_cast
    have : (n : ℝ) + 2 ≠ 0 := by positivity
    field_simp
    ring

theorem coeff_self_pos (n : ℕ) : 0 < (P n).coeff n := by
  induction n with
  | zero => simp
  | succ n ih => rw [coeff_self]; positivity

theorem natDegree_eq (n : ℕ) : (P n).natDegree = n :=
  le_antisymm (natDegree_le n) (le_natDegree_of_ne_zero (coeff_self_pos n).ne')

theorem legendre_ne_zero (n : ℕ) : P n ≠ 0 := by
  intro h
  have := coeff_self_pos n
  rw [h] at this
  simp at this

theorem leadingCoeff_pos (n : ℕ) : 0 < (P n).leadingCoeff := by
  rw [leadingCoeff, natDegree_eq]; exact coeff_self_pos n

/-- Integral over [-1, 1]. -/
noncomputable def I (p : ℝ[X]) : ℝ := ∫ x in (-1 : ℝ)..1, p.eval x

theorem intble (p : ℝ[X]) (a b : ℝ) :
    IntervalIntegrable (fun x => p.eval x) MeasureTheory.volume a b :=
  p.continuous.intervalIntegrable a b

theorem I_add (p q : ℝ[X]) : I (p + q) = I p + I q := by
  simp only [I, eval_add]
  exact intervalIntegral.integral_add (intble p _ _) (intble q _ _)

theorem I_sub (p q : ℝ[X]) : I (p - q) = I p - I q := by
  simp only [I, eval_sub]
  exact intervalIntegral.integral_sub (intble p _ _) (intble q _ _)

theorem I_C_mul (c : ℝ) (p : ℝ[X]) : I (C c * p) = c * I p := by
  simp only [I, eval_mul, eval_C]
  exact intervalIntegral.integral_const_mul _ _

theorem I_neg (p : ℝ[X]) : I (-p) = - I p := by
  have := I_C_mul (-1) p
  simpa using this

theorem I_zero : I 0 = 0 := by simp [I]

theorem I_sum {ι : Type _} (s : Finset ι) (f : ι → ℝ[X]) : I (∑ i ∈ s, f i) = ∑ i ∈ s, I (f i) := by
  classical
  induction s using Finset.induction_on with
  | empty => simp [I_zero]
  | insert a s ha ih => rw [Finset.sum_insert ha, Finset.sum_insert ha, I_add, ih]

theorem I_derivative (p : ℝ[X]) : I (derivative p) = p.eval 1 - p.eval (-1) := by
  unfold I
  apply intervalIntegral.integral_eq_sub_of_hasDerivAt (f := fun x => p.eval x)
  · intro x _; exact p.hasDerivAt x
  · exact intble _ _ _

theorem orthogonal {m n : ℕ} (h : m ≠ n) : I (P m * P n) = 0 := by
  have e : derivative ((1 - X ^ 2) * derivative (P m) * P n -
      (1 - X ^ 2) * derivative (P n) * P m) =
      C ((n : ℝ) * (n + 1) - (m : ℝ) * (m + 1)) * (P m * P n) := by
    have h1 := ode m
    have h2 := ode n
    rw [derivative_sub, derivative_mul (f := (1 - X ^ 2) * derivative (P m)),
      derivative_mul (f := (1 - X ^ 2) * derivative (P n)), h1, h2]
    simp only [C_sub, C_mul, C_add, C_1]
    ring
  have h3 := I_derivative ((1 - X ^ 2) * derivative (P m) * P n -
      (1 - X ^ 2) * derivative (P n) * P m)
  rw [e, I_C_mul] at h3
  have h4 : ((n : ℝ) * (n + 1) - (m : ℝ) * (m + 1)) ≠ 0 := by
    intro h5
    apply h
    have h6 : ((n : ℝ) - m) * (n + m + 1) = 0 := by linear_combination h5
    rcases mul_eq_zero.1 h6 with h7 | h7
    · have : (n : ℝ) = m := by linarith
      exact_mod_cast this.symm
    · have : (0 : ℝ) < n + m + 1 := by positivity
      linarith
  have h5 : ((n : ℝ) * (n + 1) - (m : ℝ) * (m + 1)) * I (P m * P n) = 0 := by
    rw [h3]; simp
  exact (mul_eq_zero.1 h5).resolve_left h4

/-- Every polynomial of degree `< n` is a combination of `P₀, ..., P_{n-1}`. -/
theorem exists_expansion (n : ℕ) (q : ℝ[X]) (hq : q.degree < n) :
    ∃ c : ℕ → ℝ, q = ∑ k ∈ Finset.range n, C (c k) * P k := by
  induction n generalizing q with
  | zero =>
    refine ⟨fun _ => 0, ?_⟩
    have : q = 0 := by
      rw [← degree_eq_bot]
      by_contra hne
      have h1 := degree_eq_natDegree (p := q) (by rintro rfl; simp at hne)
      rw [h1] at hq
      exact absurd (by exact_mod_cast hq) (Nat.not_lt_zero q.natDegree)
    simp [this]
  | succ n ih =>
    have hc := (coeff_self_pos n).ne'
    set q' := q - C (q.coeff n / (P n).coeff n) * P n with hq'
    have hdeg : q'.degree < n := by
      rw [degree_lt_iff_coeff_zero]
      intro m hm
      rcases eq_or_lt_of_le hm with rfl | hm
      · rw [hq', coeff_sub, coeff_C_mul]; field_simp; ring
      · rw [hq', coeff_sub, coeff_C_mul,
          coeff_eq_zero_of_degree_lt (lt_of_lt_of_le hq (by exact_mod_cast hm)),
          coeff_eq_zero_of_natDegree_lt (lt_of_le_of_lt (natDegree_le n) hm)]
        ring
    obtain ⟨c, hcq⟩ := ih q' hdeg
    refine ⟨fun k => if k = n then q.coeff n / (P n).coeff n else c k, ?_⟩
    rw [Finset.sum_range_succ]
    have e1 : ∑ k ∈ Finset.range n,
        C (if k = n then q.coeff n / (P n).coeff n else c k) * P k = q' := by
      rw [hcq]
      apply Finset.sum_congr rfl
      intro k hk
      rw [if_neg (Finset.mem_range.1 hk).ne]
    simp only [if_true]
    rw [e1, hq']
    ring

theorem orthogonal_of_degree_lt {n : ℕ} {q : ℝ[X]} (hq : q.degree < n) : I (q * P n) = 0 := by
  obtain ⟨c, rfl⟩ := exists_expansion n q hq
  rw [Finset.sum_mul, I_sum]
  apply Finset.sum_eq_zero
  intro k hk
  rw [mul_assoc, I_C_mul, orthogonal (Finset.mem_range.1 hk).ne, mul_zero]

theorem degree_derivative_lt (n : ℕ) : (derivative (P n)).degree < n := by
  refine lt_of_lt_of_le (Polynomial.degree_derivative_lt (legendre_ne_zero n)) ?_
  exact degree_le_of_natDegree_le (natDegree_le n)

/-- `∫ P_n² = 2/(2n+1)` -/
theorem norm_sq (n : ℕ) : I (P n * P n) = 2 / (2 * (n : ℝ) + 1) := by
  cases n with
  | zero =>
    simp [I]; norm_num
  | succ n =>
    have h1 := deriv_diff n
    have h2 : C (2 * (n : ℝ) + 3) * (P (n + 1) * P (n + 1)) =
        derivative (P (n + 2) * P (n + 1)) - derivative (P (n + 1)) * P (n + 2)
          - derivative (P n) * P (n + 1) := by
      rw [derivative_mul]
      linear_combination -P (n + 1) * h1
    have h3 := congrArg I h2
    rw [I_C_mul, I_sub, I_sub, I_derivative,
      orthogonal_of_degree_lt (lt_trans (degree_derivative_lt (n + 1)) (by exact_mod_cast Nat.lt_succ_self (n+1))),
      orthogonal_of_degree_lt (lt_trans (degree_derivative_lt n) (by exact_mod_cast Nat.lt_succ_self n))] at h3
    simp only [eval_mul, eval_one, eval_neg, mul_one, sub_zero] at h3
    have h4 : ((-1 : ℝ) ^ (n + 2) * (-1) ^ (n + 1)) = -1 := by
      rw [← pow_add, show n + 2 + (n + 1) = 2 * (n + 1) + 1 by ring, pow_succ, pow_mul]; simp
    rw [h4] at h3
    push_cast
    have h5 : (2 * ((n : ℝ) + 1) + 1) ≠ 0 := by positivity
    rw [eq_div_iff h5]
    linarith

end Verif.Legendre
