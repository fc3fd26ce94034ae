import Verif.Model.Gauss
import Verif.Lemmas.GaussQuad
/-!
# C26: the recurrence evaluator returns value and derivative
-/

namespace Verif.Props
open Verif Verif.Gauss Verif.Spec Polynomial Verif.GaussQuad

theorem pvdLoop_spec (alpha beta : ℕ → ℝ) (x : ℝ) (j j' : ℕ) (h : j ≤ j') : ∀ k : ℕ,
    pvdLoop x ((List.range j).map fun i => alpha (k + 1 + i)) ((List.range j').map fun i => beta (k + 1 + i))
      ((opoly alpha beta (k + 1)).eval x, (opoly alpha beta (k + 1)).derivative.eval x,
        (opoly alpha beta k).eval x, (opoly alpha beta k).derivative.eval x) =
    .ok ((opoly alpha beta (k + j + 1)).eval x, (opoly alpha beta (k + j + 1)).derivative.eval x,
        (opoly alpha beta (k + j)).eval x, (opoly alpha beta (k + j)).derivative.eval x) := by
  induction j generalizing j' with
  | zero => intro k; simp [pvdLoop]
  | succ j ih =>
    intro k
    obtain ⟨i, rfl⟩ : ∃ i, j' = i + 1 := ⟨j' - 1, by omega⟩
    rw [List.range_succ_eq_map, List.range_succ_eq_map (n := i), List.map_cons, List.map_cons,
      List.map_map, List.map_map, pvdLoop]
    have hp : (opoly alpha beta (k + 1 + 1)).eval x = (x - alpha (k + 1 + 0)) * (opoly alpha beta (k + 1)).eval x -
        beta (k + 1 + 0) * (opoly alpha beta k).eval x := by
      rw [opoly]; simp
    have hd : (opoly alpha beta (k + 1 + 1)).derivative.eval x = (opoly alpha beta (k + 1)).eval x +
        (x - alpha (k + 1 + 0)) * (opoly alpha beta (k + 1)).derivative.eval x -
        beta (k + 1 + 0) * (opoly alpha beta k).derivative.eval x := by
      rw [opoly]; simp
    have := ih i (by omega) (k + 1)
    rw [hp, hd] at this
    rw [show k + 1 + j = k + (j + 1) by omega] at this
    rw [← this]
    congr 2
    · funext t; simp only [Function.comp, Nat.succ_eq_add_one]; congr 1; omega
    · funext t; simp only [Function.comp, Nat.succ_eq_add_one]; congr 1; omega

/-- `_polyvalderiv` returns value and derivative of the `n`-th polynomial and of the one before, for
all coefficient sequences (`beta` may be longer than `alpha`), all orders `n + 1` and all `x`. -/
theorem C26_polyvalderiv (alpha beta : ℕ → ℝ) (x : ℝ) (n m : ℕ) (h : n + 1 ≤ m) :
    polyValDeriv x ((List.range (n + 1)).map alpha) ((List.range m).map beta) =
      .ok ((opoly alpha beta (n + 1)).eval x, (opoly alpha beta (n + 1)).derivative.eval x,
        (opoly alpha beta n).eval x, (opoly alpha beta n).derivative.eval x) := by
  obtain ⟨i, rfl⟩ : ∃ i, m = i + 1 := ⟨m - 1, by omega⟩
  rw [List.range_succ_eq_map, List.range_succ_eq_map (n := i), List.map_cons, List.map_cons,
    List.map_map, List.map_map, polyValDeriv]
  have := pvdLoop_spec alpha beta x n i (by omega) 0
  simp only [zero_add, opoly, eval_sub, eval_X, eval_C, derivative_sub, derivative_X, derivative_C,
    sub_zero, derivative_one, eval_zero, Polynomial.eval_one] at this
  simp only [List.tail_cons, mul_one]
  rw [← this]
  congr 2
  · funext t; simp [Nat.add_comm]
  · funext t; simp [Nat.add_comm]

/-- With an empty `alpha` the code fails (`alpha[0]`). -/
theorem C26_empty (x : ℝ) (beta : List ℝ) : polyValDeriv x [] beta = .error .indexError := rfl

theorem legRec_eq (n : ℕ) : legendreRecurrence (n + 1) =
    .ok ((List.range (n + 1)).map (fun _ => 0), (List.range (n + 1)).map legBeta, -1, 1) := by
  unfold legendreRecurrence
  simp only [List.range_succ_eq_map, List.map_cons, List.map_map]
  have e1 : ∀ m : ℕ, List.replicate m (0 : ℝ) = (List.range m).map fun _ => 0 := by
    intro m; simp
  have e2 : ((fun k : ℝ => k / (4 * k - 1)) ∘ (fun k : ℕ => (k : ℝ) ^ 2) ∘ Nat.succ) =
      legBeta ∘ Nat.succ := by
    funext t; simp [legBeta]
  rw [e1, List.range_succ_eq_map, List.map_cons, List.map_map, e2]
  simp [legBeta]

theorem opoly_eq_legendre (k : ℕ) : opoly (fun _ => 0) legBeta k =
    C (1 / (legendre k).leadingCoeff) * legendre k := by
  have hc : (legendre k).leadingCoeff ≠ 0 := (Legendre.leadingCoeff_pos k).ne'
  have hlc : (legendre k).leadingCoeff = (legendre k).coeff k := by
    rw [leadingCoeff, Legendre.natDegree_eq]
  have h := legendre_eq_opoly k
  rw [← hlc] at h
  have h2 := congrArg (C (1 / (legendre k).leadingCoeff) * ·) h
  rw [h2, ← mul_assoc, ← C_mul, one_div_mul_cancel hc, C_1, one_mul]

/-- For the Legendre coefficients the polynomials are the monic Legendre polynomials: `P_n` divided by
its leading coefficient. -/
theorem C26_legendre (n : ℕ) (x : ℝ) : ∃ alpha beta, 
    legendreRecurrence (n + 1) = .ok (alpha, beta, -1, 1) ∧
    polyValDeriv x alpha beta =
      .ok ((legendre (n + 1)).eval x / (legendre (n + 1)).leadingCoeff,
        (legendre (n + 1)).derivative.eval x / (legendre (n + 1)).leadingCoeff,
        (legendre n).eval x / (legendre n).leadingCoeff,
        (legendre n).derivative.eval x / (legendre n).leadingCoeff) := by
  refine ⟨_, _, legRec_eq n, ?_⟩
  rw [C26_polyvalderiv _ _ _ _ _ (le_refl _)]
  simp only [opoly_eq_legendre, eval_mul, eval_C, derivative_mul, derivative_C, zero_mul, zero_add, one_div]
  simp only [div_eq_inv_mul]

example : polyValDeriv 2 [0, 0] [2, 1 / 3] = .ok (4 - 1 / 3, 4, 2, 1) := by
  norm_num [polyValDeriv, pvdLoop]

end Verif.Props
