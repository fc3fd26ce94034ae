import Verif.Lemmas.Poly
import Mathlib.MeasureTheory.Integral.IntervalIntegral.Basic
/-! Integrals of piecewise functions. -/

namespace Verif.Poly
open MeasureTheory

variable {E : Type _} [NormedAddCommGroup E] [NormedSpace ℝ E]

/-- A function that agrees with continuous functions on the (open) segments is integrable and its
integral is the sum of the segment integrals. -/
theorem integral_piecewise {n : ℕ} (k : Fin (n + 1) → ℝ) (hk : Monotone k) (F : ℝ → E)
    (G : Fin n → ℝ → E) (hG : ∀ i, Continuous (G i))
    (hFG : ∀ i, ∀ x, k i.castSucc < x → x < k i.succ → F x = G i x) :
    IntervalIntegrable F volume (k 0) (k (Fin.last n)) ∧
    ∫ x in (k 0)..(k (Fin.last n)), F x = ∑ i : Fin n, ∫ x in (k i.castSucc)..(k i.succ), G i x := by
  let a : ℕ → ℝ := fun j => if h : j < n + 1 then k ⟨j, h⟩ else 0
  have ha : ∀ j (h : j < n + 1), a j = k ⟨j, h⟩ := fun j h => dif_pos h
  have hint : ∀ j < n, IntervalIntegrable F volume (a j) (a (j + 1)) := by
    intro j hj
    rw [ha j (by omega), ha (j + 1) (by omega)]
    refine ((hG ⟨j, hj⟩).intervalIntegrable _ _).congr_uIoo ?_
    rw [Set.uIoo_of_le (hk (by rw [Fin.le_def]; simp))]
    intro x hx
    exact (hFG ⟨j, hj⟩ x hx.1 hx.2).symm
  have h0 : a 0 = k 0 := ha 0 (by omega)
  have hn : a n = k (Fin.last n) := ha n (by omega)
  constructor
  · rw [← h0, ← hn]
    exact IntervalIntegrable.trans_iterate hint
  · rw [← h0, ← hn, ← intervalIntegral.sum_integral_adjacent_intervals hint, Finset.sum_range]
    apply Finset.sum_congr rfl
    intro i _
    rw [ha i (by omega), ha (i + 1) (by omega)]
    apply intervalIntegral.integral_congr_Ioo_of_le (hk (by rw [Fin.le_def]; simp))
    intro x hx
    exact hFG i x hx.1 hx.2

variable {ι : Type _}

theorem fn_eq {p : PPoly ι} (h : p.WF) (l : ι) {i : Fin p.nseg} {x : ℝ}
    (h1 : p.knots i.castSucc < x) (h2 : x < p.knots i.succ) :
    fn p l x = Spec.segFun (p.knots i.castSucc) (p.knots i.succ) (p.coef i l) x := by
  rw [fn, PPoly.call_eq h (i := i) ⟨h1.le, Or.inl h2⟩]

theorem segFun_continuous (a b : ℝ) (c : List ℝ) : Continuous (Spec.segFun a b c) := by
  rw [segFun_affine]
  have := (Legendre.series c).continuous
  fun_prop

end Verif.Poly
