import Verif.Model.Poly
import Verif.Lemmas.NpLegendre
import Mathlib.Order.Interval.Finset.Fin
import Mathlib.Tactic.NormNum
import Mathlib.Tactic.FinCases
/-! Evaluation of piecewise polynomials. -/

namespace Verif.Poly
open Verif Verif.Np Verif.Spec Verif.Legendre

theorem legval_eq_sum (x : ℝ) (c : List ℝ) : legval x c = legendreSum c x := by
  rw [legval_eq, series_eval, legendreSum, Finset.sum_range]
  apply Finset.sum_congr rfl
  intro k _
  simp [List.getD_eq_getElem?_getD]

section
variable {ι : Type _}

/-- The polynomial as a real function: `p(x)[l]` where it evaluates, 0 where it raises. -/
noncomputable def fn (p : PPoly ι) (l : ι) (x : ℝ) : ℝ :=
  match p.call x with
  | .ok v => v l
  | .error _ => 0

theorem legendreSum_eq_series (c : List ℝ) (t : ℝ) : legendreSum c t = (series c).eval t := by
  rw [← legval_eq_sum, legval_eq]

theorem segFun_affine (a b : ℝ) (c : List ℝ) : segFun a b c =
    fun x => Real.sqrt (2 / (b - a)) * (series c).eval (2 / (b - a) * x + (-(a + b) / (b - a))) := by
  funext x
  rw [segFun, legendreSum_eq_series]
  congr 2
  ring

end

namespace PPoly
variable {ι : Type _}

/-- Well-formed: at least one segment, strictly increasing knots, `dx` the exact differences. -/
structure WF (p : PPoly ι) : Prop where
  pos : 0 < p.nseg
  mono : StrictMono p.knots
  dx_eq : ∀ i, p.dx i = p.knots i.succ - p.knots i.castSucc

/-- `x` belongs to segment `i`: `knots[i] <= x < knots[i+1]`, or `x = xmax` and `i` is the last. -/
def InSeg (p : PPoly ι) (i : Fin p.nseg) (x : ℝ) : Prop :=
  p.knots i.castSucc ≤ x ∧ (x < p.knots i.succ ∨ ((i : ℕ) + 1 = p.nseg ∧ x = p.xmax))

theorem WF.dx_pos {p : PPoly ι} (h : p.WF) (i : Fin p.nseg) : 0 < p.dx i := by
  rw [h.dx_eq, sub_pos]; exact h.mono (Fin.castSucc_lt_succ)

theorem InSeg.le {p : PPoly ι} {i : Fin p.nseg} {x : ℝ} (hx : p.InSeg i x) :
    x ≤ p.knots i.succ := by
  rcases hx.2 with h | ⟨h1, h2⟩
  · exact h.le
  · rw [h2]; unfold xmax
    have : i.succ = Fin.last p.nseg := by ext; simpa using h1
    rw [this]

theorem searchsortedRight_eq {p : PPoly ι} (h : p.WF) {i : Fin p.nseg} {x : ℝ}
    (hx : p.InSeg i x) : min (p.searchsortedRight x) p.nseg - 1 = i := by
  unfold searchsortedRight
  rcases hx.2 with hx2 | ⟨h1, h2⟩
  · have : (Finset.univ.filter fun j => p.knots j ≤ x) = Finset.Iic i.castSucc := by
      ext j
      simp only [Finset.mem_filter, Finset.mem_univ, true_and, Finset.mem_Iic]
      constructor
      · intro hj
        have := h.mono.lt_iff_lt.1 (lt_of_le_of_lt hj hx2)
        exact Fin.le_castSucc_iff.2 this
      · intro hj
        exact le_trans (h.mono.monotone hj) hx.1
    rw [this, Fin.card_Iic]
    have := i.2
    simp only [Fin.val_castSucc]
    omega
  · have : (Finset.univ.filter fun j => p.knots j ≤ x) = Finset.univ := by
      ext j
      simp only [Finset.mem_filter, Finset.mem_univ, true_and, iff_true]
      rw [h2]; exact h.mono.monotone (Fin.le_last j)
    rw [this, Finset.card_univ, Fintype.card_fin]
    omega

theorem WF.xmin_lt_xmax {p : PPoly ι} (h : p.WF) : p.xmin < p.xmax := by
  apply h.mono
  rw [Fin.lt_def]; simp only [Fin.val_zero, Fin.val_last]; exact h.pos

theorem InSeg.mem {p : PPoly ι} (h : p.WF) {i : Fin p.nseg} {x : ℝ}
    (hx : p.InSeg i x) : p.xmin ≤ x ∧ x ≤ p.xmax :=
  ⟨le_trans (h.mono.monotone (Fin.zero_le _)) hx.1,
   le_trans hx.le (h.mono.monotone (Fin.le_last _))⟩

theorem split_eq {p : PPoly ι} (h : p.WF) {i : Fin p.nseg} {x : ℝ} (hx : p.InSeg i x) :
    p.split x = .ok (i, (2 * x - (p.knots i.castSucc + p.knots i.succ)) /
      (p.knots i.succ - p.knots i.castSucc)) := by
  unfold split
  obtain ⟨h1, h2⟩ := hx.mem h
  rw [if_neg (not_not.2 h1), if_neg (not_not.2 h2)]
  simp only [searchsortedRight_eq h hx, Fin.is_lt, dite_true]
  rw [if_neg (h.dx_pos i).ne']
  simp only [xm, invXs, h.dx_eq]
  congr 2
  ring

theorem WF.exists_inSeg {p : PPoly ι} (h : p.WF) {x : ℝ} (h1 : p.xmin ≤ x) (h2 : x ≤ p.xmax) :
    ∃ i, p.InSeg i x := by
  rcases eq_or_lt_of_le h2 with rfl | h2
  · obtain ⟨n, hn⟩ : ∃ n, p.nseg = n + 1 := ⟨p.nseg - 1, by have := h.pos; omega⟩
    refine ⟨⟨n, by omega⟩, h.mono.monotone (Fin.le_last _), Or.inr ⟨by simp [hn], rfl⟩⟩
  · -- largest knot ≤ x
    have key : ∀ n : ℕ, ∀ hn : n < p.nseg + 1, x < p.knots ⟨n, hn⟩ → ∃ i, p.InSeg i x := by
      intro n
      induction n with
      | zero => intro hn hx; exact absurd hx (not_lt.2 h1)
      | succ n ih =>
        intro hn hx
        by_cases hc : x < p.knots ⟨n, by omega⟩
        · exact ih _ hc
        · exact ⟨⟨n, by omega⟩, not_lt.1 hc, Or.inl hx⟩
    exact key p.nseg (by omega) h2

theorem inSeg_unique {p : PPoly ι} (h : p.WF) {i j : Fin p.nseg} {x : ℝ} (hi : p.InSeg i x)
    (hj : p.InSeg j x) : i = j := by
  ext
  rw [← searchsortedRight_eq h hi, ← searchsortedRight_eq h hj]

theorem call_eq {p : PPoly ι} (h : p.WF) {i : Fin p.nseg} {x : ℝ} (hx : p.InSeg i x) :
    p.call x = .ok fun l => segFun (p.knots i.castSucc) (p.knots i.succ) (p.coef i l) x := by
  unfold call
  rw [split_eq h hx]
  simp only [segFun, norm, invXs, h.dx_eq, legval_eq_sum]
  congr 1
  funext l
  rw [mul_comm]

theorem call_out {p : PPoly ι} {x : ℝ} (hx : ¬ (p.xmin ≤ x ∧ x ≤ p.xmax)) :
    p.call x = .error .valueError := by
  unfold call split
  by_cases h1 : x ≥ p.xmin
  · have h2 : ¬ x ≤ p.xmax := fun h2 => hx ⟨h1, h2⟩
    simp [h1, h2]
  · simp [h1]

end PPoly

section
variable {ι : Type _}

theorem deriv_WF {p : PPoly ι} (h : p.WF) (n : ℕ) : (p.deriv n).WF :=
  ⟨h.pos, h.mono, h.dx_eq⟩

/-- The single segment `[-1, 1]` with the coefficients of `P_1`. -/
noncomputable def exPoly : PPoly Unit :=
  ⟨1, 2, ![-1, 1], fun _ => 2, fun _ _ => [0, 1], fun _ => -1⟩

theorem exPoly_WF : exPoly.WF :=
  ⟨Nat.one_pos, by
    intro i j hij
    change Fin 2 at i j
    fin_cases i <;> fin_cases j
    · exact absurd hij (lt_irrefl _)
    · show (-1 : ℝ) < 1
      norm_num
    · exact absurd hij (by decide)
    · exact absurd hij (lt_irrefl _), by
    intro i
    change Fin 1 at i
    fin_cases i
    show (2 : ℝ) = 1 - (-1)
    norm_num⟩

end

end Verif.Poly
