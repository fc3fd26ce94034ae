import Verif.Model.Roots
import Mathlib.Tactic.Linarith
import Mathlib.Tactic.NormNum
/-!
# C07 — discrete extremum search terminates inside its bracket and finds the peak

Termination is part of the definition (`bisectDiscrExtremum` is a total function by well-founded
recursion on `b - a`).
-/

namespace Verif.Props
open Verif Verif.Np Verif.Roots

variable {K : Type _} [Field K] [LinearOrder K] [IsStrictOrderedRing K]

/-- For every function and every bracket with `b - a ≥ 2` the result is strictly inside. -/
theorem C07_inside (g : ℤ → K) (a b : ℤ) (ga gb : K) (h : 2 ≤ b - a) :
    a < bisectDiscrExtremum g a b ga gb ∧ bisectDiscrExtremum g a b ga gb < b := by
  fun_induction bisectDiscrExtremum g a b ga gb with
  | case1 => omega
  | case2 => omega
  | case3 => omega
  | case4 a b ga gb h1 h2 m n hmn ih =>
    have hm : m = (a + b) / 2 := Int.fdiv_eq_ediv_of_nonneg _ (by decide)
    have := ih (by omega)
    omega
  | case5 a b ga gb h1 h2 m n hmn ih =>
    have hm : m = (a + b) / 2 := Int.fdiv_eq_ediv_of_nonneg _ (by decide)
    have := ih (by omega)
    omega

/-- If `g = |f|` does not decrease up to an interior point `p` and strictly decreases afterwards,
the search returns `p`. -/
theorem C07_peak (g : ℤ → K) (a b p : ℤ) (ga gb : K) (ha : a < p) (hb : p < b)
    (hup : ∀ x, a ≤ x → x < p → g x ≤ g (x + 1))
    (hdown : ∀ x, p ≤ x → x < b → g (x + 1) < g x) :
    bisectDiscrExtremum g a b ga gb = p := by
  fun_induction bisectDiscrExtremum g a b ga gb with
  | case1 => omega
  | case2 => omega
  | case3 => omega
  | case4 a b ga gb h1 h2 m n hmn ih =>
    have hm : m = (a + b) / 2 := Int.fdiv_eq_ediv_of_nonneg _ (by decide)
    have hn : n = m + 1 := rfl
    have hpm : p ≤ m := by
      by_contra hc
      exact absurd (hup m (by omega) (by omega)) (not_le.2 hmn)
    exact ih ha (by omega) hup (fun x h3 h4 => hdown x h3 (by omega))
  | case5 a b ga gb h1 h2 m n hmn ih =>
    have hm : m = (a + b) / 2 := Int.fdiv_eq_ediv_of_nonneg _ (by decide)
    have hn : n = m + 1 := rfl
    have hpm : m < p := by
      by_contra hc
      exact hmn (hdown m (by omega) (by omega))
    exact ih hpm hb (fun x h3 h4 => hup x (by omega) h4) hdown

/-- In particular the returned point is a global maximum of `g` on the bracket. -/
theorem C07_peak_is_max (g : ℤ → K) (a b p : ℤ) (ga gb : K) (ha : a < p) (hb : p < b)
    (hup : ∀ x, a ≤ x → x < p → g x ≤ g (x + 1))
    (hdown : ∀ x, p ≤ x → x < b → g (x + 1) < g x) :
    ∀ x, a ≤ x → x ≤ b → g x ≤ g (bisectDiscrExtremum g a b ga gb) := by
  rw [C07_peak g a b p ga gb ha hb hup hdown]
  intro x hx1 hx2
  rcases le_total x p with h | h
  · obtain ⟨k, rfl⟩ : ∃ k : ℕ, p = x + k := ⟨(p - x).toNat, by omega⟩
    clear hb hdown ha h hx2
    induction k with
    | zero => simp
    | succ k ih =>
      have h1 := ih (fun y hy hy2 => hup y hy (by push_cast; omega))
      have h2 := hup (x + k) (by omega) (by push_cast; omega)
      push_cast
      rw [← add_assoc]
      exact h1.trans h2
  · obtain ⟨k, rfl⟩ : ∃ k : ℕ, x = p + k := ⟨(x - p).toNat, by omega⟩
    clear hx1 h
    induction k with
    | zero => simp
    | succ k ih =>
      push_cast at hx2
      have h1 := ih (by omega)
      have h2 := hdown (p + k) (by omega) (by omega)
      push_cast
      rw [← add_assoc]
      exact h2.le.trans h1

/-- On a bracket of width one the result is the end with the larger magnitude, the right one for equal magnitudes. -/
theorem C07_narrow (g : ℤ → K) (a : ℤ) :
    (g (a + 1) < g a → bisectDiscrExtremum g a (a + 1) (g a) (g (a + 1)) = a) ∧
      (g a ≤ g (a + 1) → bisectDiscrExtremum g a (a + 1) (g a) (g (a + 1)) = a + 1) := by
  rw [bisectDiscrExtremum, if_pos (by omega)]
  exact ⟨fun h => if_pos h, fun h => if_neg (not_lt.2 h)⟩

/-- Without unimodality the result is still a local peak towards both sides, in the following
sense: the magnitude does not decrease when stepping from the left neighbour unless that neighbour
is `a`, and it decreases strictly towards the right neighbour unless that neighbour is `b`. -/
theorem C07_local (g : ℤ → K) (a b : ℤ) (ga gb : K) (h : 2 ≤ b - a) :
    let p := bisectDiscrExtremum g a b ga gb
    (p - 1 = a ∨ g (p - 1) ≤ g p) ∧ (p + 1 = b ∨ g (p + 1) < g p) := by
  intro p
  have key : ∀ (a b : ℤ) (ga gb : K), 2 ≤ b - a →
      (bisectDiscrExtremum g a b ga gb - 1 = a ∨
        g (bisectDiscrExtremum g a b ga gb - 1) ≤ g (bisectDiscrExtremum g a b ga gb)) ∧
      (bisectDiscrExtremum g a b ga gb + 1 = b ∨
        g (bisectDiscrExtremum g a b ga gb + 1) < g (bisectDiscrExtremum g a b ga gb)) := by
    intro a b ga gb h
    fun_induction bisectDiscrExtremum g a b ga gb with
    | case1 => omega
    | case2 => omega
    | case3 a b ga gb h1 h2 => constructor <;> left <;> omega
    | case4 a b ga gb h1 h2 m n hmn ih =>
      have hm : m = (a + b) / 2 := Int.fdiv_eq_ediv_of_nonneg _ (by decide)
      have hn : n = m + 1 := rfl
      have := ih (by omega)
      refine ⟨this.1, ?_⟩
      rcases this.2 with h3 | h3
      · right
        have h4 : bisectDiscrExtremum g a n ga (g n) = m := by omega
        rw [h4, ← hn]; exact hmn
      · exact Or.inr h3
    | case5 a b ga gb h1 h2 m n hmn ih =>
      have hm : m = (a + b) / 2 := Int.fdiv_eq_ediv_of_nonneg _ (by decide)
      have hn : n = m + 1 := rfl
      have := ih (by omega)
      refine ⟨?_, this.2⟩
      rcases this.1 with h3 | h3
      · right
        have h4 : bisectDiscrExtremum g m b (g m) gb = n := by omega
        rw [h4, show n - 1 = m by omega]; exact not_lt.1 hmn
      · exact Or.inr h3
  exact key a b ga gb h

/- Non-vacuity: the peak of `100 - (x-7)²` on `(0, 20)` is 7. -/
example : bisectDiscrExtremum (fun x : ℤ => (100 - ((x : ℚ) - 7) ^ 2)) 0 20 51 (-69) = 7 := by
  apply C07_peak
  · decide
  · decide
  · intro x h1 h2
    have h3 : ((x : ℚ)) ≤ 6 := by exact_mod_cast (by omega : x ≤ 6)
    push_cast; nlinarith
  · intro x h1 h2
    have h3 : (7 : ℚ) ≤ x := by exact_mod_cast h1
    push_cast; nlinarith

end Verif.Props
