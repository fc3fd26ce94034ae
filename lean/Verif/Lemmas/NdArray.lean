import Verif.Np.NdArray
import Mathlib.Tactic.Ring
import Mathlib.Tactic.Linarith
/-! Helper lemmas on C-order multi-indices. -/

namespace Verif.Np.NdArray

theorem inBounds_append {s t i j : List ℕ} (h1 : InBounds s i) (h2 : InBounds t j) :
    InBounds (s ++ t) (i ++ j) := List.rel_append h1 h2

theorem flatIdx_append {s i : List ℕ} (t j : List ℕ) (h : InBounds s i) :
    flatIdx (s ++ t) (i ++ j) = flatIdx s i * t.prod + flatIdx t j := by
  induction h with
  | nil => simp [flatIdx]
  | cons h1 h2 ih =>
    simp only [List.cons_append, flatIdx, ih, List.prod_append]; ring

theorem flatIdx_lt {s i : List ℕ} (h : InBounds s i) : flatIdx s i < s.prod := by
  induction h with
  | nil => simp [flatIdx]
  | @cons a d as ds h1 h2 ih =>
    simp only [flatIdx, List.prod_cons]
    calc a * ds.prod + flatIdx ds as < a * ds.prod + ds.prod := by omega
      _ = (a + 1) * ds.prod := by ring
      _ ≤ d * ds.prod := Nat.mul_le_mul_right _ h1

theorem get?_of_inBounds {α : Type _} (a : NdArray α) {i : List ℕ} (h : InBounds a.shape i) :
    a.get? i = a.data[flatIdx a.shape i]? := by simp [get?, h]

theorem flatIdx_single (n k : ℕ) : flatIdx [n] [k] = k := by simp [flatIdx]

theorem inBounds_single {n k : ℕ} : InBounds [n] [k] ↔ k < n := by simp [InBounds]

end Verif.Np.NdArray
