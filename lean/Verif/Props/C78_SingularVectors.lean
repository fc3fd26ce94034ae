import Verif.Lemmas.Wedin
import Verif.Props.C77_SingularValues
/-!
# C78: Accuracy of the singular vectors

The columns of `u` and `v` divided by the roots of the weights are the values of the singular functions at the nodes
(C36), so the sums below are errors of singular functions in the norm of the quadrature rule.
-/

namespace Verif.Props
open Verif Verif.Kernel Verif.Spec Verif.Gauss Verif.Sve Verif.Svd Verif.SveCompute

/-- The vectors number `i` of both sides agree up to a common sign and the error `e`. -/
def VectorsWithin {m n : ℕ} (f g : Factors ℝ m n) (i : Fin f.k) (j : Fin g.k) (e : ℝ) : Prop :=
  ∃ σ : ℝ, (σ = 1 ∨ σ = -1) ∧
    ∑ a, (f.u a i - σ * g.u a j) ^ 2 + ∑ b, (f.v b i - σ * g.v b j) ^ 2 ≤ e ^ 2

/-- A singular value which is separated from the others and from zero by `δ ≥ 4 E`: it is found by the SVD of the perturbed
matrix, and its vectors have error at most `3 E / δ`, up to one sign for both. -/
theorem C78_vectors {m n : ℕ} {A B : Matrix (Fin m) (Fin n) ℝ} {f g : Factors ℝ m n} {E δ : ℝ} (hf : IsSvdFactors A f)
    (hg : IsSvdFactors B g) (h : FrobeniusWithin A B E) (i : Fin g.k) (hδ : 0 < δ) (h4 : 4 * E ≤ δ) (hs : δ ≤ g.s i)
    (hgap : ∀ l, l ≠ i → δ ≤ |g.s l - g.s i|) :
    ∃ hi : i.1 < f.k, VectorsWithin f g ⟨i.1, hi⟩ i (3 * E / δ) := by
  have hE0 := h.1
  have hW := abs_le.1 (C77_weyl hf hg h i.1)
  have hgi : sval g i.1 = g.s i := dif_pos i.2
  have hi : i.1 < f.k := by
    by_contra hcon
    rw [show sval f i.1 = 0 from dif_neg hcon, hgi] at hW
    linarith [hW.1]
  have hfi : sval f i.1 = f.s ⟨i.1, hi⟩ := dif_pos hi
  rw [hfi, hgi] at hW
  refine ⟨hi, ?_⟩
  obtain ⟨σ, h1, h2⟩ := wedin hf hg hE0 h.2 ⟨i.1, hi⟩ i (d := δ - E) (by linarith) (by linarith [hW.1]) (fun l hl => by
    have h3 := hgap l hl
    have h5 : |g.s l - g.s i| ≤ |g.s l - f.s ⟨i.1, hi⟩| + |f.s ⟨i.1, hi⟩ - g.s i| := abs_sub_le _ _ _
    have h6 : |f.s ⟨i.1, hi⟩ - g.s i| ≤ E := abs_le.2 hW
    linarith) (by linarith)
  refine ⟨σ, h1, h2.trans (pow_le_pow_left₀ (div_nonneg (by linarith) (by linarith)) ?_ 2)⟩
  rw [div_le_div_iff₀ (by linarith) hδ]
  nlinarith

/-- Without separation nothing can be said: two decompositions of one matrix may have orthogonal vectors. -/
theorem C78_degenerate : ∃ f g : Factors ℝ 2 2, IsSvdFactors (1 : Matrix (Fin 2) (Fin 2) ℝ) f ∧
    IsSvdFactors (1 : Matrix (Fin 2) (Fin 2) ℝ) g ∧ ∃ (i : Fin f.k) (j : Fin g.k), i.1 = j.1 ∧
      ∀ e, 0 ≤ e → VectorsWithin f g i j e → 2 ≤ e := by
  let P : Matrix (Fin 2) (Fin 2) ℝ := !![0, 1; 1, 0]
  have hP : P.transpose * P = 1 := by
    ext i j
    fin_cases i <;> fin_cases j <;> simp [P, Matrix.mul_apply, Fin.sum_univ_two]
  have hP' : P * P.transpose = 1 := by
    ext i j
    fin_cases i <;> fin_cases j <;> simp [P, Matrix.mul_apply, Fin.sum_univ_two]
  have h1 : Matrix.diagonal (fun _ : Fin 2 => (1 : ℝ)) = 1 := Matrix.diagonal_one
  refine ⟨⟨2, 1, fun _ => 1, 1⟩, ⟨2, P, fun _ => 1, P⟩, ⟨by simp, by simp, by simp, fun _ => zero_le_one, fun _ _ _ => le_rfl⟩,
    ⟨?_, hP, hP, fun _ => zero_le_one, fun _ _ _ => le_rfl⟩, ⟨0, by norm_num⟩, ⟨0, by norm_num⟩, rfl, ?_⟩
  · show 1 = P * Matrix.diagonal (fun _ : Fin 2 => (1 : ℝ)) * P.transpose
    rw [h1, mul_one, hP']
  · rintro e he ⟨σ, hσ, h⟩
    have hσ2 : σ ^ 2 = 1 := by rcases hσ with rfl | rfl <;> norm_num
    have h2 : ∑ a, ((1 : Matrix (Fin 2) (Fin 2) ℝ) a 0 - σ * P a 0) ^ 2 = 2 := by
      simp [Fin.sum_univ_two, P, hσ2]
      norm_num
    have h3 : (2 : ℝ) + 2 ≤ e ^ 2 := by
      refine le_trans (le_of_eq ?_) h
      exact congrArg₂ (· + ·) h2.symm h2.symm
    nlinarith

/-- The singular vectors computed from the matrix of C76 by a backward stable SVD. -/
theorem C78_sampling {A : Arith} {rt : ℝ → ℝ} {lo : ℝ} {call : ℝ → ℝ → ℝ → ℝ → ℝ} {K : ℝ → ℝ → ℝ} {R : Rule}
    {ts ws ex ey : List ℝ} {err : ℝ} (herr : 0 ≤ err) (h : SamplingWithin A rt lo call K R ts ws ex ey err) :
    ∃ gx gy M, R.piecewiseFl A ex = .ok gx ∧ R.piecewiseFl A ey = .ok gy ∧ matrixFl A rt lo call gx gy = .ok M ∧
      ∃ X W : Fin gx.x.length → ℝ, ∃ Y V : Fin gy.x.length → ℝ,
        List.ofFn X = compositeNodes ts ex ∧ List.ofFn W = compositeWeights ws ex ∧
        List.ofFn Y = compositeNodes ts ey ∧ List.ofFn V = compositeWeights ws ey ∧
        ∀ M' E f g, FrobeniusWithin M' (Matrix.of fun i j => M (i, j)) E → IsSvdFactors M' f →
          IsSvdFactors (nodeMatrix K X W Y V) g → ∀ (i : Fin g.k) (δ : ℝ), 0 < δ → 4 * (err + E) ≤ δ → δ ≤ g.s i →
          (∀ l, l ≠ i → δ ≤ |g.s l - g.s i|) →
          ∃ hi : i.1 < f.k, VectorsWithin f g ⟨i.1, hi⟩ i (3 * (err + E) / δ) := by
  obtain ⟨gx, gy, M, h1, h2, h3, X, W, Y, V, hX, hW, hY, hV, h4⟩ := h
  refine ⟨gx, gy, M, h1, h2, h3, X, W, Y, V, hX, hW, hY, hV, fun M' E f g h5 hf hg i δ hδ h7 h8 h9 => ?_⟩
  have h6 : FrobeniusWithin (Matrix.of fun i j => M (i, j)) (nodeMatrix K X W Y V) err := ⟨herr, h4⟩
  refine C78_vectors hf hg ?_ i hδ h7 h8 h9
  rw [add_comm]
  exact h5.trans h6

/-- Non-vacuity: the second of two singular values, with a perturbation which changes both. -/
example : ∃ hi : 1 < 2, VectorsWithin (⟨2, 1, ![1.001, 0.101], 1⟩ : Factors ℝ 2 2) (⟨2, 1, ![1, 0.1], 1⟩ : Factors ℝ 2 2)
    ⟨1, hi⟩ ⟨1, hi⟩ (3 * 0.002 / 0.1) := by
  refine C78_vectors (diag_svd (a := 1.001) (b := 0.101) (by norm_num) (by norm_num))
    (diag_svd (a := 1) (b := 0.1) (by norm_num) (by norm_num))
    ⟨by norm_num, by simp [Fin.sum_univ_two]; norm_num⟩ ⟨1, by norm_num⟩ (by norm_num) (by norm_num) (by simp) ?_
  intro l hl
  obtain ⟨l, hl2⟩ := l
  change l < 2 at hl2
  interval_cases l
  · simp
    rw [abs_of_nonneg] <;> norm_num
  · exact absurd rfl hl

end Verif.Props
