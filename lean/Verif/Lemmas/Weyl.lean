import Verif.Props.C52_SvdStrategies
import Mathlib.LinearAlgebra.FiniteDimensional.Lemmas
import Mathlib.Analysis.InnerProductSpace.PiL2
/-!
# Perturbation of singular values
-/

namespace Verif.Props
open Verif Verif.Svd
open scoped Matrix

variable {m n : ℕ}

/-- Euclidean norm of a vector. -/
noncomputable def enorm2 {k : ℕ} (v : Fin k → ℝ) : ℝ := Real.sqrt (∑ i, v i ^ 2)

theorem enorm2_sq {k : ℕ} (v : Fin k → ℝ) : enorm2 v ^ 2 = ∑ i, v i ^ 2 :=
  Real.sq_sqrt (Finset.sum_nonneg fun _ _ => sq_nonneg _)

theorem enorm2_nonneg {k : ℕ} (v : Fin k → ℝ) : 0 ≤ enorm2 v := Real.sqrt_nonneg _

theorem enorm2_eq {k : ℕ} (v : Fin k → ℝ) : enorm2 v = ‖(WithLp.toLp 2 v : EuclideanSpace ℝ (Fin k))‖ := by
  rw [EuclideanSpace.norm_eq]
  simp [enorm2]

theorem enorm2_add {k : ℕ} (v w : Fin k → ℝ) : enorm2 (v + w) ≤ enorm2 v + enorm2 w := by
  rw [enorm2_eq, enorm2_eq, enorm2_eq, WithLp.toLp_add]
  exact norm_add_le _ _

theorem dot_self_sq {k : ℕ} (v : Fin k → ℝ) : v ⬝ᵥ v = enorm2 v ^ 2 := by
  rw [enorm2_sq]
  exact Finset.sum_congr rfl fun i _ => (sq (v i)).symm

/-- A matrix with orthonormal columns preserves norms. -/
theorem orth_norm {k : ℕ} {U : Matrix (Fin m) (Fin k) ℝ} (h : Uᵀ * U = 1) (z : Fin k → ℝ) : enorm2 (U *ᵥ z) ^ 2 = enorm2 z ^ 2 := by
  rw [← dot_self_sq, ← dot_self_sq, Matrix.dotProduct_mulVec, Matrix.vecMul_mulVec, ← Matrix.dotProduct_mulVec, h,
    Matrix.one_mulVec]

/-- Bessel's inequality. -/
theorem bessel {k : ℕ} {V : Matrix (Fin n) (Fin k) ℝ} (h : Vᵀ * V = 1) (x : Fin n → ℝ) : enorm2 (Vᵀ *ᵥ x) ^ 2 ≤ enorm2 x ^ 2 := by
  have h0 : 0 ≤ (x - V *ᵥ (Vᵀ *ᵥ x)) ⬝ᵥ (x - V *ᵥ (Vᵀ *ᵥ x)) := by
    rw [dot_self_sq]
    exact sq_nonneg _
  have h1 : x ⬝ᵥ (V *ᵥ (Vᵀ *ᵥ x)) = enorm2 (Vᵀ *ᵥ x) ^ 2 := by
    rw [← dot_self_sq, Matrix.dotProduct_mulVec, ← Matrix.mulVec_transpose]
  have h2 : (V *ᵥ (Vᵀ *ᵥ x)) ⬝ᵥ (V *ᵥ (Vᵀ *ᵥ x)) = enorm2 (Vᵀ *ᵥ x) ^ 2 := by rw [dot_self_sq, orth_norm h]
  rw [sub_dotProduct, dotProduct_sub, dotProduct_sub, h2, dotProduct_comm (V *ᵥ (Vᵀ *ᵥ x)) x, h1, dot_self_sq] at h0
  linarith

/-- The Frobenius norm bounds the operator norm. -/
theorem frobenius_mulVec (D : Matrix (Fin m) (Fin n) ℝ) (x : Fin n → ℝ) {E : ℝ} (hE : 0 ≤ E)
    (h : ∑ i, ∑ j, D i j ^ 2 ≤ E ^ 2) : enorm2 (D *ᵥ x) ≤ E * enorm2 x := by
  refine le_of_sq_le_sq ?_ (mul_nonneg hE (enorm2_nonneg x))
  rw [enorm2_sq, mul_pow, enorm2_sq]
  calc ∑ i, (D *ᵥ x) i ^ 2 ≤ ∑ i, (∑ j, D i j ^ 2) * ∑ j, x j ^ 2 :=
        Finset.sum_le_sum fun i _ => by exact Finset.sum_mul_sq_le_sq_mul_sq Finset.univ (fun j => D i j) x
    _ = (∑ i, ∑ j, D i j ^ 2) * ∑ j, x j ^ 2 := by rw [Finset.sum_mul]
    _ ≤ _ := mul_le_mul_of_nonneg_right h (Finset.sum_nonneg fun _ _ => sq_nonneg _)

theorem svd_norm {A : Matrix (Fin m) (Fin n) ℝ} {f : Factors ℝ m n} (hf : IsSvdFactors A f) (x : Fin n → ℝ) :
    enorm2 (A *ᵥ x) ^ 2 = ∑ l, f.s l ^ 2 * (f.vᵀ *ᵥ x) l ^ 2 := by
  have h1 : A *ᵥ x = f.u *ᵥ (fun l => f.s l * (f.vᵀ *ᵥ x) l) := by
    conv_lhs => rw [hf.eq]
    rw [← Matrix.mulVec_mulVec, ← Matrix.mulVec_mulVec]
    congr 1
    funext l
    rw [Matrix.mulVec_diagonal]
  rw [h1, orth_norm hf.u_orth, enorm2_sq]
  exact Finset.sum_congr rfl fun l _ => mul_pow _ _ _

/-- The singular value of index `i`, zero beyond the factors. -/
noncomputable def sval (f : Factors ℝ m n) (i : ℕ) : ℝ := if h : i < f.k then f.s ⟨i, h⟩ else 0

/-- One side of Weyl's inequality. -/
theorem weyl_le {A B : Matrix (Fin m) (Fin n) ℝ} {f g : Factors ℝ m n} (hf : IsSvdFactors A f) (hg : IsSvdFactors B g)
    {E : ℝ} (hE0 : 0 ≤ E) (hE : ∑ i, ∑ j, (A i j - B i j) ^ 2 ≤ E ^ 2) (i : ℕ) : sval f i ≤ sval g i + E := by
  have hg0 : 0 ≤ sval g i := by
    unfold sval
    split
    · exact hg.nonneg _
    · exact le_rfl
  by_cases hi : i < f.k
  swap
  · rw [show sval f i = 0 from dif_neg hi]
    linarith
  rw [show sval f i = f.s ⟨i, hi⟩ from dif_pos hi]
  -- a vector in the span of the first `i + 1` vectors, orthogonal to the first `i` of the other
  let P : Matrix (Fin i) (Fin (i + 1)) ℝ := Matrix.of fun l j =>
    if h : l.1 < g.k then (g.vᵀ * f.v) ⟨l.1, h⟩ ⟨j.1, by omega⟩ else 0
  obtain ⟨c, hcP, hc0⟩ : ∃ c : Fin (i + 1) → ℝ, P *ᵥ c = 0 ∧ c ≠ 0 := by
    have h := LinearMap.ker_ne_bot_of_finrank_lt (f := P.mulVecLin) (by simp)
    obtain ⟨c, h1, h2⟩ := Submodule.exists_mem_ne_zero_of_ne_bot h
    exact ⟨c, by simpa using h1, h2⟩
  let z : Fin f.k → ℝ := fun l => if h : l.1 < i + 1 then c ⟨l.1, h⟩ else 0
  let x : Fin n → ℝ := f.v *ᵥ z
  have hvx : f.vᵀ *ᵥ x = z := by
    show f.vᵀ *ᵥ (f.v *ᵥ z) = z
    rw [Matrix.mulVec_mulVec, hf.v_orth, Matrix.one_mulVec]
  have hxz : enorm2 x ^ 2 = enorm2 z ^ 2 := orth_norm hf.v_orth z
  have hzpos : 0 < enorm2 z ^ 2 := by
    obtain ⟨j, hj⟩ : ∃ j, c j ≠ 0 := by
      by_contra hcon
      push Not at hcon
      exact hc0 (funext hcon)
    rw [enorm2_sq]
    refine Finset.sum_pos' (fun _ _ => sq_nonneg _) ⟨⟨j.1, by omega⟩, Finset.mem_univ _, ?_⟩
    have : z ⟨j.1, by omega⟩ = c j := dif_pos j.2
    rw [this]
    positivity
  have hA : f.s ⟨i, hi⟩ ^ 2 * enorm2 x ^ 2 ≤ enorm2 (A *ᵥ x) ^ 2 := by
    rw [svd_norm hf, hvx, hxz, enorm2_sq, Finset.mul_sum]
    refine Finset.sum_le_sum fun l _ => ?_
    by_cases hl : l.1 < i + 1
    · refine mul_le_mul_of_nonneg_right ?_ (sq_nonneg _)
      exact pow_le_pow_left₀ (hf.nonneg _) (hf.anti (show l ≤ ⟨i, hi⟩ from Fin.mk_le_mk.2 (by omega))) 2
    · have : z l = 0 := dif_neg hl
      simp [this]
  have hgz : ∀ l : Fin g.k, l.1 < i → (g.vᵀ *ᵥ x) l = 0 := by
    intro l hl
    have h1 := congrFun hcP ⟨l.1, hl⟩
    have h2 : (g.vᵀ *ᵥ x) l = ((g.vᵀ * f.v) *ᵥ z) l := by
      show (g.vᵀ *ᵥ (f.v *ᵥ z)) l = _
      rw [Matrix.mulVec_mulVec]
    rw [h2]
    refine Eq.trans ?_ h1
    show ∑ j : Fin f.k, (g.vᵀ * f.v) l j * z j = ∑ j : Fin (i + 1), P ⟨l.1, hl⟩ j * c j
    have hz : ∀ j : Fin f.k, j ∉ Finset.univ.image (Fin.castLE (by omega : i + 1 ≤ f.k)) →
        (g.vᵀ * f.v) l j * z j = 0 := by
      intro j hj
      have : z j = 0 := by
        refine dif_neg fun h => hj ?_
        exact Finset.mem_image.2 ⟨⟨j.1, h⟩, Finset.mem_univ _, Fin.ext rfl⟩
      rw [this, mul_zero]
    rw [← Finset.sum_subset (Finset.subset_univ _) fun j _ hj => hz j hj,
      Finset.sum_image fun a _ b _ h => Fin.castLE_injective _ h]
    refine Finset.sum_congr rfl fun j _ => ?_
    have e1 : z (Fin.castLE (by omega) j) = c j := dif_pos j.2
    have e2 : P ⟨l.1, hl⟩ j = (g.vᵀ * f.v) l ⟨j.1, by omega⟩ := dif_pos l.2
    rw [e1, e2]
    rfl
  have hB : enorm2 (B *ᵥ x) ^ 2 ≤ sval g i ^ 2 * enorm2 x ^ 2 := by
    rw [svd_norm hg]
    refine le_trans ?_ (mul_le_mul_of_nonneg_left (bessel hg.v_orth x) (sq_nonneg _))
    rw [enorm2_sq, Finset.mul_sum]
    refine Finset.sum_le_sum fun l _ => ?_
    by_cases hl : l.1 < i
    · rw [hgz l hl]
      simp
    · refine mul_le_mul_of_nonneg_right ?_ (sq_nonneg _)
      have hik : i < g.k := by omega
      rw [show sval g i = g.s ⟨i, hik⟩ from dif_pos hik]
      exact pow_le_pow_left₀ (hg.nonneg _) (hg.anti (show (⟨i, hik⟩ : Fin g.k) ≤ l from Fin.mk_le_mk.2 (by omega))) 2
  have hx0 : 0 < enorm2 x := by
    have := enorm2_nonneg x
    rw [← hxz] at hzpos
    exact lt_of_le_of_ne this fun h => by rw [← h] at hzpos; norm_num at hzpos
  have hA' : f.s ⟨i, hi⟩ * enorm2 x ≤ enorm2 (A *ᵥ x) :=
    le_of_sq_le_sq (by rw [mul_pow]; exact hA) (enorm2_nonneg _)
  have hB' : enorm2 (B *ᵥ x) ≤ sval g i * enorm2 x :=
    le_of_sq_le_sq (by rw [mul_pow]; exact hB) (mul_nonneg hg0 hx0.le)
  have hD : enorm2 ((A - B) *ᵥ x) ≤ E * enorm2 x := frobenius_mulVec (A - B) x hE0 hE
  have ht := enorm2_add (B *ᵥ x) ((A - B) *ᵥ x)
  rw [← Matrix.add_mulVec, add_sub_cancel] at ht
  refine le_of_mul_le_mul_right ?_ hx0
  rw [add_mul]
  linarith

end Verif.Props
