import Verif.Spec.LeastSquares
import Mathlib.Tactic.Ring
import Mathlib.Tactic.FieldSimp
import Mathlib.Analysis.InnerProductSpace.Basic
import Mathlib.Tactic.Linarith
import Mathlib.Algebra.BigOperators.Fin
import Mathlib.LinearAlgebra.Matrix.NonsingularInverse
/-! Pseudo-inverse from a thin SVD with positive singular values. -/

namespace Verif.Spec
open Matrix

variable {𝕜 : Type*} [RCLike 𝕜]

theorem sq_nonneg' {ι : Type*} [Fintype ι] (x : ι → 𝕜) : 0 ≤ sqNorm x :=
  Finset.sum_nonneg fun _ _ => by positivity

theorem sq_eq_zero {ι : Type*} [Fintype ι] {x : ι → 𝕜} : sqNorm x = 0 ↔ x = 0 := by
  unfold sqNorm
  rw [Finset.sum_eq_zero_iff_of_nonneg fun _ _ => by positivity]
  constructor
  · intro h
    funext i
    have := h i (Finset.mem_univ _)
    simpa using this
  · rintro rfl
    simp

/-- Pythagoras. -/
theorem sq_add_of_orth {ι : Type*} [Fintype ι] (x y : ι → 𝕜) (h : star x ⬝ᵥ y = 0) :
    sqNorm (x + y) = sqNorm x + sqNorm y := by
  have h1 : ∀ z : ι → 𝕜, ((sqNorm z : ℝ) : 𝕜) = star z ⬝ᵥ z := by
    intro z
    unfold sqNorm dotProduct
    rw [RCLike.ofReal_sum]
    refine Finset.sum_congr rfl fun i _ => ?_
    rw [Pi.star_apply, RCLike.star_def, RCLike.conj_mul]
    norm_cast
  have h2 : star y ⬝ᵥ x = 0 := by
    have := congrArg star h
    rw [star_zero, star_dotProduct, star_star] at this
    exact this
  have : ((sqNorm (x + y) : ℝ) : 𝕜) = ((sqNorm x + sqNorm y : ℝ) : 𝕜) := by
    rw [RCLike.ofReal_add, h1, h1, h1, star_add, add_dotProduct, dotProduct_add, dotProduct_add, h, h2]
    ring
  exact_mod_cast this

/-- The core of a thin SVD with positive singular values solves the least-squares problem. -/
theorem leastSquares_of_core {m n r : ℕ} (A : Matrix (Fin m) (Fin n) 𝕜) (u : Matrix (Fin m) (Fin r) 𝕜)
    (s : Fin r → ℝ) (v : Matrix (Fin n) (Fin r) 𝕜) (hu : uᴴ * u = 1) (hv : vᴴ * v = 1) (hs : ∀ i, s i ≠ 0)
    (hA : A = u * Matrix.diagonal (fun i => (s i : 𝕜)) * vᴴ) (x : Fin m → 𝕜) :
    IsLeastSquares A x (v *ᵥ (Matrix.diagonal (fun i => ((s i)⁻¹ : 𝕜)) *ᵥ (uᴴ *ᵥ x))) := by
  set D := Matrix.diagonal (fun i => (s i : 𝕜)) with hD
  set D' := Matrix.diagonal (fun i => ((s i)⁻¹ : 𝕜)) with hD'
  have hDD : D * D' = 1 := by
    rw [hD, hD', Matrix.diagonal_mul_diagonal, ← Matrix.diagonal_one]
    congr 1
    funext i
    exact mul_inv_cancel₀ (by exact_mod_cast hs i)
  have hDH : Dᴴ = D := by
    rw [hD, Matrix.diagonal_conjTranspose]
    congr 1
    funext i
    simp
  set y := v *ᵥ (D' *ᵥ (uᴴ *ᵥ x)) with hy
  have hAy : A *ᵥ y = u *ᵥ (uᴴ *ᵥ x) := by
    have : u * D * vᴴ * v * D' * uᴴ = u * uᴴ := by
      calc u * D * vᴴ * v * D' * uᴴ = u * D * (vᴴ * v) * (D' * uᴴ) := by simp only [Matrix.mul_assoc]
        _ = u * (D * D') * uᴴ := by rw [hv]; simp only [Matrix.mul_assoc, Matrix.one_mul]
        _ = u * uᴴ := by rw [hDD, Matrix.mul_one]
    rw [hy, hA]
    simp only [Matrix.mulVec_mulVec]
    rw [← this]
    simp only [Matrix.mul_assoc]
  have horth : ∀ w, star (A *ᵥ w) ⬝ᵥ (A *ᵥ y - x) = 0 := by
    intro w
    rw [Matrix.star_mulVec, ← Matrix.dotProduct_mulVec, Matrix.mulVec_sub, hAy]
    have : Aᴴ *ᵥ (u *ᵥ (uᴴ *ᵥ x)) = Aᴴ *ᵥ x := by
      rw [Matrix.mulVec_mulVec, Matrix.mulVec_mulVec]
      congr 1
      rw [hA, Matrix.conjTranspose_mul, Matrix.conjTranspose_mul, Matrix.conjTranspose_conjTranspose]
      calc v * (Dᴴ * uᴴ) * u * uᴴ = v * (Dᴴ * ((uᴴ * u) * uᴴ)) := by simp only [Matrix.mul_assoc]
        _ = v * (Dᴴ * uᴴ) := by rw [hu, Matrix.one_mul]
    rw [this, sub_self, dotProduct_zero]
  have hpyth : ∀ y', sqNorm (A *ᵥ y' - x) = sqNorm (A *ᵥ (y' - y)) + sqNorm (A *ᵥ y - x) := by
    intro y'
    rw [← sq_add_of_orth _ _ (horth _), Matrix.mulVec_sub]
    congr 1
    abel
  refine ⟨fun y' => ?_, fun y' h => ?_⟩
  · rw [hpyth y']
    have := sq_nonneg' (A *ᵥ (y' - y))
    linarith
  · have h0 : A *ᵥ (y' - y) = 0 := by
      rw [← sq_eq_zero]
      have := hpyth y'
      linarith
    have h1 : vᴴ *ᵥ (y' - y) = 0 := by
      have h2 : D' *ᵥ (uᴴ *ᵥ (A *ᵥ (y' - y))) = vᴴ *ᵥ (y' - y) := by
        rw [hA, Matrix.mulVec_mulVec, Matrix.mulVec_mulVec]
        congr 1
        have hDD2 : D' * D = 1 := by
          rw [hD, hD', Matrix.diagonal_mul_diagonal, ← Matrix.diagonal_one]
          congr 1
          funext i
          exact inv_mul_cancel₀ (by exact_mod_cast hs i)
        calc D' * uᴴ * (u * D * vᴴ) = D' * (uᴴ * u) * D * vᴴ := by simp only [Matrix.mul_assoc]
          _ = (D' * D) * vᴴ := by rw [hu, Matrix.mul_one]
          _ = vᴴ := by rw [hDD2, Matrix.one_mul]
      rw [← h2, h0, Matrix.mulVec_zero, Matrix.mulVec_zero]
    have h3 : star y ⬝ᵥ (y' - y) = 0 := by
      rw [hy, Matrix.star_mulVec, ← Matrix.dotProduct_mulVec, h1, dotProduct_zero]
    have h4 := sq_add_of_orth _ _ h3
    rw [add_sub_cancel] at h4
    rw [h4]
    have := sq_nonneg' (y' - y)
    linarith

/-- For an injective matrix the least-squares solution recovers the coefficients. -/
theorem IsLeastSquares.recover {m n : ℕ} {A : Matrix (Fin m) (Fin n) 𝕜} (hinj : ∀ w, A *ᵥ w = 0 → w = 0)
    {a y : Fin n → 𝕜} (h : IsLeastSquares A (A *ᵥ a) y) : y = a := by
  have h1 := h.1 a
  rw [sub_self, sq_eq_zero.2 rfl] at h1
  have h2 : A *ᵥ y - A *ᵥ a = 0 := sq_eq_zero.1 (le_antisymm h1 (sq_nonneg' _))
  rw [← Matrix.mulVec_sub] at h2
  exact sub_eq_zero.1 (hinj _ h2)

/-- Least-squares solutions of minimal norm are unique (parallelogram law). -/
theorem IsLeastSquares.unique {m n : ℕ} {A : Matrix (Fin m) (Fin n) 𝕜} {x : Fin m → 𝕜} {y y' : Fin n → 𝕜}
    (h : IsLeastSquares A x y) (h' : IsLeastSquares A x y') : y = y' := by
  have par : ∀ {ι : Type} [Fintype ι] (a b : ι → 𝕜), 
      sqNorm (fun i => (2 : 𝕜)⁻¹ * (a i + b i)) + sqNorm (fun i => (2 : 𝕜)⁻¹ * (a i - b i)) = (sqNorm a + sqNorm b) / 2 := by
    intro ι _ a b
    unfold sqNorm
    rw [← Finset.sum_add_distrib, ← Finset.sum_add_distrib, Finset.sum_div]
    refine Finset.sum_congr rfl fun i _ => ?_
    rw [norm_mul, norm_mul, mul_pow, mul_pow, ← mul_add]
    have := parallelogram_law_with_norm ℝ (a i) (b i)
    rw [norm_inv, RCLike.norm_two]
    nlinarith [this]
  set z : Fin n → 𝕜 := fun i => (2 : 𝕜)⁻¹ * (y i + y' i) with hz
  have hmin : sqNorm (A *ᵥ y - x) = sqNorm (A *ᵥ y' - x) := le_antisymm (h.1 _) (h'.1 _)
  have hAz : A *ᵥ z - x = fun i => (2 : 𝕜)⁻¹ * ((A *ᵥ y - x) i + (A *ᵥ y' - x) i) := by
    have : z = (2 : 𝕜)⁻¹ • (y + y') := rfl
    rw [this, Matrix.mulVec_smul, Matrix.mulVec_add]
    funext i
    simp only [Pi.sub_apply, Pi.smul_apply, Pi.add_apply, smul_eq_mul]
    have h2 : (2 : 𝕜) ≠ 0 := two_ne_zero
    field_simp
    ring
  have h1 : sqNorm (A *ᵥ z - x) = sqNorm (A *ᵥ y - x) := by
    refine le_antisymm ?_ (h.1 _)
    have := par (A *ᵥ y - x) (A *ᵥ y' - x)
    rw [← hAz] at this
    have h0 := sq_nonneg' (fun i => (2 : 𝕜)⁻¹ * ((A *ᵥ y - x) i - (A *ᵥ y' - x) i))
    linarith
  have h2 := h.2 z h1
  have h3 := h'.2 y hmin
  have h4 := h.2 y' hmin.symm
  have h5 := par y y'
  have h6 : sqNorm (fun i => (2 : 𝕜)⁻¹ * (y i - y' i)) = 0 := by
    have := sq_nonneg' (fun i => (2 : 𝕜)⁻¹ * (y i - y' i))
    rw [← hz] at h5
    linarith
  rw [sq_eq_zero] at h6
  funext i
  have := congrFun h6 i
  simp only [Pi.zero_apply, mul_eq_zero, inv_eq_zero, two_ne_zero, false_or] at this
  exact sub_eq_zero.1 this

end Verif.Spec
