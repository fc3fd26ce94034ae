import Verif.Spec.VecNorm
import Mathlib.Analysis.CStarAlgebra.Matrix
/-! Lemmas on Euclidean norms of vectors and bounds of matrices. -/

namespace Verif.Spec
open Matrix
open scoped Matrix.Norms.L2Operator

variable {𝕜 : Type} [RCLike 𝕜]

section
variable {ι : Type} [Fintype ι]

theorem norm2_eq (x : ι → 𝕜) : norm2 x = ‖(WithLp.toLp 2 x : EuclideanSpace 𝕜 ι)‖ := by
  rw [norm2, EuclideanSpace.norm_eq]
  rfl

theorem norm2_nonneg (x : ι → 𝕜) : 0 ≤ norm2 x := Real.sqrt_nonneg _

theorem norm2_add_le (x y : ι → 𝕜) : norm2 (x + y) ≤ norm2 x + norm2 y := by
  rw [norm2_eq, norm2_eq, norm2_eq, WithLp.toLp_add]
  exact norm_add_le _ _

theorem norm2_sub_comm (x y : ι → 𝕜) : norm2 (x - y) = norm2 (y - x) := by
  rw [norm2_eq, norm2_eq, WithLp.toLp_sub, WithLp.toLp_sub, norm_sub_rev]

theorem norm2_zero : norm2 (0 : ι → 𝕜) = 0 := by
  rw [norm2_eq, WithLp.toLp_zero, norm_zero]

theorem norm2_eq_zero {x : ι → 𝕜} (h : norm2 x = 0) : x = 0 := by
  rw [norm2_eq, norm_eq_zero] at h
  exact (WithLp.toLp_eq_zero 2).1 h

/-- Triangle inequality by way of `y`. -/
theorem norm2_le_add (x y : ι → 𝕜) : norm2 x ≤ norm2 y + norm2 (x - y) := by
  have := norm2_add_le y (x - y)
  rwa [add_sub_cancel] at this

theorem norm2_sub_le (x y z : ι → 𝕜) : norm2 (x - z) ≤ norm2 (x - y) + norm2 (y - z) := by
  have := norm2_add_le (x - y) (y - z)
  rwa [sub_add_sub_cancel] at this

/-- Entrywise bounds of the form `|x i| ≤ c |y i| + h`. -/
theorem norm2_le_of_entries {𝕜' : Type} [RCLike 𝕜'] {x : ι → 𝕜} {y : ι → 𝕜'} {c h H : ℝ} (hc : 0 ≤ c) (hh : 0 ≤ h)
    (hH : Real.sqrt (Fintype.card ι) * h ≤ H) (hxy : ∀ i, ‖x i‖ ≤ c * ‖y i‖ + h) : norm2 x ≤ c * norm2 y + H := by
  set z : ι → ℝ := fun i => c * ‖y i‖ + h with hz
  have h1 : norm2 x ≤ norm2 z := by
    refine Real.sqrt_le_sqrt (Finset.sum_le_sum fun i _ => ?_)
    refine pow_le_pow_left₀ (norm_nonneg _) ((hxy i).trans ?_) 2
    exact le_abs_self _
  have h2 : norm2 z ≤ norm2 (fun i => c * ‖y i‖ : ι → ℝ) + norm2 (fun _ => h : ι → ℝ) := norm2_add_le _ _
  have h3 : norm2 (fun i => c * ‖y i‖ : ι → ℝ) = c * norm2 y := by
    unfold norm2 sqNorm
    have : ∑ i, ‖c * ‖y i‖‖ ^ 2 = c ^ 2 * ∑ i, ‖y i‖ ^ 2 := by
      rw [Finset.mul_sum]
      refine Finset.sum_congr rfl fun i _ => ?_
      rw [norm_mul, norm_norm, mul_pow, Real.norm_eq_abs, sq_abs]
    rw [this, Real.sqrt_mul (sq_nonneg _), Real.sqrt_sq hc]
  have h4 : norm2 (fun _ => h : ι → ℝ) = Real.sqrt (Fintype.card ι) * h := by
    unfold norm2 sqNorm
    rw [Finset.sum_const, Finset.card_univ, nsmul_eq_mul, Real.sqrt_mul (Nat.cast_nonneg _), Real.norm_eq_abs, sq_abs,
      Real.sqrt_sq hh]
  linarith

end

theorem opLe_of_norm {m n : ℕ} (B : Matrix (Fin m) (Fin n) 𝕜) : OpLe B ‖B‖ := by
  intro x
  rw [norm2_eq, norm2_eq]
  exact Matrix.l2_opNorm_mulVec B (WithLp.toLp 2 x)

theorem norm_le_of_opLe {m n : ℕ} {B : Matrix (Fin m) (Fin n) 𝕜} {c : ℝ} (hc : 0 ≤ c) (h : OpLe B c) : ‖B‖ ≤ c := by
  rw [Matrix.l2_opNorm_def]
  refine ContinuousLinearMap.opNorm_le_bound _ hc fun x => ?_
  have := h x.ofLp
  rw [norm2_eq, norm2_eq] at this
  exact this

theorem OpLe.mono {m n : ℕ} {B : Matrix (Fin m) (Fin n) 𝕜} {c d : ℝ} (h : OpLe B c) (hcd : c ≤ d) : OpLe B d :=
  fun x => (h x).trans (mul_le_mul_of_nonneg_right hcd (norm2_nonneg _))

theorem OpLe.add {m n : ℕ} {B C : Matrix (Fin m) (Fin n) 𝕜} {c d : ℝ} (hB : OpLe B c) (hC : OpLe C d) :
    OpLe (B + C) (c + d) := fun x => by
  rw [Matrix.add_mulVec, add_mul]
  exact (norm2_add_le _ _).trans (add_le_add (hB x) (hC x))

theorem OpLe.mul {m n k : ℕ} {B : Matrix (Fin m) (Fin n) 𝕜} {C : Matrix (Fin n) (Fin k) 𝕜} {c d : ℝ} (hc : 0 ≤ c)
    (hB : OpLe B c) (hC : OpLe C d) : OpLe (B * C) (c * d) := fun x => by
  rw [← Matrix.mulVec_mulVec, mul_assoc]
  exact (hB _).trans (mul_le_mul_of_nonneg_left (hC x) hc)

theorem OpLe.star {m n : ℕ} {B : Matrix (Fin m) (Fin n) 𝕜} {c : ℝ} (hc : 0 ≤ c) (h : OpLe B c) : OpLe Bᴴ c := by
  refine (opLe_of_norm _).mono ?_
  rw [Matrix.l2_opNorm_conjTranspose]
  exact norm_le_of_opLe hc h

theorem opLe_one {n : ℕ} : OpLe (1 : Matrix (Fin n) (Fin n) 𝕜) 1 := fun x => by
  rw [Matrix.one_mulVec, one_mul]

/-- Nearly orthonormal columns. -/
theorem OpLe.of_gram {m n : ℕ} {B : Matrix (Fin m) (Fin n) 𝕜} {δ : ℝ} (h0 : 0 ≤ δ) (h : OpLe (Bᴴ * B - 1) δ) :
    OpLe B (1 + δ / 2) := by
  have h1 : OpLe (Bᴴ * B) (1 + δ) := by
    have := (opLe_one (𝕜 := 𝕜) (n := n)).add h
    rwa [add_sub_cancel] at this
  have h2 := norm_le_of_opLe (by linarith) h1
  rw [Matrix.l2_opNorm_conjTranspose_mul_self] at h2
  refine (opLe_of_norm B).mono ?_
  have h3 := norm_nonneg B
  nlinarith

theorem opLe_diagonal {n : ℕ} {d : Fin n → 𝕜} {c : ℝ} (hc : 0 ≤ c) (h : ∀ i, ‖d i‖ ≤ c) :
    OpLe (Matrix.diagonal d) c := by
  refine (opLe_of_norm _).mono ?_
  rw [Matrix.l2_opNorm_diagonal]
  exact (pi_norm_le_iff_of_nonneg hc).2 h

/-- The sum of products of absolute values in the error bound of a product, in norm, from a bound on the columns. -/
theorem norm2_abs_mulVec_le_of_cols {m n : ℕ} {B : Matrix (Fin m) (Fin n) 𝕜} {c : ℝ} (hc : 0 ≤ c)
    (h : ∀ j, norm2 (B *ᵥ Pi.single j 1) ≤ c) {𝕜' : Type} [RCLike 𝕜'] (x : Fin n → 𝕜') :
    norm2 (fun i => ∑ j, ‖B i j‖ * ‖x j‖ : Fin m → ℝ) ≤ Real.sqrt n * c * norm2 x := by
  have hcol : ∑ i, ∑ j, ‖B i j‖ ^ 2 ≤ n * c ^ 2 := by
    rw [Finset.sum_comm]
    have : ∀ j : Fin n, ∑ i, ‖B i j‖ ^ 2 ≤ c ^ 2 := by
      intro j
      have hj := h j
      have e2 : B *ᵥ Pi.single j 1 = fun i => B i j := by
        funext i
        simp
      rw [e2, norm2] at hj
      exact (Real.sqrt_le_left hc).1 hj
    calc ∑ j, ∑ i, ‖B i j‖ ^ 2 ≤ ∑ _j : Fin n, c ^ 2 := Finset.sum_le_sum fun j _ => this j
      _ = n * c ^ 2 := by simp
  have hrow : sqNorm (fun i => ∑ j, ‖B i j‖ * ‖x j‖ : Fin m → ℝ) ≤ n * c ^ 2 * sqNorm x := by
    refine le_trans ?_ (mul_le_mul_of_nonneg_right hcol (Finset.sum_nonneg fun i _ => sq_nonneg _))
    rw [Finset.sum_mul]
    refine Finset.sum_le_sum fun i _ => ?_
    rw [Real.norm_eq_abs, sq_abs]
    exact Finset.sum_mul_sq_le_sq_mul_sq _ _ _
  have e : Real.sqrt n * c * norm2 x = Real.sqrt (n * c ^ 2 * sqNorm x) := by
    rw [norm2, Real.sqrt_mul (by positivity), Real.sqrt_mul (by positivity), Real.sqrt_sq hc]
  rw [e]
  exact Real.sqrt_le_sqrt hrow

theorem norm2_single {n : ℕ} (j : Fin n) : norm2 (Pi.single j 1 : Fin n → 𝕜) = 1 := by
  rw [norm2_eq]
  have : (WithLp.toLp 2 (Pi.single j (1 : 𝕜)) : EuclideanSpace 𝕜 (Fin n)) = EuclideanSpace.single j 1 := rfl
  rw [this, EuclideanSpace.norm_single, norm_one]

theorem OpLe.cols {m n : ℕ} {B : Matrix (Fin m) (Fin n) 𝕜} {c : ℝ} (h : OpLe B c) (j : Fin n) :
    norm2 (B *ᵥ Pi.single j 1) ≤ c := by
  have := h (Pi.single j 1)
  rwa [norm2_single, mul_one] at this

end Verif.Spec
