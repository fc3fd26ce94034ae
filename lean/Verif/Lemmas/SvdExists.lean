import Verif.Lemmas.Sampling
import Mathlib.Analysis.Matrix.Spectrum
import Mathlib.Analysis.Matrix.PosDef
import Mathlib.Data.Fin.Tuple.Sort
/-! Every matrix has a thin SVD: the contract required of the external SVD routines can be met. -/

namespace Verif.Sampling
open Verif Verif.Np Verif.Util Verif.Spec Matrix
open scoped ComplexOrder

theorem exists_thinSvd {𝕜 : Type} [RCLike 𝕜] {m n : ℕ} (A : Matrix (Fin m) (Fin n) 𝕜) :
    ∃ (k : ℕ) (u : Matrix (Fin m) (Fin k) 𝕜) (s : Fin k → ℝ) (vH : Matrix (Fin k) (Fin n) 𝕜), IsThinSvd A u s vH := by
  have hpos : (Aᴴ * A).PosSemidef := posSemidef_conjTranspose_mul_self A
  have hG := hpos.1
  set U : Matrix (Fin n) (Fin n) 𝕜 := (hG.eigenvectorUnitary : Matrix (Fin n) (Fin n) 𝕜) with hU
  have hU1 : Uᴴ * U = 1 := by
    rw [← Matrix.star_eq_conjTranspose]; exact Unitary.coe_star_mul_self hG.eigenvectorUnitary
  set σ : Equiv.Perm (Fin n) := Tuple.sort fun i => -hG.eigenvalues i with hσ
  set W : Matrix (Fin n) (Fin n) 𝕜 := U.submatrix id σ with hW
  set lam : Fin n → ℝ := fun i => hG.eigenvalues (σ i) with hlam
  have hlam_anti : Antitone lam := by
    intro i j hij
    have := Tuple.monotone_sort (fun i => -hG.eigenvalues i) hij
    simp only [Function.comp, neg_le_neg_iff] at this
    exact this
  have hlam0 : ∀ i, 0 ≤ lam i := fun i => hpos.eigenvalues_nonneg _
  have hW1 : Wᴴ * W = 1 := by
    ext i j
    have := congrFun (congrFun hU1 (σ i)) (σ j)
    simp only [Matrix.mul_apply, Matrix.conjTranspose_apply, Matrix.one_apply, hW, Matrix.submatrix_apply, id] at this ⊢
    rw [this]
    simp
  have hW2 : W * Wᴴ = 1 := mul_eq_one_comm.1 hW1
  have hGW : Aᴴ * A * W = W * Matrix.diagonal fun i => (lam i : 𝕜) := by
    ext i j
    have := congrFun (hG.mulVec_eigenvectorBasis (σ j)) i
    rw [Matrix.mul_diagonal]
    simp only [Pi.smul_apply] at this
    rw [RCLike.real_smul_eq_coe_mul, mul_comm] at this
    exact this
  set B := A * W with hB
  have hBB : Bᴴ * B = Matrix.diagonal fun i => (lam i : 𝕜) := by
    calc Bᴴ * B = Wᴴ * (Aᴴ * A * W) := by rw [hB, Matrix.conjTranspose_mul]; simp only [Matrix.mul_assoc]
      _ = (Wᴴ * W) * Matrix.diagonal fun i => (lam i : 𝕜) := by rw [hGW, Matrix.mul_assoc]
      _ = _ := by rw [hW1, Matrix.one_mul]
  set sg : Fin n → ℝ := fun i => Real.sqrt (lam i) with hsg
  set idx := (keep sg).get with hidx
  have hne : ∀ i, sg (idx i) ≠ 0 := fun i => keep_ne_zero sg i
  have hne' : ∀ i, ((sg (idx i) : ℝ) : 𝕜) ≠ 0 := fun i => by exact_mod_cast hne i
  have hss : ∀ i, (sg i : 𝕜) * sg i = lam i := fun i => by
    rw [← RCLike.ofReal_mul, hsg]
    simp only [Real.mul_self_sqrt (hlam0 i)]
  have hBent : ∀ i j, ∑ x, star (B x i) * B x j = if i = j then (lam i : 𝕜) else 0 := by
    intro i j
    have := congrFun (congrFun hBB i) j
    rw [Matrix.mul_apply] at this
    simp only [Matrix.conjTranspose_apply, Matrix.diagonal_apply] at this
    exact this
  have hB0 : ∀ i, sg i = 0 → ∀ x, B x i = 0 := by
    intro i hi x
    have h1 : lam i = 0 := (Real.sqrt_eq_zero (hlam0 i)).1 hi
    have h2 := hBent i i
    rw [if_pos rfl, h1, RCLike.ofReal_zero] at h2
    have h3 : (∑ x, ‖B x i‖ ^ 2 : ℝ) = 0 := by
      have : ((∑ x, ‖B x i‖ ^ 2 : ℝ) : 𝕜) = 0 := by
        rw [← h2, RCLike.ofReal_sum]
        refine Finset.sum_congr rfl fun x _ => ?_
        rw [RCLike.star_def, RCLike.conj_mul]
        norm_cast
      exact_mod_cast this
    rw [Finset.sum_eq_zero_iff_of_nonneg fun _ _ => by positivity] at h3
    simpa using h3 x (Finset.mem_univ _)
  refine ⟨(keep sg).length, Matrix.of fun x i => B x (idx i) * ((sg (idx i) : ℝ) : 𝕜)⁻¹, fun i => sg (idx i),
    Matrix.of fun i j => star (W j (idx i)), ?_, ?_, fun i => Real.sqrt_nonneg _, ?_, ?_⟩
  · ext i j
    rw [Matrix.mul_apply, Matrix.one_apply]
    simp only [Matrix.conjTranspose_apply, Matrix.of_apply, star_mul']
    have : ∀ x, star (B x (idx i)) * star (((sg (idx i) : ℝ) : 𝕜)⁻¹) * (B x (idx j) * ((sg (idx j) : ℝ) : 𝕜)⁻¹) =
        (star (B x (idx i)) * B x (idx j)) * (((sg (idx i) : ℝ) : 𝕜)⁻¹ * ((sg (idx j) : ℝ) : 𝕜)⁻¹) := by
      intro x
      have hr : star ((sg (idx i) : ℝ) : 𝕜) = ((sg (idx i) : ℝ) : 𝕜) := RCLike.conj_ofReal _
      rw [star_inv₀, hr]
      ring
    simp only [this]
    rw [← Finset.sum_mul, hBent]
    by_cases hij : i = j
    · subst hij
      rw [if_pos rfl, if_pos rfl, ← hss]
      have := hne' i
      field_simp
    · rw [if_neg hij, if_neg (fun h => hij (keep_inj sg h)), zero_mul]
  · ext i j
    rw [Matrix.mul_apply, Matrix.one_apply]
    simp only [Matrix.conjTranspose_apply, Matrix.of_apply, star_star]
    have := congrFun (congrFun hW1 (idx i)) (idx j)
    rw [Matrix.mul_apply, Matrix.one_apply] at this
    simp only [Matrix.conjTranspose_apply] at this
    rw [this]
    simp only [(keep_inj sg).eq_iff, hidx]
  · intro i j hij
    exact Real.sqrt_le_sqrt (hlam_anti ((keep_mono sg).monotone hij))
  · ext x j
    rw [Matrix.mul_apply]
    simp only [Matrix.mul_diagonal, Matrix.of_apply]
    have : ∀ i, B x (idx i) * ((sg (idx i) : ℝ) : 𝕜)⁻¹ * ((sg (idx i) : ℝ) : 𝕜) * star (W j (idx i)) =
        (fun i => B x i * star (W j i)) (idx i) := by
      intro i
      rw [inv_mul_cancel_right₀ (hne' i)]
    simp only [this]
    rw [hidx, keep_sum sg (fun i => B x i * star (W j i)) fun i hi => by rw [hB0 i hi x, zero_mul]]
    have hA : A = B * Wᴴ := by rw [hB, Matrix.mul_assoc, hW2, Matrix.mul_one]
    conv_lhs => rw [hA]
    rw [Matrix.mul_apply]
    rfl

/-- SVD routines which meet the contract. -/
noncomputable def idealSvds : Svds where
  complex := fun m n A => .ok ⟨m, _, _, _, n, (exists_thinSvd A).choose_spec.choose,
    (exists_thinSvd A).choose_spec.choose_spec.choose, (exists_thinSvd A).choose_spec.choose_spec.choose_spec.choose⟩
  real := fun m n A => .ok ⟨m, _, _, _, n, (exists_thinSvd A).choose_spec.choose,
    (exists_thinSvd A).choose_spec.choose_spec.choose, (exists_thinSvd A).choose_spec.choose_spec.choose_spec.choose⟩

/-- The contract of the SVD routines. -/
structure Svds.Ok (svds : Svds) : Prop where
  complex : ∀ {m n : ℕ} (A : Matrix (Fin m) (Fin n) ℂ), ∃ t, svds.complex m n A = .ok t ∧ SvdOk A t
  real : ∀ {m n : ℕ} (A : Matrix (Fin m) (Fin n) ℝ), ∃ t, svds.real m n A = .ok t ∧ SvdOk A t

theorem idealSvds_ok : idealSvds.Ok where
  complex := fun A => ⟨_, rfl, _, _, _, _, rfl, (exists_thinSvd A).choose_spec.choose_spec.choose_spec.choose_spec⟩
  real := fun A => ⟨_, rfl, _, _, _, _, rfl, (exists_thinSvd A).choose_spec.choose_spec.choose_spec.choose_spec⟩

end Verif.Sampling
