import Verif.Props.C68_SparseSampling
import Verif.Props.C50_DlrFunctions
/-!
# C69 — the condition number is the amplification of relative errors
-/

namespace Verif.Props
open Verif Verif.Np Verif.Poly Verif.Sve Verif.Kernel Verif.Spec Verif.FiniteTemp Verif.Sampling Verif.Np.NdArray Matrix

section
variable {𝕜 : Type} [RCLike 𝕜]

theorem sqNorm_cast {ι : Type} [Fintype ι] (z : ι → 𝕜) : ((sqNorm z : ℝ) : 𝕜) = star z ⬝ᵥ z := by
  unfold sqNorm dotProduct
  rw [RCLike.ofReal_sum]
  refine Finset.sum_congr rfl fun i _ => ?_
  rw [Pi.star_apply, RCLike.star_def, RCLike.conj_mul]
  norm_cast

/-- Orthonormal columns preserve the norm. -/
theorem sqNorm_isometry {m k : ℕ} {u : Matrix (Fin m) (Fin k) 𝕜} (hu : uᴴ * u = 1) (w : Fin k → 𝕜) :
    sqNorm (u *ᵥ w) = sqNorm w := by
  have : ((sqNorm (u *ᵥ w) : ℝ) : 𝕜) = ((sqNorm w : ℝ) : 𝕜) := by
    rw [sqNorm_cast, sqNorm_cast, Matrix.star_mulVec, ← Matrix.dotProduct_mulVec, Matrix.mulVec_mulVec, hu,
      Matrix.one_mulVec]
  exact_mod_cast this

/-- Projections do not increase the norm. -/
theorem sqNorm_contract {m k : ℕ} {u : Matrix (Fin m) (Fin k) 𝕜} (hu : uᴴ * u = 1) (x : Fin m → 𝕜) :
    sqNorm (uᴴ *ᵥ x) ≤ sqNorm x := by
  have horth : star (u *ᵥ (uᴴ *ᵥ x)) ⬝ᵥ (x - u *ᵥ (uᴴ *ᵥ x)) = 0 := by
    rw [Matrix.star_mulVec, ← Matrix.dotProduct_mulVec, Matrix.mulVec_sub, Matrix.mulVec_mulVec (uᴴ *ᵥ x), hu,
      Matrix.one_mulVec, sub_self, dotProduct_zero]
  have h1 := sq_add_of_orth _ _ horth
  rw [add_sub_cancel, sqNorm_isometry hu] at h1
  have := sq_nonneg' (x - u *ᵥ (uᴴ *ᵥ x))
  linarith

/-- The matrix `A` of full column rank, the solution map and the number `κ`: errors of the data are amplified in the
solution, relative to the size of both, by at most `κ`, and by as much as `κ` in some case. -/
def IsAmplification {m n : ℕ} (A : Matrix (Fin m) (Fin n) 𝕜) (fit : (Fin m → 𝕜) → Fin n → 𝕜) (κ : ℝ) : Prop :=
  0 < κ ∧ (∀ g η, sqNorm (fit (A *ᵥ g + η) - g) * sqNorm (A *ᵥ g) ≤ κ ^ 2 * (sqNorm η * sqNorm g)) ∧
  ∃ g η, g ≠ 0 ∧ η ≠ 0 ∧ sqNorm (fit (A *ᵥ g + η) - g) * sqNorm (A *ᵥ g) = κ ^ 2 * (sqNorm η * sqNorm g)

theorem amplification_of_core {m n r : ℕ} {A : Matrix (Fin m) (Fin n) 𝕜} {u : Matrix (Fin m) (Fin r) 𝕜}
    {s : Fin r → ℝ} {v : Matrix (Fin n) (Fin r) 𝕜} (hu : uᴴ * u = 1) (hv : vᴴ * v = 1) (hs : ∀ i, 0 < s i)
    (hanti : Antitone s) (hA : A = u * Matrix.diagonal (fun i => (s i : 𝕜)) * vᴴ) (hinj : ∀ w, A *ᵥ w = 0 → w = 0)
    (hr : 0 < r) {fit : (Fin m → 𝕜) → Fin n → 𝕜} (hfit : ∀ x, IsLeastSquares A x (fit x)) :
    IsAmplification A fit (s ⟨0, hr⟩ / s ⟨r - 1, by omega⟩) := by
  set D := Matrix.diagonal (fun i => (s i : 𝕜)) with hD
  set D' := Matrix.diagonal (fun i => ((s i)⁻¹ : 𝕜)) with hD'
  have hne : ∀ i, (s i : 𝕜) ≠ 0 := fun i => by exact_mod_cast (hs i).ne'
  have hDD : D' * D = 1 := by
    rw [hD, hD', Matrix.diagonal_mul_diagonal, ← Matrix.diagonal_one]
    congr 1
    funext i
    exact inv_mul_cancel₀ (hne i)
  have hvv : ∀ w, v *ᵥ (vᴴ *ᵥ w) = w := by
    intro w
    have h0 : vᴴ *ᵥ (w - v *ᵥ (vᴴ *ᵥ w)) = 0 := by
      rw [Matrix.mulVec_sub, Matrix.mulVec_mulVec (vᴴ *ᵥ w), hv, Matrix.one_mulVec, sub_self]
    have h1 := hinj (w - v *ᵥ (vᴴ *ᵥ w)) (by rw [hA, ← Matrix.mulVec_mulVec, h0, Matrix.mulVec_zero])
    exact (sub_eq_zero.1 h1).symm
  have hsol : ∀ g η, fit (A *ᵥ g + η) - g = v *ᵥ (D' *ᵥ (uᴴ *ᵥ η)) := by
    intro g η
    have h1 := (hfit (A *ᵥ g + η)).unique
      (leastSquares_of_core A u s v hu hv (fun i => (hs i).ne') hA (A *ᵥ g + η))
    rw [h1, Matrix.mulVec_add, Matrix.mulVec_add, Matrix.mulVec_add]
    have h2 : v *ᵥ (D' *ᵥ (uᴴ *ᵥ (A *ᵥ g))) = g := by
      conv_rhs => rw [← hvv g]
      rw [hA]
      simp only [Matrix.mulVec_mulVec]
      congr 1
      calc v * (D' * (uᴴ * (u * D * vᴴ))) = v * (D' * ((uᴴ * u) * D) * vᴴ) := by simp only [Matrix.mul_assoc]
        _ = v * vᴴ := by rw [hu, Matrix.one_mul, hDD, Matrix.one_mul]
    rw [h2, add_sub_cancel_left]
  have hnA : ∀ g, sqNorm (A *ᵥ g) = sqNorm (D *ᵥ (vᴴ *ᵥ g)) := by
    intro g
    rw [hA, ← Matrix.mulVec_mulVec, ← Matrix.mulVec_mulVec, sqNorm_isometry hu]
  have hnv : ∀ g, sqNorm (vᴴ *ᵥ g) = sqNorm g := by
    intro g
    rw [← sqNorm_isometry hv, hvv]
  set s0 := s ⟨0, hr⟩ with hs0
  set s1 := s ⟨r - 1, by omega⟩ with hs1
  have p0 : 0 < s0 := hs _
  have p1 : 0 < s1 := hs _
  have hmax : ∀ i, s i ≤ s0 := fun i => hanti (Fin.mk_le_mk.2 (Nat.zero_le _))
  have hmin : ∀ i, s1 ≤ s i := fun i => hanti (Fin.le_def.2 (by have := i.2; simp only; omega))
  have hup : ∀ w, sqNorm (D *ᵥ w) ≤ s0 ^ 2 * sqNorm w := by
    intro w
    unfold sqNorm
    rw [Finset.mul_sum]
    refine Finset.sum_le_sum fun i _ => ?_
    rw [hD, Matrix.mulVec_diagonal, norm_mul, mul_pow, RCLike.norm_ofReal, sq_abs]
    exact mul_le_mul_of_nonneg_right (pow_le_pow_left₀ (hs i).le (hmax i) 2) (by positivity)
  have hlow : ∀ w, s1 ^ 2 * sqNorm (D' *ᵥ w) ≤ sqNorm w := by
    intro w
    unfold sqNorm
    rw [Finset.mul_sum]
    refine Finset.sum_le_sum fun i _ => ?_
    rw [hD', Matrix.mulVec_diagonal, norm_mul, mul_pow, norm_inv, RCLike.norm_ofReal, inv_pow, sq_abs]
    have h1 : s1 ^ 2 * (s i ^ 2)⁻¹ ≤ 1 := by
      rw [← div_eq_mul_inv, div_le_one (by have := hs i; positivity)]
      exact pow_le_pow_left₀ p1.le (hmin i) 2
    calc s1 ^ 2 * ((s i ^ 2)⁻¹ * ‖w i‖ ^ 2) = s1 ^ 2 * (s i ^ 2)⁻¹ * ‖w i‖ ^ 2 := by ring
      _ ≤ 1 * ‖w i‖ ^ 2 := mul_le_mul_of_nonneg_right h1 (by positivity)
      _ = ‖w i‖ ^ 2 := one_mul _
  refine ⟨div_pos p0 p1, fun g η => ?_, ?_⟩
  · rw [hsol, hnA, sqNorm_isometry hv, div_pow, div_mul_eq_mul_div, le_div_iff₀ (by positivity)]
    have h1 := (hlow (uᴴ *ᵥ η)).trans (sqNorm_contract hu η)
    have h2 := hup (vᴴ *ᵥ g)
    rw [hnv] at h2
    calc sqNorm (D' *ᵥ (uᴴ *ᵥ η)) * sqNorm (D *ᵥ (vᴴ *ᵥ g)) * s1 ^ 2
        = (s1 ^ 2 * sqNorm (D' *ᵥ (uᴴ *ᵥ η))) * sqNorm (D *ᵥ (vᴴ *ᵥ g)) := by ring
      _ ≤ sqNorm η * (s0 ^ 2 * sqNorm g) := mul_le_mul h1 h2 (sq_nonneg' _) (sq_nonneg' _)
      _ = s0 ^ 2 * (sqNorm η * sqNorm g) := by ring
  · have hsingle : ∀ i : Fin r, sqNorm (Pi.single i (1 : 𝕜)) = 1 := by
      intro i
      unfold sqNorm
      rw [Finset.sum_eq_single i]
      · simp
      · intro j _ hj; simp [hj]
      · simp
    have hdiag : ∀ (c : Fin r → 𝕜) (i : Fin r), sqNorm (Matrix.diagonal c *ᵥ Pi.single i (1 : 𝕜)) = ‖c i‖ ^ 2 := by
      intro c i
      unfold sqNorm
      rw [Finset.sum_eq_single i]
      · simp [Matrix.mulVec_diagonal]
      · intro j _ hj; simp [Matrix.mulVec_diagonal, hj]
      · simp
    have n0 : sqNorm (v *ᵥ Pi.single ⟨0, hr⟩ (1 : 𝕜)) = 1 := by rw [sqNorm_isometry hv, hsingle]
    have n1 : sqNorm (u *ᵥ Pi.single (⟨r - 1, by omega⟩ : Fin r) (1 : 𝕜)) = 1 := by rw [sqNorm_isometry hu, hsingle]
    refine ⟨v *ᵥ Pi.single ⟨0, hr⟩ 1, u *ᵥ Pi.single ⟨r - 1, by omega⟩ 1, fun h => ?_, fun h => ?_, ?_⟩
    · rw [h, sq_eq_zero.2 rfl] at n0; norm_num at n0
    · rw [h, sq_eq_zero.2 rfl] at n1; norm_num at n1
    · rw [hsol, hnA, sqNorm_isometry hv, n0, n1, Matrix.mulVec_mulVec _ uᴴ, hu, Matrix.one_mulVec,
        Matrix.mulVec_mulVec _ vᴴ, hv, Matrix.one_mulVec, hD, hD', hdiag, hdiag, norm_inv, RCLike.norm_ofReal,
        RCLike.norm_ofReal, inv_pow, sq_abs, sq_abs, ← hs0, ← hs1]
      field_simp

end

/-- Condition number of the matrix of a sampling object: it is the amplification of relative errors by `fit`. -/
theorem C69_full {svds : Svds} (hs : svds.Ok) {m n : ℕ} (A : Matrix (Fin m) (Fin n) ℂ) (hn : 0 < n)
    (hinj : ∀ w, A *ᵥ w = 0 → w = 0) :
    ∃ M κ fit, fullMatrix svds A = .ok M ∧ M.cond = .ok κ ∧ IsAmplification A fit κ ∧
      ∀ (x : NdArray ℂ) (axis : ℤ) (k : ℕ), ValidAxis axis x.ndim k → x.shape[k]? = some m →
        ∃ y, M.lstsq x (some axis) = .ok y ∧ AppliedAlong fit k x y := by
  obtain ⟨t, ht, hok⟩ := hs.complex A
  obtain ⟨d, hd, -, hpos, hanti, hls, h0⟩ := decompose_ok hok
  have hM : fullMatrix svds A = .ok (.full d) := by
    unfold fullMatrix
    rw [ht]
    simp only [hd]
    rfl
  have hr : 0 < d.r := by
    rw [Nat.pos_iff_ne_zero]
    intro h
    have := congrFun (hinj (fun _ => 1) (by rw [h0 h]; simp)) ⟨0, hn⟩
    simp at this
  have hcore : (d.uHᴴ)ᴴ * d.uHᴴ = 1 ∧ d.vᴴ * d.v = 1 ∧
      A = d.uHᴴ * Matrix.diagonal (fun i => (d.s i : ℂ)) * d.vᴴ := by
    obtain ⟨k, u, s, vH, rfl, hsvd⟩ := hok
    have hc : Util.checkSvdResult m k k k n (some (m, n)) = .ok k := by unfold Util.checkSvdResult; simp
    unfold decompose at hd
    rw [dif_pos ⟨hc, ⟨rfl, rfl⟩, rfl, rfl⟩] at hd
    obtain rfl := Except.ok.inj hd
    obtain ⟨h1, h2, h3⟩ := core_of_svd hsvd
    have e1 : ((Matrix.of fun (i : Fin (keep s).length) (j : Fin m) => star (u j ((keep s).get i)))ᴴ :
        Matrix (Fin m) (Fin (keep s).length) ℂ) = u.submatrix id (keep s).get := by
      ext i j
      simp [Matrix.conjTranspose_apply]
    have e2 : (Matrix.of fun (j : Fin n) (i : Fin (keep s).length) => star (vH ((keep s).get i) j) :
        Matrix (Fin n) (Fin (keep s).length) ℂ) = (vH.submatrix (keep s).get id)ᴴ := by
      ext i j
      simp [Matrix.conjTranspose_apply]
    refine ⟨?_, ?_, ?_⟩
    · rw [← e1] at h1; exact h1
    · rw [← e2] at h2; exact h2
    · rw [← e1, ← e2] at h3; exact h3
  obtain ⟨h1, h2, h3⟩ := hcore
  refine ⟨.full d, d.s ⟨0, hr⟩ / d.s ⟨d.r - 1, by omega⟩, d.pinv, hM, ?_,
    amplification_of_core h1 h2 hpos hanti h3 hinj hr hls, fun x axis k hk hx => ?_⟩
  · show condOf _ = _
    unfold condOf
    rw [dif_pos hr]
  · exact matop_spec d.pinv d.lstsqOp (fun y h0 hy => d.lstsqOp_ok (fun i => (hpos i).ne') y h0 hy) x
      (normalizeAxis_iff.2 hk) hx

/-- The split decomposition is a singular value decomposition of the stacked matrix. -/
theorem split_core {svds : Svds} (hs : svds.Ok) {m n : ℕ} (A : Matrix (Fin m) (Fin n) ℂ) (hasZero : Bool) :
    ∃ (d : SplitMat m n) (u : Matrix (Fin (m + (m - offsetImag hasZero))) (Fin d.r) ℝ),
      splitMatrix svds A hasZero = .ok (.split d) ∧ (∀ i, 0 < d.s i) ∧ Antitone d.s ∧ uᴴ * u = 1 ∧ d.vᴴ * d.v = 1 ∧
      stacked (offsetImag hasZero) A = u * Matrix.diagonal (fun i => (d.s i : ℝ)) * d.vᴴ ∧
      ∀ x, IsLeastSquares (stacked (offsetImag hasZero) A) (stackVec (offsetImag hasZero) x) (d.pinv x) := by
  obtain ⟨t, ht, hok⟩ := hs.real (stacked (offsetImag hasZero) A)
  obtain ⟨st, d, h1, h2, -, h4, h5, h6⟩ := split_ok ht hok
  have hM : splitMatrix svds A hasZero = .ok (.split d) := by
    unfold splitMatrix splitComplex
    rw [h1]
    simp only [h2]
    rfl
  obtain ⟨k, u, s, vH, rfl, hsvd⟩ := hok
  unfold splitOff at h1
  rw [ht] at h1
  dsimp only at h1
  rw [dif_pos rfl] at h1
  obtain rfl := Except.ok.inj h1
  have hc : Util.checkSvdResult m k k k n (some (m, n)) = .ok k := by unfold Util.checkSvdResult; simp
  unfold splitDecompose at h2
  dsimp only at h2
  rw [dif_pos ⟨hc, ⟨rfl, rfl⟩, rfl, rfl⟩] at h2
  obtain rfl := Except.ok.inj h2
  obtain ⟨c1, c2, c3⟩ := core_of_svd hsvd
  have e2 : (Matrix.of fun (j : Fin n) (i : Fin (keep s).length) => vH ((keep s).get i) j :
      Matrix (Fin n) (Fin (keep s).length) ℝ) = (vH.submatrix (keep s).get id)ᴴ := by
    ext i j
    simp [Matrix.conjTranspose_apply]
  refine ⟨_, u.submatrix id (keep s).get, hM, h4, h5, c1, ?_, ?_, h6⟩
  · rw [← e2] at c2; exact c2
  · rw [← e2] at c3; exact c3

/-- The same for real coefficients and complex data, as in the positive-only case. -/
def IsRealAmplification {m n : ℕ} (A : Matrix (Fin m) (Fin n) ℂ) (fit : (Fin m → ℂ) → Fin n → ℝ) (κ : ℝ) : Prop :=
  0 < κ ∧ (∀ (g : Fin n → ℝ) η, sqNorm (fit (A *ᵥ (fun l => (g l : ℂ)) + η) - g) *
    sqNorm (A *ᵥ (fun l => (g l : ℂ))) ≤ κ ^ 2 * (sqNorm η * sqNorm g)) ∧
  ∃ (g : Fin n → ℝ) (η : Fin m → ℂ), g ≠ 0 ∧ η ≠ 0 ∧ sqNorm (fit (A *ᵥ (fun l => (g l : ℂ)) + η) - g) *
    sqNorm (A *ᵥ (fun l => (g l : ℂ))) = κ ^ 2 * (sqNorm η * sqNorm g)

theorem stackVec_add {m : ℕ} (off : ℕ) (x y : Fin m → ℂ) : stackVec off (x + y) = stackVec off x + stackVec off y := by
  funext i
  unfold stackVec
  simp only [Pi.add_apply]
  split <;> simp

theorem stackVec_mul {m n : ℕ} (off : ℕ) (A : Matrix (Fin m) (Fin n) ℂ) (y : Fin n → ℝ) :
    stackVec off (A *ᵥ (fun l => (y l : ℂ))) = stacked off A *ᵥ y := by
  have h := stack_mulVec off A y 0
  have h0 : stackVec off (0 : Fin m → ℂ) = 0 := by
    funext i
    unfold stackVec
    split <;> simp
  rwa [sub_zero, h0, sub_zero] at h

theorem sqNorm_stack_le {m : ℕ} (off : ℕ) (x : Fin m → ℂ) : sqNorm (stackVec off x) ≤ sqNorm x := by
  rw [sq_stack off x, le_add_iff_nonneg_right]
  refine Finset.sum_nonneg fun j _ => ?_
  split <;> positivity

theorem unstack {m : ℕ} (off : ℕ) (z : Fin (m + (m - off)) → ℝ) :
    ∃ x : Fin m → ℂ, stackVec off x = z ∧ sqNorm x = sqNorm z := by
  have key : ∃ x : Fin m → ℂ, stackVec off x = z ∧ ∀ j : Fin m, j.1 < off → (x j).im = 0 := by
    refine ⟨fun j => ⟨z ⟨j.1, by omega⟩, if h : j.1 < off then 0 else z ⟨m + (j.1 - off), by omega⟩⟩, ?_, ?_⟩
    · funext i
      unfold stackVec
      by_cases hi : i.1 < m
      · rw [dif_pos hi]
      · rw [dif_neg hi]
        simp only
        rw [dif_neg (by simp)]
        congr 1
        ext
        simp only
        omega
    · intro j hj
      simp only
      rw [dif_pos hj]
  obtain ⟨x, hx, h0⟩ := key
  refine ⟨x, hx, ?_⟩
  rw [sq_stack off x, hx, add_eq_left]
  refine Finset.sum_eq_zero fun j _ => ?_
  split
  · next h => rw [h0 j h]; norm_num
  · rfl

theorem sqNorm_stacked {m n : ℕ} {A : Matrix (Fin m) (Fin n) ℂ} {hasZero : Bool} (hrow : ZeroRowReal A hasZero)
    (g : Fin n → ℝ) : sqNorm (A *ᵥ (fun l => (g l : ℂ))) = sqNorm (stacked (offsetImag hasZero) A *ᵥ g) := by
  obtain ⟨c, hc⟩ := sqNorm_real hrow (0 : Fin m → ℂ)
  have h0 := hc 0
  have h1 := hc g
  have hz : stackVec (offsetImag hasZero) (0 : Fin m → ℂ) = 0 := by
    funext i
    unfold stackVec
    split <;> simp
  rw [hz, sub_zero, sub_zero] at h0 h1
  have e0 : A *ᵥ (fun l => ((0 : Fin n → ℝ) l : ℂ)) = 0 := by
    have : (fun l => ((0 : Fin n → ℝ) l : ℂ)) = 0 := by funext l; simp
    rw [this, Matrix.mulVec_zero]
  rw [e0, Matrix.mulVec_zero, sq_eq_zero.2 rfl, sq_eq_zero.2 rfl, zero_add] at h0
  rw [h1, ← h0, add_zero]

/-- Condition number of the matrix of a positive-only Matsubara sampling: amplification of relative errors by `fit`,
among real coefficients. -/
theorem C69_split {svds : Svds} (hs : svds.Ok) {m n : ℕ} (A : Matrix (Fin m) (Fin n) ℂ) (hasZero : Bool)
    (hrow : ZeroRowReal A hasZero) (hn : 0 < n)
    (hinj : ∀ w : Fin n → ℝ, A *ᵥ (fun l => (w l : ℂ)) = 0 → w = 0) :
    ∃ M κ fit, splitMatrix svds A hasZero = .ok M ∧ M.cond = .ok κ ∧ IsRealAmplification A fit κ ∧
      ∀ (x : NdArray ℂ) (axis : ℤ) (k : ℕ), ValidAxis axis x.ndim k → x.shape[k]? = some m →
        ∃ y, M.lstsq x (some axis) = .ok y ∧ AppliedAlong (fun v l => (fit v l : ℂ)) k x y := by
  obtain ⟨d, u, hM, hpos, hanti, hu, hv, hA, hls⟩ := split_core hs A hasZero
  have hnorm := sqNorm_stacked hrow
  have hinj' : ∀ w, stacked (offsetImag hasZero) A *ᵥ w = 0 → w = 0 := fun w hw =>
    hinj w (sq_eq_zero.1 (by rw [hnorm, hw, sq_eq_zero]))
  have hr : 0 < d.r := by
    rw [Nat.pos_iff_ne_zero]
    intro h
    have : IsEmpty (Fin d.r) := by rw [h]; infer_instance
    have h1 : stacked (offsetImag hasZero) A = 0 := by
      rw [hA]
      ext i j
      simp [Matrix.mul_apply]
    have := congrFun (hinj' (fun _ => 1) (by rw [h1]; simp)) ⟨0, hn⟩
    simp at this
  let fit' : (Fin (m + (m - offsetImag hasZero)) → ℝ) → Fin n → ℝ := fun z => d.pinv (Classical.choose (unstack _ z))
  have hfit' : ∀ z, IsLeastSquares (stacked (offsetImag hasZero) A) z (fit' z) := by
    intro z
    have := hls (Classical.choose (unstack _ z))
    rwa [(Classical.choose_spec (unstack _ z)).1] at this
  have hdp : ∀ x, d.pinv x = fit' (stackVec (offsetImag hasZero) x) := fun x => (hls x).unique (hfit' _)
  obtain ⟨k0, k1, g, η, hg, hη, k2⟩ := amplification_of_core hu hv hpos hanti hA hinj' hr hfit'
  have hval : ∀ (g : Fin n → ℝ) (η : Fin m → ℂ), d.pinv (A *ᵥ (fun l => (g l : ℂ)) + η) =
      fit' (stacked (offsetImag hasZero) A *ᵥ g + stackVec (offsetImag hasZero) η) := by
    intro g η
    rw [hdp, stackVec_add, stackVec_mul]
  refine ⟨.split d, d.s ⟨0, hr⟩ / d.s ⟨d.r - 1, by omega⟩, d.pinv, hM, ?_, ⟨k0, fun g η => ?_, ?_⟩,
    fun x axis k hk hx => ?_⟩
  · show condOf _ = _
    unfold condOf
    rw [dif_pos hr]
  · rw [hval, hnorm]
    refine (k1 g (stackVec (offsetImag hasZero) η)).trans ?_
    exact mul_le_mul_of_nonneg_left (mul_le_mul_of_nonneg_right (sqNorm_stack_le _ η) (sq_nonneg' _)) (by positivity)
  · obtain ⟨x, hx, hxn⟩ := unstack _ η
    refine ⟨g, x, hg, fun h => hη ?_, ?_⟩
    · rw [h, sq_eq_zero.2 rfl] at hxn
      exact sq_eq_zero.1 hxn.symm
    · rw [hval, hnorm, hx, k2, hxn]
  · obtain ⟨r, hr, ar⟩ := matop_spec d.pinv d.lstsqOp (fun y h0 hy => d.lstsqOp_ok (fun i => (hpos i).ne') y h0 hy) x
      (normalizeAxis_iff.2 hk) hx
    refine ⟨mapArr Complex.ofReal r, ?_, applied_post Complex.ofReal ar⟩
    show Except.map _ (d.lstsq x (some axis)) = _
    rw [show d.lstsq x (some axis) = .ok r from hr]
    rfl

/-! ## Data of a pole with errors -/

theorem error_of_min {𝕜 : Type} [RCLike 𝕜] {m : ℕ} {p η : Fin m → 𝕜}
    (h : ∀ t : ℝ, sqNorm (p - η) ≤ sqNorm ((t : 𝕜) • p - η)) : sqNorm p ≤ sqNorm η := by
  set B : ℝ := ∑ i, RCLike.re (inner 𝕜 (p i) (η i)) with hB
  have hexp : ∀ t : ℝ, sqNorm ((t : 𝕜) • p - η) = t ^ 2 * sqNorm p - 2 * t * B + sqNorm η := by
    intro t
    unfold sqNorm
    rw [hB, Finset.mul_sum, Finset.mul_sum, ← Finset.sum_sub_distrib, ← Finset.sum_add_distrib]
    refine Finset.sum_congr rfl fun i _ => ?_
    rw [Pi.sub_apply, Pi.smul_apply, norm_sub_sq (𝕜 := 𝕜), inner_smul_left, smul_eq_mul, norm_mul, RCLike.norm_ofReal,
      mul_pow, sq_abs, RCLike.conj_ofReal, RCLike.re_ofReal_mul]
    ring
  have e1 : p - η = ((1 : ℝ) : 𝕜) • p - η := by simp
  have hmin : ∀ t : ℝ, sqNorm p - 2 * B ≤ t ^ 2 * sqNorm p - 2 * t * B := by
    intro t
    have h1 := h t
    rw [e1, hexp, hexp] at h1
    linarith
  have hn := sq_nonneg' p
  have hr := sq_nonneg' (((1 : ℝ) : 𝕜) • p - η)
  rw [hexp] at hr
  have hBn : sqNorm p ≤ B := by
    by_contra hc
    push Not at hc
    rcases hn.eq_or_lt with h0 | h0
    · have := hmin 0
      linarith
    · have h1 := hmin (B / sqNorm p)
      have e : (B / sqNorm p) ^ 2 * sqNorm p - 2 * (B / sqNorm p) * B = - (B ^ 2 / sqNorm p) := by field_simp; ring
      rw [e, le_neg, ← sub_nonneg] at h1
      have h2 : -(sqNorm p - 2 * B) - B ^ 2 / sqNorm p = -((sqNorm p - B) ^ 2 / sqNorm p) := by field_simp; ring
      rw [h2] at h1
      have : 0 < (sqNorm p - B) ^ 2 / sqNorm p := div_pos (pow_pos (sub_pos.2 hc) 2) h0
      linarith
  have h2 := hmin 2
  nlinarith

/-- A least-squares solution amplifies errors of the data by at most the inverse of the smallest singular value. -/
theorem leastSquares_error {𝕜 : Type} [RCLike 𝕜] {m n : ℕ} {A : Matrix (Fin m) (Fin n) 𝕜} {g y : Fin n → 𝕜}
    {x : Fin m → 𝕜} (h : IsLeastSquares A x y) : sqNorm (A *ᵥ (y - g)) ≤ sqNorm (x - A *ᵥ g) := by
  refine error_of_min fun t => ?_
  have h1 := h.1 (g + (t : 𝕜) • (y - g))
  have e1 : A *ᵥ (y - g) - (x - A *ᵥ g) = A *ᵥ y - x := by
    rw [Matrix.mulVec_sub]; abel
  have e2 : A *ᵥ (g + (t : 𝕜) • (y - g)) - x = (t : 𝕜) • (A *ᵥ (y - g)) - (x - A *ᵥ g) := by
    rw [Matrix.mulVec_add, Matrix.mulVec_smul]; abel
  rwa [e1, ← e2]

/-- The same among real coefficients. -/
theorem realLeastSquares_error {m n : ℕ} {A : Matrix (Fin m) (Fin n) ℂ} {g y : Fin n → ℝ}
    {x : Fin m → ℂ} (h : IsRealLeastSquares A x y) :
    sqNorm (A *ᵥ fun l => ((y l - g l : ℝ) : ℂ)) ≤ sqNorm (x - A *ᵥ fun l => (g l : ℂ)) := by
  refine error_of_min fun t => ?_
  have h1 := h.1 (g + t • (y - g))
  have e0 : (fun l => ((y l - g l : ℝ) : ℂ)) = (fun l => (y l : ℂ)) - fun l => (g l : ℂ) := by
    funext l; simp
  have e3 : (fun l => (((g + t • (y - g)) l : ℝ) : ℂ)) = (fun l => (g l : ℂ)) +
      (t : ℂ) • ((fun l => (y l : ℂ)) - fun l => (g l : ℂ)) := by
    funext l; simp
  have e1 : A *ᵥ ((fun l => (y l : ℂ)) - fun l => (g l : ℂ)) - (x - A *ᵥ fun l => (g l : ℂ)) =
      A *ᵥ (fun l => (y l : ℂ)) - x := by
    rw [Matrix.mulVec_sub]; abel
  have e2 : A *ᵥ ((fun l => (g l : ℂ)) + (t : ℂ) • ((fun l => (y l : ℂ)) - fun l => (g l : ℂ))) - x =
      (t : ℂ) • (A *ᵥ ((fun l => (y l : ℂ)) - fun l => (g l : ℂ))) - (x - A *ᵥ fun l => (g l : ℂ)) := by
    rw [Matrix.mulVec_add, Matrix.mulVec_smul]; abel
  rw [e3] at h1
  rw [e0, e1]
  exact h1.trans (le_of_eq (congrArg sqNorm e2))

/-- Sampling in imaginary time for any basis: error of the fitted coefficients. -/
theorem tau_error {svds : Svds} (hs : svds.Ok) {B : SBasis} {p : List ℝ} (hsz : 0 < B.size) (U : ℝ → Fin B.size → ℝ)
    (hU : ∀ t ∈ p, B.u t = .ok (U t)) {σ : ℝ} (hσ : 0 < σ)
    (hA : ∀ g : Fin B.size → ℂ, σ ^ 2 * ∑ l, ‖g l‖ ^ 2 ≤ ∑ i, ‖∑ l, g l * (U (p.get i) l : ℂ)‖ ^ 2) :
    ∃ (M : Mat p.length B.size) (fit : (Fin p.length → ℂ) → Fin B.size → ℂ),
      tauInit svds B (some (1, p)) = .ok ⟨p, false, M⟩ ∧
      (∀ (x : NdArray ℂ) (axis : ℤ) (j : ℕ), ValidAxis axis x.ndim j → x.shape[j]? = some p.length →
        ∃ c w, tauFit svds (Obj.mk (b := B) p false M) x (some axis) none = .ok (c, w) ∧ AppliedAlong fit j x c) ∧
      ∀ (g : Fin B.size → ℂ) (x : Fin p.length → ℂ),
        σ ^ 2 * ∑ l, ‖fit x l - g l‖ ^ 2 ≤ ∑ i, ‖x i - ∑ l, g l * (U (p.get i) l : ℂ)‖ ^ 2 := by
  have hev := evalMatrix_ok (n := B.size) (f := fun t => (B.u t).map fun f l => (f l : ℂ))
    (F := fun t l => (U t l : ℂ)) (p := p) (fun t ht => by rw [hU t ht]; rfl)
  set A := valuesAt (n := B.size) (fun t l => (U t l : ℂ)) p with hAdef
  have hval : ∀ (g : Fin B.size → ℂ) (i : Fin p.length), (A *ᵥ g) i = ∑ l, g l * (U (p.get i) l : ℂ) := fun g i => by
    show ∑ l, A i l * g l = _
    exact Finset.sum_congr rfl fun l _ => mul_comm _ _
  have hA' : ∀ g : Fin B.size → ℂ, σ ^ 2 * sqNorm g ≤ sqNorm (A *ᵥ g) := by
    intro g
    have := hA g
    unfold sqNorm
    simp only [hval]
    exact this
  obtain ⟨M, hd, ha, -⟩ := fullMatrix_ok hs A
  have hinit : tauInit svds B (some (1, p)) = .ok ⟨p, false, .full M⟩ := by
    unfold tauInit
    simp only [ne_eq, not_true_eq_false, if_false]
    unfold tauFrom
    simp only [hev, hd]
    rfl
  have hA0 : A ≠ 0 := by
    intro h0
    have := hA' (fun _ => 1)
    rw [h0, Matrix.zero_mulVec, sq_eq_zero.2 rfl] at this
    have h1 : sqNorm (fun _ : Fin B.size => (1 : ℂ)) = B.size := by unfold sqNorm; simp
    rw [h1] at this
    have : 0 < σ ^ 2 * B.size := by positivity
    linarith
  obtain ⟨fit, h1, h2⟩ := fit_full hs hd (Or.inl hA0) false
  refine ⟨.full M, fit, hinit, fun x axis j hj hx => h2 x axis j hj hx, fun g x => ?_⟩
  have h3 := leastSquares_error (g := g) (h1 x)
  have h4 := (hA' (fit x - g)).trans h3
  unfold sqNorm at h4
  simp only [Pi.sub_apply, hval] at h4
  exact h4

/-- The same for sampling in Matsubara frequencies. -/
theorem mats_error {svds : Svds} (hs : svds.Ok) {B : SBasis} {ns : List ℤ} (hsz : 0 < B.size) (V : ℤ → Fin B.size → ℂ)
    (hV : ∀ n ∈ ns, B.uhat n = .ok (V n)) (po : Bool) (hpo : po = true → ns ≠ [] ∧ ∀ n ∈ ns, 0 ≤ n)
    (hV0 : ∀ l, (V 0 l).im = 0) {σ : ℝ} (hσ : 0 < σ)
    (hA : ∀ g : Fin B.size → ℂ, (po = true → ∀ l, (g l).im = 0) →
      σ ^ 2 * ∑ l, ‖g l‖ ^ 2 ≤ (ns.map fun n => ‖∑ l, V n l * g l‖ ^ 2).sum) :
    ∃ (o : Obj B ℤ) (fit : (Fin o.points.length → ℂ) → Fin B.size → ℂ),
      matsInit svds B (some (1, .ints ns)) po = .ok o ∧ o.points.Perm ns ∧ o.points.Pairwise (· ≤ ·) ∧
      (∀ (x : NdArray ℂ) (axis : ℤ) (j : ℕ), ValidAxis axis x.ndim j → x.shape[j]? = some ns.length →
        ∃ c w, matsFit svds o x (some axis) none = .ok (c, w) ∧ AppliedAlong fit j x c) ∧
      (po = true → ∀ x l, (fit x l).im = 0) ∧
      ∀ (g : Fin B.size → ℂ) (x : Fin o.points.length → ℂ), (po = true → ∀ l, (g l).im = 0) →
        σ ^ 2 * ∑ l, ‖fit x l - g l‖ ^ 2 ≤ ∑ i, ‖x i - ∑ l, V (o.points.get i) l * g l‖ ^ 2 := by
  obtain ⟨M, hinit, hmat, -⟩ := matsInit_ok hs ns V hV po hpo
  set A := valuesAt V (npSort ns) with hAdef
  have hval : ∀ (g : Fin B.size → ℂ) i, (A *ᵥ g) i = ∑ l, V ((npSort ns).get i) l * g l := fun g i => rfl
  have hA' : ∀ g : Fin B.size → ℂ, (po = true → ∀ l, (g l).im = 0) → σ ^ 2 * sqNorm g ≤ sqNorm (A *ᵥ g) := by
    intro g hg
    have h1 := hA g hg
    rw [← ((npSort_perm ns).map _).sum_eq, ← Fin.sum_univ_fun_getElem] at h1
    exact h1
  have hone : 0 < sqNorm (A *ᵥ fun _ : Fin B.size => (1 : ℂ)) := by
    have h1 := hA' (fun _ => 1) fun _ _ => rfl
    have h2 : sqNorm (fun _ : Fin B.size => (1 : ℂ)) = B.size := by unfold sqNorm; simp
    rw [h2] at h1
    have : 0 < σ ^ 2 * B.size := by positivity
    linarith
  have hlen : (npSort ns).length = ns.length := (npSort_perm ns).length_eq
  cases po with
  | false =>
    simp only [Bool.false_eq_true, if_false] at hmat
    have hA0 : A ≠ 0 := by
      intro h0
      rw [h0, Matrix.zero_mulVec, sq_eq_zero.2 rfl] at hone
      exact lt_irrefl _ hone
    obtain ⟨fit, h1, h2⟩ := fit_full hs hmat (Or.inl hA0) false
    refine ⟨_, fit, hinit, npSort_perm ns, npSort_sorted ns, ?_, ?_, fun g x hg => ?_⟩
    · intro x axis j hj hx
      exact h2 x axis j hj (by rw [hlen]; exact hx)
    · intro h
      cases h
    · exact (hA' (fit x - g) (by simp)).trans (leastSquares_error (g := g) (h1 x))
  | true =>
    simp only [if_true] at hmat
    have hrow : ZeroRowReal A (decide (0 ∈ ns)) := fun hz i l hi => by
      have hz' : (0 : ℤ) ∈ ns := of_decide_eq_true hz
      have hi0 : (npSort ns).get i = 0 := by
        have h1 : 0 ≤ (npSort ns).get i := (hpo rfl).2 _ ((npSort_perm ns).mem_iff.1 (List.get_mem _ _))
        obtain ⟨i', hi'⟩ := List.get_of_mem ((npSort_perm ns).mem_iff.2 hz')
        have h2 : (npSort ns).get i ≤ (npSort ns).get i' := by
          rcases eq_or_lt_of_le (show i ≤ i' from Fin.le_def.2 (by omega)) with h3 | h3
          · rw [h3]
          · exact List.pairwise_iff_get.1 (npSort_sorted ns) i i' h3
        omega
      show (V ((npSort ns).get i) l).im = 0
      rw [hi0]
      exact hV0 l
    obtain ⟨d, u, hM, hpos, -, -, -, hS, hls⟩ := split_core hs A (decide (0 ∈ ns))
    obtain rfl := Except.ok.inj (hmat.symm.trans hM)
    have hr : 0 < d.r := by
      rw [Nat.pos_iff_ne_zero]
      intro h
      have : IsEmpty (Fin d.r) := by rw [h]; infer_instance
      have h1 : stacked (offsetImag (decide (0 ∈ ns))) A = 0 := by
        rw [hS]
        ext i j
        simp [Matrix.mul_apply]
      have h2 := sqNorm_stacked hrow (fun _ => 1)
      rw [h1, Matrix.zero_mulVec, sq_eq_zero.2 rfl] at h2
      simp only [Complex.ofReal_one] at h2
      exact hone.ne' h2
    refine ⟨_, fun x l => (d.pinv x l : ℂ), hinit, npSort_perm ns, npSort_sorted ns, fun x axis j hj hx => ?_,
      fun _ x l => Complex.ofReal_im _, fun g x hg => ?_⟩
    · obtain ⟨y, hy, ay⟩ := matop_spec d.pinv d.lstsqOp (fun y h0 hy => d.lstsqOp_ok (fun i => (hpos i).ne') y h0 hy) x
        (normalizeAxis_iff.2 hj) (by rw [hlen]; exact hx)
      have hl : (Mat.split d).lstsq x (some axis) = .ok (mapArr Complex.ofReal y) := by
        show Except.map _ (d.lstsq x (some axis)) = _
        rw [show d.lstsq x (some axis) = .ok y from hy]
        rfl
      have hc : (Mat.split d).cond = .ok (d.s ⟨0, hr⟩ / d.s ⟨d.r - 1, by omega⟩) := by
        show condOf _ = _
        unfold condOf
        rw [dif_pos hr]
      refine ⟨mapArr Complex.ofReal y, ?_⟩
      show ∃ w, (Obj.mk (b := B) (npSort ns) true (.split d)).fitHere x (some axis) = .ok (mapArr Complex.ofReal y, w) ∧ _
      unfold Obj.fitHere
      dsimp only
      rw [hl, hc]
      by_cases hw : B.wellConditioned = true
      · rw [if_pos hw]; exact ⟨_, rfl, applied_post Complex.ofReal ay⟩
      · rw [if_neg hw]; exact ⟨_, rfl, applied_post Complex.ofReal ay⟩
    · have hgr : g = fun l => (((g l).re : ℝ) : ℂ) := by
        funext l
        exact Complex.ext rfl (by rw [hg rfl l]; rfl)
      have h1 := realLeastSquares_error (g := fun l => (g l).re) (real_of_stacked hrow (hls x))
      rw [← hgr] at h1
      have h2 := (hA' (fun l => ((d.pinv x l - (g l).re : ℝ) : ℂ)) fun _ l => Complex.ofReal_im _).trans h1
      have e : ∀ l, ((d.pinv x l - (g l).re : ℝ) : ℂ) = (d.pinv x l : ℂ) - g l := by
        intro l
        conv_rhs => rw [congrFun hgr l]
        push_cast
        rfl
      unfold sqNorm at h2
      simp only [e] at h2
      exact h2

section
variable {fp : Fp} {compute : KernelInfo → Option ℝ → PyM SveResult} {stat : String} {beta wmax : ℝ}
    {eps : Option ℝ} {maxSize : Option ℕ} {kernel : Option KernelInfo} {sve : Option SveResult} {k : KernelInfo}
    {lam : ℝ} {r : SveResult} {h : Good r} {e : ℝ} {m : ℕ} {b : FiniteTemp.Basis}

/-- The logistic kernel as a function of time, for a real frequency. -/
noncomputable def poleTime (beta omega tau : ℝ) : ℂ := (Real.exp (-tau * omega) / (1 + Real.exp (-beta * omega)) : ℝ)

/-- Values at the sampling times of the kernel at a real frequency, each with an error of at most `η`, are turned by
`fit` into the coefficients `s_l v_l(omega)` up to `√m (δ + η) / σ`: `m` is the number of times, `δ` the error of
the truncated expansion of the kernel and `σ` the smallest singular value of the sampling matrix. -/
theorem C69_pole {svds : Svds} (hs : svds.Ok) (v : Valid fp compute stat beta wmax eps maxSize kernel sve k lam r h e m)
    (hb : make fp compute stat beta wmax eps maxSize kernel sve = .ok b) (q : Search) (p : List ℝ)
    (hp : ∀ t ∈ p, 0 ≤ t ∧ t ≤ beta) (hy : k.ypower = 0) (hlam : lam = beta * wmax) (δ : ℝ)
    (hK : ∀ x y, -1 ≤ x → x ≤ 1 → -1 ≤ y → y ≤ 1 →
      |partialSum r (min m (maxSize.getD m)) x y - logisticK lam x y| ≤ δ) (σ : ℝ) (hσ : 0 < σ)
    (hA : ∀ g : Fin b.size → ℂ, σ ^ 2 * ∑ l, ‖g l‖ ^ 2 ≤ ∑ i, ‖timeValue b g (p.get i)‖ ^ 2) :
    ∃ (o : Obj (b.sampled q) ℝ) (fit : (Fin o.points.length → ℂ) → Fin b.size → ℂ),
      tauInit svds (b.sampled q) (some (1, p)) = .ok o ∧ o.points = p ∧
      (∀ (x : NdArray ℂ) (axis : ℤ) (j : ℕ), ValidAxis axis x.ndim j → x.shape[j]? = some p.length →
        ∃ c w, tauFit svds o x (some axis) none = .ok (c, w) ∧ AppliedAlong fit j x c) ∧
      ∀ omega, -wmax ≤ omega → omega ≤ wmax → ∀ (η : ℝ) (x : Fin o.points.length → ℂ),
        (∀ i, ‖x i - poleTime beta omega (o.points.get i)‖ ≤ η) →
        ∃ vw, b.v.call omega = .ok vw ∧
          σ ^ 2 * ∑ l, ‖fit x l - (b.s l * vw l : ℝ)‖ ^ 2 ≤ p.length * (δ + η) ^ 2 := by
  have d := v.describes hb
  have hsz : 0 < b.size := by rw [d.size_eq]; exact v.hpos
  obtain ⟨M, fit, hinit, hfit, herr⟩ := tau_error hs (B := b.sampled q) hsz (fun t l => fn b.u l t)
    (fun t ht => call_ok v hb (hp t ht).1 (hp t ht).2) hσ hA
  refine ⟨_, fit, hinit, rfl, hfit, fun omega ho1 ho2 η x hx => ?_⟩
  obtain ⟨b', hb', hker⟩ := C39_logistic v hy hlam δ hK
  obtain rfl := Except.ok.inj (hb.symm.trans hb')
  obtain ⟨-, vw, -, hvw, -⟩ := hker 0 omega le_rfl v.hbeta.le ho1 ho2
  refine ⟨vw, hvw, ?_⟩
  set g : Fin b.size → ℂ := fun l => (b.s l * vw l : ℝ) with hg
  have hi : ∀ i : Fin p.length, ‖x i - ∑ l, g l * (fn b.u l (p.get i) : ℂ)‖ ≤ δ + η := by
    intro i
    have hi := hp _ (List.get_mem p i)
    obtain ⟨ut, vw', h3, h4, h5⟩ := hker (p.get i) omega hi.1 hi.2 ho1 ho2
    obtain rfl := Except.ok.inj (hvw.symm.trans h4)
    obtain rfl := Except.ok.inj ((call_ok v hb hi.1 hi.2).symm.trans h3)
    have e1 : ∑ l, g l * (fn b.u l (p.get i) : ℂ) = ((∑ l, b.s l * fn b.u l (p.get i) * vw l : ℝ) : ℂ) := by
      push_cast
      refine Finset.sum_congr rfl fun l _ => ?_
      rw [hg]
      push_cast
      ring
    rw [e1, ← sub_add_sub_cancel (x i) ((Real.exp (-(p.get i) * omega) / (1 + Real.exp (-beta * omega)) : ℝ) : ℂ)]
    refine (norm_add_le _ _).trans ?_
    rw [← Complex.ofReal_sub, Complex.norm_real, Real.norm_eq_abs, abs_sub_comm, add_comm]
    exact add_le_add h5 (hx i)
  refine (herr g x).trans ((Finset.sum_le_card_nsmul Finset.univ _ ((δ + η) ^ 2) fun i _ => ?_).trans ?_)
  · exact pow_le_pow_left₀ (norm_nonneg _) (hi i) 2
  · rw [Finset.card_univ, Fintype.card_fin, nsmul_eq_mul]

/-- Its Fourier transform, for fermions and for bosons. -/
theorem C69_pole_value (hb : 0 < beta) (omega : ℝ) (n : ℤ) :
    (Odd n → matsubara beta (poleTime beta omega) n = 1 / (omega - Complex.I * Real.pi * n / beta)) ∧
    (Even n → n ≠ 0 ∨ omega ≠ 0 → matsubara beta (poleTime beta omega) n =
      Real.tanh (beta * omega / 2) / (omega - Complex.I * Real.pi * n / beta)) ∧
    matsubara beta (poleTime beta 0) 0 = beta / 2 := by
  have hneg : ∀ (w : ℝ) (n : ℤ), matsubara beta (poleTime beta w) n = -ftTau beta (poleTau beta w) n := by
    intro w n
    unfold matsubara ftTau
    rw [← intervalIntegral.integral_neg]
    congr 1
    funext t
    unfold poleTime poleTau
    push_cast
    ring
  have h1 : ((1 + Real.exp (-beta * omega) : ℝ) : ℂ) ≠ 0 := by
    exact_mod_cast (by positivity : (0 : ℝ) < 1 + Real.exp (-beta * omega)).ne'
  have hsub : (omega : ℂ) - Complex.I * Real.pi * n / beta = -(Complex.I * n * Real.pi / beta - omega) := by ring
  refine ⟨fun hn => ?_, fun hn h0 => ?_, ?_⟩
  · have hc := denom_ne beta hb omega n (Or.inl fun h => by rw [h] at hn; exact absurd hn (by decide))
    rw [hneg, ftTau_pole beta hb _ _ hc, exp_pi_odd hn, neg_neg, hsub, div_div,
      div_eq_div_iff (mul_ne_zero hc h1) (neg_ne_zero.2 hc)]
    push_cast
    ring
  · have hc := denom_ne beta hb omega n h0
    rw [hneg, ftTau_pole beta hb _ _ hc, exp_pi_even hn, neg_neg, hsub, tanh_half, div_div,
      div_eq_div_iff (mul_ne_zero hc h1) (neg_ne_zero.2 hc)]
    push_cast
    push_cast at h1
    rw [neg_mul] at h1
    field_simp
    ring_nf
  · unfold matsubara poleTime
    simp
    ring

/-- Values at the sampling frequencies of the Fourier transform of the kernel at a real frequency, each with an error
of at most `η`, are turned by `fit` into the coefficients `s_l v_l(omega)` up to `√m (beta δ + η) / σ`. -/
theorem C69_pole_matsubara {svds : Svds} (hs : svds.Ok)
    (v : Valid fp compute stat beta wmax eps maxSize kernel sve k lam r h e m)
    (hb : make fp compute stat beta wmax eps maxSize kernel sve = .ok b) (q : Search) (ns : List ℤ)
    (hns : ∀ n ∈ ns, |(n : ℝ)| < 40 * lam ∧ (stat = "F" ↔ Odd n)) (po : Bool)
    (hpo : po = true → ns ≠ [] ∧ ∀ n ∈ ns, 0 ≤ n) (hy : k.ypower = 0) (hlam : lam = beta * wmax) (δ : ℝ)
    (hK : ∀ x y, -1 ≤ x → x ≤ 1 → -1 ≤ y → y ≤ 1 →
      |partialSum r (min m (maxSize.getD m)) x y - logisticK lam x y| ≤ δ) (σ : ℝ) (hσ : 0 < σ)
    (hA : ∀ g : Fin b.size → ℂ, (po = true → ∀ l, (g l).im = 0) →
      σ ^ 2 * ∑ l, ‖g l‖ ^ 2 ≤ (ns.map fun n => ‖matsubara beta (timeValue b g) n‖ ^ 2).sum) :
    ∃ (o : Obj (b.sampled q) ℤ) (fit : (Fin o.points.length → ℂ) → Fin b.size → ℂ),
      matsInit svds (b.sampled q) (some (1, .ints ns)) po = .ok o ∧ o.points.Perm ns ∧
      (∀ (x : NdArray ℂ) (axis : ℤ) (j : ℕ), ValidAxis axis x.ndim j → x.shape[j]? = some ns.length →
        ∃ c w, matsFit svds o x (some axis) none = .ok (c, w) ∧ AppliedAlong fit j x c) ∧
      ∀ omega, -wmax ≤ omega → omega ≤ wmax → ∀ (η : ℝ) (x : Fin o.points.length → ℂ),
        (∀ i, ‖x i - matsubara beta (poleTime beta omega) (o.points.get i)‖ ≤ η) →
        ∃ vw, b.v.call omega = .ok vw ∧
          σ ^ 2 * ∑ l, ‖fit x l - (b.s l * vw l : ℝ)‖ ^ 2 ≤ ns.length * (beta * δ + η) ^ 2 := by
  have d := v.describes hb
  have hsz : 0 < b.size := by rw [d.size_eq]; exact v.hpos
  set V : ℤ → Fin (b.sampled q).size → ℂ := fun n l =>
    ∫ t in (0 : ℝ)..beta, Complex.exp (Complex.I * Real.pi * n * t / beta) * (fn b.u l t : ℂ) with hV
  have hval : ∀ (g : Fin b.size → ℂ) (n : ℤ), ∑ l, V n l * g l = matsubara beta (timeValue b g) n :=
    fun g n => (matsubara_combo v hb g n).symm
  have huhat : ∀ n ∈ ns, (b.sampled q).uhat n = .ok (V n) := by
    intro n hn
    obtain ⟨b', hb', h1, -⟩ := C59_uhat v n (hns n hn).1
    obtain rfl := Except.ok.inj (hb.symm.trans hb')
    exact h1 (hns n hn).2
  have hV0 : ∀ l, (V 0 l).im = 0 := by
    intro l
    have : (fun t : ℝ => Complex.exp (Complex.I * Real.pi * ((0 : ℤ) : ℂ) * t / beta) * (fn b.u l t : ℂ)) =
        fun t : ℝ => ((fn b.u l t : ℝ) : ℂ) := by
      funext t
      simp
    rw [hV]
    simp only
    rw [this, intervalIntegral.integral_ofReal]
    exact Complex.ofReal_im _
  obtain ⟨o, fit, hinit, hperm, -, hfit, -, herr⟩ := mats_error hs (B := b.sampled q) hsz V huhat po hpo hV0 hσ
    (fun g hg => (hA g hg).trans (le_of_eq (by
      congr 2
      funext n
      exact congrArg (‖·‖ ^ 2) (hval g n).symm)))
  refine ⟨o, fit, hinit, hperm, hfit, fun omega ho1 ho2 η x hx => ?_⟩
  obtain ⟨b', hb', hker⟩ := C39_logistic v hy hlam δ hK
  obtain rfl := Except.ok.inj (hb.symm.trans hb')
  obtain ⟨-, vw, -, hvw, -⟩ := hker 0 omega le_rfl v.hbeta.le ho1 ho2
  refine ⟨vw, hvw, ?_⟩
  set g : Fin b.size → ℂ := fun l => (b.s l * vw l : ℝ) with hg
  have hpt : ∀ t, 0 ≤ t → t ≤ beta → ‖poleTime beta omega t - timeValue b g t‖ ≤ δ := by
    intro t h0 h1
    obtain ⟨ut, vw', h3, h4, h5⟩ := hker t omega h0 h1 ho1 ho2
    obtain rfl := Except.ok.inj (hvw.symm.trans h4)
    obtain rfl := Except.ok.inj ((call_ok v hb h0 h1).symm.trans h3)
    have e1 : timeValue b g t = ((∑ l, b.s l * fn b.u l t * vw l : ℝ) : ℂ) := by
      unfold timeValue
      push_cast
      refine Finset.sum_congr rfl fun l _ => ?_
      rw [hg]
      push_cast
      ring
    rw [e1, poleTime, ← Complex.ofReal_sub, Complex.norm_real, Real.norm_eq_abs, abs_sub_comm]
    exact h5
  have hint : ∀ n : ℤ, IntervalIntegrable
      (fun t : ℝ => Complex.exp (Complex.I * Real.pi * n * t / beta) * timeValue b g t) MeasureTheory.volume 0 beta := by
    intro n
    have h2 : IntervalIntegrable (timeValue b g) MeasureTheory.volume 0 beta := by
      have e : timeValue b g = ∑ l, fun t : ℝ => g l * (fn b.u l t : ℂ) := by
        funext t
        rw [Finset.sum_apply]
        rfl
      rw [e]
      refine IntervalIntegrable.sum _ fun l _ => ?_
      have h1 := fn_integrable d.uwf l (fun _ => 1) continuous_const
      simp only [one_mul, d.umin, d.umax] at h1
      have h2 : IntervalIntegrable (fun y => (fn b.u l y : ℂ)) MeasureTheory.volume 0 beta := ⟨h1.1.ofReal, h1.2.ofReal⟩
      exact h2.const_mul (g l)
    refine IntervalIntegrable.continuousOn_mul h2 ?_
    fun_prop
  have hdiff : ∀ n : ℤ, ‖matsubara beta (poleTime beta omega) n - matsubara beta (timeValue b g) n‖ ≤ beta * δ := by
    intro n
    unfold matsubara
    rw [← intervalIntegral.integral_sub _ (hint n)]
    · have h1 := intervalIntegral.norm_integral_le_of_norm_le_const (a := 0) (b := beta) (C := δ)
        (f := fun t : ℝ => Complex.exp (Complex.I * Real.pi * n * t / beta) * poleTime beta omega t -
          Complex.exp (Complex.I * Real.pi * n * t / beta) * timeValue b g t) (fun t ht => by
          rw [Set.uIoc_of_le v.hbeta.le] at ht
          rw [← mul_sub, norm_mul]
          have : ‖Complex.exp (Complex.I * Real.pi * n * t / beta)‖ = 1 := by
            have e : Complex.I * Real.pi * n * t / beta = ((Real.pi * n * t / beta : ℝ) : ℂ) * Complex.I := by
              push_cast; ring
            rw [e, Complex.norm_exp_ofReal_mul_I]
          rw [this, one_mul]
          exact hpt t ht.1.le ht.2)
      refine h1.trans (le_of_eq ?_)
      rw [sub_zero, abs_of_pos v.hbeta, mul_comm]
    · refine Continuous.intervalIntegrable ?_ _ _
      unfold poleTime
      have : (1 + Real.exp (-beta * omega)) ≠ 0 := by positivity
      fun_prop
  have hi : ∀ i, ‖x i - ∑ l, V (o.points.get i) l * g l‖ ≤ beta * δ + η := by
    intro i
    rw [show ∑ l, V (o.points.get i) l * g l = matsubara beta (timeValue b g) (o.points.get i) from hval g _,
      ← sub_add_sub_cancel (x i) (matsubara beta (poleTime beta omega) (o.points.get i))]
    refine (norm_add_le _ _).trans ?_
    rw [add_comm]
    exact add_le_add (hdiff _) (hx i)
  refine (herr g x fun _ l => Complex.ofReal_im _).trans
    ((Finset.sum_le_card_nsmul Finset.univ _ ((beta * δ + η) ^ 2) fun i _ => ?_).trans ?_)
  · exact pow_le_pow_left₀ (norm_nonneg _) (hi i) 2
  · rw [Finset.card_univ, Fintype.card_fin, nsmul_eq_mul, hperm.length_eq]

end

/-- A matrix with three rows and two independent columns. -/
example : ∃ M κ fit, fullMatrix idealSvds (!![1, 0; 0, 2; 1, 1] : Matrix (Fin 3) (Fin 2) ℂ) = .ok M ∧ M.cond = .ok κ ∧
    IsAmplification (!![1, 0; 0, 2; 1, 1] : Matrix (Fin 3) (Fin 2) ℂ) fit κ := by
  obtain ⟨M, κ, fit, h1, h2, h3, -⟩ := C69_full idealSvds_ok (!![1, 0; 0, 2; 1, 1] : Matrix (Fin 3) (Fin 2) ℂ)
    (by norm_num) fun w hw => by
      have h0 := congrFun hw 0
      have h1 := congrFun hw 1
      simp [Matrix.mulVec, dotProduct, Fin.sum_univ_two] at h0 h1
      funext i
      fin_cases i
      · exact h0
      · exact h1
  exact ⟨M, κ, fit, h1, h2, h3⟩

/-- Two frequencies, the first of them zero. -/
example : ∃ M κ fit, splitMatrix idealSvds (!![1, 0; 2, Complex.I] : Matrix (Fin 2) (Fin 2) ℂ) true = .ok M ∧
    M.cond = .ok κ ∧ IsRealAmplification !![1, 0; 2, Complex.I] fit κ := by
  obtain ⟨M, κ, fit, h1, h2, h3, -⟩ := C69_split idealSvds_ok (!![1, 0; 2, Complex.I] : Matrix (Fin 2) (Fin 2) ℂ) true
    (fun _ i l hi => by
      have : i = 0 := Fin.ext hi
      subst this
      fin_cases l <;> simp) (by norm_num) fun w hw => by
      have h0 := congrFun hw 0
      have h1 := congrFun hw 1
      simp [Matrix.mulVec, dotProduct, Fin.sum_univ_two] at h0 h1
      rw [h0] at h1
      funext i
      fin_cases i
      · exact h0
      · simpa using h1
  exact ⟨M, κ, fit, h1, h2, h3⟩

/-- The expansion of the example differs from the kernel by at most 2. -/
theorem exSve_error (x y : ℝ) (hx1 : -1 ≤ x) (hx2 : x ≤ 1) (hy1 : -1 ≤ y) (hy2 : y ≤ 1) :
    |partialSum (exSve 0.01) (min 2 ((none : Option ℕ).getD 2)) x y - logisticK 40 x y| ≤ 2 := by
  have hsum : partialSum (exSve 0.01) (min 2 ((none : Option ℕ).getD 2)) x y = 1 + x * y / 10 := by
    unfold partialSum
    show ∑ l : Fin 2, (if l.1 < 2 then (![1, 1 / 10] : Fin 2 → ℝ) l * fn exPair l x * fn exPair l y else 0) = _
    rw [Fin.sum_univ_two, exPair_fn 0 x hx1 hx2, exPair_fn 0 y hy1 hy2, exPair_fn 1 x hx1 hx2, exPair_fn 1 y hy1 hy2]
    simp
    ring
  have hK : 0 ≤ logisticK 40 x y ∧ logisticK 40 x y ≤ 1 := by
    unfold logisticK
    refine ⟨by positivity, ?_⟩
    rw [div_le_one (by positivity)]
    rcases le_total 0 y with h | h
    · have : Real.exp (-40 * y * (x + 1) / 2) ≤ 1 := Real.exp_le_one_iff.2 (by nlinarith)
      have := Real.exp_pos (-40 * y)
      linarith
    · have : Real.exp (-40 * y * (x + 1) / 2) ≤ Real.exp (-40 * y) := Real.exp_le_exp.2 (by nlinarith)
      linarith
  have hxy : |x * y| ≤ 1 := by
    rw [abs_mul]
    exact mul_le_one₀ (abs_le.2 ⟨hx1, hx2⟩) (abs_nonneg _) (abs_le.2 ⟨hy1, hy2⟩)
  rw [hsum, abs_le]
  have := abs_le.1 hxy
  constructor <;> linarith [hK.1, hK.2]

theorem exSve_u {b : FiniteTemp.Basis} {n : ℕ}
    (d : FiniteTemp.Describes b (exSve 0.01) (exSve_good 0.01) "F" 10 4 (logisticInfo 40) 40 n) (i : ℕ) (hi : i < 2)
    (hib : i < b.size) (x : ℝ) (h1 : -1 ≤ x) (h2 : x ≤ 1) :
    fn b.u ⟨i, hib⟩ (10 / 2 * (x + 1)) = (if i = 0 then 1 else x) / Real.sqrt (10 / 2) := by
  rw [d.u_eq ⟨i, hib⟩ ⟨i, hi⟩ rfl x h1 h2]
  congr 1
  exact (exPair_fn ⟨i, hi⟩ x h1 h2).trans (by simp [Fin.ext_iff])

theorem real_sum_two {n : ℕ} (h : n = 2) (f : Fin n → ℝ) : ∑ l, f l = f ⟨0, by omega⟩ + f ⟨1, by omega⟩ := by
  subst h
  exact Fin.sum_univ_two f

/-- The example basis sampled at the two ends of the interval: the singular values are both `√(2/5)`. -/
example (svds : Svds) (hs : svds.Ok) (q : Search) : ∃ b o, ∃ fit : (Fin (Obj.points o).length → ℂ) → Fin b.size → ℂ,
    make Fp.exact (fun _ _ => .error .valueError) "F" 10 4
    (some 0.01) none none (some (exSve 0.01)) = .ok b ∧ tauInit svds (b.sampled q) (some (1, [0, 10])) = .ok o ∧
    ∀ x : Fin o.points.length → ℂ, (∀ i, ‖x i - poleTime 10 3 (o.points.get i)‖ ≤ 1) →
      ∃ vw, b.v.call 3 = .ok vw ∧ 2 / 5 * ∑ l, ‖fit x l - (b.s l * vw l : ℝ)‖ ^ 2 ≤ 18 := by
  have v := exValid 0.01 0.01 (by norm_num) fun _ _ => .error .valueError
  obtain ⟨b, hb, d⟩ := v.ok
  have hsz : b.size = 2 := d.size_eq
  have hsq : Real.sqrt (2 / 5) ^ 2 = 2 / 5 := Real.sq_sqrt (by norm_num)
  have hs5 : Real.sqrt (10 / 2) ^ 2 = 5 := by rw [Real.sq_sqrt (by norm_num)]; norm_num
  obtain ⟨o, fit, h1, -, -, h3⟩ := C69_pole hs v hb q [0, 10]
    (by intro t ht; simp at ht; rcases ht with rfl | rfl <;> norm_num) rfl (by norm_num) 2
    exSve_error (Real.sqrt (2 / 5)) (Real.sqrt_pos.2 (by norm_num)) (fun g => by
      rw [hsq, real_sum_two hsz]
      have e : ∑ i, ‖timeValue b g (([0, 10] : List ℝ).get i)‖ ^ 2 = ‖timeValue b g 0‖ ^ 2 + ‖timeValue b g 10‖ ^ 2 :=
        Fin.sum_univ_two _
      rw [e]
      have u0 := fun i hi hib => exSve_u d i hi hib (-1) (by norm_num) (by norm_num)
      have u1 := fun i hi hib => exSve_u d i hi hib 1 (by norm_num) (by norm_num)
      rw [show (10 / 2 * (-1 + 1) : ℝ) = 0 by norm_num] at u0
      rw [show (10 / 2 * (1 + 1) : ℝ) = 10 by norm_num] at u1
      unfold timeValue
      rw [sum_two hsz, sum_two hsz, u0 0 (by norm_num), u0 1 (by norm_num), u1 0 (by norm_num), u1 1 (by norm_num)]
      generalize g ⟨0, by omega⟩ = a
      generalize g ⟨1, by omega⟩ = c
      generalize Real.sqrt (10 / 2) = s at hs5
      have e1 : a * ((if 0 = 0 then 1 else -1 : ℝ) / s : ℝ) + c * ((if 1 = 0 then 1 else -1 : ℝ) / s : ℝ) =
          (a - c) * ((1 / s : ℝ) : ℂ) := by push_cast; simp; ring
      have e2 : a * ((if 0 = 0 then 1 else 1 : ℝ) / s : ℝ) + c * ((if 1 = 0 then 1 else 1 : ℝ) / s : ℝ) =
          (a + c) * ((1 / s : ℝ) : ℂ) := by push_cast; simp; ring
      rw [e1, e2, norm_mul, norm_mul, mul_pow, mul_pow, Complex.norm_real, Real.norm_eq_abs, sq_abs, div_pow, hs5]
      have := parallelogram_law_with_norm ℝ a c
      linarith [sq ‖a‖, sq ‖c‖, sq ‖a + c‖, sq ‖a - c‖])
  refine ⟨b, o, fit, hb, h1, fun x hx => ?_⟩
  obtain ⟨vw, h4, h5⟩ := h3 3 (by norm_num) (by norm_num) 1 x hx
  refine ⟨vw, h4, ?_⟩
  rw [hsq] at h5
  refine h5.trans ?_
  norm_num

theorem ex_transform (a c : ℝ) : matsubara 10 (fun t => ((a + c * (t / 5 - 1) : ℝ) : ℂ)) 1 =
    ⟨-(40 / Real.pi ^ 2) * c, 20 / Real.pi * a⟩ := by
  have hp : (Real.pi : ℂ) ≠ 0 := by exact_mod_cast Real.pi_ne_zero
  set w : ℂ := Complex.I * Real.pi / 10 with hw
  have hw0 : w ≠ 0 := by rw [hw]; exact div_ne_zero (mul_ne_zero Complex.I_ne_zero hp) (by norm_num)
  have hder : ∀ t : ℝ, HasDerivAt (fun t : ℝ => Complex.exp (w * t) * ((a + c * (t / 5 - 1)) / w - c / (5 * w ^ 2)))
      (Complex.exp (w * t) * ((a + c * (t / 5 - 1) : ℝ) : ℂ)) t := by
    intro t
    have h1 : HasDerivAt (fun t : ℝ => (t : ℂ)) 1 t := Complex.ofRealCLM.hasDerivAt
    have h2 : HasDerivAt (fun t : ℝ => Complex.exp (w * t)) (Complex.exp (w * t) * (w * 1)) t :=
      (h1.const_mul w).cexp
    have h3 : HasDerivAt (fun t : ℝ => ((a : ℂ) + c * (t / 5 - 1)) / w - c / (5 * w ^ 2)) (c * (1 / 5) / w) t :=
      (((((h1.div_const 5).sub_const 1).const_mul (c : ℂ)).const_add (a : ℂ)).div_const w).sub_const _
    refine (h2.mul h3).congr_deriv ?_
    push_cast
    field_simp
    ring
  have hint : matsubara 10 (fun t => ((a + c * (t / 5 - 1) : ℝ) : ℂ)) 1 =
      ∫ t in (0 : ℝ)..10, Complex.exp (w * t) * ((a + c * (t / 5 - 1) : ℝ) : ℂ) := by
    unfold matsubara
    congr 1
    funext t
    congr 2
    rw [hw]
    push_cast
    ring
  rw [hint, intervalIntegral.integral_eq_sub_of_hasDerivAt (fun t _ => hder t) (by
    refine Continuous.intervalIntegrable ?_ _ _
    fun_prop)]
  have e10 : Complex.exp (w * ((10 : ℝ) : ℂ)) = -1 := by
    rw [hw, show Complex.I * Real.pi / 10 * ((10 : ℝ) : ℂ) = Real.pi * Complex.I by push_cast; ring, Complex.exp_pi_mul_I]
  rw [e10]
  have hI : Complex.I ^ 2 = -1 := Complex.I_sq
  have eR : (⟨-(40 / Real.pi ^ 2) * c, 20 / Real.pi * a⟩ : ℂ) =
      -(40 / (Real.pi : ℂ) ^ 2) * c + 20 / (Real.pi : ℂ) * a * Complex.I := by
    rw [Complex.mk_eq_add_mul_I]
    push_cast
    ring
  have ew : w⁻¹ = -(10 * Complex.I / Real.pi) := by
    rw [hw]
    field_simp
    linear_combination (1 : ℂ) * hI
  rw [eR, div_eq_mul_inv _ w, div_eq_mul_inv _ w, div_eq_mul_inv _ (5 * w ^ 2), mul_inv, ← inv_pow, ew]
  simp only [Complex.ofReal_zero, mul_zero, Complex.exp_zero]
  push_cast
  field_simp
  linear_combination (200 * (c : ℂ)) * hI

/-- The example basis sampled at the first Matsubara frequency only: the two coefficients are found from the real and
the imaginary part of the value. -/
example (svds : Svds) (hs : svds.Ok) (q : Search) : ∃ b o, ∃ fit : (Fin (Obj.points o).length → ℂ) → Fin b.size → ℂ,
    make Fp.exact (fun _ _ => .error .valueError) "F" 10 4
    (some 0.01) none none (some (exSve 0.01)) = .ok b ∧
    matsInit svds (b.sampled q) (some (1, .ints [1])) true = .ok o ∧
    ∀ x : Fin o.points.length → ℂ, (∀ i, ‖x i - matsubara 10 (poleTime 10 3) (o.points.get i)‖ ≤ 1) →
      ∃ vw, b.v.call 3 = .ok vw ∧ 320 / Real.pi ^ 4 * ∑ l, ‖fit x l - (b.s l * vw l : ℝ)‖ ^ 2 ≤ 441 := by
  have v := exValid 0.01 0.01 (by norm_num) fun _ _ => .error .valueError
  obtain ⟨b, hb, d⟩ := v.ok
  have hsz : b.size = 2 := d.size_eq
  have hsq : Real.sqrt (320 / Real.pi ^ 4) ^ 2 = 320 / Real.pi ^ 4 := Real.sq_sqrt (by positivity)
  have hs5 : Real.sqrt (10 / 2) ^ 2 = 5 := by rw [Real.sq_sqrt (by norm_num)]; norm_num
  have hs0 : Real.sqrt (10 / 2) ≠ 0 := (Real.sqrt_pos.2 (by norm_num)).ne'
  obtain ⟨o, fit, h1, -, -, h3⟩ := C69_pole_matsubara hs v hb q [1]
    (by intro n hn; simp at hn; subst hn; norm_num) true (by simp) rfl (by norm_num) 2
    exSve_error (Real.sqrt (320 / Real.pi ^ 4)) (Real.sqrt_pos.2 (by positivity)) (fun g hg => by
      rw [hsq, real_sum_two hsz]
      simp only [List.map_cons, List.map_nil, List.sum_cons, List.sum_nil, add_zero]
      have e : matsubara 10 (timeValue b g) 1 = matsubara 10 (fun t => (((g ⟨0, by omega⟩).re / Real.sqrt (10 / 2) +
          (g ⟨1, by omega⟩).re / Real.sqrt (10 / 2) * (t / 5 - 1) : ℝ) : ℂ)) 1 := by
        unfold matsubara
        refine intervalIntegral.integral_congr fun t ht => ?_
        rw [Set.uIcc_of_le (by norm_num)] at ht
        have u := fun i hi hib => exSve_u d i hi hib (t / 5 - 1) (by linarith [ht.1]) (by linarith [ht.2])
        rw [show 10 / 2 * (t / 5 - 1 + 1) = t by ring] at u
        have r : ∀ i hi, g ⟨i, hi⟩ = (((g ⟨i, hi⟩).re : ℝ) : ℂ) := fun i hi =>
          Complex.ext rfl (by rw [hg rfl]; rfl)
        simp only
        congr 1
        unfold timeValue
        rw [sum_two hsz, u 0 (by norm_num), u 1 (by norm_num), r 0 (by omega), r 1 (by omega)]
        generalize Real.sqrt (10 / 2) = s
        push_cast
        simp
        ring
      have n : ∀ i hi, ‖g ⟨i, hi⟩‖ ^ 2 = (g ⟨i, hi⟩).re ^ 2 := fun i hi => by
        rw [Complex.sq_norm, Complex.normSq_apply, hg rfl]; ring
      rw [n 0 (by omega), n 1 (by omega), e, ex_transform, Complex.sq_norm, Complex.normSq_mk]
      generalize (g ⟨0, by omega⟩).re = a
      generalize (g ⟨1, by omega⟩).re = c
      generalize Real.sqrt (10 / 2) = s at hs5 hs0
      have e1 : -(40 / Real.pi ^ 2) * (c / s) * (-(40 / Real.pi ^ 2) * (c / s)) = 320 / Real.pi ^ 4 * c ^ 2 := by
        have : -(40 / Real.pi ^ 2) * (c / s) * (-(40 / Real.pi ^ 2) * (c / s)) = 1600 / Real.pi ^ 4 * c ^ 2 / s ^ 2 := by
          field_simp
          ring
        rw [this, hs5]; ring
      have e2 : 20 / Real.pi * (a / s) * (20 / Real.pi * (a / s)) = 80 / Real.pi ^ 2 * a ^ 2 := by
        have : 20 / Real.pi * (a / s) * (20 / Real.pi * (a / s)) = 400 / Real.pi ^ 2 * a ^ 2 / s ^ 2 := by
          field_simp
          ring
        rw [this, hs5]; ring
      rw [e1, e2, mul_add, add_comm]
      refine add_le_add le_rfl (mul_le_mul_of_nonneg_right ?_ (sq_nonneg _))
      rw [div_le_div_iff₀ (by positivity) (by positivity)]
      have h2 : 4 ≤ Real.pi ^ 2 := by nlinarith [Real.two_le_pi]
      nlinarith [sq_nonneg (Real.pi ^ 2)])
  refine ⟨b, o, fit, hb, h1, fun x hx => ?_⟩
  obtain ⟨vw, h4, h5⟩ := h3 3 (by norm_num) (by norm_num) 1 x hx
  refine ⟨vw, h4, ?_⟩
  rw [hsq] at h5
  refine h5.trans ?_
  norm_num

end Verif.Props
