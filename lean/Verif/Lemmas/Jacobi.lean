import Verif.Spec.Tridiagonal
import Verif.Lemmas.GaussQuad
/-! The eigenvalues of the Jacobi matrix are the (distinct) roots of the orthogonal polynomial. -/

namespace Verif.Jacobi
open Polynomial Verif.Spec Finset

variable {n : ℕ} {alpha beta : ℕ → ℝ}

/-- A vector continued by zero. -/
noncomputable def ext (v : Fin n → ℝ) (k : ℕ) : ℝ := if h : k < n then v ⟨k, h⟩ else 0

theorem ext_val (v : Fin n → ℝ) (i : Fin n) : ext v i = v i := by simp [ext]

theorem sum_pick (v : Fin n → ℝ) (c : ℝ) (k : ℕ) :
    ∑ j : Fin n, (if (j : ℕ) = k then c else 0) * v j = c * ext v k := by
  unfold ext
  split
  · rename_i h
    rw [Finset.sum_eq_single ⟨k, h⟩]
    · simp
    · intro j _ hj
      rw [if_neg (by intro h'; apply hj; ext; exact h'), zero_mul]
    · simp
  · rename_i h
    rw [mul_zero]
    apply Finset.sum_eq_zero
    intro j _
    rw [if_neg (by have := j.2; omega), zero_mul]

/-- Row `k` of the eigenvalue equation. -/
theorem mulVec_row (d e : ℕ → ℝ) (v : Fin n → ℝ) (k : Fin n) :
    (tridiag n d e).mulVec v k = d k * ext v k + e k * ext v (k + 1) +
      (if (k : ℕ) = 0 then 0 else e (k - 1) * ext v (k - 1)) := by
  have h1 := sum_pick v (d k) k
  have h2 := sum_pick v (e k) (k + 1)
  have h3 := sum_pick v (e (k - 1)) (k - 1)
  have key : ∀ j : Fin n, tridiag n d e k j * v j =
      (if (j : ℕ) = k then d k else 0) * v j + (if (j : ℕ) = k + 1 then e k else 0) * v j +
        (if (k : ℕ) = 0 then 0 else (if (j : ℕ) = k - 1 then e (k - 1) else 0) * v j) := by
    intro j
    unfold tridiag
    by_cases hkj : k = j
    · subst hkj
      by_cases h0 : (k : ℕ) = 0
      · simp [h0]
      · simp [h0, show ¬ (k : ℕ) = k - 1 by omega]
    · have hkj' : ¬ (j : ℕ) = k := fun h => hkj (Fin.ext h.symm)
      rw [if_neg hkj, if_neg hkj']
      by_cases h1 : (k : ℕ) + 1 = j
      · have : ¬ (j : ℕ) = k - 1 := by omega
        simp [h1, this]
      · have h1' : ¬ (j : ℕ) = k + 1 := fun h => h1 h.symm
        rw [if_neg h1, if_neg h1']
        by_cases h2 : (j : ℕ) + 1 = k
        · have e1 : ¬ (k : ℕ) = 0 := by omega
          have e2 : (j : ℕ) = k - 1 := by omega
          simp [h2, e1, ← e2]
        · rw [if_neg h2]
          by_cases h0 : (k : ℕ) = 0
          · simp [h0]
          · simp [h0, show ¬ (j : ℕ) = k - 1 by omega]
  change ∑ j, tridiag n d e k j * v j = _
  rw [Finset.sum_congr rfl fun j _ => key j, Finset.sum_add_distrib, Finset.sum_add_distrib, h1, h2]
  congr 1
  by_cases h0 : (k : ℕ) = 0
  · simp [h0]
  · simp only [h0, if_false]; exact h3

/-- Off-diagonal elements `sqrt(beta[1:])`. -/
noncomputable def offdiag (beta : ℕ → ℝ) (k : ℕ) : ℝ := Real.sqrt (beta (k + 1))

/-- An eigenvector is determined by its first component. -/
theorem eig_rec (hb : ∀ k, 1 ≤ k → k < n → 0 < beta k) (v : Fin n → ℝ) (lam : ℝ)
    (hv : (tridiag n alpha (offdiag beta)).mulVec v = lam • v) (k : ℕ) (hk : k < n) :
    (opoly alpha beta k).eval lam * ext v 0 = (∏ j ∈ range k, offdiag beta j) * ext v k ∧
    (opoly alpha beta (k + 1)).eval lam * ext v 0 = (∏ j ∈ range (k + 1), offdiag beta j) * ext v (k + 1) := by
  have row : ∀ k (hk : k < n), alpha k * ext v k + offdiag beta k * ext v (k + 1) +
      (if k = 0 then 0 else offdiag beta (k - 1) * ext v (k - 1)) = lam * ext v k := by
    intro k hk
    have h1 := congrFun hv ⟨k, hk⟩
    rw [mulVec_row] at h1
    simp only [Pi.smul_apply, smul_eq_mul] at h1
    rw [h1]
    simp [ext, hk]
  induction k with
  | zero =>
    refine ⟨by simp [opoly], ?_⟩
    have h := row 0 hk
    simp only [if_true, add_zero] at h
    simp only [zero_add, prod_range_one, opoly, eval_sub, eval_X, eval_C]
    linarith
  | succ k ih =>
    obtain ⟨i1, i2⟩ := ih (by omega)
    refine ⟨i2, ?_⟩
    have h := row (k + 1) hk
    rw [if_neg (by omega), Nat.add_sub_cancel] at h
    have hsq : offdiag beta k * offdiag beta k = beta (k + 1) :=
      Real.mul_self_sqrt (hb (k + 1) (by omega) hk).le
    rw [opoly, prod_range_succ, eval_sub, eval_mul, eval_mul, eval_sub, eval_X, eval_C, eval_C]
    rw [prod_range_succ] at i2 ⊢
    linear_combination (lam - alpha (k + 1)) * i2 - beta (k + 1) * i1 -
      ((∏ j ∈ range k, offdiag beta j) * offdiag beta k) * h +
      (∏ j ∈ range k, offdiag beta j) * ext v k * hsq

theorem prod_pos (hb : ∀ k, 1 ≤ k → k < n → 0 < beta k) {k : ℕ} (hk : k < n) :
    0 < ∏ j ∈ range k, offdiag beta j := by
  apply Finset.prod_pos
  intro j hj
  exact Real.sqrt_pos.2 (hb (j + 1) (by omega) (by have := mem_range.1 hj; omega))

/-- If the first component of an eigenvector vanishes, so does the vector. -/
theorem eig_first (hb : ∀ k, 1 ≤ k → k < n → 0 < beta k) (v : Fin n → ℝ) (lam : ℝ)
    (hv : (tridiag n alpha (offdiag beta)).mulVec v = lam • v) (h0 : ext v 0 = 0) : v = 0 := by
  funext i
  have h := (eig_rec hb v lam hv i i.2).1
  rw [h0, mul_zero, ext_val] at h
  exact (mul_eq_zero.1 h.symm).resolve_left (prod_pos hb i.2).ne'

theorem eig_root (hn : 0 < n) (hb : ∀ k, 1 ≤ k → k < n → 0 < beta k) (v : Fin n → ℝ) (lam : ℝ)
    (hv : (tridiag n alpha (offdiag beta)).mulVec v = lam • v) (hne : v ≠ 0) :
    (opoly alpha beta n).eval lam = 0 := by
  have h := (eig_rec hb v lam hv (n - 1) (by omega)).2
  rw [Nat.sub_add_cancel hn] at h
  have : ext v n = 0 := by simp [ext]
  rw [this, mul_zero] at h
  exact (mul_eq_zero.1 h).resolve_right fun h0 => hne (eig_first hb v lam hv h0)

/-- The `n` eigenvalues are distinct roots of the `n`-th polynomial. -/
theorem eigenvalues_roots (hn : 0 < n) (hb : ∀ k, 1 ≤ k → k < n → 0 < beta k) :
    (∀ i, (opoly alpha beta n).eval ((tridiag_isHermitian n alpha (offdiag beta)).eigenvalues i) = 0) ∧
      Function.Injective (tridiag_isHermitian n alpha (offdiag beta)).eigenvalues := by
  set hA := tridiag_isHermitian n alpha (offdiag beta) with hAdef
  have hmul : ∀ i, (tridiag n alpha (offdiag beta)).mulVec (hA.eigenvectorBasis i) =
      hA.eigenvalues i • (hA.eigenvectorBasis i : Fin n → ℝ) := fun i => hA.mulVec_eigenvectorBasis i
  have hon := hA.eigenvectorBasis.orthonormal
  have hne : ∀ i, (hA.eigenvectorBasis i : Fin n → ℝ) ≠ 0 := by
    intro i h
    have := hon.1 i
    rw [show hA.eigenvectorBasis i = 0 from by ext j; exact congrFun h j] at this
    simp at this
  refine ⟨fun i => eig_root hn hb _ _ (hmul i) (hne i), ?_⟩
  intro i j hij
  by_contra hne'
  set v : Fin n → ℝ := (hA.eigenvectorBasis i).ofLp with hv
  set w : Fin n → ℝ := (hA.eigenvectorBasis j).ofLp with hw
  have hiv := hmul i
  have hjw := hmul j
  rw [← hij] at hjw
  -- the combination `w₀ v - v₀ w` is an eigenvector with vanishing first component
  have hcomb : (tridiag n alpha (offdiag beta)).mulVec (ext w 0 • v - ext v 0 • w) =
      hA.eigenvalues i • (ext w 0 • v - ext v 0 • w) := by
    rw [Matrix.mulVec_sub, Matrix.mulVec_smul, Matrix.mulVec_smul, hiv, hjw, smul_sub,
      smul_comm, smul_comm (ext v 0)]
  have hz := eig_first hb _ _ hcomb (by simp [ext, hn]; ring)
  have hv0 : ext v 0 ≠ 0 := fun h => hne i (eig_first hb v _ hiv h)
  have hw0 : ext w 0 ≠ 0 := fun h => hne j (eig_first hb w _ hjw h)
  have horth : inner ℝ (hA.eigenvectorBasis i) (hA.eigenvectorBasis j) = (0 : ℝ) := hon.2 hne'
  have hunit : inner ℝ (hA.eigenvectorBasis i) (hA.eigenvectorBasis i) = (1 : ℝ) := by
    rw [real_inner_self_eq_norm_sq, hon.1 i]; norm_num
  have hvec : ext w 0 • hA.eigenvectorBasis i - ext v 0 • hA.eigenvectorBasis j = 0 := by
    ext k; exact congrFun hz k
  have := congrArg (fun z => inner ℝ (hA.eigenvectorBasis i) z) hvec
  simp only [inner_sub_right, inner_smul_right, hunit, horth, inner_zero_right] at this
  apply hw0
  linarith

/-- So the list of eigenvalues is a strictly ascending list of all `n` roots. -/
theorem eigvals_spec (hn : 0 < n) (hb : ∀ k, 1 ≤ k → k < n → 0 < beta k) {x : List ℝ}
    (hx : IsEigvals n alpha (offdiag beta) x) :
    x.Pairwise (· < ·) ∧ x.length = n ∧ ∀ t ∈ x, (opoly alpha beta n).eval t = 0 := by
  obtain ⟨h1, h2⟩ := eigenvalues_roots (alpha := alpha) hn hb
  have hnd : x.Nodup := hx.2.nodup_iff.2 (List.nodup_ofFn.2 h2)
  refine ⟨?_, ?_, ?_⟩
  · exact (hx.1.and hnd).imp fun h => lt_of_le_of_ne h.1 h.2
  · rw [hx.2.length_eq, List.length_ofFn]
  · intro t ht
    obtain ⟨i, rfl⟩ := (List.mem_ofFn' _ _).1 (hx.2.mem_iff.1 ht)
    exact h1 i

/-- A list of eigenvalues exists. -/
theorem exists_eigvals (n : ℕ) (d e : ℕ → ℝ) : ∃ x, IsEigvals n d e x :=
  ⟨(List.ofFn (tridiag_isHermitian n d e).eigenvalues).insertionSort (· ≤ ·),
    List.pairwise_insertionSort _ _, List.perm_insertionSort _ _⟩

end Verif.Jacobi
