import Verif.Lemmas.Axis
import Verif.Lemmas.LeastSquares
import Mathlib.Algebra.BigOperators.Group.Finset.Basic
import Mathlib.Analysis.Complex.Norm
/-! Lemmas on the decomposed matrices of `sampling.py`. -/

namespace Verif.Sampling
open Verif Verif.Np Verif.Util Verif.Spec Verif.Np.NdArray Matrix

/-- The triple returned by an SVD routine has the documented shapes and is a thin SVD. -/
def SvdOk {𝕜 : Type} [RCLike 𝕜] {m n : ℕ} (A : Matrix (Fin m) (Fin n) 𝕜) (t : Triple 𝕜) : Prop :=
  ∃ (k : ℕ) (u : Matrix (Fin m) (Fin k) 𝕜) (s : Fin k → ℝ) (vH : Matrix (Fin k) (Fin n) 𝕜),
    t = ⟨m, k, k, k, n, u, s, vH⟩ ∧ IsThinSvd A u s vH

theorem matmul_ok {𝕜 : Type} [NonUnitalNonAssocSemiring 𝕜] {m n : ℕ} (a : Matrix (Fin m) (Fin n) 𝕜) (y : NdArray 𝕜)
    (h0 : 0 < y.ndim) (hy : y.shape[y.ndim - 2]? = some n) :
    ∃ r, matmul a y = .ok r ∧ AppliedAlong a.mulVec (y.ndim - 2) y r := by
  unfold matmul
  rw [if_neg (by omega)]
  split
  · rename_i h1
    rw [show (0 : ℕ) = y.ndim - 2 by omega]
    exact alongAxis_spec _ _ _ hy
  · exact alongAxis_spec _ _ _ hy

theorem matmul_error {𝕜 : Type} [NonUnitalNonAssocSemiring 𝕜] {m n : ℕ} (a : Matrix (Fin m) (Fin n) 𝕜) (y : NdArray 𝕜)
    (hy : y.shape[y.ndim - 2]? ≠ some n) : matmul a y = .error .valueError := by
  unfold matmul
  split
  · rfl
  · split
    · rename_i h1
      rw [show (0 : ℕ) = y.ndim - 2 by omega]
      exact alongAxis_error _ _ _ hy
    · exact alongAxis_error _ _ _ hy

theorem divRows_ok {k : ℕ} {𝕜 : Type} [Mul 𝕜] (cast : ℝ → 𝕜) (r : NdArray 𝕜) (s : Fin k → ℝ) (hs : ∀ i, s i ≠ 0)
    (h0 : 0 < r.ndim) (hr : r.shape[r.ndim - 2]? = some k) :
    ∃ q, divRows cast r s = .ok q ∧ AppliedAlong (fun v i => v i * cast (s i)⁻¹) (r.ndim - 2) r q := by
  unfold divRows
  rw [if_neg (fun ⟨i, hi⟩ => hs i hi)]
  split
  · exact alongAxis_spec _ _ _ hr
  · rw [show (0 : ℕ) = r.ndim - 2 by omega]
    exact alongAxis_spec _ _ _ hr

theorem ndim_of_applied {α β : Type} {p q k : ℕ} {f : (Fin p → α) → Fin q → β} {x : NdArray α} {r : NdArray β}
    (h : AppliedAlong f k x r) : r.ndim = x.ndim := by
  show r.shape.length = _
  rw [h.shape, List.length_set]

namespace DecMat
variable {m n : ℕ}

/-- The map of vectors behind `_lstsq`. -/
noncomputable def pinv (d : DecMat ℂ m n) (x : Fin m → ℂ) : Fin n → ℂ :=
  d.v *ᵥ fun i => (d.uH *ᵥ x) i * ((d.s i)⁻¹ : ℝ)

theorem lstsqOp_ok (d : DecMat ℂ m n) (hs : ∀ i, d.s i ≠ 0) (y : NdArray ℂ) (h0 : 0 < y.ndim)
    (hy : y.shape[y.ndim - 2]? = some m) :
    ∃ r, d.lstsqOp y = .ok r ∧ AppliedAlong d.pinv (y.ndim - 2) y r := by
  obtain ⟨r1, h1, a1⟩ := matmul_ok d.uH y h0 hy
  have n1 := ndim_of_applied a1
  obtain ⟨r2, h2, a2⟩ := divRows_ok Complex.ofReal r1 d.s hs (by omega) (by rw [n1]; exact a1.axis')
  have n2 := ndim_of_applied a2
  rw [n1] at a2 n2
  obtain ⟨r3, h3, a3⟩ := matmul_ok d.v r2 (by omega) (by rw [n2]; exact a2.axis')
  rw [n2] at a3
  refine ⟨r3, ?_, (a1.comp a2).comp a3⟩
  unfold lstsqOp
  rw [h1]; simp only; rw [h2]; simp only; rw [h3]

theorem lstsqOp_error (d : DecMat ℂ m n) (y : NdArray ℂ) (hy : y.shape[y.ndim - 2]? ≠ some m) :
    d.lstsqOp y = .error .valueError := by
  unfold lstsqOp
  rw [matmul_error _ _ hy]

end DecMat

/-! ### The retained part of the decomposition -/

theorem keep_ne_zero {k : ℕ} (s : Fin k → ℝ) (i : Fin (keep s).length) : s ((keep s).get i) ≠ 0 := by
  have h := List.get_mem (keep s) i
  exact of_decide_eq_true (List.mem_filter.1 h).2

theorem keep_inj {k : ℕ} (s : Fin k → ℝ) : Function.Injective (keep s).get :=
  List.Nodup.injective_get ((List.nodup_finRange k).filter _)

theorem keep_surj {k : ℕ} (s : Fin k → ℝ) (i : Fin k) (h : s i ≠ 0) : ∃ j, (keep s).get j = i := by
  have : i ∈ keep s := by
    unfold keep
    rw [List.mem_filter]
    exact ⟨List.mem_finRange i, by simpa using h⟩
  exact List.get_of_mem this

theorem keep_mono {k : ℕ} (s : Fin k → ℝ) : StrictMono (keep s).get := by
  have h : (keep s).Pairwise (· < ·) := List.Pairwise.filter _ (List.pairwise_lt_finRange k)
  exact fun i j hij => (List.pairwise_iff_get.1 h) i j hij

theorem keep_sum {k : ℕ} {M : Type*} [AddCommMonoid M] (s : Fin k → ℝ) (g : Fin k → M) (h : ∀ i, s i = 0 → g i = 0) :
    ∑ j, g ((keep s).get j) = ∑ i, g i := by
  refine Finset.sum_of_injOn (keep s).get ((keep_inj s).injOn) (fun _ _ => Finset.mem_coe.2 (Finset.mem_univ _)) ?_ fun _ _ => rfl
  intro i _ hi
  by_contra hc
  obtain ⟨j, hj⟩ := keep_surj s i fun h0 => hc (h i h0)
  exact hi ⟨j, Finset.mem_coe.2 (Finset.mem_univ _), hj⟩

/-- The retained columns form a decomposition with non-zero singular values. -/
theorem core_of_svd {𝕜 : Type} [RCLike 𝕜] {m n k : ℕ} {A : Matrix (Fin m) (Fin n) 𝕜} {u : Matrix (Fin m) (Fin k) 𝕜}
    {s : Fin k → ℝ} {vH : Matrix (Fin k) (Fin n) 𝕜} (h : IsThinSvd A u s vH) :
    (u.submatrix id (keep s).get)ᴴ * u.submatrix id (keep s).get = 1 ∧
    ((vH.submatrix (keep s).get id)ᴴ)ᴴ * (vH.submatrix (keep s).get id)ᴴ = 1 ∧
    A = u.submatrix id (keep s).get * Matrix.diagonal (fun i => (s ((keep s).get i) : 𝕜)) *
      ((vH.submatrix (keep s).get id)ᴴ)ᴴ := by
  refine ⟨?_, ?_, ?_⟩
  · ext i j
    have := congrFun (congrFun h.u_orth ((keep s).get i)) ((keep s).get j)
    simp only [Matrix.mul_apply, Matrix.conjTranspose_apply, Matrix.submatrix_apply, id, Matrix.one_apply] at this ⊢
    rw [this]
    simp only [(keep_inj s).eq_iff]
  · ext i j
    have := congrFun (congrFun h.v_orth ((keep s).get i)) ((keep s).get j)
    simp only [Matrix.mul_apply, Matrix.conjTranspose_conjTranspose, Matrix.conjTranspose_apply, Matrix.submatrix_apply, id, Matrix.one_apply] at this ⊢
    rw [this]
    simp only [(keep_inj s).eq_iff]
  · ext i j
    rw [h.eq, Matrix.conjTranspose_conjTranspose, Matrix.mul_apply, Matrix.mul_apply]
    simp only [Matrix.mul_diagonal, Matrix.submatrix_apply, id]
    exact (keep_sum s (fun k => u i k * (s k : 𝕜) * vH k j) fun k hk => by rw [hk]; simp).symm

theorem decompose_ok {m n : ℕ} {A : Matrix (Fin m) (Fin n) ℂ} {t : Triple ℂ} (h : SvdOk A t) :
    ∃ d, decompose A t = .ok d ∧ d.a = A ∧ (∀ i, 0 < d.s i) ∧ Antitone d.s ∧ (∀ x, IsLeastSquares A x (d.pinv x)) ∧
      (d.r = 0 → A = 0) := by
  obtain ⟨k, u, s, vH, rfl, hsvd⟩ := h
  have hc : checkSvdResult m k k k n (some (m, n)) = .ok k := by unfold checkSvdResult; simp
  unfold decompose
  rw [dif_pos ⟨hc, ⟨rfl, rfl⟩, rfl, rfl⟩]
  obtain ⟨h1, h2, h3⟩ := core_of_svd hsvd
  refine ⟨_, rfl, rfl, fun i => ?_, fun i j hij => ?_, fun x => ?_, fun hr => ?_⟩
  · exact lt_of_le_of_ne (hsvd.nonneg _) (keep_ne_zero s i).symm
  · exact hsvd.anti ((keep_mono s).monotone hij)
  · have := leastSquares_of_core A _ _ _ h1 h2 (fun i => keep_ne_zero s i) h3 x
    convert this using 1
    unfold DecMat.pinv
    congr 1
    funext i
    rw [Matrix.mulVec_diagonal, mul_comm]
    congr 1
    push_cast
    rfl
  · rw [h3]
    ext i j
    rw [Matrix.mul_apply]
    have : IsEmpty (Fin (keep s).length) := by
      have hr' : (keep s).length = 0 := hr
      rw [hr']; infer_instance
    simp

/-! ### The split form -/

/-- Real and (from `off` on) imaginary parts of a vector, stacked. -/
def stackVec {m : ℕ} (off : ℕ) (x : Fin m → ℂ) : Fin (m + (m - off)) → ℝ := fun i =>
  if h : i.1 < m then (x ⟨i.1, h⟩).re else (x ⟨off + (i.1 - m), by omega⟩).im

theorem sum_stack {m off : ℕ} {M : Type*} [AddCommMonoid M] (f : Fin (m + (m - off)) → M) :
    ∑ i, f i = (∑ j : Fin m, f ⟨j.1, by omega⟩) +
      ∑ j : Fin m, if h : j.1 < off then 0 else f ⟨m + (j.1 - off), by omega⟩ := by
  rw [Fin.sum_univ_add]
  congr 1
  symm
  refine (Finset.sum_of_injOn (fun j : Fin (m - off) => (⟨off + j.1, by omega⟩ : Fin m)) ?_
    (fun _ _ => Finset.mem_coe.2 (Finset.mem_univ _)) ?_ ?_).symm
  · intro a _ b _ hab
    have := congrArg Fin.val hab
    exact Fin.ext (by simpa using this)
  · intro j _ hj
    rw [dif_pos]
    by_contra hc
    refine hj ⟨⟨j.1 - off, by omega⟩, Finset.mem_coe.2 (Finset.mem_univ _), Fin.ext ?_⟩
    simp only
    omega
  · intro j _
    rw [dif_neg (by simp)]
    congr 1
    ext
    simp

theorem sq_stack {m : ℕ} (off : ℕ) (z : Fin m → ℂ) :
    sqNorm z = sqNorm (stackVec off z) + ∑ j : Fin m, if j.1 < off then (z j).im ^ 2 else 0 := by
  unfold sqNorm
  rw [sum_stack, add_assoc, ← Finset.sum_add_distrib, ← Finset.sum_add_distrib]
  refine Finset.sum_congr rfl fun j _ => ?_
  rw [Complex.sq_norm, Complex.normSq_apply]
  unfold stackVec
  rw [dif_pos j.2]
  by_cases hj : j.1 < off
  · rw [dif_pos hj, if_pos hj, Real.norm_eq_abs, sq_abs]
    ring
  · rw [dif_neg hj, if_neg hj, dif_neg (by simp), Real.norm_eq_abs, Real.norm_eq_abs, sq_abs, sq_abs]
    have : (⟨off + (m + (j.1 - off) - m), by omega⟩ : Fin m) = j := Fin.ext (by simp; omega)
    rw [this]
    ring

theorem stack_mulVec {m n : ℕ} (off : ℕ) (A : Matrix (Fin m) (Fin n) ℂ) (y : Fin n → ℝ) (x : Fin m → ℂ) :
    stackVec off (A *ᵥ (fun l => (y l : ℂ)) - x) = stacked off A *ᵥ y - stackVec off x := by
  funext i
  unfold stackVec stacked
  simp only [Pi.sub_apply, Matrix.mulVec, dotProduct]
  by_cases hi : i.1 < m
  · simp only [dif_pos hi]
    rw [Complex.sub_re, Complex.re_sum]
    simp
  · simp only [dif_neg hi]
    rw [Complex.sub_im, Complex.im_sum]
    simp

namespace SplitMat
variable {m n : ℕ}

/-- The map of vectors behind `_lstsq` of the split form. -/
noncomputable def pinv (d : SplitMat m n) (x : Fin m → ℂ) : Fin n → ℝ :=
  d.v *ᵥ fun i => ((d.urealT *ᵥ fun j => (x j).re) i + (d.uimagT *ᵥ fun j => (x j).im) i) * (d.s i)⁻¹

end SplitMat

theorem mapArr_get? {α β : Type} (f : α → β) (x : NdArray α) (idx : List ℕ) :
    (mapArr f x).get? idx = (x.get? idx).map f := by
  unfold NdArray.get? mapArr
  simp only
  split
  · rw [List.getElem?_map]
  · rfl

theorem applied_map {α β γ : Type} {p q k : ℕ} (g : γ → α) {f : (Fin p → α) → Fin q → β} {x : NdArray γ} {r : NdArray β}
    (h : AppliedAlong f k (mapArr g x) r) : AppliedAlong (fun v => f fun j => g (v j)) k x r := by
  refine ⟨h.axis, h.shape, fun idx hidx => ?_⟩
  obtain ⟨i, fib, hi, hfib, hv⟩ := h.val idx hidx
  have : ∀ j : Fin p, ∃ c, x.get? (idx.set k j) = some c ∧ g c = fib j := by
    intro j
    have := hfib j
    rw [mapArr_get?] at this
    cases hx : x.get? (idx.set k j) with
    | none => rw [hx] at this; cases this
    | some c => rw [hx] at this; exact ⟨c, rfl, Option.some.inj this⟩
  choose c hc hgc using this
  exact ⟨i, c, hi, hc, by rw [hv, show (fun j => g (c j)) = fib from funext hgc]⟩

theorem addArr_ok {α : Type} {p q k : ℕ} {f g : (Fin p → α) → Fin q → ℝ} {x : NdArray α} {r1 r2 : NdArray ℝ}
    (h1 : AppliedAlong f k x r1) (h2 : AppliedAlong g k x r2) :
    ∃ r, addArr r1 r2 = .ok r ∧ AppliedAlong (fun v i => f v i + g v i) k x r := by
  unfold addArr
  have hs : r1.shape = r2.shape := h1.shape.trans h2.shape.symm
  rw [dif_pos hs]
  refine ⟨_, rfl, h1.axis, h1.shape, fun idx hidx => ?_⟩
  obtain ⟨i, fx, hi, hfx, hv⟩ := h1.val idx hidx
  obtain ⟨i', fx', hi', hfx', hv'⟩ := h2.val idx (hs ▸ hidx)
  have e1 : i' = i := Fin.ext (Option.some.inj (hi'.symm.trans hi))
  have e2 : fx' = fx := funext fun j => Option.some.inj ((hfx' j).symm.trans (hfx j))
  subst e1 e2
  refine ⟨i', fx', hi, hfx, ?_⟩
  have hb1 : InBounds r1.shape idx := hidx
  have hb2 : InBounds r2.shape idx := hs ▸ hidx
  rw [get?_of_inBounds _ hb1] at hv
  rw [get?_of_inBounds _ hb2, ← hs] at hv'
  rw [get?_of_inBounds _ hidx, List.getElem?_zipWith, hv, hv']

namespace SplitMat
variable {m n : ℕ}

theorem lstsqOp_ok (d : SplitMat m n) (hs : ∀ i, d.s i ≠ 0) (y : NdArray ℂ) (h0 : 0 < y.ndim)
    (hy : y.shape[y.ndim - 2]? = some m) :
    ∃ r, d.lstsqOp y = .ok r ∧ AppliedAlong d.pinv (y.ndim - 2) y r := by
  obtain ⟨r1, h1, a1⟩ := matmul_ok d.urealT (mapArr Complex.re y) h0 hy
  obtain ⟨q1, k1, b1⟩ := matmul_ok d.uimagT (mapArr Complex.im y) h0 hy
  obtain ⟨r2, h2, a2⟩ := addArr_ok (applied_map _ a1) (applied_map _ b1)
  have n2 : r2.ndim = y.ndim := ndim_of_applied a2
  have e : (mapArr Complex.re y).ndim = y.ndim := rfl
  rw [e] at a2
  obtain ⟨r3, h3, a3⟩ := divRows_ok id r2 d.s hs (by omega) (by rw [n2]; exact a2.axis')
  have n3 := ndim_of_applied a3
  rw [n2] at a3 n3
  obtain ⟨r4, h4, a4⟩ := matmul_ok d.v r3 (by omega) (by rw [n3]; exact a3.axis')
  rw [n3] at a4
  refine ⟨r4, ?_, (a2.comp a3).comp a4⟩
  unfold lstsqOp
  rw [h1]; simp only; rw [k1]; simp only; rw [h2]; simp only; rw [h3]; simp only; rw [h4]

theorem lstsqOp_error (d : SplitMat m n) (y : NdArray ℂ) (hy : y.shape[y.ndim - 2]? ≠ some m) :
    d.lstsqOp y = .error .valueError := by
  unfold lstsqOp
  rw [matmul_error _ _ (by exact hy)]

end SplitMat

theorem exists_ok_intro {α β : Type} {P : α → β → Prop} {a : α} (h : ∃ d, P a d) :
    ∃ st d, (Except.ok a : PyM α) = .ok st ∧ P st d := by
  obtain ⟨d, hd⟩ := h
  exact ⟨a, d, rfl, hd⟩

/-- The split decomposition solves the stacked real least-squares problem. -/
theorem split_ok {m n : ℕ} {svd : ∀ p q : ℕ, Matrix (Fin p) (Fin q) ℝ → PyM (Triple ℝ)}
    {A : Matrix (Fin m) (Fin n) ℂ} {off : ℕ} {t : Triple ℝ}
    (ht : svd _ _ (stacked off A) = .ok t) (h : SvdOk (stacked off A) t) :
    ∃ st d, splitOff svd A off = .ok st ∧ splitDecompose A st = .ok d ∧ d.a = A ∧ (∀ i, 0 < d.s i) ∧
      Antitone d.s ∧
      ∀ x, IsLeastSquares (stacked off A) (stackVec off x) (d.pinv x) := by
  obtain ⟨k, u, s, vH, rfl, hsvd⟩ := h
  unfold splitOff
  rw [ht]
  dsimp only
  rw [dif_pos rfl]
  have hc : checkSvdResult m k k k n (some (m, n)) = .ok k := by unfold checkSvdResult; simp
  refine exists_ok_intro (P := fun st d => splitDecompose A st = .ok d ∧ d.a = A ∧ (∀ i, 0 < d.s i) ∧
      Antitone d.s ∧ ∀ x, IsLeastSquares (stacked off A) (stackVec off x) (d.pinv x)) ?_
  unfold splitDecompose
  dsimp only
  rw [dif_pos ⟨hc, ⟨rfl, rfl⟩, rfl, rfl⟩]
  obtain ⟨h1, h2, h3⟩ := core_of_svd hsvd
  refine ⟨_, rfl, rfl, fun i => ?_, fun i j hij => ?_, fun x => ?_⟩
  · exact lt_of_le_of_ne (hsvd.nonneg _) (keep_ne_zero s i).symm
  · exact hsvd.anti ((keep_mono s).monotone hij)
  · have := leastSquares_of_core _ _ _ _ h1 h2 (fun i => keep_ne_zero s i) h3 (stackVec off x)
    convert this using 1
    unfold SplitMat.pinv
    congr 1
    funext i
    rw [Matrix.mulVec_diagonal, mul_comm]
    congr 1
    simp only [Matrix.mulVec, dotProduct, Matrix.conjTranspose_apply, Matrix.submatrix_apply, id, star_trivial]
    rw [sum_stack, ← Finset.sum_add_distrib, ← Finset.sum_add_distrib]
    refine Finset.sum_congr rfl fun j _ => ?_
    unfold stackVec
    simp only [dif_pos j.2]
    by_cases hj : j.1 < off
    · simp [hj]
    · have : (⟨off + (j.1 - off), by omega⟩ : Fin m) = j := Fin.ext (by simp; omega)
      simp [hj, this]

end Verif.Sampling
