import Verif.Lemmas.SvdExists
import Mathlib.Tactic.NormNum
/-!
# C43 — fit is a least-squares fit and inverts evaluate; C60 — condition number and its warning
-/

namespace Verif.Props
open Verif Verif.Np Verif.Spec Verif.Sampling Verif.Np.NdArray Matrix

theorem applied_congr {α β : Type} {p q k : ℕ} {f g : (Fin p → α) → Fin q → β} {x : NdArray α} {r : NdArray β}
    (h : AppliedAlong f k x r) (hfg : ∀ v, f v = g v) : AppliedAlong g k x r := by
  rw [show g = f from funext fun v => (hfg v).symm]
  exact h

theorem applied_id {α β : Type} {p k : ℕ} (g : α → β) {x : NdArray α} (h : x.shape[k]? = some p) :
    AppliedAlong (fun (v : Fin p → α) i => g (v i)) k x (mapArr g x) := by
  have hk : k < x.shape.length := by
    by_contra hc
    rw [List.getElem?_eq_none (not_lt.1 hc)] at h
    cases h
  have hg : x.shape.getD k 0 = p := by rw [List.getD_eq_getElem?_getD, h]; rfl
  refine ⟨h, ?_, fun idx hidx => ?_⟩
  · show x.shape = _
    rw [← hg, set_getD]
  · have hidx' : InBounds x.shape idx := hidx
    have hset : ∀ j : Fin p, InBounds x.shape (idx.set k j) := fun j => by
      refine inBounds_set (q := p) hk (by rw [hg]; exact j.2) ?_
      rwa [← hg, set_getD]
    have hi : idx.getD k 0 < p := by
      have := inBounds_getD hidx' hk
      rwa [hg] at this
    refine ⟨⟨idx.getD k 0, hi⟩, fun j => x.get _ (hset j),
      getElem?_of_getD (by rw [inBounds_length hidx']; exact hk), fun j => get?_eq_get x (hset j), ?_⟩
    rw [mapArr_get?, get?_eq_get x hidx']
    simp only [Option.map_some]
    congr 2
    exact get_congr x (set_getD idx k).symm hidx'

theorem applied_post {α β γ : Type} {p q k : ℕ} {f : (Fin p → α) → Fin q → β} (g : β → γ) {x : NdArray α}
    {r : NdArray β} (h : AppliedAlong f k x r) : AppliedAlong (fun v i => g (f v i)) k x (mapArr g r) :=
  h.comp (applied_id g h.axis')

/-- The stored singular values are the non-zero ones, in order. -/
theorem decompose_s {m n : ℕ} {A : Matrix (Fin m) (Fin n) ℂ} {t : Triple ℂ} {d : DecMat ℂ m n}
    (hd : decompose A t = .ok d) : ∃ idx : Fin d.r → Fin t.ks, StrictMono idx ∧ (∀ i, d.s i = t.s (idx i)) ∧
      ∀ l, t.s l ≠ 0 → ∃ j, idx j = l := by
  unfold decompose at hd
  split at hd
  · cases hd
    exact ⟨(keep t.s).get, keep_mono t.s, fun _ => rfl, fun l hl => keep_surj t.s l hl⟩
  · cases hd

/-- The contract on a single matrix, in the form of the stored object. -/
theorem fullMatrix_ok {svds : Svds} (hs : svds.Ok) {m n : ℕ} (A : Matrix (Fin m) (Fin n) ℂ) :
    ∃ d, fullMatrix svds A = .ok (.full d) ∧ d.a = A ∧ (∀ i, 0 < d.s i) ∧ Antitone d.s ∧
      (∀ x, IsLeastSquares A x (d.pinv x)) ∧ (d.r = 0 → A = 0) := by
  obtain ⟨t, ht, hok⟩ := hs.complex A
  obtain ⟨d, hd, h1, h2, h3, h4, h5⟩ := decompose_ok hok
  refine ⟨d, ?_, h1, h2, h3, h4, h5⟩
  unfold fullMatrix
  rw [ht]
  simp only [hd]
  rfl

/-- For every matrix and every SVD routine meeting its contract, `lstsq` along an axis applies one and the same
linear map to every fibre, and that map gives the least-squares solution of minimal norm. -/
theorem C43_fit {svds : Svds} (hs : svds.Ok) {m n : ℕ} (A : Matrix (Fin m) (Fin n) ℂ) :
    ∃ (M : Mat m n) (fit : (Fin m → ℂ) →ₗ[ℂ] (Fin n → ℂ)), fullMatrix svds A = .ok M ∧
      (∀ x, IsLeastSquares A x (fit x)) ∧
      ∀ (x : NdArray ℂ) (axis : ℤ) (k : ℕ), ValidAxis axis x.ndim k → x.shape[k]? = some m →
        ∃ r, M.lstsq x (some axis) = .ok r ∧ AppliedAlong fit k x r := by
  obtain ⟨d, hd, -, hpos, -, hls, -⟩ := fullMatrix_ok hs A
  refine ⟨.full d, ⟨⟨d.pinv, fun x y => ?_⟩, fun c x => ?_⟩, hd, hls, fun x axis k hk hx => ?_⟩
  · unfold DecMat.pinv
    rw [← Matrix.mulVec_add]
    congr 1
    funext i
    simp only [Matrix.mulVec_add, Pi.add_apply]
    ring
  · unfold DecMat.pinv
    show d.v *ᵥ _ = c • (d.v *ᵥ fun i => (d.uH *ᵥ x) i * ((d.s i)⁻¹ : ℝ))
    rw [← Matrix.mulVec_smul]
    congr 1
    funext i
    simp only [Matrix.mulVec_smul, Pi.smul_apply, smul_eq_mul]
    ring
  · exact matop_spec d.pinv d.lstsqOp (fun y h0 hy => d.lstsqOp_ok (fun i => (hpos i).ne') y h0 hy) x
      (normalizeAxis_iff.2 hk) hx

/-- Evaluation along an axis is multiplication with the matrix. -/
theorem evaluate_full {m n : ℕ} (d : DecMat ℂ m n) (x : NdArray ℂ) (axis : ℤ) (k : ℕ) (hk : ValidAxis axis x.ndim k)
    (hx : x.shape[k]? = some n) : ∃ r, d.matmulAxis x (some axis) = .ok r ∧ AppliedAlong d.a.mulVec k x r :=
  matop_spec d.a.mulVec (matmul d.a) (fun y h0 hy => matmul_ok d.a y h0 hy) x (normalizeAxis_iff.2 hk) hx

theorem validAxis_applied {α β : Type} {p q k : ℕ} {f : (Fin p → α) → Fin q → β} {x : NdArray α} {r : NdArray β}
    {axis : ℤ} (h : AppliedAlong f k x r) (hk : ValidAxis axis x.ndim k) : ValidAxis axis r.ndim k := by
  rw [ndim_of_applied h]; exact hk

theorem mapArr_id {α : Type} (x : NdArray α) : mapArr (fun a => a) x = x := by
  cases x
  unfold mapArr
  simp

/-- If the columns are linearly independent, `fit(evaluate(a)) == a` for arrays of every shape, along every axis. -/
theorem C43_roundtrip {svds : Svds} (hs : svds.Ok) {m n : ℕ} (A : Matrix (Fin m) (Fin n) ℂ)
    (hinj : ∀ w, A *ᵥ w = 0 → w = 0) :
    ∃ M, fullMatrix svds A = .ok M ∧ ∀ (al : NdArray ℂ) (axis : ℤ) (k : ℕ), ValidAxis axis al.ndim k →
      al.shape[k]? = some n → ∃ v, M.matmulAxis al (some axis) = .ok v ∧ M.lstsq v (some axis) = .ok al := by
  obtain ⟨d, hd, ha, hpos, -, hls, -⟩ := fullMatrix_ok hs A
  refine ⟨.full d, hd, fun al axis k hk hal => ?_⟩
  obtain ⟨v, hv, av⟩ := evaluate_full d al axis k hk hal
  obtain ⟨y, hy, ay⟩ := matop_spec d.pinv d.lstsqOp (fun y h0 hy => d.lstsqOp_ok (fun i => (hpos i).ne') y h0 hy) v
      (normalizeAxis_iff.2 (validAxis_applied av hk)) av.axis'
  refine ⟨v, hv, ?_⟩
  have h1 := av.comp ay
  have h2 : AppliedAlong (fun (v : Fin n → ℂ) i => v i) k al y := by
    refine applied_congr h1 fun w => ?_
    rw [ha]
    exact (hls (A *ᵥ w)).recover hinj
  have h3 := applied_id (p := n) (fun a : ℂ => a) hal
  have := h2.unique h3
  rw [mapArr_id] at this
  rw [← this]
  exact hy

/-- A tall matrix of full rank, and ideal SVD routines. -/
example : ∃ M, fullMatrix idealSvds (!![1, 0; 0, 2; 1, 1] : Matrix (Fin 3) (Fin 2) ℂ) = .ok M ∧
    ∀ (al : NdArray ℂ) (axis : ℤ) (k : ℕ), ValidAxis axis al.ndim k → al.shape[k]? = some 2 →
      ∃ v, M.matmulAxis al (some axis) = .ok v ∧ M.lstsq v (some axis) = .ok al := by
  refine C43_roundtrip idealSvds_ok _ fun w hw => ?_
  have h0 := congrFun hw 0
  have h1 := congrFun hw 1
  simp [Matrix.mulVec, dotProduct, Fin.sum_univ_two] at h0 h1
  funext i
  fin_cases i
  · exact h0
  · exact h1

/-! ## C60 -/

/-- `cond` is the ratio of the largest to the smallest non-zero singular value, and `fit` warns if and only if the
basis is claimed to be well-conditioned and that ratio exceeds 1e8.  A zero matrix makes `fit` fail with IndexError. -/
theorem C60_warning {svds : Svds} {b : SBasis} {P : Type} {points : List P}
    {A : Matrix (Fin points.length) (Fin b.size) ℂ} {t : Triple ℂ} (ht : svds.complex _ _ A = .ok t) (hok : SvdOk A t) :
    ∃ M, fullMatrix svds A = .ok M ∧
      (A ≠ 0 → ∃ κ i j, M.cond = .ok κ ∧ t.s j ≠ 0 ∧ (∀ l, t.s l ≤ t.s i) ∧ (∀ l, t.s l ≠ 0 → t.s j ≤ t.s l) ∧
        κ = t.s i / t.s j ∧ 1 ≤ κ ∧
        ∀ (ax : NdArray ℂ) (axis : ℤ) (k : ℕ), ValidAxis axis ax.ndim k → ax.shape[k]? = some points.length →
          ∃ y w, (Obj.mk (b := b) points false M).fitHere ax (some axis) = .ok (y, w) ∧
            (w = true ↔ b.wellConditioned = true ∧ 10 ^ 8 < κ)) ∧
      (A = 0 → b.wellConditioned = true → ∀ ax axis,
        (Obj.mk (b := b) points false M).fitHere ax axis = .error .indexError) := by
  obtain ⟨d, hd, ha, hpos, hanti, hls, h0⟩ := decompose_ok hok
  have hM : fullMatrix svds A = .ok (.full d) := by
    unfold fullMatrix
    rw [ht]
    simp only [hd]
    rfl
  refine ⟨.full d, hM, fun hA => ?_, fun hA hw ax axis => ?_⟩
  · have hr : 0 < d.r := Nat.pos_of_ne_zero fun h => hA (h0 h)
    obtain ⟨idx, hmono, hsi, hsurj⟩ := decompose_s hd
    have hnn : ∀ l, 0 ≤ t.s l := by
      obtain ⟨k0, u, s, vH, rfl, hsvd⟩ := hok
      exact hsvd.nonneg
    refine ⟨d.s ⟨0, hr⟩ / d.s ⟨d.r - 1, by omega⟩, idx ⟨0, hr⟩, idx ⟨d.r - 1, by omega⟩, ?_, ?_, ?_, ?_, ?_, ?_, ?_⟩
    · show condOf _ = _
      unfold condOf
      rw [dif_pos hr]
    · rw [← hsi]; exact (hpos _).ne'
    · intro l
      by_cases hl : t.s l = 0
      · rw [hl]; exact hnn _
      · obtain ⟨j, rfl⟩ := hsurj l hl
        rw [← hsi, ← hsi]
        exact hanti (Fin.mk_le_mk.2 (Nat.zero_le _))
    · intro l hl
      obtain ⟨j, rfl⟩ := hsurj l hl
      rw [← hsi, ← hsi]
      exact hanti (Fin.le_def.2 (by have := j.2; simp only; omega))
    · rw [hsi, hsi]
    · rw [one_le_div (hpos _)]
      exact hanti (Fin.mk_le_mk.2 (Nat.zero_le _))
    · intro ax axis k hk hax
      obtain ⟨y, hy, -⟩ := matop_spec d.pinv d.lstsqOp (fun y h0 hy => d.lstsqOp_ok (fun i => (hpos i).ne') y h0 hy)
        ax (normalizeAxis_iff.2 hk) hax
      have hy' : (Mat.full d).lstsq ax (some axis) = .ok y := hy
      have hc : (Mat.full d).cond = .ok (d.s ⟨0, hr⟩ / d.s ⟨d.r - 1, by omega⟩) := by
        show condOf _ = _
        unfold condOf
        rw [dif_pos hr]
      unfold Obj.fitHere
      dsimp only
      rw [hc, hy']
      by_cases hw : b.wellConditioned = true
      · rw [if_pos hw]
        exact ⟨y, _, rfl, by simp only [decide_eq_true_eq, not_le, hw, true_and]⟩
      · rw [if_neg hw]
        exact ⟨y, false, rfl, by simp [hw]⟩
  · have hr : ¬ 0 < d.r := by
      intro hr
      -- a positive singular value contradicts A = 0
      obtain ⟨idx, hmono, hsi, hsurj⟩ := decompose_s hd
      obtain ⟨k0, u, s, vH, rfl, hsvd⟩ := hok
      have h1 : uᴴ * A * vHᴴ = Matrix.diagonal fun i => (s i : ℂ) := by
        rw [hsvd.eq]
        calc uᴴ * (u * Matrix.diagonal (fun i => (s i : ℂ)) * vH) * vHᴴ
            = (uᴴ * u) * Matrix.diagonal (fun i => (s i : ℂ)) * (vH * vHᴴ) := by simp only [Matrix.mul_assoc]
          _ = _ := by rw [hsvd.u_orth, hsvd.v_orth, Matrix.one_mul, Matrix.mul_one]
      rw [hA, Matrix.mul_zero, Matrix.zero_mul] at h1
      have h2 := congrFun (congrFun h1 (idx ⟨0, hr⟩)) (idx ⟨0, hr⟩)
      rw [Matrix.diagonal_apply_eq, Matrix.zero_apply] at h2
      refine (hpos ⟨0, hr⟩).ne' ?_
      rw [hsi]
      exact_mod_cast h2.symm
    unfold Obj.fitHere
    dsimp only
    rw [if_pos hw]
    have : (Mat.full d).cond = .error .indexError := by
      show condOf _ = _
      unfold condOf
      rw [dif_neg hr]
    rw [this]
    rfl

end Verif.Props
