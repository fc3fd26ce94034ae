import Verif.Props.C44_PositiveOnly
/-!
# C45 — transformation along an axis
-/

namespace Verif.Props
open Verif Verif.Np Verif.Spec Verif.Sampling Verif.Np.NdArray Matrix

/-- `evaluate(al, axis)` multiplies every fibre along `axis` with the matrix, for arrays of every rank and shape and
every valid axis, negative axes included; both kinds of matrices. -/
theorem C45_evaluate {m n : ℕ} (M : Mat m n) (A : Matrix (Fin m) (Fin n) ℂ)
    (hM : (∃ d, M = .full d ∧ d.a = A) ∨ ∃ d, M = .split d ∧ d.a = A) (x : NdArray ℂ) (axis : ℤ) (k : ℕ)
    (hk : ValidAxis axis x.ndim k) (hx : x.shape[k]? = some n) :
    ∃ r, M.matmulAxis x (some axis) = .ok r ∧ AppliedAlong (fun v => A *ᵥ v) k x r := by
  have := matop_spec A.mulVec (matmul A) (fun y h0 hy => matmul_ok A y h0 hy) x (normalizeAxis_iff.2 hk) hx
  rcases hM with ⟨d, rfl, rfl⟩ | ⟨d, rfl, rfl⟩ <;> exact this

/-- ValueError if the axis does not exist, or if its length does not match. -/
theorem C45_errors {m n : ℕ} (M : Mat m n) (x : NdArray ℂ) (axis : ℤ) :
    ((¬ ∃ k, ValidAxis axis x.ndim k) → M.matmulAxis x (some axis) = .error .valueError ∧
      M.lstsq x (some axis) = .error .valueError) ∧
    ∀ k, ValidAxis axis x.ndim k →
      (x.shape[k]? ≠ some n → M.matmulAxis x (some axis) = .error .valueError) ∧
      (x.shape[k]? ≠ some m → M.lstsq x (some axis) = .error .valueError) := by
  have bad : ∀ {α β : Type} (op : NdArray α → PyM (NdArray β)) (x : NdArray α), (¬ ∃ k, ValidAxis axis x.ndim k) →
      matopAlongAxis op x (some axis) = .error .valueError := by
    intro α β op x h
    unfold matopAlongAxis
    dsimp only
    rw [moveaxis_error x (fun ⟨k, hk⟩ => h ⟨k, normalizeAxis_iff.1 hk⟩)]
  have bad2 : ∀ {α β : Type} {p : ℕ} (op : NdArray α → PyM (NdArray β)) (x : NdArray α) (k : ℕ), ValidAxis axis x.ndim k →
      (∀ y : NdArray α, y.shape[y.ndim - 2]? ≠ some p → op y = .error .valueError) → x.shape[k]? ≠ some p →
      matopAlongAxis op x (some axis) = .error .valueError := by
    intro α β p op x k hk hop hx
    have hkn := hk.1
    have htn : x.ndim - 2 < x.ndim := by omega
    obtain ⟨y, hy, hys, -⟩ := moveaxis_spec x (normalizeAxis_iff.2 hk) (normalizeAxis_nat htn)
    have hyn : y.ndim = x.ndim := by
      show y.shape.length = _
      rw [hys, length_moveEntry hkn htn]
    unfold matopAlongAxis
    dsimp only
    rw [Nat.max_zero, hy]
    dsimp only
    rw [hop y]
    rw [hyn, getElem?_of_getD (by rw [show y.shape.length = x.ndim from hyn]; exact htn), hys, getD_moveEntry hkn htn,
      ← getElem?_of_getD hkn]
    exact hx
  refine ⟨fun h => ?_, fun k hk => ⟨fun hx => ?_, fun hx => ?_⟩⟩
  · cases M with
    | full d => exact ⟨bad _ x h, bad _ x h⟩
    | split d =>
      refine ⟨bad _ x h, ?_⟩
      show Except.map _ (d.lstsq x (some axis)) = _
      rw [show d.lstsq x (some axis) = .error .valueError from bad _ x h]
      rfl
  · cases M with
    | full d => exact bad2 _ x k hk (fun y hy => matmul_error _ y hy) hx
    | split d => exact bad2 _ x k hk (fun y hy => matmul_error _ y hy) hx
  · cases M with
    | full d => exact bad2 _ x k hk (fun y hy => d.lstsqOp_error y hy) hx
    | split d =>
      show Except.map _ (d.lstsq x (some axis)) = _
      rw [show d.lstsq x (some axis) = .error .valueError from bad2 _ x k hk (fun y hy => d.lstsqOp_error y hy) hx]
      rfl

/-- The claim on the default: with `axis=None` the last axis is transformed. -/
def DefaultIsLastAxis : Prop :=
  ∀ (m n : ℕ) (d : DecMat ℂ m n) (x : NdArray ℂ), 0 < x.ndim → x.shape[x.ndim - 1]? = some n →
    ∃ r, (Mat.full d).matmulAxis x none = .ok r ∧ AppliedAlong (fun v => d.a *ᵥ v) (x.ndim - 1) x r

/-- It holds for vectors.  Missing for the full claim: arrays of rank two and more, for which the last but one axis is
transformed. -/
theorem C45_default_partial {m n : ℕ} (M : Mat m n) (A : Matrix (Fin m) (Fin n) ℂ)
    (hM : (∃ d, M = .full d ∧ d.a = A) ∨ ∃ d, M = .split d ∧ d.a = A) (x : NdArray ℂ) (h0 : 0 < x.ndim)
    (hx : x.shape[x.ndim - 2]? = some n) :
    (∃ r, M.matmulAxis x none = .ok r ∧ AppliedAlong (fun v => A *ᵥ v) (x.ndim - 2) x r) ∧
    (x.ndim = 1 → x.ndim - 2 = x.ndim - 1) := by
  refine ⟨?_, by omega⟩
  have := matmul_ok A x h0 hx
  rcases hM with ⟨d, rfl, rfl⟩ | ⟨d, rfl, rfl⟩ <;> exact this

/-- For arrays of rank two the default fails: a 1x2 matrix of two coefficient vectors, evaluated at two points. -/
theorem C45_negation : ¬ DefaultIsLastAxis := by
  intro h
  let d : DecMat ℂ 1 2 := ⟨!![1, 1], 0, 0, 0, 0⟩
  let x : NdArray ℂ := ⟨[1, 2], [1, 2], rfl⟩
  obtain ⟨r, hr, -⟩ := h 1 2 d x (by decide) rfl
  have : (Mat.full d).matmulAxis x none = .error .valueError :=
    matmul_error d.a x (by decide)
  rw [this] at hr
  cases hr

/-- Silent misuse: for a square matrix and square data the default gives a different array than the last axis. -/
theorem C45_silent : ∃ (d : DecMat ℂ 2 2) (x r r' : NdArray ℂ), (Mat.full d).matmulAxis x none = .ok r ∧
    (Mat.full d).matmulAxis x (some (-1)) = .ok r' ∧ r ≠ r' := by
  let d : DecMat ℂ 2 2 := ⟨!![1, 1; 0, 1], 0, 0, 0, 0⟩
  let x : NdArray ℂ := ⟨[2, 2], [0, 1, 0, 0], rfl⟩
  obtain ⟨⟨r, hr, ar⟩, -⟩ := C45_default_partial (.full d) d.a (Or.inl ⟨d, rfl, rfl⟩) x (by decide) rfl
  obtain ⟨r', hr', ar'⟩ := C45_evaluate (.full d) d.a (Or.inl ⟨d, rfl, rfl⟩) x (-1) 1 ⟨by decide, Or.inr rfl⟩ rfl
  refine ⟨d, x, r, r', hr, hr', ?_⟩
  rintro rfl
  -- entry (0, 0): first fibre sum is 0 along axis 0, 1 along axis 1
  have hs : r.shape = [2, 2] := ar.shape
  obtain ⟨i, fib, hi, hfib, hv⟩ := ar.val [0, 0] (by rw [hs]; decide)
  obtain ⟨i', fib', hi', hfib', hv'⟩ := ar'.val [0, 0] (by rw [hs]; decide)
  have ei : i = 0 := Fin.ext (Option.some.inj hi).symm
  have ei' : i' = 0 := Fin.ext (Option.some.inj hi').symm
  subst ei ei'
  have f0 : fib 0 = 0 := (Option.some.inj ((hfib 0).symm.trans (show x.get? [0, 0] = some 0 from rfl)))
  have f1 : fib 1 = 0 := (Option.some.inj ((hfib 1).symm.trans (show x.get? [1, 0] = some 0 from rfl)))
  have g0 : fib' 0 = 0 := (Option.some.inj ((hfib' 0).symm.trans (show x.get? [0, 0] = some 0 from rfl)))
  have g1 : fib' 1 = 1 := (Option.some.inj ((hfib' 1).symm.trans (show x.get? [0, 1] = some 1 from rfl)))
  have := Option.some.inj (hv.symm.trans hv')
  simp [Matrix.mulVec, dotProduct, Fin.sum_univ_two, d, f0, f1, g0, g1] at this

/-- Non-trivial instance: rank three, negative axis. -/
example (x : NdArray ℂ) (hx : x.shape = [4, 2, 3]) (d : DecMat ℂ 5 2) :
    ∃ r, (Mat.full d).matmulAxis x (some (-2)) = .ok r ∧ AppliedAlong (fun v => d.a *ᵥ v) 1 x r ∧ r.shape = [4, 5, 3] := by
  obtain ⟨r, hr, ar⟩ := C45_evaluate (.full d) d.a (Or.inl ⟨d, rfl, rfl⟩) x (-2) 1
    ⟨by simp [NdArray.ndim, hx], Or.inr (by simp [NdArray.ndim, hx])⟩ (by rw [hx]; rfl)
  exact ⟨r, hr, ar, by rw [ar.shape, hx]; rfl⟩

end Verif.Props
