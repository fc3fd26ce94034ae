import Verif.Model.Ravel
import Verif.Lemmas.NdArray
/-!
# C03 — array-shape lifting is element-wise
-/

namespace Verif.Props
open Verif Verif.Util Verif.Np Verif.Np.NdArray

/-- Specification of the wrapped (one-dimensional) function: on any vector of length `N` it returns
an array of shape `fs + (N,)` with `res[fi..., k] = f fi (x[k])`. -/
def PointwiseLast {α β : Type _} (fs : List ℕ) (f : List ℕ → α → β)
    (inner : NdArray α → PyM (NdArray β)) : Prop :=
  ∀ x : NdArray α, ∀ N, x.shape = [N] → ∃ r, inner x = .ok r ∧ r.shape = fs ++ [N] ∧
    ∀ fi k, InBounds fs fi → k < N → r.get? (fi ++ [k]) = (x.get? [k]).map (f fi)

/-- The same with the vector axis first: shape `(N,) + fs`. -/
def PointwiseFirst {α β : Type _} (fs : List ℕ) (f : List ℕ → α → β)
    (inner : NdArray α → PyM (NdArray β)) : Prop :=
  ∀ x : NdArray α, ∀ N, x.shape = [N] → ∃ r, inner x = .ok r ∧ r.shape = [N] ++ fs ∧
    ∀ fi k, InBounds fs fi → k < N → r.get? ([k] ++ fi) = (x.get? [k]).map (f fi)

private theorem ravel_get {α : Type _} (x : NdArray α) {xi : List ℕ} (h : InBounds x.shape xi) :
    x.ravel.get? [flatIdx x.shape xi] = x.get? xi := by
  have h1 : flatIdx x.shape xi < x.data.length := by rw [x.size_eq]; exact flatIdx_lt h
  rw [get?_of_inBounds x h, get?_of_inBounds]
  · simp [ravel, flatIdx_single]
  · show InBounds [x.data.length] _; rw [inBounds_single]; exact h1

/-- `last_dim=True` (Matsubara functions): for an argument of *any* shape the wrapped call succeeds,
has shape `fs + x.shape`, and its entry at `(fi..., xi...)` is `f fi (x[xi...])`. -/
theorem C03_last_dim {α β : Type _} (fs : List ℕ) (f : List ℕ → α → β)
    (inner : NdArray α → PyM (NdArray β)) (hin : PointwiseLast fs f inner) (x : NdArray α) :
    ∃ r, ravelCall true inner x = .ok r ∧ r.shape = fs ++ x.shape ∧
      ∀ fi xi, InBounds fs fi → InBounds x.shape xi →
        r.get? (fi ++ xi) = (x.get? xi).map (f fi) := by
  obtain ⟨r, hr, hs, hg⟩ := hin x.ravel x.data.length rfl
  have hsz : r.data.length = (fs ++ x.shape).prod := by
    rw [r.size_eq, hs]; simp [x.size_eq]
  refine ⟨⟨fs ++ x.shape, r.data, hsz⟩, ?_, rfl, ?_⟩
  · unfold ravelCall; rw [hr]
    simp only [hs, List.dropLast_concat, if_true, reshape]
    rw [dif_pos hsz]
  · intro fi xi hfi hxi
    have hk : flatIdx x.shape xi < x.data.length := by rw [x.size_eq]; exact flatIdx_lt hxi
    rw [get?_of_inBounds _ (inBounds_append hfi hxi)]
    have h2 := hg fi (flatIdx x.shape xi) hfi hk
    rw [ravel_get x hxi, get?_of_inBounds] at h2
    · rw [← h2]
      simp only [hs]
      rw [flatIdx_append _ _ hfi, flatIdx_append _ _ hfi]
      simp [flatIdx_single, x.size_eq]
    · rw [hs]; exact inBounds_append hfi (inBounds_single.2 hk)

/-- `last_dim=False` (the moment model): shape `x.shape + fs`, entry at `(xi..., fi...)`. -/
theorem C03_first_dim {α β : Type _} (fs : List ℕ) (f : List ℕ → α → β)
    (inner : NdArray α → PyM (NdArray β)) (hin : PointwiseFirst fs f inner) (x : NdArray α) :
    ∃ r, ravelCall false inner x = .ok r ∧ r.shape = x.shape ++ fs ∧
      ∀ xi fi, InBounds x.shape xi → InBounds fs fi →
        r.get? (xi ++ fi) = (x.get? xi).map (f fi) := by
  obtain ⟨r, hr, hs, hg⟩ := hin x.ravel x.data.length rfl
  have hsz : r.data.length = (x.shape ++ fs).prod := by
    rw [r.size_eq, hs]; simp [x.size_eq]
  refine ⟨⟨x.shape ++ fs, r.data, hsz⟩, ?_, rfl, ?_⟩
  · unfold ravelCall; rw [hr]
    simp only [hs, List.singleton_append, List.tail_cons, Bool.false_eq_true, if_false, reshape]
    rw [dif_pos hsz]
  · intro xi fi hxi hfi
    have hk : flatIdx x.shape xi < x.data.length := by rw [x.size_eq]; exact flatIdx_lt hxi
    rw [get?_of_inBounds _ (inBounds_append hxi hfi)]
    have h2 := hg fi (flatIdx x.shape xi) hfi hk
    rw [ravel_get x hxi, get?_of_inBounds] at h2
    · rw [← h2]
      simp only [hs]
      rw [flatIdx_append _ _ hxi, flatIdx_append _ _ (inBounds_single.2 hk)]
      simp [flatIdx_single]
    · rw [hs]; exact inBounds_append (inBounds_single.2 hk) hfi

/-- Exceptions of the wrapped function are passed on unchanged. -/
theorem C03_errors {α β : Type _} (ld : Bool) (inner : NdArray α → PyM (NdArray β))
    (x : NdArray α) (e : PyErr) (h : inner x.ravel = .error e) :
    ravelCall ld inner x = .error e := by simp [ravelCall, h]

/-- Distinct in-bounds multi-indices address distinct entries (no element is duplicated). -/
theorem C03_index_injective (s i j : List ℕ) (hi : InBounds s i) (hj : InBounds s j)
    (h : flatIdx s i = flatIdx s j) : i = j := by
  induction hi generalizing j with
  | nil => cases hj; rfl
  | @cons a d as ds h1 h2 ih =>
    cases hj with
    | @cons b _ bs _ h3 h4 =>
      simp only [flatIdx] at h
      have e1 := flatIdx_lt h2
      have e2 := flatIdx_lt h4
      have hab : a = b := by
        have e3 : (a * ds.prod + flatIdx ds as) / ds.prod = a := by
          rw [mul_comm, Nat.mul_add_div (by omega), Nat.div_eq_of_lt e1]; rfl
        have e4 : (b * ds.prod + flatIdx ds bs) / ds.prod = b := by
          rw [mul_comm, Nat.mul_add_div (by omega), Nat.div_eq_of_lt e2]; rfl
        rw [← e3, h, e4]
      subst hab
      rw [ih bs h4 (by omega)]

/-- Non-vacuity: the function `x ↦ [x, x+10]` is pointwise in the above sense ... -/
def demoInner (x : NdArray ℕ) : PyM (NdArray ℕ) :=
  .ok ⟨[2] ++ [x.data.length], x.data ++ x.data.map (· + 10), by simp; ring⟩

example : PointwiseLast [2] (fun fi a => if fi = [0] then a else a + 10) demoInner := by
  intro x N hN
  have hl : x.data.length = N := by rw [x.size_eq, hN]; simp
  refine ⟨_, rfl, by simp [hl], ?_⟩
  intro fi k hfi hk
  cases hfi with
  | @cons a _ as _ h1 h2 =>
    cases h2
    have hx : x.get? [k] = x.data[k]? := by
      rw [get?_of_inBounds _ (by rw [hN]; exact inBounds_single.2 hk), hN, flatIdx_single]
    rw [get?_of_inBounds _ (inBounds_append (by simpa [InBounds] using h1)
      (by rw [hl]; exact inBounds_single.2 hk)), hx]
    obtain rfl | rfl : a = 0 ∨ a = 1 := by omega
    · simp [flatIdx, List.getElem?_append, hl, hk]
    · simp [flatIdx, List.getElem?_append, hl]
/- ... and the wrapped version of it on a 2×3 array. -/
example : (ravelCall true demoInner ⟨[2, 3], [1, 2, 3, 4, 5, 6], rfl⟩).toOption.bind
    (fun r => r.get? [1, 1, 0]) = some 14 := by decide
/- zero-dimensional argument -/
example : (ravelCall true demoInner ⟨[], [7], rfl⟩).toOption.map (fun r => (r.shape, r.data))
    = some ([2], [7, 17]) := by decide

end Verif.Props
