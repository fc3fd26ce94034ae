import Verif.Spec.Axis
import Verif.Model.Sampling
/-! Lemmas on operations along an axis. -/

namespace Verif.Np.NdArray
open Verif Verif.Spec Verif.Sampling
variable {α β γ : Type}

theorem indices_getElem? {shape idx : List ℕ} (h : InBounds shape idx) :
    (indices shape)[flatIdx shape idx]? = some idx := by
  induction h with
  | nil => rfl
  | @cons i d is ds h1 h2 ih =>
    simp only [indices, flatIdx]
    have key : ∀ n i, i < n → ((List.range n).flatMap fun i => (indices ds).map (i :: ·))[i * ds.prod + flatIdx ds is]? =
        some (i :: is) := by
      intro n
      induction n with
      | zero => intro i hi; omega
      | succ n ihn =>
        intro i hi
        rw [List.range_succ, List.flatMap_append]
        have hlen : ((List.range n).flatMap fun i => (indices ds).map (i :: ·)).length = n * ds.prod := by
          simp [List.length_flatMap, length_indices]
        have hlt := flatIdx_lt h2
        rcases Nat.lt_succ_iff_lt_or_eq.1 hi with hi | rfl
        · rw [List.getElem?_append_left, ihn i hi]
          rw [hlen]
          calc i * ds.prod + flatIdx ds is < i * ds.prod + ds.prod := by omega
            _ = (i + 1) * ds.prod := by ring
            _ ≤ n * ds.prod := Nat.mul_le_mul_right _ hi
        · rw [List.getElem?_append_right (by rw [hlen]; omega), hlen, Nat.add_sub_cancel_left]
          simp [ih]
    exact key d i h1

theorem get_ofFn (shape : List ℕ) (f : ∀ idx, InBounds shape idx → α) (idx : List ℕ) (h : InBounds shape idx) :
    (ofFn shape f).get idx h = f idx h := by
  have h1 := indices_getElem? h
  have hlt : flatIdx shape idx < (indices shape).length := by rw [length_indices]; exact flatIdx_lt h
  have h2 : (indices shape)[flatIdx shape idx] = idx := by
    rw [List.getElem?_eq_getElem hlt] at h1
    exact Option.some.inj h1
  unfold get ofFn
  simp only [List.getElem_map, List.getElem_attach, h2]

theorem get?_eq_get (a : NdArray α) {idx : List ℕ} (h : InBounds a.shape idx) : a.get? idx = some (a.get idx h) := by
  rw [get?_of_inBounds a h]
  unfold get
  rw [List.getElem?_eq_getElem]

theorem get?_ofFn (shape : List ℕ) (f : ∀ idx, InBounds shape idx → α) (idx : List ℕ) (h : InBounds shape idx) :
    (ofFn shape f).get? idx = some (f idx h) := by
  have h' : InBounds (ofFn shape f).shape idx := h
  rw [get?_eq_get _ h']
  exact congrArg some (get_ofFn shape f idx h)

theorem get_congr (a : NdArray α) {i j : List ℕ} (h : i = j) (hi : InBounds a.shape i) :
    a.get i hi = a.get j (h ▸ hi) := by
  subst h; rfl

theorem getElem?_of_getD {l : List ℕ} {k : ℕ} (h : k < l.length) : l[k]? = some (l.getD k 0) := by
  rw [List.getElem?_eq_getElem h, List.getD_eq_getElem?_getD, List.getElem?_eq_getElem h]; rfl

theorem alongAxis_spec {p q : ℕ} (f : (Fin p → α) → Fin q → β) (x : NdArray α) (t : ℕ)
    (h : x.shape[t]? = some p) : ∃ r, x.alongAxis f t = .ok r ∧ AppliedAlong f t x r := by
  have ht : t < x.ndim := by
    by_contra hc
    rw [List.getElem?_eq_none (not_lt.1 hc)] at h
    cases h
  have hp : x.shape.getD t 0 = p := by rw [List.getD_eq_getElem?_getD, h]; rfl
  unfold alongAxis
  rw [dif_pos ⟨ht, hp⟩]
  refine ⟨_, rfl, ?_⟩
  constructor
  · exact h
  · rfl
  · intro idx hidx
    have hl : idx.length = x.shape.length := by
      have := inBounds_length hidx
      simpa [ofFn] using this
    have hq : idx.getD t 0 < q := by
      have := inBounds_getD hidx (n := t) (by simpa [ofFn] using ht)
      simpa [ofFn, ht] using this
    refine ⟨⟨idx.getD t 0, hq⟩, _, getElem?_of_getD (by rw [hl]; exact ht),
      fun j => get?_eq_get x (inBounds_set ht (by rw [hp]; exact j.2) hidx), ?_⟩
    exact get?_ofFn _ _ _ hidx

theorem alongAxis_error {p q : ℕ} (f : (Fin p → α) → Fin q → β) (x : NdArray α) (t : ℕ)
    (h : x.shape[t]? ≠ some p) : x.alongAxis f t = .error .valueError := by
  unfold alongAxis
  rw [dif_neg]
  rintro ⟨h1, h2⟩
  exact h (by rw [getElem?_of_getD h1, h2])

theorem _root_.Verif.Spec.AppliedAlong.lt {p q : ℕ} {f : (Fin p → α) → Fin q → β} {k : ℕ} {x : NdArray α}
    {r : NdArray β} (h : AppliedAlong f k x r) : k < x.shape.length := by
  by_contra hc
  have := h.axis
  rw [List.getElem?_eq_none (by omega)] at this
  cases this

theorem _root_.Verif.Spec.AppliedAlong.axis' {p q : ℕ} {f : (Fin p → α) → Fin q → β} {k : ℕ} {x : NdArray α}
    {r : NdArray β} (h : AppliedAlong f k x r) : r.shape[k]? = some q := by
  rw [h.shape, List.getElem?_set_self h.lt]

theorem _root_.Verif.Spec.AppliedAlong.comp {p q s : ℕ} {f : (Fin p → α) → Fin q → β} {g : (Fin q → β) → Fin s → γ}
    {k : ℕ} {x : NdArray α} {y : NdArray β} {z : NdArray γ} (h1 : AppliedAlong f k x y) (h2 : AppliedAlong g k y z) :
    AppliedAlong (fun v => g (f v)) k x z := by
  refine ⟨h1.axis, by rw [h2.shape, h1.shape, List.set_set], fun idx hidx => ?_⟩
  obtain ⟨i, fib, hi, hfib, hz⟩ := h2.val idx hidx
  have hk : k < idx.length := by
    by_contra hc
    rw [List.getElem?_eq_none (by omega)] at hi
    cases hi
  -- fibres of y in terms of x
  have hy : ∀ j : Fin q, ∃ fx : Fin p → α, (∀ j' : Fin p, x.get? (idx.set k j') = some (fx j')) ∧ fib j = f fx j := by
    intro j
    have hb : InBounds y.shape (idx.set k j) := by
      by_contra hc
      have := hfib j
      rw [get?, if_neg hc] at this
      cases this
    obtain ⟨i', fx, hi', hfx, hval⟩ := h1.val _ hb
    rw [List.getElem?_set_self hk] at hi'
    have hij : i' = j := Fin.ext (Option.some.inj hi').symm
    subst hij
    refine ⟨fx, fun j' => ?_, ?_⟩
    · have := hfx j'
      rwa [List.set_set] at this
    · exact Option.some.inj ((hfib i').symm.trans hval)
  by_cases hq : q = 0
  · -- no fibre elements: need some fibre of x
    subst hq
    have hp : ∃ fx : Fin p → α, ∀ j' : Fin p, x.get? (idx.set k j') = some (fx j') := by
      have hb : ∀ j' : Fin p, InBounds x.shape (idx.set k j') := fun j' => by
        have hz' : InBounds (x.shape.set k s) idx := by
          rw [h2.shape, h1.shape, List.set_set] at hidx; exact hidx
        refine inBounds_set h1.lt ?_ hz'
        rw [List.getD_eq_getElem?_getD, h1.axis]
        exact j'.2
      exact ⟨fun j' => x.get _ (hb j'), fun j' => get?_eq_get x (hb j')⟩
    obtain ⟨fx, hfx⟩ := hp
    refine ⟨i, fx, hi, hfx, ?_⟩
    rw [hz, show f fx = fib from funext fun j => j.elim0]
  · obtain ⟨fx, hfx, -⟩ := hy ⟨0, Nat.pos_of_ne_zero hq⟩
    refine ⟨i, fx, hi, hfx, ?_⟩
    rw [hz]
    congr 1
    congr 1
    funext j
    obtain ⟨fx', hfx', hv⟩ := hy j
    rw [hv, show fx' = fx from funext fun j' => Option.some.inj ((hfx' j').symm.trans (hfx j'))]

theorem _root_.Verif.Spec.AppliedAlong.unique {p q : ℕ} {f : (Fin p → α) → Fin q → β} {k : ℕ} {x : NdArray α}
    {r r' : NdArray β} (h : AppliedAlong f k x r) (h' : AppliedAlong f k x r') : r = r' := by
  have hs : r.shape = r'.shape := h.shape.trans h'.shape.symm
  have hget : ∀ idx, InBounds r.shape idx → r.get? idx = r'.get? idx := by
    intro idx hidx
    obtain ⟨i, fx, hi, hfx, hv⟩ := h.val idx hidx
    obtain ⟨i', fx', hi', hfx', hv'⟩ := h'.val idx (hs ▸ hidx)
    rw [hv, hv', show i = i' from Fin.ext (Option.some.inj (hi.symm.trans hi')),
      show fx = fx' from funext fun j => Option.some.inj ((hfx j).symm.trans (hfx' j))]
  have hd : r.data = r'.data := by
    apply List.ext_getElem?
    intro n
    by_cases hn : n < r.shape.prod
    · have hn' : n < (indices r.shape).length := by rw [length_indices]; exact hn
      have hb : InBounds r.shape (indices r.shape)[n] := mem_indices.1 (List.getElem_mem hn')
      have hflat : flatIdx r.shape (indices r.shape)[n] = n := by
        have h1 := indices_getElem? hb
        have hnd : (indices r.shape).Nodup := by
          clear hb h1 hn' hn hget hs h h'
          generalize r.shape = sh
          induction sh with
          | nil => simp [indices]
          | cons d ds ih =>
            unfold indices
            rw [List.nodup_flatMap]
            refine ⟨fun i _ => ih.map (List.cons_injective), ?_⟩
            refine List.nodup_range.imp fun {a b} hab => ?_
            simp only [Function.onFun, List.disjoint_left, List.mem_map]
            rintro _ ⟨t, _, rfl⟩ ⟨t', _, he⟩
            exact hab (List.cons.inj he).1.symm
        have h2 : flatIdx r.shape (indices r.shape)[n] < (indices r.shape).length := by
          rw [length_indices]; exact flatIdx_lt hb
        rw [List.getElem?_eq_getElem h2] at h1
        exact (hnd.getElem_inj_iff).1 (Option.some.inj h1)
      have := hget _ hb
      rw [get?_of_inBounds r hb, get?_of_inBounds r' (hs ▸ hb), ← hs, hflat] at this
      exact this
    · rw [List.getElem?_eq_none (by rw [r.size_eq]; omega),
        List.getElem?_eq_none (by rw [r'.size_eq, ← hs]; omega)]
  cases r; cases r'
  simp only at hs hd
  subst hs hd
  rfl

end Verif.Np.NdArray

namespace Verif.Np.NdArray
open Verif Verif.Spec Verif.Sampling
variable {α β γ : Type}

theorem normalizeAxis_ok {axis : ℤ} {n k : ℕ} (h : normalizeAxis axis n = .ok k) :
    k < n ∧ (axis = k ∨ axis = (k : ℤ) - n) := by
  unfold normalizeAxis at h
  split at h
  · cases h; omega
  · split at h
    · cases h; omega
    · cases h

theorem normalizeAxis_iff {axis : ℤ} {n k : ℕ} :
    normalizeAxis axis n = .ok k ↔ k < n ∧ (axis = k ∨ axis = (k : ℤ) - n) := by
  refine ⟨normalizeAxis_ok, fun h => ?_⟩
  unfold normalizeAxis
  rcases h with ⟨h1, h2 | h2⟩
  · rw [if_pos (by omega)]
    congr 1
    omega
  · rw [if_neg (by omega), if_pos (by omega)]
    congr 1
    omega

theorem normalizeAxis_error {axis : ℤ} {n : ℕ} (h : ¬ ∃ k, normalizeAxis axis n = .ok k) :
    normalizeAxis axis n = .error .valueError := by
  unfold normalizeAxis at *
  split
  · rename_i h1; exact absurd ⟨_, by rw [if_pos h1]⟩ h
  · rename_i h1
    split
    · rename_i h2; exact absurd ⟨_, by rw [if_neg h1, if_pos h2]⟩ h
    · rfl

theorem normalizeAxis_nat {n k : ℕ} (h : k < n) : normalizeAxis (k : ℤ) n = .ok k :=
  normalizeAxis_iff.2 ⟨h, Or.inl rfl⟩

/-- What `moveaxis` does. -/
theorem moveaxis_spec (a : NdArray α) {src dst : ℤ} {s d : ℕ} (hs : normalizeAxis src a.ndim = .ok s)
    (hd : normalizeAxis dst a.ndim = .ok d) :
    ∃ r, a.moveaxis src dst = .ok r ∧ r.shape = moveEntry s d a.shape ∧
      ∀ idx, InBounds r.shape idx → InBounds a.shape (moveEntry d s idx) ∧ r.get? idx = a.get? (moveEntry d s idx) := by
  have h1 := (normalizeAxis_ok hs).1
  have h2 := (normalizeAxis_ok hd).1
  unfold moveaxis
  rw [hs, hd]
  simp only
  rw [dif_pos ⟨h1, h2⟩]
  refine ⟨_, rfl, rfl, fun idx hidx => ?_⟩
  have hb := inBounds_moveBack h1 h2 hidx
  refine ⟨hb, ?_⟩
  rw [get?_eq_get _ hb]
  exact get?_ofFn _ _ _ hidx

theorem moveaxis_error (a : NdArray α) {src dst : ℤ} (hs : ¬ ∃ s, normalizeAxis src a.ndim = .ok s) :
    a.moveaxis src dst = .error .valueError := by
  unfold moveaxis
  rw [normalizeAxis_error hs]

theorem eraseIdx_moveEntry {s d : ℕ} {l : List ℕ} : (moveEntry s d l).eraseIdx d = l.eraseIdx s :=
  List.eraseIdx_insertIdx_self _

theorem getD_moveEntry {s d : ℕ} {l : List ℕ} (hs : s < l.length) (hd : d < l.length) :
    (moveEntry s d l).getD d 0 = l.getD s 0 :=
  getD_insertIdx_self _ _ _ (by rw [List.length_eraseIdx_of_lt hs]; omega)

theorem moveEntry_set {s d : ℕ} {l : List ℕ} (j : ℕ) (hs : s < l.length) (hd : d < l.length) :
    moveEntry d s ((moveEntry s d l).set d j) = l.set s j := by
  have hl := length_moveEntry hs hd
  unfold moveEntry at *
  rw [List.eraseIdx_set_eq, List.eraseIdx_insertIdx_self, List.getD_eq_getElem?_getD,
    List.getElem?_set_self (by rw [hl]; exact hd), ← insertIdx_eraseIdx_set _ _ _ hs]
  rfl

/-- The central fact on `_matop_along_axis`: an operation which acts on axis `ndim - 2` (axis 0 of vectors) is
transported to the requested axis. -/
theorem matop_spec {p q : ℕ} (f : (Fin p → α) → Fin q → β) (op : NdArray α → PyM (NdArray β))
    (hop : ∀ y : NdArray α, 0 < y.ndim → y.shape[y.ndim - 2]? = some p →
      ∃ r, op y = .ok r ∧ AppliedAlong f (y.ndim - 2) y r)
    (x : NdArray α) {axis : ℤ} {k : ℕ} (hk : normalizeAxis axis x.ndim = .ok k) (hp : x.shape[k]? = some p) :
    ∃ r, matopAlongAxis op x (some axis) = .ok r ∧ AppliedAlong f k x r := by
  have hkn := (normalizeAxis_ok hk).1
  set t := x.ndim - 2 with ht
  have htn : t < x.ndim := by omega
  have hmax : max (x.ndim - 2) 0 = t := Nat.max_zero _
  obtain ⟨y, hy, hys, hyv⟩ := moveaxis_spec x hk (normalizeAxis_nat htn)
  have hyn : y.ndim = x.ndim := by
    show y.shape.length = _
    rw [hys, length_moveEntry hkn htn]
  have hyt : y.shape[y.ndim - 2]? = some p := by
    rw [hyn, ← ht, getElem?_of_getD (by rw [show y.shape.length = x.ndim from hyn]; exact htn), hys,
      getD_moveEntry hkn htn, List.getD_eq_getElem?_getD, hp]
    rfl
  obtain ⟨z, hz, hza⟩ := hop y (by omega) hyt
  rw [hyn, ← ht] at hza
  have hzs : z.shape = moveEntry k t (x.shape.set k q) := by
    rw [hza.shape, hys]
    unfold moveEntry
    rw [List.eraseIdx_set_eq, ← insertIdx_eraseIdx_set _ _ _
        (by have := length_moveEntry hkn htn; unfold moveEntry at this; rw [this]; exact htn),
      List.eraseIdx_insertIdx_self, List.getD_eq_getElem?_getD (l := x.shape.set k q), List.getElem?_set_self hkn]
    rfl
  have hzn : z.ndim = x.ndim := by
    show z.shape.length = _
    rw [hza.shape, List.length_set]
    exact hyn
  obtain ⟨r, hr, hrs, hrv⟩ := moveaxis_spec z (src := t) (dst := axis) (s := t) (d := k)
    (by rw [hzn]; exact normalizeAxis_nat htn) (by rw [hzn]; exact hk)
  have hrs' : r.shape = x.shape.set k q := by
    rw [hrs, hzs, moveEntry_moveEntry (by rw [List.length_set]; exact hkn) (by rw [List.length_set]; exact htn)]
  refine ⟨r, ?_, hp, hrs', fun idx hidx => ?_⟩
  · unfold matopAlongAxis
    simp only [hmax, hy, hz, hr]
  obtain ⟨hb, hv⟩ := hrv idx hidx
  obtain ⟨i, fib, hi, hfib, hval⟩ := hza.val _ hb
  have hil : idx.length = x.shape.length := by
    rw [inBounds_length hidx, hrs', List.length_set]
  have hki : k < idx.length := by rw [hil]; exact hkn
  have hti : t < idx.length := by rw [hil]; exact htn
  refine ⟨i, fib, ?_, fun j => ?_, hv.trans hval⟩
  · rw [getElem?_of_getD (by rw [length_moveEntry hki hti]; exact hti), getD_moveEntry hki hti] at hi
    rw [getElem?_of_getD hki]
    exact hi
  · have hj := hfib j
    have hbj : InBounds y.shape ((moveEntry k t idx).set t j) := by
      by_contra hc
      rw [get?, if_neg hc] at hj
      cases hj
    obtain ⟨-, hv2⟩ := hyv _ hbj
    rw [hv2, moveEntry_set j.1 hki hti] at hj
    exact hj

end Verif.Np.NdArray
