import Verif.Lemmas.NdArray
import Mathlib.Data.List.InsertIdx
import Mathlib.Data.Fintype.Basic
import Mathlib.Algebra.Group.Nat.Defs
/-!
# numpy: element access, construction by index, `moveaxis`, and operations along one axis
-/

namespace Verif.Np.NdArray
open Verif
variable {α β : Type _}

/-- All multi-indices of a shape in C order. -/
def indices : List ℕ → List (List ℕ)
  | [] => [[]]
  | d :: ds => (List.range d).flatMap fun i => (indices ds).map (i :: ·)

theorem mem_indices {shape idx : List ℕ} : idx ∈ indices shape ↔ InBounds shape idx := by
  induction shape generalizing idx with
  | nil => simp [indices, InBounds]
  | cons d ds ih =>
    simp only [indices, List.mem_flatMap, List.mem_range, List.mem_map, InBounds]
    constructor
    · rintro ⟨i, hi, t, ht, rfl⟩
      exact List.Forall₂.cons hi (ih.1 ht)
    · intro h
      cases h with
      | cons h1 h2 => exact ⟨_, h1, _, ih.2 h2, rfl⟩

theorem length_indices (shape : List ℕ) : (indices shape).length = shape.prod := by
  induction shape with
  | nil => rfl
  | cons d ds ih => simp [indices, List.length_flatMap, ih]

/-- Array with element `f idx` at every valid multi-index `idx`. -/
def ofFn (shape : List ℕ) (f : ∀ idx, InBounds shape idx → α) : NdArray α :=
  ⟨shape, (indices shape).attach.map fun i => f i.1 (mem_indices.1 i.2), by simp [length_indices]⟩

/-- Element access with a valid multi-index. -/
def get (a : NdArray α) (idx : List ℕ) (h : InBounds a.shape idx) : α :=
  a.data[flatIdx a.shape idx]'(by rw [a.size_eq]; exact flatIdx_lt h)

/-- Number of dimensions. -/
abbrev ndim (a : NdArray α) : ℕ := a.shape.length

/-- Change of an array index by a shape-compatible map. -/
def gather (a : NdArray α) (shape : List ℕ) (g : List ℕ → List ℕ)
    (h : ∀ idx, InBounds shape idx → InBounds a.shape (g idx)) : NdArray α :=
  ofFn shape fun idx hi => a.get (g idx) (h idx hi)

/-- Negative axes count from the end; out of range is `AxisError`, a ValueError. -/
def normalizeAxis (axis : ℤ) (n : ℕ) : PyM ℕ :=
  if 0 ≤ axis ∧ axis < n then .ok axis.toNat
  else if -n ≤ axis ∧ axis < 0 then .ok (axis + n).toNat
  else .error .valueError

/-- Move the entry at position `s` to position `d`, keeping the order of the others. -/
def moveEntry (s d : ℕ) (l : List ℕ) : List ℕ := (l.eraseIdx s).insertIdx d (l.getD s 0)

theorem inBounds_eraseIdx {s i : List ℕ} (h : InBounds s i) (n : ℕ) :
    InBounds (s.eraseIdx n) (i.eraseIdx n) := by
  induction h generalizing n with
  | nil => exact List.Forall₂.nil
  | cons h1 h2 ih =>
    cases n with
    | zero => exact h2
    | succ n => exact List.Forall₂.cons h1 (ih n)

theorem inBounds_insertIdx {s i : List ℕ} (h : InBounds s i) (n : ℕ) {a d : ℕ} (had : a < d) :
    InBounds (s.insertIdx n d) (i.insertIdx n a) := by
  induction h generalizing n with
  | nil =>
    cases n with
    | zero => exact List.Forall₂.cons had List.Forall₂.nil
    | succ n => exact List.Forall₂.nil
  | cons h1 h2 ih =>
    cases n with
    | zero => exact List.Forall₂.cons had (List.Forall₂.cons h1 h2)
    | succ n => exact List.Forall₂.cons h1 (ih n)

theorem inBounds_length {s i : List ℕ} (h : InBounds s i) : i.length = s.length := h.length_eq

theorem inBounds_getD {s i : List ℕ} (h : InBounds s i) {n : ℕ} (hn : n < s.length) :
    i.getD n 0 < s.getD n 0 := by
  induction h generalizing n with
  | nil => simp at hn
  | cons h1 h2 ih =>
    cases n with
    | zero => simpa using h1
    | succ n => simpa using ih (by simpa using hn)

theorem getD_insertIdx_self (l : List ℕ) (n a : ℕ) (h : n ≤ l.length) : (l.insertIdx n a).getD n 0 = a := by
  rw [List.getD_eq_getElem?_getD, List.getElem?_insertIdx_self, if_pos h]
  rfl

theorem insertIdx_eraseIdx_set (l : List ℕ) (n a : ℕ) (h : n < l.length) :
    (l.eraseIdx n).insertIdx n a = l.set n a :=
  List.insertIdx_eraseIdx_self h.ne a

theorem set_getD (l : List ℕ) (n : ℕ) : l.set n (l.getD n 0) = l := by
  induction l generalizing n with
  | nil => rfl
  | cons a l ih => cases n <;> simp_all

theorem moveEntry_moveEntry {s d : ℕ} {l : List ℕ} (hs : s < l.length) (hd : d < l.length) :
    moveEntry d s (moveEntry s d l) = l := by
  have hle : d ≤ (l.eraseIdx s).length := by rw [List.length_eraseIdx_of_lt hs]; omega
  unfold moveEntry
  rw [List.eraseIdx_insertIdx_self, getD_insertIdx_self _ _ _ hle, insertIdx_eraseIdx_set _ _ _ hs, set_getD]

theorem length_moveEntry {s d : ℕ} {l : List ℕ} (hs : s < l.length) (hd : d < l.length) :
    (moveEntry s d l).length = l.length := by
  unfold moveEntry
  rw [List.length_insertIdx, List.length_eraseIdx_of_lt hs, if_pos (by omega)]
  omega

theorem inBounds_moveEntry {s d : ℕ} {shape idx : List ℕ} (hs : s < shape.length) 
    (h : InBounds shape idx) : InBounds (moveEntry s d shape) (moveEntry s d idx) := by
  unfold moveEntry
  exact inBounds_insertIdx (inBounds_eraseIdx h s) d (inBounds_getD h hs)

theorem inBounds_moveBack {s d : ℕ} {shape idx : List ℕ} (hs : s < shape.length) (hd : d < shape.length)
    (h : InBounds (moveEntry s d shape) idx) : InBounds shape (moveEntry d s idx) := by
  have := inBounds_moveEntry (s := d) (d := s) (by rw [length_moveEntry hs hd]; exact hd) h
  rwa [moveEntry_moveEntry hs hd] at this

/-- `np.moveaxis(a, source, destination)`: "move axes of an array to new positions; other axes remain in their
original order". -/
def moveaxis (a : NdArray α) (source destination : ℤ) : PyM (NdArray α) :=
  match normalizeAxis source a.ndim, normalizeAxis destination a.ndim with
  | .ok s, .ok d =>
    if h : s < a.ndim ∧ d < a.ndim then
      .ok (a.gather (moveEntry s d a.shape) (moveEntry d s) fun _ hi => inBounds_moveBack h.1 h.2 hi)
    else .error .valueError
  | _, _ => .error .valueError

theorem inBounds_set {shape idx : List ℕ} {t q j : ℕ} (ht : t < shape.length) (hj : j < shape.getD t 0)
    (h : InBounds (shape.set t q) idx) : InBounds shape (idx.set t j) := by
  have hl : idx.length = shape.length := by simpa using inBounds_length h
  have h1 := inBounds_insertIdx (inBounds_eraseIdx h t) t hj
  rw [List.eraseIdx_set_eq, insertIdx_eraseIdx_set _ _ _ ht, insertIdx_eraseIdx_set _ _ _ (by omega), set_getD] at h1
  exact h1

/-- Apply a map of vectors to every fibre along axis `t`; ValueError if the axis has the wrong length. -/
def alongAxis {p q : ℕ} (f : (Fin p → α) → Fin q → β) (x : NdArray α) (t : ℕ) : PyM (NdArray β) :=
  if h : t < x.ndim ∧ x.shape.getD t 0 = p then
    .ok (ofFn (x.shape.set t q) fun idx hi =>
      f (fun j => x.get (idx.set t j) (inBounds_set h.1 (by rw [h.2]; exact j.2) hi))
        ⟨idx.getD t 0, by
          have := inBounds_getD hi (n := t) (by rw [List.length_set]; exact h.1)
          rwa [List.getD_eq_getElem?_getD (l := x.shape.set t q), List.getElem?_set_self h.1] at this⟩)
  else .error .valueError

end Verif.Np.NdArray
