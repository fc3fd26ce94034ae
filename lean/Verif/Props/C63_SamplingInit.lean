import Verif.Props.C46_PointOrder
import Verif.Props.C01_Matsubara
/-!
# C63 — construction of sampling objects
-/

namespace Verif.Props
open Verif Verif.Np Verif.Util Verif.Spec Verif.Sampling Matrix

/-- Specification: the array `p` consists of the integers `q` (as integers, or as floats with integral value
representable as 64 bit integer). -/
def IntegersOf : NumArr → List ℤ → Prop
  | .ints xs, q => q = xs
  | .floats xs, q => List.Forall₂ (fun x n => NumIs x n ∧ -2^63 ≤ n ∧ n < 2^63) xs q

theorem integersOf_iff (p : NumArr) (q : List ℤ) : checkReducedMatsubara p none = .ok q ↔ IntegersOf p q := by
  cases p with
  | ints xs => rw [C01_ints]; simp [IntegersOf, HasParity]
  | floats xs => rw [C01_floats]; simp [IntegersOf, HasParity]

/-- Specification: the matrix stored in a sampling object is `A`, in the split form if `split`. -/
def Stores {m n : ℕ} (M : Mat m n) (split : Bool) (A : Matrix (Fin m) (Fin n) ℂ) : Prop :=
  (split = false ∧ ∃ d, M = .full d ∧ d.a = A) ∨ (split = true ∧ ∃ d, M = .split d ∧ d.a = A)

theorem matsInit_of_ints {svds : Svds} {b : SBasis} {p : NumArr} {q : List ℤ} (h : IntegersOf p q) (ndim : ℕ)
    (po : Bool) : matsInit svds b (some (ndim, p)) po = matsInit svds b (some (ndim, .ints q)) po := by
  have h1 := (integersOf_iff p q).2 h
  have h2 : checkReducedMatsubara (.ints q) none = .ok q := (integersOf_iff _ _).2 rfl
  unfold matsInit matsPoints
  simp only [h1, h2]

/-- A vector of integers is accepted if the basis can be evaluated there and, with `positive_only`, there is a
frequency and none is negative.  The sampling points are these in ascending order, and the matrix holds the values
of the basis functions there. -/
theorem C63_matsubara {svds : Svds} (hs : svds.Ok) {b : SBasis} (p : NumArr) (q : List ℤ) (hq : IntegersOf p q)
    (V : ℤ → Fin b.size → ℂ) (hV : ∀ t ∈ q, b.uhat t = .ok (V t)) (po : Bool)
    (hpo : po = true → q ≠ [] ∧ ∀ t ∈ q, 0 ≤ t) :
    ∃ o, matsInit svds b (some (1, p)) po = .ok o ∧ o.points.Perm q ∧ o.points.Pairwise (· ≤ ·) ∧
      o.positiveOnly = po ∧ Stores o.matrix po (fun i l => V (o.points.get i) l) := by
  obtain ⟨M, h1, h2, -⟩ := matsInit_ok hs q V hV po hpo
  refine ⟨⟨npSort q, po, M⟩, by rw [matsInit_of_ints hq, h1], npSort_perm q, npSort_sorted q, rfl, ?_⟩
  cases po with
  | false =>
    obtain ⟨d, hd, ha, -⟩ := fullMatrix_ok hs (valuesAt V (npSort q))
    simp only [Bool.false_eq_true, if_false] at h2
    obtain rfl := Except.ok.inj (hd.symm.trans h2)
    exact Or.inl ⟨rfl, d, rfl, ha⟩
  | true =>
    simp only [if_true] at h2
    obtain ⟨t, ht, hok⟩ := hs.real (stacked (offsetImag (decide (0 ∈ q))) (valuesAt V (npSort q)))
    obtain ⟨st, d, e1, e2, e3, -⟩ := split_ok ht hok
    have hd : splitMatrix svds (valuesAt V (npSort q)) (decide (0 ∈ q)) = .ok (.split d) := by
      unfold splitMatrix splitComplex
      rw [e1]
      simp only [e2]
      rfl
    obtain rfl := Except.ok.inj (hd.symm.trans h2)
    exact Or.inr ⟨rfl, d, rfl, e3⟩

/-- Everything else is refused: numbers which are not integers, arrays which are not vectors, and, with
`positive_only`, negative frequencies with ValueError; no frequencies at all with `positive_only` with IndexError;
and a frequency at which the basis raises. -/
theorem C63_refuse (svds : Svds) (b : SBasis) (ndim : ℕ) (p : NumArr) (po : Bool) :
    ((∀ q, ¬ IntegersOf p q) → matsInit svds b (some (ndim, p)) po = .error .valueError) ∧
    (ndim ≠ 1 → matsInit svds b (some (ndim, p)) po = .error .valueError) ∧
    ∀ q, IntegersOf p q →
      ((∃ t ∈ q, t < 0) → matsInit svds b (some (ndim, p)) true = .error .valueError) ∧
      (q = [] → ndim = 1 → matsInit svds b (some (ndim, p)) true = .error .indexError) ∧
      ((∃ t ∈ q, ∃ e, b.uhat t = .error e) → ∃ e, matsInit svds b (some (ndim, p)) po = .error e) := by
  have hndim : ndim ≠ 1 → matsInit svds b (some (ndim, p)) po = .error .valueError := by
    intro hn
    unfold matsInit matsPoints
    rcases C01_rejects_with_ValueError p none with ⟨ns, h⟩ | h
    · simp only [h, if_pos hn]
    · simp only [h]
  refine ⟨?_, hndim, ?_⟩
  · intro hno
    unfold matsInit matsPoints
    rcases C01_rejects_with_ValueError p none with ⟨ns, h⟩ | h
    · exact absurd ((integersOf_iff p ns).1 h) (hno ns)
    · simp only [h]
  · intro q hq
    have h1 := (integersOf_iff p q).2 hq
    refine ⟨?_, ?_, ?_⟩
    · rintro ⟨t, ht, h0⟩
      unfold matsInit matsPoints
      simp only [h1, if_true]
      split
      · rename_i e h
        split at h
        · cases h; rfl
        · split at h
          · rename_i hh
            rw [List.head?_eq_none_iff] at hh
            have := (npSort_perm q).mem_iff.2 ht
            rw [hh] at this
            simp at this
          · split at h
            · cases h; rfl
            · cases h
      · rename_i r h
        exfalso
        split at h
        · cases h
        · split at h
          · cases h
          · rename_i p0 hh
            split at h
            · cases h
            · rename_i hge
              rw [not_not] at hge
              have hm := (npSort_perm q).mem_iff.2 ht
              have hsrt := npSort_sorted q
              cases hq' : npSort q with
              | nil => rw [hq'] at hm; simp at hm
              | cons a l =>
                rw [hq'] at hm hsrt hh
                simp only [List.head?_cons, Option.some.injEq] at hh
                subst hh
                rcases List.mem_cons.1 hm with rfl | hm
                · omega
                · have := (List.pairwise_cons.1 hsrt).1 t hm; omega
    · rintro rfl rfl
      have hn : npSort [] = [] := List.mergeSort_nil
      unfold matsInit matsPoints
      simp only [h1, ne_eq, not_true_eq_false, if_false, if_true, hn, List.head?_nil]
    · rintro ⟨t, ht, e, he⟩
      have herr : ∃ e, evalMatrix b.uhat (npSort q) = .error e :=
        evalMatrix_error ⟨t, (npSort_perm q).mem_iff.2 ht, e, he⟩
      obtain ⟨e', he'⟩ := herr
      unfold matsInit
      simp only
      split
      · exact ⟨_, rfl⟩
      · rename_i r h
        have hr : r = npSort q := by
          unfold matsPoints at h
          simp only [h1] at h
          split at h
          · cases h
          · split at h
            · split at h
              · cases h
              · split at h
                · cases h
                · exact (Except.ok.inj h).symm
            · exact (Except.ok.inj h).symm
        subst hr
        unfold matsFrom
        simp only [he']
        exact ⟨_, rfl⟩

/-- Imaginary time: a vector of times at which the basis can be evaluated is accepted and kept in the given order;
anything else is refused. -/
theorem C63_tau {svds : Svds} (hs : svds.Ok) {b : SBasis} (ndim : ℕ) (p : List ℝ) :
    (ndim ≠ 1 → tauInit svds b (some (ndim, p)) = .error .valueError) ∧
    ((∃ t ∈ p, ∃ e, b.u t = .error e) → ∃ e, tauInit svds b (some (ndim, p)) = .error e) ∧
    ∀ U : ℝ → Fin b.size → ℝ, (∀ t ∈ p, b.u t = .ok (U t)) →
      ∃ o, tauInit svds b (some (1, p)) = .ok o ∧ o.points = p ∧
        Stores o.matrix false (fun i l => (U (o.points.get i) l : ℂ)) := by
  refine ⟨fun h => by unfold tauInit; simp only [if_pos h], ?_, ?_⟩
  · rintro ⟨t, ht, e, he⟩
    unfold tauInit
    simp only
    split
    · exact ⟨_, rfl⟩
    · obtain ⟨e', he'⟩ := evalMatrix_error (f := fun t => (b.u t).map fun f l => (f l : ℂ)) (p := p)
        ⟨t, ht, e, by simp only [he]; rfl⟩
      unfold tauFrom
      simp only [he']
      exact ⟨_, rfl⟩
  · intro U hU
    have hev := evalMatrix_ok (f := fun t => (b.u t).map fun f l => (f l : ℂ)) (F := fun t l => (U t l : ℂ))
      (p := p) (fun t ht => by simp only [hU t ht]; rfl)
    obtain ⟨d, hd, ha, -⟩ := fullMatrix_ok hs (valuesAt (fun t l => (U t l : ℂ)) p)
    refine ⟨⟨p, false, .full d⟩, ?_, rfl, Or.inl ⟨rfl, d, rfl, ha⟩⟩
    unfold tauInit
    simp only [ne_eq, not_true_eq_false, if_false]
    unfold tauFrom
    simp only [hev, hd]
    rfl

/-- Without points the default ones of the basis are taken as they are. -/
theorem C63_default {svds : Svds} (hs : svds.Ok) {b : SBasis} :
    (∀ p, b.defaultTau = .ok p → tauInit svds b none = tauInit svds b (some (1, p))) ∧
    (∀ e, b.defaultTau = .error e → tauInit svds b none = .error e) ∧
    (∀ po q, b.defaultMatsubara po = .ok q → q.Pairwise (· ≤ ·) → (po = true → q ≠ [] ∧ ∀ t ∈ q, 0 ≤ t) →
      matsInit svds b none po = matsInit svds b (some (1, .ints q)) po) ∧
    ∀ po e, b.defaultMatsubara po = .error e → matsInit svds b none po = .error e := by
  refine ⟨fun p hp => ?_, fun e he => ?_, fun po q hq hsort hpo => ?_, fun po e he => ?_⟩
  · unfold tauInit
    simp only [hp, ne_eq, not_true_eq_false, if_false]
  · unfold tauInit
    simp only [he]
  · have h2 : checkReducedMatsubara (.ints q) none = .ok q := (integersOf_iff _ _).2 rfl
    unfold matsInit matsPoints
    simp only [hq, h2, ne_eq, not_true_eq_false, if_false, npSort_of_sorted hsort]
    cases po with
    | false => simp
    | true =>
      obtain ⟨hne, hnn⟩ := hpo rfl
      match q, hne, hnn with
      | a :: l, _, hnn =>
        have : (0 : ℤ) ≤ a := hnn a (by simp)
        simp [this]
  · unfold matsInit
    simp only [he]

example : IntegersOf (.ints [3, -1]) [3, -1] ∧ ¬ ∃ q, IntegersOf (.floats [.fin (1/2)]) q := by
  refine ⟨rfl, ?_⟩
  rintro ⟨q, hq⟩
  unfold IntegersOf at hq
  cases hq with
  | cons h _ =>
    obtain ⟨h, -⟩ := h
    simp only [NumIs] at h
    rename_i n _ _
    have : (2 * n : ℚ) = 1 := by rw [← h]; norm_num
    have : 2 * n = 1 := by exact_mod_cast this
    omega

/-- A basis with two functions, and unsorted integral floats: accepted and sorted. -/
example : ∃ o, matsInit idealSvds (⟨2, fun t => .ok fun l => t + l.1, fun n => .ok fun l => (n : ℂ) ^ (l.1 + 1),
      true, .ok [0], fun _ => .ok [0]⟩ : SBasis) (some (1, .floats [.fin 4, .fin 0, .fin 2])) true = .ok o ∧
    o.points.Perm [4, 0, 2] := by
  obtain ⟨o, h, hp, -⟩ := C63_matsubara idealSvds_ok (b := ⟨2, fun t => .ok fun l => t + l.1,
      fun n => .ok fun l => (n : ℂ) ^ (l.1 + 1), true, .ok [0], fun _ => .ok [0]⟩)
    (.floats [.fin 4, .fin 0, .fin 2]) [4, 0, 2]
    (by simp [IntegersOf, NumIs]) (fun n l => (n : ℂ) ^ (l.1 + 1)) (fun _ _ => rfl) true (by simp)
  exact ⟨o, h, hp⟩

end Verif.Props
