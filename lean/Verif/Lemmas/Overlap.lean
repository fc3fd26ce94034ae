import Verif.Model.Overlap
import Verif.Spec.Partition
import Verif.Lemmas.Poly
import Mathlib.Tactic.Linarith
import Mathlib.MeasureTheory.Integral.IntervalIntegral.Basic
/-! Facts about the overlap integral. -/

namespace Verif.Spec
open Verif.Overlap

theorem isChain_append {a b : ℝ} : ∀ {l1 l2 : List (ℝ × ℝ)}, IsChain a b (l1 ++ l2) ↔ ∃ c, IsChain a c l1 ∧ IsChain c b l2
  | [], l2 => by simp [IsChain]
  | s :: l1, l2 => by
    simp only [List.cons_append, IsChain, isChain_append (l1 := l1)]
    constructor
    · rintro ⟨h1, h2, c, h3, h4⟩; exact ⟨c, ⟨h1, h2, h3⟩, h4⟩
    · rintro ⟨c, ⟨h1, h2, h3⟩, h4⟩; exact ⟨h1, h2, c, h3, h4⟩

theorem IsChain.le {a b : ℝ} : ∀ {l : List (ℝ × ℝ)}, IsChain a b l → a ≤ b
  | [], h => le_of_eq h
  | _ :: _, ⟨h1, h2, h3⟩ => by have := h3.le; linarith

theorem IsChain.bounds {a b : ℝ} : ∀ {l : List (ℝ × ℝ)}, IsChain a b l → ∀ s ∈ l, a ≤ s.1 ∧ s.1 < s.2 ∧ s.2 ≤ b
  | [], _, s, hs => by cases hs
  | t :: l, ⟨h1, h2, h3⟩, s, hs => by
    rcases List.mem_cons.1 hs with rfl | hs
    · exact ⟨h1.ge, h2, h3.le⟩
    · obtain ⟨h4, h5, h6⟩ := h3.bounds s hs
      exact ⟨by linarith, h5, h6⟩

theorem Partition.bounds {a b : ℝ} {l : List (ℝ × ℝ)} (h : Partition a b l) : ∀ s ∈ l, a ≤ s.1 ∧ s.1 < s.2 ∧ s.2 ≤ b := by
  obtain ⟨l', hp, hc⟩ := h
  exact fun s hs => hc.bounds s (hp.mem_iff.2 hs)

theorem Partition.perm {a b : ℝ} {l l' : List (ℝ × ℝ)} (h : Partition a b l) (hp : l.Perm l') : Partition a b l' := by
  obtain ⟨m, hm, hc⟩ := h
  exact ⟨m, hm.trans hp, hc⟩

theorem Partition.split {a b : ℝ} {s : ℝ × ℝ} {l : List (ℝ × ℝ)} (h : Partition a b (s :: l)) :
    Partition a b (halves s ++ l) := by
  obtain ⟨m, hm, hc⟩ := h
  obtain ⟨p, q, rfl⟩ := List.append_of_mem (hm.mem_iff.2 List.mem_cons_self)
  obtain ⟨c, h1, h2, h3, h4⟩ := isChain_append.1 hc
  refine ⟨p ++ (halves s ++ q), ?_, isChain_append.2 ⟨c, h1, h2, ?_, rfl, ?_, h4⟩⟩
  · have h5 : (p ++ q).Perm l := (List.perm_cons s).1 (List.perm_middle.symm.trans hm)
    exact (List.perm_append_comm_assoc p (halves s) q).trans (h5.append_left _)
  · simp only; linarith
  · simp only; linarith

theorem Partition.refine {a b : ℝ} : ∀ {l2 l1 : List (ℝ × ℝ)}, Partition a b (l1 ++ l2) →
    Partition a b (l1 ++ l2.flatMap halves)
  | [], l1, h => h
  | s :: l2, l1, h => by
    have h1 := (h.perm List.perm_middle).split
    have h2 : Partition a b ((halves s ++ l1) ++ l2) := by rwa [List.append_assoc]
    have h3 := h2.refine
    rw [List.flatMap_cons]
    refine h3.perm ?_
    rw [List.append_assoc]
    exact List.perm_append_comm_assoc _ _ _

/-- Sums of an additive function over a partition. -/
theorem Partition.sum_sub {a b : ℝ} {l : List (ℝ × ℝ)} (h : Partition a b l) (F : ℝ → ℝ) :
    (l.map fun s => F s.2 - F s.1).sum = F b - F a := by
  obtain ⟨m, hm, hc⟩ := h
  rw [← (hm.map _).sum_eq]
  clear hm
  induction m generalizing a with
  | nil => rw [show a = b from hc]; simp
  | cons s m ih =>
    obtain ⟨h1, h2, h3⟩ := hc
    rw [List.map_cons, List.sum_cons, ih h3, h1]
    ring

open MeasureTheory in
theorem Partition.integral {a b : ℝ} {l : List (ℝ × ℝ)} (h : Partition a b l) (g : ℝ → ℝ)
    (hg : IntervalIntegrable g volume a b) : (l.map fun s => ∫ x in s.1..s.2, g x).sum = ∫ x in a..b, g x := by
  have hab : a ≤ b := by obtain ⟨m, -, hc⟩ := h; exact hc.le
  have hsub : ∀ c, a ≤ c → c ≤ b → IntervalIntegrable g volume a c := fun c h1 h2 =>
    hg.mono_set (by rw [Set.uIcc_of_le h1, Set.uIcc_of_le hab]; exact Set.Icc_subset_Icc_right h2)
  have e : (l.map fun s => ∫ x in s.1..s.2, g x) = l.map fun s => (∫ x in a..s.2, g x) - ∫ x in a..s.1, g x := by
    refine List.map_congr_left fun s hs => ?_
    obtain ⟨h1, h2, h3⟩ := h.bounds s hs
    rw [intervalIntegral.integral_interval_sub_left (hsub _ (by linarith) h3) (hsub _ h1 (by linarith))]
  rw [e, h.sum_sub (fun c => ∫ x in a..c, g x)]
  simp

end Verif.Spec

namespace Verif.Overlap
open Verif Verif.Np Verif.Poly Verif.Gauss Verif.Spec

variable {ι φ : Type}

theorem segments_chain : ∀ (x : ℝ) (l : List ℝ), (x :: l).Pairwise (· < ·) →
    Spec.IsChain x ((x :: l).getLast (List.cons_ne_nil _ _)) (segments (x :: l))
  | x, [], _ => by simp [segments, Spec.IsChain]
  | x, y :: l, h => by
    have h1 := segments_chain y l h.of_cons
    rw [List.getLast_cons_cons]
    exact ⟨rfl, List.rel_of_pairwise_cons h List.mem_cons_self, h1⟩

theorem evalNodes_ok (p : PPoly ι) : ∀ l : List ℝ, (∀ x ∈ l, ∃ v, p.call x = .ok v) →
    evalNodes p l = .ok (l.map fun x i => fn p i x)
  | [], _ => rfl
  | x :: xs, h => by
    obtain ⟨v, hv⟩ := h x List.mem_cons_self
    have e : v = fun i => fn p i x := by funext i; unfold fn; rw [hv]
    unfold evalNodes
    rw [hv, evalNodes_ok p xs fun x hx => h x (List.mem_cons_of_mem _ hx), e]
    rfl

theorem estimates_ok {rule : NestedRule} {p : PPoly ι} {f : ℝ → φ → ℝ} {E : ℝ × ℝ → Est ι φ} :
    ∀ l : List (ℝ × ℝ), (∀ s ∈ l, estimate rule p f s = .ok (E s)) → estimates rule p f l = .ok (l.map E)
  | [], _ => rfl
  | s :: l, h => by
    unfold estimates
    rw [h s List.mem_cons_self, estimates_ok l fun s hs => h s (List.mem_cons_of_mem _ hs)]
    rfl

section
variable [Fintype φ] [Nonempty φ]

theorem le_maxF (g : φ → ℝ) (q : φ) : g q ≤ maxF g := Finset.le_sup' g (Finset.mem_univ q)

theorem maxF_le {g : φ → ℝ} {c : ℝ} (h : ∀ q, g q ≤ c) : maxF g ≤ c := Finset.sup'_le _ _ fun q _ => h q

theorem maxF_sum_nonneg {α : Type} (l : List α) (g : α → φ → ℝ) :
    0 ≤ maxF fun q => (l.map fun e => |g e q|).sum := by
  obtain ⟨q⟩ := ‹Nonempty φ›
  refine le_trans ?_ (le_maxF _ q)
  exact List.sum_nonneg (by simp only [List.mem_map]; rintro _ ⟨e, -, rfl⟩; exact abs_nonneg _)

theorem maxF_sum_le {α : Type} (l : List α) (g : α → φ → ℝ) :
    (maxF fun q => (l.map fun e => |g e q|).sum) ≤ (l.map fun e => maxF fun q => |g e q|).sum :=
  maxF_le fun q => List.sum_le_sum fun e _ => le_maxF (fun q => |g e q|) q

/-- What is known of a converged segment: its error is small compared with (at most) the sum of the magnitudes over a
partition it belongs to. -/
def LocalOk (a b rtol : ℝ) (E : ℝ × ℝ → Est ι φ) (s : ℝ × ℝ) : Prop :=
  ∃ (P : List (ℝ × ℝ)) (M : ι → ℝ), Partition a b P ∧ s ∈ P ∧ ∀ l, 0 < M l ∧
    M l ≤ (P.map fun t => maxF fun q => |(E t).int10 l q|).sum ∧ ∀ q, (E s).diff l q ≤ rtol * M l

/-- The invariant of the loop. -/
structure Inv (a b rtol : ℝ) (E : ℝ × ℝ → Est ι φ) (done segs : List (ℝ × ℝ)) (value error : ι → φ → ℝ) : Prop where
  part : Partition a b (done ++ segs)
  value : ∀ l q, value l q = (done.map fun s => (E s).int10 l q).sum
  error : ∀ l q, error l q = (done.map fun s => (E s).diff l q).sum
  ok : ∀ s ∈ done, LocalOk a b rtol E s

theorem loop_ok {rule : NestedRule} {p : PPoly ι} {f : ℝ → φ → ℝ} {rtol : ℝ} {maxPoints : ℕ} {a b : ℝ}
    {E : ℝ × ℝ → Est ι φ} (hseg : ∀ s, (E s).seg = s)
    (hE : ∀ s : ℝ × ℝ, a ≤ s.1 → s.1 < s.2 → s.2 ≤ b → estimate rule p f s = .ok (E s)) :
    ∀ (n : ℕ) (segs done : List (ℝ × ℝ)) (acc : Acc ι φ), segs ≠ [] → Inv a b rtol E done segs acc.value acc.error →
      (∀ l, 0 ≤ acc.magn l ∧ acc.magn l ≤ (done.map fun s => maxF fun q => |(E s).int10 l q|).sum) →
      ∃ out, loop rule p f rtol maxPoints n segs acc = .ok out ∧ ∃ done pending,
        Inv a b rtol E done pending out.value out.error ∧ (out.warning = none ↔ pending = [])
  | 0, segs, done, acc, hne, inv, _ => ⟨_, rfl, done, segs, inv, by simp [hne]⟩
  | n + 1, segs, done, acc, hne, inv, hm => by
    unfold loop
    by_cases hlen : segs.length > maxPoints
    · rw [if_pos hlen]
      exact ⟨_, rfl, done, segs, inv, by simp [hne]⟩
    rw [if_neg hlen, estimates_ok (E := E) segs fun s hs => by
      obtain ⟨h1, h2, h3⟩ := inv.part.bounds s (List.mem_append_right _ hs)
      exact hE s h1 h2 h3]
    simp only
    classical
    set magn := magnOf acc (segs.map E) with hmagn
    set good : ℝ × ℝ → Prop := fun s => Converged rtol magn (E s) with hgood
    set conv := segs.filter fun s => decide (good s) with hconv
    set rest := segs.filter fun s => decide (¬ good s) with hrest
    have e1 : ((segs.map E).filter fun e => decide (Converged rtol magn e)) = conv.map E := by
      rw [List.filter_map]; rfl
    have e2 : (((segs.map E).filter fun e => decide (¬ Converged rtol magn e)).map Est.seg) = rest := by
      rw [List.filter_map, List.map_map]
      refine (List.map_congr_left fun s _ => hseg s).trans ?_
      rw [List.map_id']
      rfl
    have hperm : (conv ++ rest).Perm segs := by
      have := List.filter_append_perm (fun s => decide (good s)) segs
      convert this using 3
      funext s
      simp [decide_not]
    have hpart : Partition a b ((done ++ conv) ++ rest) := by
      rw [List.append_assoc]
      exact inv.part.perm (hperm.symm.append_left done)
    have hM0 : ∀ l, 0 ≤ magn l := fun l => by
      have := maxF_sum_nonneg (segs.map E) fun e q => e.int10 l q
      have := (hm l).1
      simp only [hmagn, magnOf]
      linarith
    have hM1 : ∀ l, magn l ≤ ((done ++ segs).map fun s => maxF fun q => |(E s).int10 l q|).sum := fun l => by
      have h1 := maxF_sum_le (segs.map E) fun e q => e.int10 l q
      have h2 := (hm l).2
      rw [List.map_map] at h1
      simp only [hmagn, magnOf, List.map_append, List.sum_append]
      exact add_le_add h2 h1
    have hloc : ∀ s ∈ conv, LocalOk a b rtol E s := by
      intro s hs
      obtain ⟨hs1, hs2⟩ := List.mem_filter.1 hs
      have hs2 : Converged rtol magn (E s) := of_decide_eq_true hs2
      refine ⟨done ++ segs, magn, inv.part, List.mem_append_right _ hs1, fun l => ?_⟩
      have hpos : 0 < magn l := lt_of_le_of_ne (hM0 l) (hs2 l).1.symm
      exact ⟨hpos, hM1 l, fun q => (le_maxF _ q).trans ((div_le_iff₀ hpos).1 (hs2 l).2)⟩
    have hinv : ∀ pend, Partition a b ((done ++ conv) ++ pend) → Inv a b rtol E (done ++ conv) pend
        (acc.add (conv.map E)).value (acc.add (conv.map E)).error := fun pend hp => by
      refine ⟨hp, fun l q => ?_, fun l q => ?_, fun s hs => ?_⟩
      · simp only [Acc.add, inv.value, List.map_append, List.sum_append, List.map_map]; rfl
      · simp only [Acc.add, inv.error, List.map_append, List.sum_append, List.map_map]; rfl
      · rcases List.mem_append.1 hs with hs | hs
        · exact inv.ok s hs
        · exact hloc s hs
    rw [e1, e2]
    by_cases hall : ∀ e ∈ segs.map E, Converged rtol magn e
    · rw [if_pos hall]
      have hr : rest = [] := by
        rw [hrest, List.filter_eq_nil_iff]
        intro s hs
        simpa [hgood] using hall (E s) (List.mem_map_of_mem hs)
      exact ⟨_, rfl, done ++ conv, [], hinv [] (by rw [hr] at hpart; exact hpart), by simp⟩
    · rw [if_neg hall]
      refine loop_ok hseg hE n _ (done ++ conv) _ ?_ (hinv _ hpart.refine) fun l => ⟨?_, ?_⟩
      · intro h
        apply hall
        intro e he
        obtain ⟨s, hs, rfl⟩ := List.mem_map.1 he
        by_contra hc
        have : s ∈ rest := List.mem_filter.2 ⟨hs, decide_eq_true hc⟩
        rw [List.flatMap_eq_nil_iff] at h
        have := h s this
        simp [halves] at this
      · exact add_nonneg (hm l).1 (maxF_sum_nonneg _ _)
      · have h1 := maxF_sum_le (conv.map E) fun e q => e.int10 l q
        rw [List.map_map] at h1
        rw [List.map_append, List.sum_append]
        exact add_le_add (hm l).2 h1

end

end Verif.Overlap
