import Verif.Lemmas.Roots
import Verif.Spec.Roots
/-! Correctness of `find_all` relative to the bisection routine. -/

namespace Verif.Roots
open Verif Verif.Np

variable {K : Type _} [Field K] [LinearOrder K] [IsStrictOrderedRing K]

theorem mem_zip_tail_iff {X : Type _} (grid : List X) (a b : X) :
    (a, b) ∈ grid.zip grid.tail ↔ Adjacent grid a b := by
  induction grid with
  | nil => simp [Adjacent]
  | cons x l ih =>
    cases l with
    | nil =>
      simp only [List.tail_cons, List.zip_nil_right, List.not_mem_nil, false_iff]
      rintro ⟨l1, l2, h⟩
      have := congrArg List.length h
      simp at this
      omega
    | cons y l =>
      simp only [List.tail_cons, List.zip_cons_cons, List.mem_cons, Prod.mk.injEq] at ih ⊢
      constructor
      · rintro (⟨rfl, rfl⟩ | h)
        · exact ⟨[], l, rfl⟩
        · obtain ⟨l1, l2, h2⟩ := ih.1 h
          exact ⟨x :: l1, l2, by rw [h2]; rfl⟩
      · rintro ⟨l1, l2, h⟩
        cases l1 with
        | nil =>
          simp only [List.nil_append, List.cons.injEq] at h
          exact Or.inl ⟨h.1.symm, h.2.1.symm⟩
        | cons z l1 =>
          simp only [List.cons_append, List.cons.injEq] at h
          exact Or.inr (ih.2 ⟨l1, l2, h.2⟩)

theorem zip_tail_pairwise {X : Type _} [LinearOrder X] (grid : List X) (h : grid.Pairwise (· < ·)) :
    (grid.zip grid.tail).Pairwise fun p q => p.2 ≤ q.1 := by
  induction grid with
  | nil => simp
  | cons x l ih =>
    cases l with
    | nil => simp
    | cons y l =>
      have h2 := ih (List.pairwise_cons.1 h).2
      simp only [List.tail_cons, List.zip_cons_cons] at h2 ⊢
      rw [List.pairwise_cons]
      refine ⟨?_, h2⟩
      rintro ⟨a, b⟩ hab
      have h3 : a ∈ y :: l := (List.of_mem_zip hab).1
      have h4 := (List.pairwise_cons.1 (List.pairwise_cons.1 h).2).1
      rcases List.mem_cons.1 h3 with rfl | h5
      · exact le_refl _
      · exact (h4 a h5).le

theorem Adjacent.no_between {X : Type _} [LinearOrder X] {grid : List X}
    (h : grid.Pairwise (· < ·)) {a b x : X} (hab : Adjacent grid a b) (hx : x ∈ grid) :
    x ≤ a ∨ b ≤ x := by
  obtain ⟨l1, l2, rfl⟩ := hab
  rw [List.pairwise_append] at h
  simp only [List.mem_append, List.mem_cons] at hx
  have h2 := (List.pairwise_cons.1 (List.pairwise_cons.1 h.2.1).2).1
  rcases hx with hx | rfl | rfl | hx
  · exact Or.inl (h.2.2 x hx a (by simp)).le
  · exact Or.inl (le_refl _)
  · exact Or.inr (le_refl _)
  · exact Or.inr (h2 x hx).le

theorem Adjacent.lt {X : Type _} [LinearOrder X] {grid : List X}
    (h : grid.Pairwise (· < ·)) {a b : X} (hab : Adjacent grid a b) : a < b := by
  obtain ⟨l1, l2, rfl⟩ := hab
  rw [List.pairwise_append] at h
  exact (List.pairwise_cons.1 h.2.1).1 b (by simp)

theorem Adjacent.mem {X : Type _} {grid : List X} {a b : X} (hab : Adjacent grid a b) :
    a ∈ grid ∧ b ∈ grid := by
  obtain ⟨l1, l2, rfl⟩ := hab
  simp

theorem findAllWith_spec {X : Type _} [LinearOrder X] (f : X → FVal K)
    (bisect : List (Bracket X K) → Option (PyM (List X))) (grid : List X)
    (hgrid : grid.Pairwise (· < ·)) (Good : X → X → X → Prop)
    (hgood : ∀ a b m, Good a b m → a ≤ m ∧ m < b)
    (hb : ∀ st : List (Bracket X K), st ≠ [] → (∀ br ∈ st, br.Inv f) →
      (∀ br ∈ st, br.a ∈ grid ∧ br.b ∈ grid) →
      ∃ rs, bisect st = some (.ok rs) ∧ ∃ ms, rs.Perm ms ∧
        List.Forall₂ (fun br m => Good br.a br.b m) st ms) :
    ∃ r, findAllWith f bisect grid = some (.ok r) ∧ FindAllSpec f grid Good r := by
  classical
  -- the list of brackets as pairs of grid points
  set P := (grid.zip grid.tail).filter fun q =>
    ((f q.1).signbit != (f q.2).signbit) && !decide ((f q.1).val = 0) && !decide ((f q.2).val = 0)
    with hP
  set H := grid.filter fun x => decide ((f x).val = 0) with hH
  have hmodel : findAllWith f bisect grid = if P.isEmpty then some (.ok H) else
      (bisect (P.map fun q => ⟨q.1, q.2, f q.1, f q.2⟩)).bind fun xs =>
        some (xs.map fun xs => (H ++ xs).mergeSort fun x y => decide (x ≤ y)) := by
    unfold findAllWith
    have e1 : ((grid.map fun x => (x, f x)).filter fun p => decide (p.2.val = 0)).map Prod.fst
        = H := by
      rw [List.filter_map, List.map_map, hH]
      simp [Function.comp_def]
    have e2 : ((grid.map fun x => (x, f x)).zip (grid.map fun x => (x, f x)).tail).filter
        (fun q => (q.1.2.signbit != q.2.2.signbit) && !decide (q.1.2.val = 0)
          && !decide (q.2.2.val = 0)) = P.map fun q => ((q.1, f q.1), (q.2, f q.2)) := by
      rw [← List.map_tail, List.zip_map, List.filter_map, hP]
      rfl
    simp only [e1, e2, List.isEmpty_map, List.map_map]
    rfl
  have hPmem : ∀ a b, (a, b) ∈ P ↔ Adjacent grid a b ∧ (f a).val * (f b).val < 0 := by
    intro a b
    rw [hP, List.mem_filter, mem_zip_tail_iff]
    simp only [Bool.and_eq_true, bne_iff_ne, Bool.not_eq_eq_eq_not, Bool.not_true,
      decide_eq_false_iff_not, and_congr_right_iff]
    intro _
    constructor
    · rintro ⟨⟨h1, h2⟩, h3⟩
      exact (FVal.signbit_ne_iff h2 h3).1 h1
    · intro h
      have h2 : (f a).val ≠ 0 := by intro h2; rw [h2, zero_mul] at h; exact lt_irrefl _ h
      have h3 : (f b).val ≠ 0 := by intro h2; rw [h2, mul_zero] at h; exact lt_irrefl _ h
      exact ⟨⟨(FVal.signbit_ne_iff h2 h3).2 h, h2⟩, h3⟩
  have hHmem : ∀ x, x ∈ H ↔ x ∈ grid ∧ (f x).val = 0 := by
    intro x; rw [hH, List.mem_filter]; simp
  have hHsorted : H.Pairwise (· < ·) := hgrid.sublist (List.filter_sublist)
  by_cases hPe : P = []
  · refine ⟨H, by rw [hmodel, hPe]; rfl, hHsorted, ?_, ?_, ?_⟩
    · intro x hx; exact Or.inl ((hHmem x).1 hx)
    · intro x h1 h2; exact (hHmem x).2 ⟨h1, h2⟩
    · intro a b h1 h2
      have := (hPmem a b).2 ⟨h1, h2⟩
      rw [hPe] at this
      exact absurd this (by simp)
  · obtain ⟨rs, hrs, ms, hperm, hf⟩ := hb (P.map fun q => ⟨q.1, q.2, f q.1, f q.2⟩)
      (by simpa using hPe)
      (by
        intro br hbr
        rw [List.mem_map] at hbr
        obtain ⟨⟨a, b⟩, hq, rfl⟩ := hbr
        have h1 := (hPmem a b).1 hq
        have h2 : (f a).val ≠ 0 := by
          intro h2; have := h1.2; rw [h2, zero_mul] at this; exact lt_irrefl _ this
        have h3 : (f b).val ≠ 0 := by
          intro h2; have := h1.2; rw [h2, mul_zero] at this; exact lt_irrefl _ this
        exact ⟨h1.1.lt hgrid, rfl, rfl, (FVal.signbit_ne_iff h2 h3).2 h1.2⟩)
      (by
        intro br hbr
        rw [List.mem_map] at hbr
        obtain ⟨⟨a, b⟩, hq, rfl⟩ := hbr
        exact ((hPmem a b).1 hq).1.mem)
    rw [List.forall₂_map_left_iff] at hf
    set r := (H ++ rs).mergeSort fun x y => decide (x ≤ y) with hr
    have hrperm : r.Perm (H ++ ms) := (List.mergeSort_perm _ _).trans (hperm.append_left H)
    have hmem : ∀ x, x ∈ r ↔ x ∈ H ∨ x ∈ ms := by
      intro x; rw [hrperm.mem_iff, List.mem_append]
    -- ms are good
    have hms : ∀ m ∈ ms, ∃ q ∈ P, Good q.1 q.2 m := by
      intro m hm
      obtain ⟨i, hi, rfl⟩ := List.getElem_of_mem hm
      have hl := hf.length_eq
      have := (List.forall₂_iff_get.1 hf).2 i (by omega) hi
      exact ⟨P.get ⟨i, by omega⟩, List.get_mem _ _, this⟩
    have hms2 : ∀ q ∈ P, ∃ m ∈ ms, Good q.1 q.2 m := by
      intro q hq
      obtain ⟨i, hi, rfl⟩ := List.getElem_of_mem hq
      have hl := hf.length_eq
      have := (List.forall₂_iff_get.1 hf).2 i hi (by omega)
      exact ⟨ms.get ⟨i, by omega⟩, List.get_mem _ _, this⟩
    have hPpw : P.Pairwise fun p q => p.2 ≤ q.1 :=
      (zip_tail_pairwise grid hgrid).sublist List.filter_sublist
    have hmspw : ms.Pairwise (· < ·) := by
      rw [List.pairwise_iff_getElem] at hPpw ⊢
      intro i j hi hj hij
      have hl := hf.length_eq
      have h1 := hPpw i j (by omega) (by omega) hij
      have h2 := hgood _ _ _ ((List.forall₂_iff_get.1 hf).2 i (by omega) hi)
      have h3 := hgood _ _ _ ((List.forall₂_iff_get.1 hf).2 j (by omega) hj)
      exact lt_of_lt_of_le h2.2 (le_trans h1 h3.1)
    have hdisj : ∀ m ∈ ms, m ∉ H := by
      intro m hm hmH
      obtain ⟨q, hq, hg⟩ := hms m hm
      have h1 := (hPmem q.1 q.2).1 hq
      have h2 := (hHmem m).1 hmH
      have h3 := hgood _ _ _ hg
      rcases h1.1.no_between hgrid h2.1 with h4 | h4
      · have : m = q.1 := le_antisymm h4 h3.1
        subst this
        have := h1.2
        rw [h2.2, zero_mul] at this
        exact lt_irrefl _ this
      · exact absurd h3.2 (not_lt.2 h4)
    have hnodup : (H ++ ms).Nodup := by
      rw [List.nodup_append]
      refine ⟨hHsorted.imp (fun h => ne_of_lt h), hmspw.imp (fun h => ne_of_lt h), ?_⟩
      intro a ha b hb hab
      subst hab
      exact hdisj a hb ha
    have hrle : r.Pairwise (· ≤ ·) := by
      have := List.pairwise_mergeSort (le := fun x y : X => decide (x ≤ y))
        (by intro a b c h1 h2; simp only [decide_eq_true_eq] at *; exact le_trans h1 h2)
        (by intro a b; simpa using le_total a b) (H ++ rs)
      simpa using this
    have hrlt : r.Pairwise (· < ·) := by
      have h1 : r.Nodup := hrperm.nodup_iff.2 hnodup
      have := hrle.and h1
      exact this.imp (fun ⟨h, h'⟩ => lt_of_le_of_ne h h')
    refine ⟨r, ?_, hrlt, ?_, ?_, ?_⟩
    · rw [hmodel, if_neg (by simpa using hPe), hrs]; rfl
    · intro x hx
      rcases (hmem x).1 hx with h | h
      · exact Or.inl ((hHmem x).1 h)
      · obtain ⟨q, hq, hg⟩ := hms x h
        have := (hPmem q.1 q.2).1 hq
        exact Or.inr ⟨q.1, q.2, this.1, this.2, hg⟩
    · intro x h1 h2; exact (hmem x).2 (Or.inl ((hHmem x).2 ⟨h1, h2⟩))
    · intro a b h1 h2
      obtain ⟨m, hm, hg⟩ := hms2 (a, b) ((hPmem a b).2 ⟨h1, h2⟩)
      have hm1 := hgood _ _ _ hg
      refine ⟨m, ⟨(hmem m).2 (Or.inr hm), hm1.1, hm1.2⟩, hg, ?_⟩
      rintro y ⟨hy, hy1, hy2⟩
      rcases (hmem y).1 hy with h | h
      · have h3 := (hHmem y).1 h
        rcases h1.no_between hgrid h3.1 with h4 | h4
        · have : y = a := le_antisymm h4 hy1
          subst this
          rw [h3.2, zero_mul] at h2
          exact absurd h2 (lt_irrefl _)
        · exact absurd hy2 (not_lt.2 h4)
      · -- two points of ms in the same bracket
        obtain ⟨q, hq, hg2⟩ := hms y h
        have hq1 := ((hPmem q.1 q.2).1 hq).1
        have hm2 := hgood _ _ _ hg2
        -- q = (a, b)
        have hqa : q.1 = a := by
          apply le_antisymm
          · rcases h1.no_between hgrid hq1.mem.1 with h4 | h4
            · exact h4
            · exact absurd (lt_of_le_of_lt hm2.1 hy2) (not_lt.2 h4)
          · rcases hq1.no_between hgrid h1.mem.1 with h4 | h4
            · exact h4
            · exact absurd (lt_of_lt_of_le hm2.2 h4) (not_lt.2 hy1)
        -- index argument
        obtain ⟨i, hi, rfl⟩ := List.getElem_of_mem hm
        obtain ⟨j, hj, rfl⟩ := List.getElem_of_mem h
        have hl := hf.length_eq
        rw [List.pairwise_iff_getElem] at hPpw hmspw
        by_contra hne
        have gi := hgood _ _ _ ((List.forall₂_iff_get.1 hf).2 i (by omega) hi)
        have gj := hgood _ _ _ ((List.forall₂_iff_get.1 hf).2 j (by omega) hj)
        simp only [List.get_eq_getElem] at gi gj
        have ai := ((hPmem P[i].1 P[i].2).1 (List.getElem_mem _)).1
        have aj := ((hPmem P[j].1 P[j].2).1 (List.getElem_mem _)).1
        have key : ∀ k (hk : k < P.length) (y : X), P[k].1 ≤ y → y < P[k].2 → a ≤ y → y < b →
            P[k].1 = a ∧ b ≤ P[k].2 := by
          intro k hk y e1 e2 e3 e4
          have ak := ((hPmem P[k].1 P[k].2).1 (List.getElem_mem _)).1
          constructor
          · apply le_antisymm
            · rcases h1.no_between hgrid ak.mem.1 with h4 | h4
              · exact h4
              · exact absurd (lt_of_le_of_lt e1 e4) (not_lt.2 h4)
            · rcases ak.no_between hgrid h1.mem.1 with h4 | h4
              · exact h4
              · exact absurd (lt_of_lt_of_le e2 h4) (not_lt.2 e3)
          · rcases h1.no_between hgrid ak.mem.2 with h4 | h4
            · exact absurd (lt_of_lt_of_le e2 h4) (not_lt.2 e3)
            · exact h4
        have ki := key i (by omega) _ gi.1 gi.2 hm1.1 hm1.2
        have kj := key j (by omega) _ gj.1 gj.2 hy1 hy2
        have hab := h1.lt hgrid
        rcases lt_trichotomy i j with hij | hij | hij
        · have := hPpw i j (by omega) (by omega) hij
          rw [kj.1] at this
          exact absurd (lt_of_lt_of_le hab ki.2) (not_lt.2 this)
        · subst hij; exact hne rfl
        · have := hPpw j i (by omega) (by omega) hij
          rw [ki.1] at this
          exact absurd (lt_of_lt_of_le hab kj.2) (not_lt.2 this)

end Verif.Roots
