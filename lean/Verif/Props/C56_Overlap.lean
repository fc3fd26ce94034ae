import Verif.Lemmas.Overlap
import Verif.Props.C10_Selection
import Mathlib.Tactic.NormNum
/-!
# C56 — overlap accounts for the whole interval
-/

namespace Verif.Props
open Verif Verif.Np Verif.Poly Verif.Gauss Verif.Overlap Verif.Spec

variable {ι φ : Type}

/-- A point of the reference interval [-1, 1], moved to a segment. -/
noncomputable def nodeOf (s : ℝ × ℝ) (x : ℚ) : ℝ := (s.2 - s.1) / 2 * x + (s.1 + s.2) / 2

/-- Specification: the 15-point formula on a segment; its points are every second one of the table. -/
noncomputable def gauss15 (g : ℝ → ℝ) (s : ℝ × ℝ) : ℝ :=
  ∑ j ∈ Finset.range 15, (s.2 - s.1) / 2 * (kronrodV.getD j 0 : ℚ) * g (nodeOf s (kronrodX.getD (2 * j + 1) 0))

/-- Specification: the 31-point formula on a segment. -/
noncomputable def kronrod31 (g : ℝ → ℝ) (s : ℝ × ℝ) : ℝ :=
  ∑ j ∈ Finset.range 31, (s.2 - s.1) / 2 * (kronrodW.getD j 0 : ℚ) * g (nodeOf s (kronrodX.getD j 0))

/-- The integrand. -/
noncomputable def integrand (p : PPoly ι) (f : ℝ → φ → ℝ) (l : ι) (q : φ) (x : ℝ) : ℝ := fn p l x * f x q

theorem zipWith_sum {α β : Type} (F : α → β → ℝ) (d : α) (d' : β) : ∀ (n : ℕ) (l : List α) (m : List β), l.length = n →
    m.length = n → (List.zipWith F l m).sum = ∑ j ∈ Finset.range n, F (l.getD j d) (m.getD j d')
  | 0, l, m, hl, hm => by simp [List.length_eq_zero_iff.1 hl]
  | n + 1, [], m, hl, hm => by simp at hl
  | n + 1, x :: l, [], hl, hm => by simp at hm
  | n + 1, x :: l, y :: m, hl, hm => by
    rw [Finset.sum_range_succ']
    simp only [List.zipWith_cons_cons, List.sum_cons, List.getD_cons_succ, List.getD_cons_zero]
    rw [zipWith_sum F d d' n l m (by simpa using hl) (by simpa using hm), add_comm]

theorem vselMap {α β : Type} (f : α → β) : ∀ l : List α, vsel (l.map f) = (vsel l).map f
  | [] => rfl
  | [_] => rfl
  | _ :: y :: l => by simp only [List.map_cons, vsel, vselMap f l]

theorem vsel_getD {α : Type} (d : α) : ∀ (l : List α) (j : ℕ), (vsel l).getD j d = l.getD (2 * j + 1) d
  | [], j => by simp [vsel]
  | [_], j => by simp [vsel]
  | _ :: y :: l, 0 => by simp [vsel]
  | _ :: y :: l, j + 1 => by
    rw [show 2 * (j + 1) + 1 = (2 * j + 1) + 2 by ring]
    simpa [vsel] using vsel_getD d l j

theorem kronrod_inside : ∀ q ∈ kronrodX, (-1 : ℚ) < q ∧ q < 1 := by decide +kernel

/-- The estimates of the model are the two formulas applied to the integrand. -/
theorem estimate_eq (p : PPoly ι) (hp : p.WF) (f : ℝ → φ → ℝ) (s : ℝ × ℝ) (h1 : p.xmin ≤ s.1) (h2 : s.1 < s.2)
    (h3 : s.2 ≤ p.xmax) : estimate kronrod31_15 p f s =
      .ok ⟨s, fun l q => kronrod31 (integrand p f l q) s, fun l q => gauss15 (integrand p f l q) s⟩ := by
  have hx : (kronrod31_15.reseat s.1 s.2).x = kronrodX.map (nodeOf s) := by
    show (kronrodX.map fun q : ℚ => (q : ℝ)).map (fun x => (s.2 - s.1) / (1 - -1) * (x - (1 + -1) / 2) + (s.2 + s.1) / 2) = _
    rw [List.map_map]
    refine List.map_congr_left fun q _ => ?_
    show (s.2 - s.1) / (1 - -1) * ((q : ℝ) - (1 + -1) / 2) + (s.2 + s.1) / 2 = nodeOf s q
    unfold nodeOf
    ring
  have hw : (kronrod31_15.reseat s.1 s.2).w = kronrodW.map fun q : ℚ => (s.2 - s.1) / 2 * (q : ℝ) := by
    show (kronrodW.map fun q : ℚ => (q : ℝ)).map (fun x => x * ((s.2 - s.1) / (1 - -1))) = _
    rw [List.map_map]
    refine List.map_congr_left fun q _ => ?_
    show (q : ℝ) * ((s.2 - s.1) / (1 - -1)) = _
    ring
  have hv : (kronrod31_15.reseat s.1 s.2).v = kronrodV.map fun q : ℚ => (s.2 - s.1) / 2 * (q : ℝ) := by
    show ((kronrodV.map fun q : ℚ => (q : ℝ)).map _) = _
    rw [List.map_map]
    refine List.map_congr_left fun q _ => ?_
    show (s.2 - s.1) / (1 - -1) * (q : ℝ) = _
    ring
  have hin : ∀ x ∈ kronrodX.map (nodeOf s), ∃ v, p.call x = .ok v := by
    intro x hx
    obtain ⟨q, hq, rfl⟩ := List.mem_map.1 hx
    obtain ⟨hq1, hq2⟩ := kronrod_inside q hq
    have hq1 : (-1 : ℝ) < q := by exact_mod_cast hq1
    have hq2 : (q : ℝ) < 1 := by exact_mod_cast hq2
    obtain ⟨i, hi⟩ := hp.exists_inSeg (x := nodeOf s q) (by unfold nodeOf; nlinarith) (by unfold nodeOf; nlinarith)
    exact ⟨_, PPoly.call_eq hp hi⟩
  have hval : ∀ xs : List ℝ, List.zipWith (fun (v : ι → ℝ) x => fun (l : ι) (q : φ) => v l * f x q)
      (xs.map fun x i => fn p i x) xs = xs.map fun x l q => integrand p f l q x := by
    intro xs
    induction xs with
    | nil => rfl
    | cons x xs ih => simp only [List.map_cons, List.zipWith_cons_cons, ih]; rfl
  unfold estimate
  simp only [hx, hw, hv, Overlap.evalNodes_ok p _ hin, hval]
  rw [List.map_map, vselMap]
  congr 2
  · funext l q
    rw [zipWith_sum _ (((fun x l q => integrand p f l q x) ∘ nodeOf s) 0) ((s.2 - s.1) / 2 * ((0 : ℚ) : ℝ)) 31 _ _
      (by rw [List.length_map]; decide +kernel) (by rw [List.length_map]; decide +kernel)]
    refine Finset.sum_congr rfl fun j _ => ?_
    rw [List.getD_map, List.getD_map (f := fun q : ℚ => (s.2 - s.1) / 2 * (q : ℝ)), mul_comm]
    rfl
  · funext l q
    rw [zipWith_sum _ (((fun x l q => integrand p f l q x) ∘ nodeOf s) 0) ((s.2 - s.1) / 2 * ((0 : ℚ) : ℝ)) 15 _ _
      (by rw [List.length_map]; decide +kernel) (by rw [List.length_map]; decide +kernel)]
    refine Finset.sum_congr rfl fun j _ => ?_
    rw [List.getD_map, List.getD_map (f := fun q : ℚ => (s.2 - s.1) / 2 * (q : ℝ)), vsel_getD, mul_comm]
    rfl

/-- The knots with additional points form a strictly increasing list from `xmin` to `xmax`. -/
theorem allKnots_ok (p : PPoly ι) (hp : p.WF) (points : Option (List ℝ))
    (hpts : ∀ pts ∈ points, ∀ x ∈ pts, p.xmin ≤ x ∧ x ≤ p.xmax) :
    ∃ x l, allKnots p points = x :: l ∧ (x :: l).Pairwise (· < ·) ∧ x = p.xmin ∧
      (x :: l).getLast (List.cons_ne_nil _ _) = p.xmax ∧ l ≠ [] := by
  have hlt : p.xmin < p.xmax := hp.mono (Fin.lt_def.2 (by simpa using hp.pos))
  have key : ∀ L : List ℝ, L.Pairwise (· < ·) → p.xmin ∈ L → p.xmax ∈ L → (∀ x ∈ L, p.xmin ≤ x ∧ x ≤ p.xmax) →
      ∃ x l, L = x :: l ∧ (x :: l).Pairwise (· < ·) ∧ x = p.xmin ∧
        (x :: l).getLast (List.cons_ne_nil _ _) = p.xmax ∧ l ≠ [] := by
    intro L hs h1 h2 hb
    match L, hs, h1, h2, hb with
    | x :: l, hs, h1, h2, hb =>
      have hx : x = p.xmin := by
        rcases List.mem_cons.1 h1 with h | h
        · exact h.symm
        · exact absurd (List.rel_of_pairwise_cons hs h) (not_lt.2 (hb x List.mem_cons_self).1)
      refine ⟨x, l, rfl, hs, hx, ?_, ?_⟩
      · refine le_antisymm (hb _ (List.getLast_mem _)).2 ?_
        have hle : (x :: l).Pairwise (· ≤ ·) := hs.imp le_of_lt
        have : ∀ (M : List ℝ) (hM : M ≠ []), M.Pairwise (· ≤ ·) → ∀ y ∈ M, y ≤ M.getLast hM := by
          intro M
          induction M with
          | nil => intro h; exact absurd rfl h
          | cons z M ih =>
            intro _ hp y hy
            by_cases hM : M = []
            · subst hM; simp at hy; simp [hy]
            · rw [List.getLast_cons hM]
              rcases List.mem_cons.1 hy with rfl | hy
              · exact List.rel_of_pairwise_cons hp (List.getLast_mem hM)
              · exact ih hM hp.of_cons y hy
        exact this _ _ hle _ h2
      · rintro rfl
        simp only [List.mem_singleton] at h1 h2
        linarith
  have hk : ∀ x ∈ List.ofFn p.knots, p.xmin ≤ x ∧ x ≤ p.xmax := by
    intro x hx
    obtain ⟨i, rfl⟩ := (List.mem_ofFn' _ _).1 hx
    exact ⟨hp.mono.monotone (Fin.zero_le i), hp.mono.monotone (Fin.le_last i)⟩
  have m1 : p.xmin ∈ List.ofFn p.knots := (List.mem_ofFn' _ _).2 ⟨0, rfl⟩
  have m2 : p.xmax ∈ List.ofFn p.knots := (List.mem_ofFn' _ _).2 ⟨Fin.last _, rfl⟩
  cases points with
  | none =>
    refine key _ ?_ m1 m2 hk
    show (List.ofFn p.knots).Pairwise (· < ·)
    rw [List.pairwise_ofFn]
    exact fun i j hij => hp.mono hij
  | some pts =>
    refine key _ ?_ ?_ ?_ ?_
    · exact (Finset.sortedLT_sort _).pairwise
    · exact (Finset.mem_sort _).2 (List.mem_toFinset.2 (List.mem_append_left _ m1))
    · exact (Finset.mem_sort _).2 (List.mem_toFinset.2 (List.mem_append_left _ m2))
    · intro x hx
      simp only [allKnots, Finset.mem_sort, List.mem_toFinset, List.mem_append] at hx
      exact hx.elim (hk x) (hpts pts rfl x)

variable [Fintype φ] [Nonempty φ]

/-- Specification of the result: the value and the error are sums, over some of the segments of a partition of the whole
interval, of the 15-point formula and of its difference from the 31-point formula.  No segment is left over if and only
if there is no warning.  Each segment that is summed has an error, for every polynomial and every component, of at
most `rtol` times a positive number which does not exceed the sum of the magnitudes over a partition containing it. -/
def Accounts (p : PPoly ι) (f : ℝ → φ → ℝ) (rtol : ℝ) (out : Outcome ι φ) : Prop :=
  ∃ done pending : List (ℝ × ℝ), Partition p.xmin p.xmax (done ++ pending) ∧
    (∀ l q, out.value l q = (done.map (gauss15 (integrand p f l q))).sum) ∧
    (∀ l q, out.error l q =
      (done.map fun s => |kronrod31 (integrand p f l q) s - gauss15 (integrand p f l q) s|).sum) ∧
    (out.warning = none ↔ pending = []) ∧
    ∀ s ∈ done, ∃ (P : List (ℝ × ℝ)) (M : ι → ℝ), Partition p.xmin p.xmax P ∧ s ∈ P ∧ ∀ l, 0 < M l ∧
      M l ≤ (P.map fun t => maxF fun q => |gauss15 (integrand p f l q) t|).sum ∧
      ∀ q, |kronrod31 (integrand p f l q) s - gauss15 (integrand p f l q) s| ≤ rtol * M l

/-- For every function, every tolerance (even one that cannot be met), all limits on the refinement and all
additional points inside the interval, the computation terminates with a result that accounts for the whole interval,
provided that the segments to start with are not more than the limit. -/
theorem C56_accounts (p : PPoly ι) (hp : p.WF) (f : ℝ → φ → ℝ) (rtol : ℝ) (levels maxPoints : ℕ) (hlev : 0 < levels)
    (points : Option (List ℝ)) (hpts : ∀ pts ∈ points, ∀ x ∈ pts, p.xmin ≤ x ∧ x ≤ p.xmax)
    (hnum : (segments (allKnots p points)).length ≤ maxPoints) :
    ∃ out, computeOverlap kronrod31_15 p f rtol levels maxPoints points = .ok out ∧ Accounts p f rtol out := by
  obtain ⟨x, l, hk, hs, hx, hlast, hl⟩ := allKnots_ok p hp points hpts
  have hchain := segments_chain x l hs
  rw [hlast, hx] at hchain
  unfold computeOverlap
  simp only
  rw [if_neg (by push Not; exact ⟨by omega, hnum⟩), hk]
  set E : ℝ × ℝ → Est ι φ := fun s => ⟨s, fun l q => kronrod31 (integrand p f l q) s,
    fun l q => gauss15 (integrand p f l q) s⟩
  obtain ⟨out, h1, done, pending, inv, hw⟩ := loop_ok (rule := kronrod31_15) (p := p) (f := f) (rtol := rtol)
    (maxPoints := maxPoints) (a := p.xmin) (b := p.xmax) (E := E) (fun _ => rfl)
    (fun s h1 h2 h3 => estimate_eq p hp f s h1 h2 h3) levels (segments (x :: l)) []
    ⟨fun _ _ => 0, fun _ _ => 0, fun _ => 0⟩ (by cases l <;> simp_all [segments])
    ⟨⟨_, List.Perm.refl _, by rw [hx]; exact hchain⟩, by simp, by simp, by simp⟩ (by simp)
  exact ⟨out, h1, done, pending, inv.part, inv.value, inv.error, hw, inv.ok⟩

/-- The same for the method `overlap`, with its limits of 40 levels and 2000 segments. -/
theorem C56_overlap (p : PPoly ι) (hp : p.WF) (f : ℝ → φ → ℝ) (rtol : ℝ)
    (points : Option (List ℝ)) (hpts : ∀ pts ∈ points, ∀ x ∈ pts, p.xmin ≤ x ∧ x ≤ p.xmax)
    (hnum : (segments (allKnots p points)).length ≤ 2000) :
    ∃ out, overlap p f rtol points = .ok out ∧ Accounts p f rtol out :=
  C56_accounts p hp f rtol 40 2000 (by norm_num) points hpts hnum

/-- More than 2000 segments to start with: no result and no warning, but a TypeError. -/
theorem C56_too_many (p : PPoly ι) (f : ℝ → φ → ℝ) (rtol : ℝ) (points : Option (List ℝ))
    (hnum : 2000 < (segments (allKnots p points)).length) : overlap p f rtol points = .error .typeError := by
  unfold overlap computeOverlap
  simp only
  rw [if_pos (Or.inr hnum)]

theorem seg_after : ∀ (L : List ℝ), L.Pairwise (· < ·) → ∀ m ∈ L, ∀ y ∈ L, m < y → ∃ s ∈ segments L, s.1 = m ∧ m < s.2
  | [], _, m, hm, _, _, _ => by cases hm
  | [x], _, m, hm, y, hy, h => by simp at hm hy; subst hm hy; exact absurd h (lt_irrefl _)
  | x :: z :: l, hs, m, hm, y, hy, h => by
    rcases List.mem_cons.1 hm with rfl | hm
    · exact ⟨(m, z), List.mem_cons_self, rfl, List.rel_of_pairwise_cons hs List.mem_cons_self⟩
    · have hxm := List.rel_of_pairwise_cons hs hm
      have hy : y ∈ z :: l := by
        rcases List.mem_cons.1 hy with rfl | hy
        · exact absurd (hxm.trans h) (lt_irrefl _)
        · exact hy
      obtain ⟨s, h1, h2⟩ := seg_after (z :: l) hs.of_cons m hm y hy h
      exact ⟨s, List.mem_cons_of_mem _ h1, h2⟩

theorem seg_before : ∀ (L : List ℝ), L.Pairwise (· < ·) → ∀ m ∈ L, ∀ y ∈ L, y < m → ∃ s ∈ segments L, s.2 = m ∧ s.1 < m
  | [], _, m, hm, _, _, _ => by cases hm
  | [x], _, m, hm, y, hy, h => by simp at hm hy; subst hm hy; exact absurd h (lt_irrefl _)
  | x :: z :: l, hs, m, hm, y, hy, h => by
    have hxz : x < z := List.rel_of_pairwise_cons hs List.mem_cons_self
    have hm : m ∈ z :: l := by
      rcases List.mem_cons.1 hm with rfl | hm
      · rcases List.mem_cons.1 hy with rfl | hy
        · exact absurd h (lt_irrefl _)
        · exact absurd ((List.rel_of_pairwise_cons hs hy).trans h) (lt_irrefl _)
      · exact hm
    rcases List.mem_cons.1 hm with rfl | hm'
    · exact ⟨(x, m), List.mem_cons_self, rfl, hxz⟩
    · obtain ⟨s, h1, h2⟩ := seg_before (z :: l) hs.of_cons m hm z List.mem_cons_self
        (List.rel_of_pairwise_cons hs.of_cons hm')
      exact ⟨s, List.mem_cons_of_mem _ h1, h2⟩

theorem call_cases (p : PPoly ι) (hp : p.WF) (x : ℝ) : (∃ v, p.call x = .ok v) ∨ p.call x = .error .valueError := by
  by_cases h : p.xmin ≤ x ∧ x ≤ p.xmax
  · obtain ⟨i, hi⟩ := hp.exists_inSeg h.1 h.2
    exact Or.inl ⟨_, PPoly.call_eq hp hi⟩
  · exact Or.inr (PPoly.call_out h)

theorem evalNodes_cases (p : PPoly ι) (hp : p.WF) : ∀ l, (∃ v, evalNodes p l = .ok v) ∨ evalNodes p l = .error .valueError
  | [] => Or.inl ⟨_, rfl⟩
  | x :: l => by
    unfold evalNodes
    rcases call_cases p hp x with ⟨v, hv⟩ | hv <;> rw [hv]
    · rcases evalNodes_cases p hp l with ⟨w, hw⟩ | hw <;> rw [hw]
      · exact Or.inl ⟨_, rfl⟩
      · exact Or.inr rfl
    · exact Or.inr rfl

/-- A segment that lies outside the interval cannot be evaluated. -/
theorem estimate_out (p : PPoly ι) (f : ℝ → φ → ℝ) (s : ℝ × ℝ) (h1 : s.1 < s.2)
    (h2 : p.xmax ≤ s.1 ∨ s.2 ≤ p.xmin) : estimate kronrod31_15 p f s = .error .valueError := by
  have hx : (kronrod31_15.reseat s.1 s.2).x = kronrodX.map (nodeOf s) := by
    show (kronrodX.map fun q : ℚ => (q : ℝ)).map (fun x => (s.2 - s.1) / (1 - -1) * (x - (1 + -1) / 2) + (s.2 + s.1) / 2) = _
    rw [List.map_map]
    refine List.map_congr_left fun q _ => ?_
    show (s.2 - s.1) / (1 - -1) * ((q : ℝ) - (1 + -1) / 2) + (s.2 + s.1) / 2 = nodeOf s q
    unfold nodeOf
    ring
  have hne : kronrodX ≠ [] := by decide +kernel
  obtain ⟨q, rest, hq⟩ := List.exists_cons_of_ne_nil hne
  obtain ⟨hq1, hq2⟩ := kronrod_inside q (by rw [hq]; exact List.mem_cons_self)
  have hq1 : (-1 : ℝ) < q := by exact_mod_cast hq1
  have hq2 : (q : ℝ) < 1 := by exact_mod_cast hq2
  have hout : ¬ (p.xmin ≤ nodeOf s q ∧ nodeOf s q ≤ p.xmax) := by
    rintro ⟨h3, h4⟩
    unfold nodeOf at h3 h4
    rcases h2 with h2 | h2 <;> nlinarith
  unfold estimate
  simp only [hx]
  rw [hq, List.map_cons]
  unfold evalNodes
  rw [PPoly.call_out hout]

/-- An additional point outside the interval raises ValueError. -/
theorem C56_outside (p : PPoly ι) (hp : p.WF) (f : ℝ → φ → ℝ) (rtol : ℝ) (pts : List ℝ)
    (hout : ∃ x ∈ pts, x < p.xmin ∨ p.xmax < x) (hnum : (segments (allKnots p (some pts))).length ≤ 2000) :
    overlap p f rtol (some pts) = .error .valueError := by
  set L := allKnots p (some pts) with hL
  have hsort : L.Pairwise (· < ·) := (Finset.sortedLT_sort _).pairwise
  have hmem : ∀ x, x ∈ List.ofFn p.knots ∨ x ∈ pts → x ∈ L := fun x hx =>
    (Finset.mem_sort _).2 (List.mem_toFinset.2 (List.mem_append.2 hx))
  have m1 : p.xmin ∈ L := hmem _ (Or.inl ((List.mem_ofFn' _ _).2 ⟨0, rfl⟩))
  have m2 : p.xmax ∈ L := hmem _ (Or.inl ((List.mem_ofFn' _ _).2 ⟨Fin.last _, rfl⟩))
  obtain ⟨s, hs, h1, h2⟩ : ∃ s ∈ segments L, s.1 < s.2 ∧ (p.xmax ≤ s.1 ∨ s.2 ≤ p.xmin) := by
    obtain ⟨x, hx, hlt | hlt⟩ := hout
    · obtain ⟨s, hs, h1, h2⟩ := seg_before L hsort _ m1 x (hmem x (Or.inr hx)) hlt
      exact ⟨s, hs, by rw [h1]; exact h2, Or.inr h1.le⟩
    · obtain ⟨s, hs, h1, h2⟩ := seg_after L hsort _ m2 x (hmem x (Or.inr hx)) hlt
      exact ⟨s, hs, by rw [h1]; exact h2, Or.inl h1.ge⟩
  have hbad := estimate_out p f s h1 h2
  have hest : ∀ l : List (ℝ × ℝ), s ∈ l → estimates kronrod31_15 p f l = .error .valueError := by
    intro l
    induction l with
    | nil => intro h; cases h
    | cons t l ih =>
      intro hmem
      unfold estimates
      have hc : (∃ v, estimate kronrod31_15 p f t = .ok v) ∨ estimate kronrod31_15 p f t = .error .valueError := by
        unfold estimate
        simp only
        rcases evalNodes_cases p hp (kronrod31_15.reseat t.1 t.2).x with ⟨v, hv⟩ | hv <;> rw [hv]
        · exact Or.inl ⟨_, rfl⟩
        · exact Or.inr rfl
      rcases hc with ⟨v, hv⟩ | hv
      · rcases List.mem_cons.1 hmem with rfl | hmem
        · rw [hbad] at hv; cases hv
        · rw [hv, ih hmem]
      · rw [hv]
  unfold overlap computeOverlap
  simp only
  rw [if_neg (by push Not; exact ⟨by norm_num, hnum⟩)]
  unfold loop
  rw [if_neg (not_lt.2 hnum), hest _ hs]

/-- If the 15-point formula integrates the integrand on every subinterval up to `c` times its length (`c = 0`: exactly),
then without a warning the result is the integral over the whole interval up to `c` times its length. -/
theorem C56_exact (p : PPoly ι) (f : ℝ → φ → ℝ) (rtol : ℝ) (out : Outcome ι φ) (h : Accounts p f rtol out)
    (hw : out.warning = none) (l : ι) (q : φ) (c : ℝ)
    (hint : IntervalIntegrable (integrand p f l q) MeasureTheory.volume p.xmin p.xmax)
    (hc : ∀ s : ℝ × ℝ, p.xmin ≤ s.1 → s.1 < s.2 → s.2 ≤ p.xmax →
      |gauss15 (integrand p f l q) s - ∫ x in s.1..s.2, integrand p f l q x| ≤ c * (s.2 - s.1)) :
    |out.value l q - ∫ x in p.xmin..p.xmax, integrand p f l q x| ≤ c * (p.xmax - p.xmin) := by
  obtain ⟨done, pending, hpart, hval, -, hwp, -⟩ := h
  rw [hwp.1 hw, List.append_nil] at hpart
  have hb := hpart.bounds
  rw [hval, ← hpart.integral _ hint, ← hpart.sum_sub (fun x => x)]
  clear hpart hval
  induction done with
  | nil => simp
  | cons s done ih =>
    have h1 := ih fun s hs => hb s (List.mem_cons_of_mem _ hs)
    obtain ⟨b1, b2, b3⟩ := hb s List.mem_cons_self
    have h2 := hc s b1 b2 b3
    simp only [List.map_cons, List.sum_cons]
    rw [add_sub_add_comm, mul_add]
    exact (abs_add_le _ _).trans (add_le_add h2 h1)

/-- If the 15-point formula vanishes on all segments for one of the polynomials and all components of `f` (for example,
if `f` is zero), there always is a warning: the relative error is 0/0. -/
theorem C56_zero (p : PPoly ι) (f : ℝ → φ → ℝ) (rtol : ℝ) (out : Outcome ι φ) (h : Accounts p f rtol out)
    (hlt : p.xmin < p.xmax) (l : ι) (hz : ∀ q s, gauss15 (integrand p f l q) s = 0) :
    out.warning ≠ none ∧ ∀ l q, out.value l q = 0 := by
  obtain ⟨done, pending, hpart, hval, -, hwp, hloc⟩ := h
  have hd : done = [] := by
    rw [List.eq_nil_iff_forall_not_mem]
    intro s hs
    obtain ⟨P, M, -, -, hM⟩ := hloc s hs
    obtain ⟨h1, h2, -⟩ := hM l
    have : (P.map fun t => maxF fun q => |gauss15 (integrand p f l q) t|).sum = 0 := by
      simp [hz, maxF]
    linarith
  subst hd
  refine ⟨fun hw => ?_, fun l q => by rw [hval]; rfl⟩
  rw [hwp.1 hw] at hpart
  obtain ⟨m, hm, hc⟩ := hpart
  have hmn : m = [] := by simpa using hm
  rw [hmn] at hc
  exact hlt.ne hc

/-- The functions `1` and `x` with the function `exp`, with an additional point. -/
example : ∃ out, overlap exPair (fun x (_ : Fin 1) => Real.exp x) 1e-10 (some [0.5]) = .ok out ∧
    Accounts exPair (fun x (_ : Fin 1) => Real.exp x) 1e-10 out := by
  refine C56_overlap exPair exPair_WF _ _ _ ?_ ?_
  · intro pts hpts x hx
    rw [← Option.some.inj hpts, List.mem_singleton] at hx
    subst hx
    show (-1 : ℝ) ≤ 0.5 ∧ (0.5 : ℝ) ≤ 1
    norm_num
  · unfold segments allKnots
    rw [List.length_zip, List.length_tail, Finset.length_sort]
    have := List.toFinset_card_le (List.ofFn exPair.knots ++ [(0.5 : ℝ)])
    have h2 : (List.ofFn exPair.knots ++ [(0.5 : ℝ)]).length = 3 := by simp [exPair]
    omega

end Verif.Props
