import Verif.Model.Roots
import Mathlib.Data.List.Forall2
import Mathlib.Tactic.Linarith
import Mathlib.Tactic.FieldSimp
import Mathlib.Tactic.Ring
import Mathlib.Algebra.Order.Archimedean.Basic
/-! Helper lemmas for the bisection loops. -/

namespace Verif.Roots
open Verif Verif.Np

variable {K : Type _} [Field K] [LinearOrder K] [IsStrictOrderedRing K]

theorem forall₂_filter_split {α β : Type _} (R : α → β → Prop) (p : α → Bool) :
    ∀ (st : List α) (ms1 ms2 : List β), List.Forall₂ R (st.filter p) ms1 →
      List.Forall₂ R (st.filter fun x => !p x) ms2 →
      ∃ ms, (ms1 ++ ms2).Perm ms ∧ List.Forall₂ R st ms := by
  intro st
  induction st with
  | nil =>
    intro ms1 ms2 h1 h2
    simp only [List.filter_nil, List.forall₂_nil_left_iff] at h1 h2
    subst h1 h2
    exact ⟨[], by simp, .nil⟩
  | cons x st ih =>
    intro ms1 ms2 h1 h2
    by_cases hx : p x = true
    · have e1 : (x :: st).filter p = x :: st.filter p := by simp [hx]
      have e2 : (x :: st).filter (fun x => !p x) = st.filter fun x => !p x := by simp [hx]
      rw [e1, List.forall₂_cons_left_iff] at h1
      obtain ⟨m, ms1', hm, h1', rfl⟩ := h1
      rw [e2] at h2
      obtain ⟨ms, hp, hf⟩ := ih ms1' ms2 h1' h2
      exact ⟨m :: ms, by simpa using hp, .cons hm hf⟩
    · have hx' : p x = false := by simpa using hx
      have e1 : (x :: st).filter p = st.filter p := by simp [hx']
      have e2 : (x :: st).filter (fun x => !p x) = x :: st.filter fun x => !p x := by simp [hx']
      rw [e2, List.forall₂_cons_left_iff] at h2
      obtain ⟨m, ms2', hm, h2', rfl⟩ := h2
      rw [e1] at h1
      obtain ⟨ms, hp, hf⟩ := ih ms1 ms2' h1 h2'
      exact ⟨m :: ms, (List.perm_middle).trans (by simpa using hp), .cons hm hf⟩

/-- The bracket invariant: values are those of `f`, sign bits differ, `a < b`. -/
structure Bracket.Inv {X : Type _} [LT X] (f : X → FVal K) (br : Bracket X K) : Prop where
  lt : br.a < br.b
  fa : br.fa = f br.a
  fb : br.fb = f br.b
  ne : br.fa.signbit ≠ br.fb.signbit

theorem Bracket.Inv.step {X : Type _} [LT X] {f : X → FVal K} {br : Bracket X K} (h : br.Inv f)
    {mid : X} (h1 : br.a < mid) (h2 : mid < br.b) : (br.step f mid).Inv f := by
  unfold Bracket.step
  split
  · rename_i hs
    exact ⟨h1, h.fa, rfl, by simpa using hs⟩
  · rename_i hs
    have hs' : br.fa.signbit = (f mid).signbit := by simpa using hs
    exact ⟨h2, rfl, h.fb, by rw [← hs']; exact h.ne⟩

theorem midZ_eq (br : Bracket ℤ K) : br.midZ = (br.a + br.b) / 2 := by
  unfold Bracket.midZ
  rw [Int.fdiv_eq_ediv_of_nonneg _ (by decide)]

theorem foundZ_iff {br : Bracket ℤ K} (h : br.a < br.b) : br.foundZ = true ↔ br.b = br.a + 1 := by
  unfold Bracket.foundZ
  rw [midZ_eq]
  simp only [beq_iff_eq]
  omega

/-- Total width, the termination measure. -/
def widthSum (st : List (Bracket ℤ K)) : ℕ := (st.map fun br => (br.b - br.a).toNat).sum

theorem widthSum_filter_add (st : List (Bracket ℤ K)) (p : Bracket ℤ K → Bool) :
    widthSum (st.filter p) + widthSum (st.filter fun x => !p x) = widthSum st := by
  induction st with
  | nil => rfl
  | cons x st ih =>
    unfold widthSum at *
    by_cases hx : p x = true
    · simp [hx] at ih ⊢; omega
    · have hx' : p x = false := by simpa using hx
      simp [hx'] at ih ⊢; omega

theorem widthSum_pos {st : List (Bracket ℤ K)} (h : ∀ br ∈ st, br.a < br.b) (hne : st ≠ []) :
    0 < widthSum st := by
  cases st with
  | nil => exact absurd rfl hne
  | cons x st =>
    have := h x (by simp)
    unfold widthSum
    simp only [List.map_cons, List.sum_cons]
    omega

theorem widthSum_map_lt {st : List (Bracket ℤ K)} (g : Bracket ℤ K → Bracket ℤ K)
    (h : ∀ br ∈ st, ((g br).b - (g br).a).toNat < (br.b - br.a).toNat) (hne : st ≠ []) :
    widthSum (st.map g) < widthSum st := by
  induction st with
  | nil => exact absurd rfl hne
  | cons x st ih =>
    have hx := h x (by simp)
    unfold widthSum at *
    simp only [List.map_cons, List.sum_cons]
    by_cases hst : st = []
    · subst hst; simpa using hx
    · have := ih (fun br hbr => h br (by simp [hbr])) hst
      omega

/-- Specification of the discrete search on one bracket. -/
def GoodZ (f : ℤ → FVal K) (br : Bracket ℤ K) (m : ℤ) : Prop :=
  br.a ≤ m ∧ m < br.b ∧ (f m).signbit ≠ (f (m + 1)).signbit

theorem bisectDiscr_spec (f : ℤ → FVal K) (st : List (Bracket ℤ K)) (hne : st ≠ [])
    (hinv : ∀ br ∈ st, br.Inv f) :
    ∃ rs, bisectDiscr f st = some rs ∧ ∃ ms, rs.Perm ms ∧ List.Forall₂ (GoodZ f) st ms := by
  induction hN : widthSum st using Nat.strong_induction_on generalizing st with
  | _ N ih =>
  rw [bisectDiscr]
  by_cases hany : st.any Bracket.foundZ = true
  · rw [if_pos hany]
    have hfound : List.Forall₂ (GoodZ f) (st.filter Bracket.foundZ)
        ((st.filter Bracket.foundZ).map Bracket.midZ) := by
      rw [List.forall₂_map_right_iff, List.forall₂_same]
      intro br hbr
      rw [List.mem_filter] at hbr
      have hi := hinv br hbr.1
      have hb := (foundZ_iff hi.lt).1 hbr.2
      have hm : br.midZ = br.a := by
        have := hbr.2; unfold Bracket.foundZ at this; simpa using (beq_iff_eq.1 this).symm
      unfold GoodZ
      rw [hm, ← hb, ← hi.fa, ← hi.fb]
      exact ⟨le_refl _, hi.lt, hi.ne⟩
    by_cases hall : st.all Bracket.foundZ = true
    · simp only [hall, if_true]
      have e : st.filter Bracket.foundZ = st := List.filter_eq_self.2 (by simpa using hall)
      rw [e] at hfound ⊢
      exact ⟨_, rfl, _, List.Perm.refl _, hfound⟩
    · simp only [hall, Bool.false_eq_true, if_false]
      have hlt : widthSum (st.filter fun br => !br.foundZ) < N := by
        have h1 := widthSum_filter_add st Bracket.foundZ
        have h2 : 0 < widthSum (st.filter Bracket.foundZ) := by
          apply widthSum_pos
          · intro br hbr; exact (hinv br (List.mem_of_mem_filter hbr)).lt
          · intro h
            rw [List.filter_eq_nil_iff] at h
            rw [List.any_eq_true] at hany
            obtain ⟨x, hx, hx2⟩ := hany
            exact h x hx hx2
        omega
      have hne2 : (st.filter fun br => !br.foundZ) ≠ [] := by
        intro h
        rw [List.filter_eq_nil_iff] at h
        apply hall
        rw [List.all_eq_true]
        intro x hx
        simpa using h x hx
      obtain ⟨rs, hrs, ms, hp, hf⟩ := ih _ hlt _ hne2
        (fun br hbr => hinv br (List.mem_of_mem_filter hbr)) rfl
      obtain ⟨ms', hp', hf'⟩ := forall₂_filter_split _ _ st _ _ hfound hf
      refine ⟨(st.filter Bracket.foundZ).map Bracket.midZ ++ rs, ?_, ms', ?_, hf'⟩
      · rw [hrs]; rfl
      · exact (hp.append_left _).trans hp'
  · rw [if_neg hany]
    have hnf : ∀ br ∈ st, br.b - br.a ≥ 2 := by
      intro br hbr
      have h1 : br.foundZ ≠ true := by
        intro h; apply hany; rw [List.any_eq_true]; exact ⟨br, hbr, h⟩
      have h2 := (hinv br hbr).lt
      rw [Ne, foundZ_iff h2] at h1
      omega
    have hmid : ∀ br ∈ st, br.a < br.midZ ∧ br.midZ < br.b := by
      intro br hbr
      have := hnf br hbr
      rw [midZ_eq]; omega
    have hstep : ∀ br ∈ st, br.a ≤ (br.step f br.midZ).a ∧ (br.step f br.midZ).b ≤ br.b ∧
        ((br.step f br.midZ).b - (br.step f br.midZ).a).toNat < (br.b - br.a).toNat := by
      intro br hbr
      have h1 := hmid br hbr
      unfold Bracket.step
      split <;> dsimp only <;> omega
    obtain ⟨rs, hrs, ms, hp, hf⟩ := ih _ (hN ▸ widthSum_map_lt _ (fun br hbr => (hstep br hbr).2.2) hne)
      (st.map fun br => br.step f br.midZ) (by simpa using hne)
      (by
        intro br hbr
        rw [List.mem_map] at hbr
        obtain ⟨br', hbr', rfl⟩ := hbr
        exact (hinv br' hbr').step (hmid br' hbr').1 (hmid br' hbr').2) rfl
    refine ⟨rs, hrs, ms, hp, ?_⟩
    rw [List.forall₂_map_left_iff] at hf
    rw [List.forall₂_iff_get] at hf ⊢
    refine ⟨hf.1, fun i h1 h2 => ?_⟩
    have h3 := hf.2 i h1 h2
    have h4 := hstep _ (List.get_mem st ⟨i, h1⟩)
    exact ⟨h4.1.trans h3.1, lt_of_lt_of_le h3.2.1 h4.2.1, h3.2.2⟩

/-- Specification of the continuous search on one bracket: a final bracket `[a', b']` of width
below `xeps`, inside the original one, with a sign-bit change, one end of which is the result. -/
def GoodC (f : K → FVal K) (xeps : K) (br : Bracket K K) (m : K) : Prop :=
  br.a < m ∧ m < br.b ∧ ∃ a' b', br.a ≤ a' ∧ a' < b' ∧ b' ≤ br.b ∧ b' - a' < xeps ∧
    (f a').signbit ≠ (f b').signbit ∧ (m = a' ∨ m = b')

theorem midC_bounds {br : Bracket K K} (h : br.a < br.b) : br.a < br.midC ∧ br.midC < br.b := by
  unfold Bracket.midC
  constructor <;> linarith

theorem bisectCont_unfold (f : K → FVal K) (xeps : K) (st : List (Bracket K K)) :
    bisectCont f xeps st =
      if st.any (fun br => foundC xeps (br.step f br.midC)) then
        if st.all (fun br => foundC xeps (br.step f br.midC)) then
          some ((st.filter fun br => foundC xeps (br.step f br.midC)).map Bracket.midC)
        else (bisectCont f xeps ((st.filter fun br => !foundC xeps (br.step f br.midC)).map
              fun br => br.step f br.midC)).map
            ((st.filter fun br => foundC xeps (br.step f br.midC)).map Bracket.midC ++ ·)
      else bisectCont f xeps (st.map fun br => br.step f br.midC) := by
  rw [bisectCont]
  simp only [List.any_map, List.all_map, List.filter_map, List.map_map, Function.comp_def]
  split
  · split
    · rfl
    · cases bisectCont f xeps ((st.filter fun br => !foundC xeps (br.step f br.midC)).map
              fun br => br.step f br.midC) <;> rfl
  · rfl

theorem bisectCont_spec (f : K → FVal K) (xeps : K) (n : ℕ)
    (st : List (Bracket K K)) (hne : st ≠ []) (hinv : ∀ br ∈ st, br.Inv f)
    (hw : ∀ br ∈ st, br.b - br.a < 2 ^ n * xeps) :
    ∃ rs, bisectCont f xeps st = some rs ∧ ∃ ms, rs.Perm ms ∧
      List.Forall₂ (GoodC f xeps) st ms := by
  induction hN : st.length + n using Nat.strong_induction_on generalizing st n with
  | _ N ih =>
  have hxe : 0 < xeps := by
    cases st with
    | nil => exact absurd rfl hne
    | cons x st =>
      have h1 := hw x (by simp)
      have h2 := (hinv x (by simp)).lt
      have h3 : (0 : K) < 2 ^ n * xeps := by linarith
      exact (mul_pos_iff_of_pos_left (by positivity)).1 h3
  have hmid : ∀ br ∈ st, br.a < br.midC ∧ br.midC < br.b := fun br hbr =>
    midC_bounds (hinv br hbr).lt
  have hstep : ∀ br ∈ st, (br.step f br.midC).Inv f := fun br hbr =>
    (hinv br hbr).step (hmid br hbr).1 (hmid br hbr).2
  have hsub : ∀ br ∈ st, br.a ≤ (br.step f br.midC).a ∧ (br.step f br.midC).b ≤ br.b ∧
      (br.midC = (br.step f br.midC).a ∨ br.midC = (br.step f br.midC).b) ∧
      (br.step f br.midC).b - (br.step f br.midC).a = (br.b - br.a) / 2 := by
    intro br hbr
    have h1 := hmid br hbr
    unfold Bracket.step
    split
    · refine ⟨le_refl _, h1.2.le, Or.inr rfl, ?_⟩
      simp only [Bracket.midC]; field_simp; ring
    · refine ⟨h1.1.le, le_refl _, Or.inl rfl, ?_⟩
      simp only [Bracket.midC]; field_simp; ring
  have hlift : ∀ br ∈ st, ∀ m, GoodC f xeps (br.step f br.midC) m → GoodC f xeps br m := by
    intro br hbr m ⟨h1, h2, a', b', h3, h4, h5, h6, h7, h8⟩
    have h9 := hsub br hbr
    exact ⟨lt_of_le_of_lt h9.1 h1, lt_of_lt_of_le h2 h9.2.1, a', b', h9.1.trans h3, h4,
      h5.trans h9.2.1, h6, h7, h8⟩
  have hfound : List.Forall₂ (GoodC f xeps)
      (st.filter fun br => foundC xeps (br.step f br.midC))
      ((st.filter fun br => foundC xeps (br.step f br.midC)).map Bracket.midC) := by
    rw [List.forall₂_map_right_iff, List.forall₂_same]
    intro br hbr
    rw [List.mem_filter] at hbr
    have h1 := hmid br hbr.1
    have h2 := hsub br hbr.1
    have h3 := hstep br hbr.1
    have h4 : (br.step f br.midC).b - (br.step f br.midC).a < xeps := by
      simpa [foundC] using hbr.2
    exact ⟨h1.1, h1.2, _, _, h2.1, h3.lt, h2.2.1, h4, by rw [← h3.fa, ← h3.fb]; exact h3.ne,
      h2.2.2.1⟩
  rw [bisectCont_unfold]
  by_cases hany : st.any (fun br => foundC xeps (br.step f br.midC)) = true
  · rw [if_pos hany]
    by_cases hall : st.all (fun br => foundC xeps (br.step f br.midC)) = true
    · rw [if_pos hall]
      have e : st.filter (fun br => foundC xeps (br.step f br.midC)) = st :=
        List.filter_eq_self.2 (by simpa using hall)
      rw [e] at hfound ⊢
      exact ⟨_, rfl, _, List.Perm.refl _, hfound⟩
    · rw [if_neg hall]
      have hlen : (st.filter fun br => !foundC xeps (br.step f br.midC)).length < st.length := by
        rw [List.any_eq_true] at hany
        obtain ⟨x, hx, hx2⟩ := hany
        apply List.length_filter_lt_length_iff_exists.2
        exact ⟨x, hx, by simp [hx2]⟩
      have hne2 : (st.filter fun br => !foundC xeps (br.step f br.midC)) ≠ [] := by
        intro h
        rw [List.filter_eq_nil_iff] at h
        apply hall
        rw [List.all_eq_true]
        intro x hx
        simpa using h x hx
      obtain ⟨rs, hrs, ms, hp, hf⟩ := ih
        ((st.filter fun br => !foundC xeps (br.step f br.midC)).length + n) (by omega) n
        ((st.filter fun br => !foundC xeps (br.step f br.midC)).map fun br => br.step f br.midC)
        (by simpa using hne2)
        (by
          intro br hbr
          rw [List.mem_map] at hbr
          obtain ⟨br', hbr', rfl⟩ := hbr
          exact hstep br' (List.mem_of_mem_filter hbr'))
        (by
          intro br hbr
          rw [List.mem_map] at hbr
          obtain ⟨br', hbr', rfl⟩ := hbr
          have h1 := List.mem_of_mem_filter hbr'
          rw [(hsub br' h1).2.2.2]
          have := hw br' h1
          have := (hinv br' h1).lt
          linarith)
        (by simp)
      have hf' : List.Forall₂ (GoodC f xeps)
          (st.filter fun br => !foundC xeps (br.step f br.midC)) ms := by
        rw [List.forall₂_map_left_iff] at hf
        rw [List.forall₂_iff_get] at hf ⊢
        refine ⟨hf.1, fun i h1 h2 => ?_⟩
        exact hlift _ (List.mem_of_mem_filter (List.get_mem _ ⟨i, h1⟩)) _ (hf.2 i h1 h2)
      obtain ⟨ms', hp', hf''⟩ := forall₂_filter_split _ _ st _ _ hfound hf'
      refine ⟨_, by rw [hrs]; rfl, ms', ?_, hf''⟩
      exact (hp.append_left _).trans hp'
  · rw [if_neg hany]
    have hnf : ∀ br ∈ st, xeps ≤ (br.b - br.a) / 2 := by
      intro br hbr
      rw [← (hsub br hbr).2.2.2]
      by_contra h
      apply hany
      rw [List.any_eq_true]
      exact ⟨br, hbr, by simpa [foundC] using h⟩
    cases n with
    | zero =>
      exfalso
      cases st with
      | nil => exact hne rfl
      | cons x st =>
        have h1 := hw x (by simp)
        have h2 := hnf x (by simp)
        simp only [pow_zero, one_mul] at h1
        linarith
    | succ n =>
      obtain ⟨rs, hrs, ms, hp, hf⟩ := ih (st.length + n) (by omega) n
        (st.map fun br => br.step f br.midC) (by simpa using hne)
        (by
          intro br hbr
          rw [List.mem_map] at hbr
          obtain ⟨br', hbr', rfl⟩ := hbr
          exact hstep br' hbr')
        (by
          intro br hbr
          rw [List.mem_map] at hbr
          obtain ⟨br', hbr', rfl⟩ := hbr
          rw [(hsub br' hbr').2.2.2]
          have := hw br' hbr'
          rw [pow_succ] at this
          linarith)
        (by simp)
      refine ⟨rs, hrs, ms, hp, ?_⟩
      rw [List.forall₂_map_left_iff] at hf
      rw [List.forall₂_iff_get] at hf ⊢
      refine ⟨hf.1, fun i h1 h2 => ?_⟩
      exact hlift _ (List.get_mem st ⟨i, h1⟩) _ (hf.2 i h1 h2)

end Verif.Roots
