import Verif.Model.RootsFl
import Verif.Lemmas.FindAll
import Verif.Lemmas.Float
/-! Bisection in floating-point arithmetic. -/

namespace Verif.Roots
open Verif Verif.Np Verif.Spec

theorem Bracket.Inv.step_weak {f : ℝ → FVal ℝ} {br : Bracket ℝ ℝ} (h : br.Inv f)
    {mid : ℝ} (h1 : br.a ≤ mid) (h2 : mid ≤ br.b) : (br.step f mid).Inv f := by
  unfold Bracket.step
  split
  · rename_i hs
    have hs' : br.fa.signbit ≠ (f mid).signbit := by simpa using hs
    refine ⟨lt_of_le_of_ne h1 ?_, h.fa, rfl, hs'⟩
    intro he
    exact hs' (by rw [h.fa]; exact congrArg (fun x => (f x).signbit) he)
  · rename_i hs
    have hs' : br.fa.signbit = (f mid).signbit := by simpa using hs
    refine ⟨lt_of_le_of_ne h2 ?_, rfl, h.fb, by rw [← hs']; exact h.ne⟩
    intro he
    exact h.ne (by rw [hs', h.fb]; exact congrArg (fun x => (f x).signbit) he)

theorem bisectContFl_unfold (rd : ℝ → ℝ) (f : ℝ → FVal ℝ) (xeps : ℝ) (st : List (Bracket ℝ ℝ)) :
    bisectContFl rd f xeps st =
      if st.any (fun br => foundFl rd xeps (br.step f (br.midFl rd))) then
        if st.all (fun br => foundFl rd xeps (br.step f (br.midFl rd))) then
          some ((st.filter fun br => foundFl rd xeps (br.step f (br.midFl rd))).map (Bracket.midFl rd))
        else (bisectContFl rd f xeps ((st.filter fun br => !foundFl rd xeps (br.step f (br.midFl rd))).map
              fun br => br.step f (br.midFl rd))).map
            ((st.filter fun br => foundFl rd xeps (br.step f (br.midFl rd))).map (Bracket.midFl rd) ++ ·)
      else bisectContFl rd f xeps (st.map fun br => br.step f (br.midFl rd)) := by
  rw [bisectContFl]
  simp only [List.any_map, List.all_map, List.filter_map, List.map_map, Function.comp_def]
  split
  · split
    · rfl
    · cases bisectContFl rd f xeps ((st.filter fun br => !foundFl rd xeps (br.step f (br.midFl rd))).map
              fun br => br.step f (br.midFl rd)) <;> rfl
  · rfl

/-- A bracket of floating-point numbers of magnitude at most `M`. -/
structure Bracket.Fl (p : ℕ) (emin : ℤ) (M : ℝ) (br : Bracket ℝ ℝ) : Prop where
  a : IsFloat p emin br.a
  b : IsFloat p emin br.b
  la : |br.a| ≤ M
  lb : |br.b| ≤ M

/-- There is a floating-point number inside. -/
def HasInside (p : ℕ) (emin : ℤ) (a b : ℝ) : Prop := ∃ c, IsFloat p emin c ∧ a < c ∧ c < b

/-- Specification of the search on one bracket. -/
def GoodFl (p : ℕ) (emin : ℤ) (f : ℝ → FVal ℝ) (xeps : ℝ) (br : Bracket ℝ ℝ) (m : ℝ) : Prop :=
  br.a ≤ m ∧ m ≤ br.b ∧ (HasInside p emin br.a br.b → br.a < m ∧ m < br.b) ∧
    ∃ a' b', IsFloat p emin a' ∧ IsFloat p emin b' ∧ br.a ≤ a' ∧ a' < b' ∧ b' ≤ br.b ∧ b' - a' < xeps ∧
    (f a').signbit ≠ (f b').signbit ∧ (m = a' ∨ m = b')

section
variable {p : ℕ} {emin : ℤ} {rd : ℝ → ℝ} {f : ℝ → FVal ℝ} {M : ℝ}

/-- As long as the bracket counts as too wide, there is a number inside. -/
theorem inside_of_not_found (hr : RoundsToNearest p emin rd) (hp : 0 < p) (hM : (2:ℝ) ^ (emin + 2 * p) ≤ M) {br : Bracket ℝ ℝ}
    (hfl : br.Fl p emin M) (hlt : br.a < br.b) (hnf : foundFl rd ((2:ℝ) ^ (1 - (p:ℤ)) * M) br = false) :
    HasInside p emin br.a br.b := by
  unfold foundFl at hnf
  rw [decide_eq_false_iff_not, not_lt] at hnf
  rcases le_or_gt ((2:ℝ) ^ (1 - (p:ℤ)) * M) (br.b - br.a) with h | h
  · refine exists_between_of_far hp (le_trans ?_ hM) hfl.la hfl.lb h
    exact zpow_le_zpow_right₀ (by norm_num) (by omega)
  · have hne : ¬ IsFloat p emin (br.b - br.a) := by
      intro hf
      rw [hr.rd_eq hf] at hnf
      linarith
    rcases lt_or_ge br.a 0 with ha | ha
    · rcases lt_or_ge 0 br.b with hb | hb
      · exact ⟨0, isFloat_zero, ha, hb⟩
      · rcases le_or_gt (-br.a) (2 * -br.b) with h2 | h2
        · exact absurd (by
            have := sterbenz hfl.b.neg hfl.a.neg (by linarith) (by linarith) h2
            rwa [show -br.a - -br.b = br.b - br.a by ring] at this) hne
        · rcases hb.lt_or_eq with hb | hb
          · exact ⟨2 * br.b, hfl.b.two_mul, by linarith, by linarith⟩
          · exact absurd (by rw [hb, zero_sub]; exact hfl.a.neg) hne
    · rcases le_or_gt br.b (2 * br.a) with h2 | h2
      · exact absurd (sterbenz hfl.a hfl.b ha hlt.le h2) hne
      · rcases ha.lt_or_eq with ha | ha
        · exact ⟨2 * br.a, hfl.a.two_mul, by linarith, h2⟩
        · exact absurd (by rw [← ha, sub_zero]; exact hfl.b) hne

theorem bisectContFl_spec (hr : RoundsToNearest p emin rd) (hp : 0 < p) (hM : (2:ℝ) ^ (emin + 2 * p) ≤ M)
    (hMf : IsFloat p emin M) (n : ℕ) (st : List (Bracket ℝ ℝ)) (hne : st ≠ []) (hinv : ∀ br ∈ st, br.Inv f)
    (hfl : ∀ br ∈ st, br.Fl p emin M) (hw : ∀ br ∈ st, br.b - br.a ≤ n * (2:ℝ) ^ emin) :
    ∃ rs, bisectContFl rd f ((2:ℝ) ^ (1 - (p:ℤ)) * M) st = some rs ∧ ∃ ms, rs.Perm ms ∧
      List.Forall₂ (GoodFl p emin f ((2:ℝ) ^ (1 - (p:ℤ)) * M)) st ms := by
  induction n using Nat.strong_induction_on generalizing st with
  | _ n ih =>
  set xeps := (2:ℝ) ^ (1 - (p:ℤ)) * M with hxe
  have hxf : IsFloat p emin xeps := isFloat_scaled hMf hM
  have hq : (0 : ℝ) < (2 : ℝ) ^ emin := by positivity
  have hmid : ∀ br ∈ st, br.a ≤ br.midFl rd ∧ br.midFl rd ≤ br.b := fun br hbr =>
    hr.mid_mem (hfl br hbr).a (hfl br hbr).b (hinv br hbr).lt.le
  have hmidf : ∀ br ∈ st, IsFloat p emin (br.midFl rd) := fun br hbr => (hr _).1
  have hmidin : ∀ br ∈ st, HasInside p emin br.a br.b → br.a < br.midFl rd ∧ br.midFl rd < br.b := by
    rintro br hbr ⟨c, hc, h1, h2⟩
    exact hr.mid_between hp (hfl br hbr).a (hfl br hbr).b hc h1 h2
  have hstep : ∀ br ∈ st, (br.step f (br.midFl rd)).Inv f := fun br hbr =>
    (hinv br hbr).step_weak (hmid br hbr).1 (hmid br hbr).2
  have hsub : ∀ br ∈ st, br.a ≤ (br.step f (br.midFl rd)).a ∧ (br.step f (br.midFl rd)).b ≤ br.b ∧
      (br.midFl rd = (br.step f (br.midFl rd)).a ∨ br.midFl rd = (br.step f (br.midFl rd)).b) ∧
      (br.step f (br.midFl rd)).Fl p emin M ∧ (HasInside p emin br.a br.b →
        (br.step f (br.midFl rd)).b - (br.step f (br.midFl rd)).a < br.b - br.a) := by
    intro br hbr
    have h1 := hmid br hbr
    have h2 := hfl br hbr
    have h3 : |br.midFl rd| ≤ M := by
      have := abs_le.1 h2.la
      have := abs_le.1 h2.lb
      rw [abs_le]; constructor <;> linarith [h1.1, h1.2]
    have h4 := hmidin br hbr
    unfold Bracket.step
    split
    · exact ⟨le_refl _, h1.2, Or.inr rfl, ⟨h2.a, hmidf br hbr, h2.la, h3⟩, fun h => by
        have := h4 h; dsimp only; linarith [this.2]⟩
    · exact ⟨h1.1, le_refl _, Or.inl rfl, ⟨hmidf br hbr, h2.b, h3, h2.lb⟩, fun h => by
        have := h4 h; dsimp only; linarith [this.1]⟩
  have hinside : ∀ br ∈ st, foundFl rd xeps (br.step f (br.midFl rd)) = false →
      HasInside p emin (br.step f (br.midFl rd)).a (br.step f (br.midFl rd)).b := fun br hbr h =>
    inside_of_not_found hr hp hM (hsub br hbr).2.2.2.1 (hstep br hbr).lt h
  have hin0 : ∀ br ∈ st, foundFl rd xeps (br.step f (br.midFl rd)) = false → HasInside p emin br.a br.b := by
    intro br hbr h
    obtain ⟨c, hc, h1, h2⟩ := hinside br hbr h
    exact ⟨c, hc, (hsub br hbr).1.trans_lt h1, h2.trans_le (hsub br hbr).2.1⟩
  have hdec : ∀ br ∈ st, foundFl rd xeps (br.step f (br.midFl rd)) = false → 0 < n ∧
      (br.step f (br.midFl rd)).b - (br.step f (br.midFl rd)).a ≤ ((n - 1 : ℕ) : ℝ) * (2:ℝ) ^ emin := by
    intro br hbr h
    have h1 := (hsub br hbr).2.2.2.2 (hin0 br hbr h)
    have h2 := hw br hbr
    obtain ⟨i, hi⟩ := (hsub br hbr).2.2.2.1.a.multiple
    obtain ⟨j, hj⟩ := (hsub br hbr).2.2.2.1.b.multiple
    have h3 := (hstep br hbr).lt
    rw [hi, hj] at h1 h3 ⊢
    have h4 : ((j - i : ℤ) : ℝ) * (2:ℝ) ^ emin < ((n : ℤ) : ℝ) * (2:ℝ) ^ emin := by
      push_cast; linarith [sub_mul (j:ℝ) i ((2:ℝ) ^ emin)]
    have h5 : j - i < n := by exact_mod_cast lt_of_mul_lt_mul_right h4 hq.le
    have h6 : i < j := by exact_mod_cast lt_of_mul_lt_mul_right h3 hq.le
    refine ⟨by omega, ?_⟩
    rw [← sub_mul]
    refine mul_le_mul_of_nonneg_right ?_ hq.le
    have : j - i ≤ ((n - 1 : ℕ) : ℤ) := by omega
    exact_mod_cast this
  have hlift : ∀ br ∈ st, foundFl rd xeps (br.step f (br.midFl rd)) = false → ∀ m,
      GoodFl p emin f xeps (br.step f (br.midFl rd)) m → GoodFl p emin f xeps br m := by
    intro br hbr hnf m ⟨h1, h2, h2', a', b', ha', hb', h3, h4, h5, h6, h7, h8⟩
    have h9 := hsub br hbr
    have h10 := h2' (hinside br hbr hnf)
    exact ⟨h9.1.trans h1, h2.trans h9.2.1, fun _ => ⟨h9.1.trans_lt h10.1, h10.2.trans_le h9.2.1⟩, a', b', ha', hb',
      h9.1.trans h3, h4, h5.trans h9.2.1, h6, h7, h8⟩
  have hfound : List.Forall₂ (GoodFl p emin f xeps)
      (st.filter fun br => foundFl rd xeps (br.step f (br.midFl rd)))
      ((st.filter fun br => foundFl rd xeps (br.step f (br.midFl rd))).map (Bracket.midFl rd)) := by
    rw [List.forall₂_map_right_iff, List.forall₂_same]
    intro br hbr
    rw [List.mem_filter] at hbr
    have h1 := hmid br hbr.1
    have h2 := hsub br hbr.1
    have h3 := hstep br hbr.1
    have h4 : (br.step f (br.midFl rd)).b - (br.step f (br.midFl rd)).a < xeps := by
      have : rd ((br.step f (br.midFl rd)).b - (br.step f (br.midFl rd)).a) < xeps := by
        simpa [foundFl] using hbr.2
      by_contra hc
      push Not at hc
      exact absurd (hr.le_rd hxf hc) (not_le.2 this)
    exact ⟨h1.1, h1.2, hmidin br hbr.1, _, _, h2.2.2.2.1.a, h2.2.2.2.1.b, h2.1, h3.lt, h2.2.1, h4,
      by rw [← h3.fa, ← h3.fb]; exact h3.ne, h2.2.2.1⟩
  rw [bisectContFl_unfold]
  by_cases hany : st.any (fun br => foundFl rd xeps (br.step f (br.midFl rd))) = true
  · rw [if_pos hany]
    by_cases hall : st.all (fun br => foundFl rd xeps (br.step f (br.midFl rd))) = true
    · rw [if_pos hall]
      have e : st.filter (fun br => foundFl rd xeps (br.step f (br.midFl rd))) = st :=
        List.filter_eq_self.2 (by simpa using hall)
      rw [e] at hfound ⊢
      exact ⟨_, rfl, _, List.Perm.refl _, hfound⟩
    · rw [if_neg hall]
      have hne2 : (st.filter fun br => !foundFl rd xeps (br.step f (br.midFl rd))) ≠ [] := by
        intro h
        rw [List.filter_eq_nil_iff] at h
        apply hall
        rw [List.all_eq_true]
        intro x hx
        simpa using h x hx
      have hmem : ∀ br ∈ st.filter fun br => !foundFl rd xeps (br.step f (br.midFl rd)),
          br ∈ st ∧ foundFl rd xeps (br.step f (br.midFl rd)) = false := by
        intro br hbr
        rw [List.mem_filter] at hbr
        exact ⟨hbr.1, by simpa using hbr.2⟩
      obtain ⟨x, hx⟩ := List.exists_mem_of_ne_nil _ hne2
      have hn0 := (hdec x (hmem x hx).1 (hmem x hx).2).1
      obtain ⟨rs, hrs, ms, hpm, hf⟩ := ih (n - 1) (by omega)
        ((st.filter fun br => !foundFl rd xeps (br.step f (br.midFl rd))).map fun br => br.step f (br.midFl rd))
        (by simpa using hne2)
        (by
          intro br hbr
          rw [List.mem_map] at hbr
          obtain ⟨br', hbr', rfl⟩ := hbr
          exact hstep br' (hmem br' hbr').1)
        (by
          intro br hbr
          rw [List.mem_map] at hbr
          obtain ⟨br', hbr', rfl⟩ := hbr
          exact (hsub br' (hmem br' hbr').1).2.2.2.1)
        (by
          intro br hbr
          rw [List.mem_map] at hbr
          obtain ⟨br', hbr', rfl⟩ := hbr
          exact (hdec br' (hmem br' hbr').1 (hmem br' hbr').2).2)
      rw [List.forall₂_map_left_iff] at hf
      have hf2 : List.Forall₂ (GoodFl p emin f xeps)
          (st.filter fun br => !foundFl rd xeps (br.step f (br.midFl rd))) ms := by
        rw [List.forall₂_iff_get] at hf ⊢
        refine ⟨hf.1, fun i h1 h2 => ?_⟩
        have h3 := hmem _ (List.get_mem (st.filter fun br => !foundFl rd xeps (br.step f (br.midFl rd))) ⟨i, h1⟩)
        exact hlift _ h3.1 h3.2 _ (hf.2 i h1 h2)
      obtain ⟨ms', hp', hf'⟩ := forall₂_filter_split _ _ st _ _ hfound hf2
      refine ⟨(st.filter fun br => foundFl rd xeps (br.step f (br.midFl rd))).map (Bracket.midFl rd) ++ rs, ?_, ms', ?_, hf'⟩
      · rw [hrs]; rfl
      · exact (hpm.append_left _).trans hp'
  · rw [if_neg hany]
    have hnf : ∀ br ∈ st, foundFl rd xeps (br.step f (br.midFl rd)) = false := by
      intro br hbr
      by_contra h
      apply hany
      rw [List.any_eq_true]
      exact ⟨br, hbr, by simpa using h⟩
    obtain ⟨x, hx⟩ := List.exists_mem_of_ne_nil _ hne
    have hn0 := (hdec x hx (hnf x hx)).1
    obtain ⟨rs, hrs, ms, hpm, hf⟩ := ih (n - 1) (by omega)
      (st.map fun br => br.step f (br.midFl rd)) (by simpa using hne)
      (by
        intro br hbr
        rw [List.mem_map] at hbr
        obtain ⟨br', hbr', rfl⟩ := hbr
        exact hstep br' hbr')
      (by
        intro br hbr
        rw [List.mem_map] at hbr
        obtain ⟨br', hbr', rfl⟩ := hbr
        exact (hsub br' hbr').2.2.2.1)
      (by
        intro br hbr
        rw [List.mem_map] at hbr
        obtain ⟨br', hbr', rfl⟩ := hbr
        exact (hdec br' hbr' (hnf br' hbr')).2)
    refine ⟨rs, hrs, ms, hpm, ?_⟩
    rw [List.forall₂_map_left_iff] at hf
    rw [List.forall₂_iff_get] at hf ⊢
    refine ⟨hf.1, fun i h1 h2 => ?_⟩
    exact hlift _ (List.get_mem st ⟨i, h1⟩) (hnf _ (List.get_mem st ⟨i, h1⟩)) _ (hf.2 i h1 h2)

end
end Verif.Roots
