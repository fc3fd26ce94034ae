import Verif.Model.Sve
import Mathlib.Order.Bounds.Basic
import Mathlib.Tactic.Linarith
import Mathlib.Tactic.NormNum
/-!
# C34, C35: truncation of singular value expansions
-/

namespace Verif.Props
open Verif Verif.Sve

/-- All singular values of all blocks. -/
def allS {α β : Type} (blocks : List (Block α β)) : List ℝ := (blocks.map (·.s)).flatten

/-- The rule for keeping the value `t`: it is above `rtol` times the largest value, and at most `n_sv`
values (of any block) are as large as `t`. -/
def Keep (all : List ℝ) (top rtol : ℝ) (lmax : Option ℕ) (t : ℝ) : Prop :=
  rtol * top < t ∧ ∀ n ∈ lmax, all.countP (fun t' => decide (t ≤ t')) ≤ n

/-- Block `b'` consists of the first entries of `b`, and those are exactly the ones to keep. -/
def KeptPrefix {α β : Type} (P : ℝ → Prop) (b b' : Block α β) : Prop :=
  ∃ n, b'.u = b.u.take n ∧ b'.s = b.s.take n ∧ b'.v = b.v.take n ∧
    (∀ t ∈ b.s.take n, P t) ∧ ∀ t ∈ b.s.drop n, ¬ P t

theorem countP_prefix (P : ℝ → Bool) (hP : ∀ s t, s ≤ t → P s = true → P t = true) :
    ∀ l : List ℝ, l.Pairwise (· ≥ ·) →
      (∀ t ∈ l.take (l.countP P), P t = true) ∧ ∀ t ∈ l.drop (l.countP P), P t = false
  | [], _ => by simp
  | a :: l, h => by
    rw [List.pairwise_cons] at h
    by_cases ha : P a = true
    · obtain ⟨h1, h2⟩ := countP_prefix P hP l h.2
      rw [List.countP_cons_of_pos ha, List.take_succ_cons, List.drop_succ_cons]
      exact ⟨by simpa [ha] using h1, h2⟩
    · have h0 : l.countP P = 0 := List.countP_eq_zero.2 fun t ht hPt => ha (hP t a (h.1 t ht) hPt)
      rw [List.countP_cons_of_neg ha, h0]
      refine ⟨by simp, ?_⟩
      intro t ht
      rw [List.drop_zero] at ht
      rcases List.mem_cons.1 ht with rfl | ht
      · simpa using ha
      · by_contra hPt
        exact ha (hP t a (h.1 t ht) (by simpa using hPt))

/-- In an ascending list, `t` exceeds entry `n - 1 - k` iff at most `k` entries are as large as `t`. -/
theorem order_stat (l : List ℝ) (hl : l.Pairwise (· ≤ ·)) (j : ℕ) (hj : j < l.length) (t : ℝ) :
    l[j] < t ↔ l.countP (fun t' => decide (t ≤ t')) ≤ l.length - 1 - j := by
  constructor
  · intro h
    rw [← List.take_append_drop (j + 1) l, List.countP_append]
    have h0 : (l.take (j + 1)).countP (fun t' => decide (t ≤ t')) = 0 := by
      rw [List.countP_eq_zero]
      intro s hs
      obtain ⟨i, hi, rfl⟩ := List.mem_iff_getElem.1 hs
      rw [List.length_take] at hi
      have : l[i] ≤ l[j] := by
        rcases Nat.lt_or_ge i j with h | h
        · exact (List.pairwise_iff_getElem.1 hl) i j (by omega) hj h
        · have : i = j := by omega
          subst this
          exact le_rfl
      simp only [List.getElem_take, decide_eq_true_eq, not_le]
      linarith
    rw [h0, zero_add]
    refine (List.countP_le_length).trans ?_
    rw [List.take_append_drop]
    simp only [List.length_drop]
    omega
  · intro h
    by_contra hc
    have hc : t ≤ l[j] := not_lt.1 hc
    have h1 : l.countP (fun t' => decide (t ≤ t')) ≥ (l.drop j).countP (fun t' => decide (t ≤ t')) :=
      List.Sublist.countP_le (List.drop_sublist j l)
    have h2 : (l.drop j).countP (fun t' => decide (t ≤ t')) = (l.drop j).length := by
      rw [List.countP_eq_length]
      intro s hs
      obtain ⟨i, hi, rfl⟩ := List.mem_iff_getElem.1 hs
      rw [List.length_drop] at hi
      simp only [List.getElem_drop, decide_eq_true_eq]
      refine hc.trans ?_
      rcases Nat.eq_zero_or_pos i with rfl | h
      · simp
      · exact (List.pairwise_iff_getElem.1 hl) j (j + i) hj (by omega) (by omega)
    rw [List.length_drop] at h2
    omega

theorem sorted_mergeSort (l : List ℝ) : l.mergeSort.Pairwise (· ≤ ·) := by
  have := List.pairwise_mergeSort (le := fun a b : ℝ => decide (a ≤ b))
    (fun a b c h1 h2 => by simp only [decide_eq_true_eq] at *; exact h1.trans h2)
    (fun a b => by simp only [Bool.or_eq_true, decide_eq_true_eq]; exact le_total a b) l
  exact this.imp fun h => by simpa using h

theorem last_isGreatest {l : List ℝ} (hl : l.Pairwise (· ≤ ·)) {a : ℝ} (h : l.getLast? = some a) :
    IsGreatest {t | t ∈ l} a := by
  obtain ⟨l', rfl⟩ := List.getLast?_eq_some_iff.1 h
  refine ⟨by simp, ?_⟩
  intro t ht
  rcases List.mem_append.1 ht with ht | ht
  · exact (List.pairwise_append.1 hl).2.2 t ht a (by simp)
  · rw [List.mem_singleton.1 ht]

/-- `Keep` is monotone: with a value, all larger ones are kept. -/
theorem Keep.mono {all : List ℝ} {top rtol : ℝ} {lmax : Option ℕ} {s t : ℝ} (hst : s ≤ t)
    (h : Keep all top rtol lmax s) : Keep all top rtol lmax t := by
  refine ⟨lt_of_lt_of_le h.1 hst, fun n hn => le_trans ?_ (h.2 n hn)⟩
  apply List.countP_mono_left
  intro x _ hx
  simp only [decide_eq_true_eq] at hx ⊢
  exact hst.trans hx

/-- The cut-off is the threshold of `Keep`. -/
theorem cutoff_keep {all : List ℝ} {top rtol : ℝ} (lmax : Option ℕ) :
    ∃ c, lmaxCutoff all.mergeSort (rtol * top) (lmax.map fun n : ℕ => PyNum.int n) = .ok c ∧
      ∀ t ∈ all, c < t ↔ Keep all top rtol lmax t := by
  have hperm := List.mergeSort_perm all (fun a b : ℝ => decide (a ≤ b))
  cases lmax with
  | none => exact ⟨_, rfl, fun t _ => by simp [Keep]⟩
  | some n =>
    simp only [Option.map_some, lmaxCutoff, List.length_mergeSort]
    by_cases h : n < all.length
    · rw [if_pos (by exact_mod_cast h)]
      have hj : all.length - 1 - n < all.mergeSort.length := by rw [List.length_mergeSort]; omega
      have e : ((all.length : ℤ) - n - 1).toNat = all.length - 1 - n := by omega
      rw [e, List.getElem?_eq_getElem hj]
      refine ⟨_, rfl, fun t _ => ?_⟩
      rw [max_lt_iff, order_stat _ (sorted_mergeSort all) _ hj t, hperm.countP_eq, Keep]
      simp only [List.length_mergeSort, Option.mem_def, Option.some.injEq, forall_eq']
      rw [show all.length - 1 - (all.length - 1 - n) = n by omega]
    · rw [if_neg (by simpa using h)]
      refine ⟨_, rfl, fun t _ => ?_⟩
      simp only [Keep, Option.mem_def, Option.some.injEq, forall_eq', iff_self_and]
      intro _
      exact List.countP_le_length.trans (by omega)

theorem filter_le_count {P : ℝ → Prop} [DecidablePred P] {all : List ℝ} {n : ℕ}
    (h : ∀ t ∈ all, P t → all.countP (fun t' => decide (t ≤ t')) ≤ n) :
    all.countP (fun t => decide (P t)) ≤ n := by
  by_cases hne : ∃ t ∈ all, P t
  · -- smallest kept value
    have hne' : (all.filter fun t => decide (P t)) ≠ [] := by
      obtain ⟨t, h1, h2⟩ := hne
      exact List.ne_nil_of_mem (List.mem_filter.2 ⟨h1, by simpa using h2⟩)
    obtain ⟨m, hm⟩ := Option.ne_none_iff_exists'.1 (mt List.min?_eq_none_iff.1 hne')
    obtain ⟨h1, h2⟩ := List.min?_eq_some_iff.1 hm
    obtain ⟨h3, h4⟩ := List.mem_filter.1 h1
    refine le_trans ?_ (h m h3 (by simpa using h4))
    apply List.countP_mono_left
    intro x hx hPx
    simp only [decide_eq_true_eq]
    exact h2 x (List.mem_filter.2 ⟨hx, hPx⟩)
  · rw [List.countP_eq_zero.2]
    · exact Nat.zero_le _
    · intro t ht hP
      exact hne ⟨t, ht, by simpa using hP⟩

theorem truncR_natCast (n : ℕ) : (truncate.truncR ((PyNum.int n).val) : ℝ) = (PyNum.int n).val := by
  simp [truncate.truncR, PyNum.val]

/-- For blocks of non-increasing singular values, a tolerance in `[0, 1]` and an integer limit: every block
is cut to the prefix of the values to be kept, with `u` and `v` cut alike; at most `n_sv` values remain in
total; every kept value is larger than every dropped one (so a degenerate level is never split). -/
theorem C34_truncate {α β : Type} (blocks : List (Block α β)) (rtol : ℝ) (lmax : Option ℕ)
    (hs : ∀ b ∈ blocks, b.s.Pairwise (· ≥ ·)) (h0 : 0 ≤ rtol) (h1 : rtol ≤ 1)
    (hne : allS blocks ≠ []) :
    ∃ out top, truncate blocks rtol (lmax.map fun n : ℕ => PyNum.int n) = .ok out ∧
      IsGreatest {t | t ∈ allS blocks} top ∧
      List.Forall₂ (KeptPrefix (Keep (allS blocks) top rtol lmax)) blocks out ∧
      (∀ n ∈ lmax, (allS out).length ≤ n) ∧
      ∀ s ∈ allS out, ∀ b b', (b, b') ∈ blocks.zip out → ∀ t ∈ b.s.drop b'.s.length, t < s := by
  classical
  have hb : blocks ≠ [] := by rintro rfl; exact hne rfl
  have hsne : (allS blocks).mergeSort ≠ [] := by
    intro h
    apply hne
    rw [← List.length_eq_zero_iff, ← List.length_mergeSort, h]
    rfl
  have htop := List.getLast?_eq_some_getLast hsne
  set top := (allS blocks).mergeSort.getLast hsne
  have hgr : IsGreatest {t | t ∈ allS blocks} top := by
    have := last_isGreatest (sorted_mergeSort _) htop
    simpa [List.mem_mergeSort] using this
  obtain ⟨c, hc, hk⟩ := cutoff_keep (all := allS blocks) (top := top) (rtol := rtol) lmax
  set out := blocks.map fun b : Block α β =>
          (⟨b.u.take (b.s.countP (fun t => decide (t > c))),
            b.s.take (b.s.countP (fun t => decide (t > c))),
            b.v.take (b.s.countP (fun t => decide (t > c)))⟩ : Block α β) with hout
  have hmem : ∀ b ∈ blocks, ∀ t ∈ b.s, t ∈ allS blocks := fun b hb t ht =>
    List.mem_flatten.2 ⟨b.s, List.mem_map.2 ⟨b, hb, rfl⟩, ht⟩
  have hpre : ∀ b ∈ blocks, (∀ t ∈ b.s.take (b.s.countP (fun t => decide (t > c))), c < t) ∧
      ∀ t ∈ b.s.drop (b.s.countP (fun t => decide (t > c))), ¬ c < t := by
    intro b hb
    obtain ⟨h1, h2⟩ := countP_prefix (fun t => decide (t > c))
      (fun s t hst h => by simp only [decide_eq_true_eq] at h ⊢; exact lt_of_lt_of_le h hst) b.s (hs b hb)
    exact ⟨fun t ht => by simpa using h1 t ht, fun t ht => by simpa using h2 t ht⟩
  have hF : List.Forall₂ (KeptPrefix (Keep (allS blocks) top rtol lmax)) blocks out := by
    rw [hout, List.forall₂_map_right_iff, List.forall₂_same]
    intro b hb
    refine ⟨_, rfl, rfl, rfl, ?_, ?_⟩
    · intro t ht
      exact (hk t (hmem b hb t (List.mem_of_mem_take ht))).1 ((hpre b hb).1 t ht)
    · intro t ht hP
      exact (hpre b hb).2 t ht ((hk t (hmem b hb t (List.mem_of_mem_drop ht))).2 hP)
  have hlen : (allS out).length = (allS blocks).countP (fun t => decide (c < t)) := by
    have : ∀ bs : List (Block α β), ((bs.map fun b : Block α β =>
          (⟨b.u.take (b.s.countP (fun t => decide (t > c))),
            b.s.take (b.s.countP (fun t => decide (t > c))),
            b.v.take (b.s.countP (fun t => decide (t > c)))⟩ : Block α β)).map (·.s)).flatten.length =
        (bs.map (·.s)).flatten.countP (fun t => decide (c < t)) := by
      intro bs
      induction bs with
      | nil => rfl
      | cons b bs ih =>
        rw [List.map_cons, List.map_cons, List.map_cons, List.flatten_cons, List.flatten_cons,
          List.length_append, List.countP_append, ih]
        simp only [List.length_take]
        rw [min_eq_left List.countP_le_length]
    exact this blocks
  refine ⟨out, top, ?_, hgr, hF, ?_, ?_⟩
  · unfold truncate
    rw [if_neg, if_neg (by simp [h0, h1]), if_neg hb]
    · have htop' : (blocks.map (·.s)).flatten.mergeSort.getLast? = some top := htop
      have hc' : lmaxCutoff (blocks.map (·.s)).flatten.mergeSort (rtol * top) (lmax.map fun n : ℕ => PyNum.int n) =
        .ok c := hc
      simp only [htop', hc']
      rfl
    · rintro ⟨k, hk, hk'⟩
      cases lmax with
      | none => cases hk
      | some n =>
        rw [Option.map_some, Option.mem_some_iff] at hk
        subst hk
        rcases hk' with h | h
        · simp only [PyNum.val, Int.cast_natCast] at h
          exact absurd h (not_lt.2 (Nat.cast_nonneg n))
        · exact h (truncR_natCast n)
  · intro n hn
    rw [hlen]
    exact filter_le_count fun t ht hct => ((hk t ht).1 hct).2 n hn
  · intro s hs b b' hbb t ht
    have hcs : c < s := by
      obtain ⟨l, hl, hsl⟩ := List.mem_flatten.1 hs
      obtain ⟨o, ho, rfl⟩ := List.mem_map.1 hl
      obtain ⟨b0, hb0, rfl⟩ := List.mem_map.1 ho
      exact (hpre b0 hb0).1 s hsl
    rw [hout, ← List.map_prod_left_eq_zip] at hbb
    obtain ⟨b0, hb0, hbeq⟩ := List.mem_map.1 hbb
    obtain ⟨rfl, rfl⟩ := Prod.mk.inj hbeq
    simp only [List.length_take] at ht
    rw [min_eq_left List.countP_le_length] at ht
    exact lt_of_le_of_lt (not_lt.1 ((hpre b0 hb0).2 t ht)) hcs

/-- Invalid arguments are refused: a negative or fractional limit, a tolerance outside `[0, 1]`. -/
theorem C34_invalid {α β : Type} (blocks : List (Block α β)) (rtol : ℝ) (lmax : Option PyNum)
    (h : (∃ k ∈ lmax, k.val < 0 ∨ ∀ n : ℤ, (n : ℝ) ≠ k.val) ∨ ¬ (0 ≤ rtol ∧ rtol ≤ 1)) :
    truncate blocks rtol lmax = .error .valueError := by
  unfold truncate
  split
  · rfl
  · rename_i hk
    rcases h with ⟨k, h1, h2⟩ | h
    · exfalso
      exact hk ⟨k, h1, h2.imp id fun h => h _⟩
    · rw [if_pos h]

/-- A limit given as float passes the checks and then fails with IndexError as soon as it is effective. -/
theorem C34_float_limit {α β : Type} (blocks : List (Block α β)) (rtol : ℝ) (n : ℕ)
    (h0 : 0 ≤ rtol) (h1 : rtol ≤ 1) (hn : n < (allS blocks).length) :
    truncate blocks rtol (some (.float n)) = .error .indexError := by
  have hb : blocks ≠ [] := by rintro rfl; simp [allS] at hn
  unfold truncate
  rw [if_neg, if_neg (by simp [h0, h1]), if_neg hb]
  · simp only
    split
    · rfl
    · have : lmaxCutoff ((blocks.map (·.s)).flatten.mergeSort) (rtol * ‹ℝ›) (some (.float n)) =
          .error .indexError := by
        rw [lmaxCutoff, if_pos]
        rw [List.length_mergeSort]
        exact_mod_cast hn
      simp only [this]
  · rintro ⟨k, hk, hk'⟩
    rw [Option.mem_some_iff] at hk
    subst hk
    rcases hk' with h | h
    · exact absurd h (not_lt.2 (by simp [PyNum.val]))
    · exact h (by simp [truncate.truncR, PyNum.val])

/-- The hypotheses are met by two blocks with a degenerate level (values 3, 2 and 2, 1) and `n_sv = 2`. -/
example : ∃ out, truncate [⟨[0, 1], [3, 2], ['a', 'b']⟩, (⟨[0, 1], [2, 1], ['c', 'd']⟩ : Block ℕ Char)] 0
      (some (.int 2)) = .ok out ∧ (allS out).length ≤ 2 := by
  obtain ⟨out, top, h, -, -, h2, -⟩ := C34_truncate
    [⟨[0, 1], [3, 2], ['a', 'b']⟩, (⟨[0, 1], [2, 1], ['c', 'd']⟩ : Block ℕ Char)] 0 (some 2)
    (by simp; norm_num) le_rfl zero_le_one (by simp [allS])
  exact ⟨out, h, h2 2 rfl⟩

/-! ## C35 -/

/-- For a non-increasing spectrum and a non-negative limit, `part` returns the first `n` entries of all three
sequences, where `n` is the smaller of the limit and the number of values `≥ eps * s[0]` - which are exactly
the first ones.  Without `eps` the stored accuracy is used. -/
theorem C35_part {α β : Type} (u : List α) (s : List ℝ) (v : List β) (selfEps eps : Option ℝ) (e s0 : ℝ)
    (maxSize : Option ℕ) (hs : s.Pairwise (· ≥ ·)) (he : eps.getD (selfEps.getD e) = e)
    (he' : eps ≠ none ∨ selfEps ≠ none) (h0 : s.head? = some s0)
    (hu : u.length = s.length) (hv : v.length = s.length) :
    ∃ m, (∀ t ∈ s.take m, e * s0 ≤ t) ∧ (∀ t ∈ s.drop m, t < e * s0) ∧ m ≤ s.length ∧
      part u s v selfEps eps (maxSize.map fun n : ℕ => (n : ℤ)) =
        .ok (u.take (min m (maxSize.getD m)), s.take (min m (maxSize.getD m)),
          v.take (min m (maxSize.getD m))) := by
  classical
  have hor : eps.or selfEps = some e := by
    cases eps with
    | some x => simpa using he
    | none =>
      cases selfEps with
      | some x => simpa using he
      | none => simp at he'
  obtain ⟨h1, h2⟩ := countP_prefix (fun t => decide (t ≥ e * s0))
    (fun a b hab h => by simp only [decide_eq_true_eq] at h ⊢; exact le_trans h hab) s hs
  refine ⟨s.countP (fun t => decide (t ≥ e * s0)), fun t ht => by simpa using h1 t ht,
    fun t ht => by simpa using h2 t ht, List.countP_le_length, ?_⟩
  unfold part
  rw [hor, h0]
  simp only
  have hm := List.countP_le_length (p := fun t => decide (t ≥ e * s0)) (l := s)
  set m := s.countP (fun t => decide (t ≥ e * s0))
  have key : ∀ n : ℕ, n ≤ s.length → (if (n : ℤ) = s.length then (Except.ok (u, s, v) : PyM _) else
      .ok (pyTake n u, pyTake n s, pyTake n v)) = .ok (u.take n, s.take n, v.take n) := by
    intro n hn
    split
    · rename_i h
      have : n = s.length := by exact_mod_cast h
      rw [this, List.take_length, ← hu, List.take_length, hu, ← hv, List.take_length]
    · simp [pyTake]
  cases maxSize with
  | none => simpa using key m hm
  | some n =>
    simp only [Option.map_some, Option.getD_some]
    by_cases h : n < m
    · have h' : (n : ℤ) < (m : ℤ) := by exact_mod_cast h
      simp only [min_eq_right h.le, if_pos h']
      exact key n (by omega)
    · have h' : ¬ (n : ℤ) < (m : ℤ) := by exact_mod_cast h
      simp only [min_eq_left (not_lt.1 h), if_neg h']
      exact key m hm

/-- A negative limit counts from the end of the *whole* expansion, unlike "at most that many". -/
theorem C35_negative {α β : Type} (u : List α) (s : List ℝ) (v : List β) (e s0 : ℝ) (k : ℕ) (hk : 0 < k)
    (h0 : s.head? = some s0) :
    part u s v none (some e) (some (-(k : ℤ))) =
      .ok (u.take (u.length - k), s.take (s.length - k), v.take (v.length - k)) := by
  unfold part
  rw [h0]
  rw [show (some e).or none = some e from rfl]
  have h1 : (-(k : ℤ)) < (s.countP (fun t => decide (t ≥ e * s0)) : ℕ) := by omega
  simp only [if_pos h1]
  rw [if_neg (by omega)]
  have : ∀ {γ : Type} (l : List γ), pyTake (-(k : ℤ)) l = l.take (l.length - k) := by
    intro γ l
    rw [pyTake, if_neg (by omega)]
    congr 1
    omega
  rw [this, this, this]

/-- Without any accuracy, and for an empty expansion, `part` fails. -/
theorem C35_errors {α β : Type} (u : List α) (s : List ℝ) (v : List β) (selfEps eps : Option ℝ)
    (maxSize : Option ℤ) :
    (s = [] → part u s v selfEps eps maxSize = .error .indexError) ∧
      (s ≠ [] → part u s v none none maxSize = .error .typeError) := by
  constructor
  · rintro rfl
    unfold part
    cases eps.or selfEps <;> rfl
  · intro h
    unfold part
    rw [List.head?_eq_some_head h]
    rfl

example : ∃ m, part ['a', 'b', 'c'] [4, 2, 1] ['x', 'y', 'z'] (some 0.1) (some 0.5) none =
    .ok (['a', 'b', 'c'].take m, ([4, 2, 1] : List ℝ).take m, ['x', 'y', 'z'].take m) := by
  obtain ⟨m, -, -, -, h⟩ := C35_part ['a', 'b', 'c'] [4, 2, 1] ['x', 'y', 'z'] (some 0.1) (some 0.5) 0.5 4 none
    (by simp; norm_num) rfl (Or.inl (by simp)) rfl rfl rfl
  exact ⟨_, h⟩

end Verif.Props
