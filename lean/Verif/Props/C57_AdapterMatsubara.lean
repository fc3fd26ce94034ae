import Verif.Model.Adapter
import Verif.Lemmas.NpUnique
import Mathlib.Tactic.Linarith
import Mathlib.Tactic.IntervalCases
/-!
# C57 — irbasis-compatible Matsubara sampling points
-/

namespace Verif.Props
open Verif Verif.Adapter

/-- Specification: `p` is the first place on `[a, b)` where `g` is largest. -/
def FirstMax (g : ℕ → ℝ) (a b p : ℕ) : Prop :=
  a ≤ p ∧ p < b ∧ ∀ j, a ≤ j → j < b → g j ≤ g p ∧ (j < p → g j < g p)

/-- Specification: the sign strictly changes from sample `i` to the next one, out of `n`. -/
def Flip (f : ℕ → ℝ) (n i : ℕ) : Prop := i + 1 < n ∧ f (i + 1) * f i < 0

/-- Specification: `[a, b)` is a maximal piece of the `n` samples without a strict sign change between neighbours. -/
def Run (f : ℕ → ℝ) (n a b : ℕ) : Prop :=
  a < b ∧ b ≤ n ∧ (a = 0 ∨ (0 < a ∧ Flip f n (a - 1))) ∧ (b = n ∨ Flip f n (b - 1)) ∧
    ∀ i, a ≤ i → i + 1 < b → ¬ Flip f n i

/-- Specification: `[a, b)` is a maximal piece of the `n` samples on which the function is positive throughout, or
negative throughout. -/
def SignRun (f : ℕ → ℝ) (n a b : ℕ) : Prop :=
  a < b ∧ b ≤ n ∧ (∀ i, a ≤ i → i < b → 0 < f i * f a) ∧ (a = 0 ∨ f (a - 1) * f a ≤ 0) ∧ (b = n ∨ f b * f a ≤ 0)

theorem FirstMax.unique {g : ℕ → ℝ} {a b p q : ℕ} (hp : FirstMax g a b p) (hq : FirstMax g a b q) : p = q := by
  rcases lt_trichotomy p q with h | h | h
  · exact absurd ((hq.2.2 p hp.1 hp.2.1).2 h) (not_lt.2 (hp.2.2 q hq.1 hq.2.1).1)
  · exact h
  · exact absurd ((hp.2.2 q hq.1 hq.2.1).2 h) (not_lt.2 (hq.2.2 p hp.1 hp.2.1).1)

theorem argmaxLoop_spec (h : ℕ → ℝ) : ∀ m i best, best < i → (∀ j < i, h j ≤ h best ∧ (j < best → h j < h best)) →
    FirstMax h 0 (i + m) (argmaxLoop best (h best) i ((List.range' i m).map h))
  | 0, i, best, hb, hm => by simpa [argmaxLoop, FirstMax] using ⟨hb, hm⟩
  | m + 1, i, best, hb, hm => by
    rw [List.range'_succ, List.map_cons, argmaxLoop, show i + (m + 1) = (i + 1) + m by omega]
    split
    · rename_i hlt
      refine argmaxLoop_spec h m (i + 1) i (by omega) fun j hj => ?_
      rcases Nat.lt_succ_iff_lt_or_eq.1 hj with hj | rfl
      · have := (hm j hj).1.trans_lt hlt
        exact ⟨this.le, fun _ => this⟩
      · exact ⟨le_rfl, fun h => absurd h (lt_irrefl _)⟩
    · rename_i hlt
      refine argmaxLoop_spec h m (i + 1) best (by omega) fun j hj => ?_
      rcases Nat.lt_succ_iff_lt_or_eq.1 hj with hj | rfl
      · exact hm j hj
      · exact ⟨not_lt.1 hlt, fun h => by omega⟩

theorem argmax_spec (g : ℕ → ℝ) (n a b : ℕ) (hab : a < b) (hbn : b ≤ n) :
    ∃ k, argmax ((((List.range n).map g).drop a).take (b - a)) = .ok k ∧ FirstMax g a b (k + a) := by
  have e : (((List.range n).map g).drop a).take (b - a) = (List.range' 0 (b - a)).map fun j => g (j + a) := by
    apply List.ext_getElem
    · simp; omega
    · intro i h1 h2
      simp [Nat.add_comm]
  obtain ⟨m, hm⟩ : ∃ m, b - a = m + 1 := ⟨b - a - 1, by omega⟩
  rw [e, hm, List.range'_succ, List.map_cons]
  have := argmaxLoop_spec (fun j => g (j + a)) m 1 0 one_pos (fun j hj => by
    have : j = 0 := by omega
    subst this
    exact ⟨le_rfl, fun h => absurd h (lt_irrefl _)⟩)
  refine ⟨_, rfl, by omega, ?_, ?_⟩
  · have h2 := this.2.1
    simp only [zero_add] at h2 ⊢
    omega
  · intro j hj1 hj2
    have h3 := this.2.2 (j - a) (Nat.zero_le _) (by omega)
    simp only [Nat.sub_add_cancel hj1, zero_add] at h3 ⊢
    exact ⟨h3.1, fun h => h3.2 (by omega)⟩

theorem segPoints_spec (g : ℕ → ℝ) (n : ℕ) : ∀ bs : List ℕ, bs.Pairwise (· < ·) → (∀ b ∈ bs, b ≤ n) →
    ∃ pts, segPoints ((List.range n).map g) bs = .ok pts ∧
      List.Forall₂ (fun s p => FirstMax g s.1 s.2 p) (bs.zip bs.tail) pts ∧ pts.Pairwise (· < ·) ∧
      ∀ p ∈ pts, ∀ a ∈ bs.head?, a ≤ p
  | [], _, _ => ⟨[], rfl, List.Forall₂.nil, List.Pairwise.nil, by simp⟩
  | [_], _, _ => ⟨[], rfl, List.Forall₂.nil, List.Pairwise.nil, by simp⟩
  | a :: b :: bs, h, hn => by
    have hab : a < b := List.rel_of_pairwise_cons h List.mem_cons_self
    obtain ⟨pts, h1, h2, h3, h4⟩ := segPoints_spec g n (b :: bs) h.of_cons fun c hc => hn c (List.mem_cons_of_mem _ hc)
    obtain ⟨k, hk, hf⟩ := argmax_spec g n a b hab (hn b (by simp))
    unfold segPoints
    rw [hk]
    simp only [h1]
    refine ⟨_, rfl, List.Forall₂.cons hf h2, List.pairwise_cons.2 ⟨fun p hp => ?_, h3⟩, ?_⟩
    · exact hf.2.1.trans_le (h4 p hp b rfl)
    · intro p hp c hc
      obtain rfl := Option.some.inj hc
      rcases List.mem_cons.1 hp with rfl | hp
      · exact hf.1
      · exact hab.le.trans (h4 p hp b rfl)

theorem mem_zip_tail : ∀ {l : List ℕ}, l.Pairwise (· < ·) → ∀ a b, (a, b) ∈ l.zip l.tail ↔
    a ∈ l ∧ b ∈ l ∧ a < b ∧ ∀ c ∈ l, ¬ (a < c ∧ c < b)
  | [], _, a, b => by simp
  | [x], _, a, b => by
    simp only [List.tail_cons, List.zip_nil_right, List.not_mem_nil, List.mem_singleton, false_iff]
    rintro ⟨rfl, rfl, h, -⟩
    exact lt_irrefl _ h
  | x :: y :: l, h, a, b => by
    have hx : ∀ z ∈ y :: l, x < z := fun z hz => List.rel_of_pairwise_cons h hz
    have hy : ∀ z ∈ y :: l, y ≤ z := fun z hz => by
      rcases List.mem_cons.1 hz with rfl | hz
      · exact le_rfl
      · exact (List.rel_of_pairwise_cons h.of_cons hz).le
    have ih := mem_zip_tail h.of_cons a b
    rw [List.tail_cons] at ih
    rw [List.tail_cons, List.zip_cons_cons, List.mem_cons, ih, Prod.mk.injEq]
    constructor
    · rintro (⟨rfl, rfl⟩ | ⟨h1, h2, h3, h4⟩)
      · refine ⟨by simp, by simp, hx _ (by simp), fun c hc => ?_⟩
        rcases List.mem_cons.1 hc with rfl | hc
        · omega
        · have := hy c hc; omega
      · refine ⟨List.mem_cons_of_mem _ h1, List.mem_cons_of_mem _ h2, h3, fun c hc => ?_⟩
        rcases List.mem_cons.1 hc with rfl | hc
        · have := hx a h1; omega
        · exact h4 c hc
    · rintro ⟨h1, h2, h3, h4⟩
      have hb : b ∈ y :: l := by
        rcases List.mem_cons.1 h2 with rfl | h2
        · rcases List.mem_cons.1 h1 with rfl | h1
          · omega
          · have := hx a h1; omega
        · exact h2
      rcases List.mem_cons.1 h1 with rfl | h1
      · left
        refine ⟨rfl, ?_⟩
        have h5 := h4 y (by simp)
        have h6 := hx y (by simp)
        have h7 := hy b hb
        omega
      · exact Or.inr ⟨h1, hb, h3, fun c hc => h4 c (List.mem_cons_of_mem _ hc)⟩

theorem mem_flips (f : ℕ → ℝ) (n i : ℕ) : i ∈ flips ((List.range n).map f) ↔ Flip f n i := by
  unfold flips Flip
  rw [List.mem_filter, List.mem_range, decide_eq_true_eq, List.length_map, List.length_range]
  constructor
  · rintro ⟨h1, h2⟩
    have h3 : i + 1 < n := by omega
    have h4 : i < n := by omega
    refine ⟨h3, ?_⟩
    simpa [List.getD_eq_getElem?_getD, h3, h4] using h2
  · rintro ⟨h1, h2⟩
    have h4 : i < n := by omega
    refine ⟨by omega, ?_⟩
    simpa [List.getD_eq_getElem?_getD, h1, h4] using h2

theorem flipBounds_sorted (f : ℕ → ℝ) (n : ℕ) (hn : 0 < n) :
    (flipBounds ((List.range n).map f)).Pairwise (· < ·) := by
  unfold flipBounds
  rw [List.pairwise_cons, List.pairwise_append]
  have hlt : ∀ a ∈ (flips ((List.range n).map f)).map (· + 1), 0 < a ∧ a < n := by
    intro a ha
    obtain ⟨i, hi, rfl⟩ := List.mem_map.1 ha
    exact ⟨by omega, ((mem_flips f n i).1 hi).1⟩
  refine ⟨fun a ha => ?_, ?_, List.pairwise_singleton _ _, fun a ha b hb => ?_⟩
  · rcases List.mem_append.1 ha with ha | ha
    · exact (hlt a ha).1
    · rw [List.mem_singleton.1 ha]; simpa using hn
  · rw [List.pairwise_map]
    unfold flips
    exact (List.pairwise_lt_range.filter _).imp fun h => by omega
  · rw [List.mem_singleton.1 hb]; simpa using (hlt a ha).2

theorem mem_flipBounds (f : ℕ → ℝ) (n a : ℕ) : a ∈ flipBounds ((List.range n).map f) ↔
    a = 0 ∨ (0 < a ∧ Flip f n (a - 1)) ∨ a = n := by
  unfold flipBounds
  rw [List.mem_cons, List.mem_append, List.mem_singleton, List.mem_map, List.length_map, List.length_range]
  refine or_congr_right (or_congr_left ?_)
  constructor
  · rintro ⟨i, hi, rfl⟩
    exact ⟨by omega, (mem_flips f n i).1 hi⟩
  · rintro ⟨h1, h2⟩
    exact ⟨a - 1, (mem_flips f n _).2 h2, by omega⟩

/-- The segments cut out by the code are exactly the runs. -/
theorem run_iff (f : ℕ → ℝ) (n a b : ℕ) (hn : 0 < n) :
    (a, b) ∈ (flipBounds ((List.range n).map f)).zip (flipBounds ((List.range n).map f)).tail ↔ Run f n a b := by
  rw [mem_zip_tail (flipBounds_sorted f n hn), mem_flipBounds, mem_flipBounds]
  constructor
  · rintro ⟨h1, h2, h3, h4⟩
    have hb : b ≤ n := by
      rcases h2 with h | ⟨-, h, -⟩ | h <;> omega
    refine ⟨h3, hb, ?_, ?_, fun i hi1 hi2 hf => ?_⟩
    · rcases h1 with h | h | h
      · exact Or.inl h
      · exact Or.inr h
      · omega
    · rcases h2 with h | h | h
      · omega
      · exact Or.inr h.2
      · exact Or.inl h
    · exact h4 (i + 1) ((mem_flipBounds f n _).2 (Or.inr (Or.inl ⟨by omega, by simpa using hf⟩))) ⟨by omega, hi2⟩
  · rintro ⟨h1, h2, h3, h4, h5⟩
    refine ⟨?_, ?_, h1, fun c hc hab => ?_⟩
    · rcases h3 with h | h
      · exact Or.inl h
      · exact Or.inr (Or.inl h)
    · rcases h4 with h | h
      · exact Or.inr (Or.inr h)
      · exact Or.inr (Or.inl ⟨by omega, h⟩)
    · rcases (mem_flipBounds f n c).1 hc with h | h | h
      · omega
      · exact h5 (c - 1) (by omega) (by omega) h.2
      · omega

theorem Run.unique {f : ℕ → ℝ} {n a b a' b' p : ℕ} (h : Run f n a b) (h' : Run f n a' b') (hp : a ≤ p ∧ p < b)
    (hp' : a' ≤ p ∧ p < b') : a = a' ∧ b = b' := by
  obtain ⟨h1, h2, h3, h4, h5⟩ := h
  obtain ⟨g1, g2, g3, g4, g5⟩ := h'
  constructor
  · rcases lt_trichotomy a a' with hlt | he | hlt
    · rcases g3 with g | g
      · omega
      · exact absurd g.2 (h5 (a' - 1) (by omega) (by omega))
    · exact he
    · rcases h3 with g | g
      · omega
      · exact absurd g.2 (g5 (a - 1) (by omega) (by omega))
  · rcases lt_trichotomy b b' with hlt | he | hlt
    · rcases h4 with g | g
      · omega
      · exact absurd g (g5 (b - 1) (by omega) (by omega))
    · exact he
    · rcases g4 with g | g
      · omega
      · exact absurd g (h5 (b' - 1) (by omega) (by omega))

/-- `_sampling_points`, for every sampled function: strictly increasing indices, each the first largest magnitude of
its run, and exactly one in every run. -/
theorem C57_runs (f : ℕ → ℝ) (n : ℕ) (hn : 0 < n) : ∃ pts, samplingPoints ((List.range n).map f) = .ok pts ∧
    pts.Pairwise (· < ·) ∧ (∀ p ∈ pts, ∃ a b, Run f n a b ∧ FirstMax (fun i => |f i|) a b p) ∧
    ∀ a b, Run f n a b → ∃! p, p ∈ pts ∧ a ≤ p ∧ p < b := by
  have hB : ∀ b ∈ flipBounds ((List.range n).map f), b ≤ n := by
    intro b hb
    rcases (mem_flipBounds f n b).1 hb with h | ⟨-, h, -⟩ | h <;> omega
  obtain ⟨pts, h1, h2, h3, -⟩ := segPoints_spec (fun i => |f i|) n _ (flipBounds_sorted f n hn) hB
  have hall : ∀ p ∈ pts, ∃ a b, Run f n a b ∧ FirstMax (fun i => |f i|) a b p := by
    intro p hp
    obtain ⟨i, hi, rfl⟩ := List.getElem_of_mem hp
    have hl := h2.length_eq
    have hi' : i < ((flipBounds ((List.range n).map f)).zip (flipBounds ((List.range n).map f)).tail).length := by omega
    exact ⟨_, _, (run_iff f n _ _ hn).1 (List.getElem_mem hi'), h2.get hi' hi⟩
  refine ⟨pts, ?_, h3, hall, fun a b hab => ?_⟩
  · unfold samplingPoints
    rw [List.map_map]
    exact h1
  · obtain ⟨i, hi, he⟩ := List.getElem_of_mem ((run_iff f n a b hn).2 hab)
    have hl := h2.length_eq
    have hi' : i < pts.length := by omega
    have hf := h2.get hi hi'
    simp only [List.get_eq_getElem, he] at hf
    refine ⟨pts[i], ⟨List.getElem_mem hi', hf.1, hf.2.1⟩, ?_⟩
    rintro q ⟨hq, hq1, hq2⟩
    obtain ⟨a', b', hr, hm⟩ := hall q hq
    obtain ⟨rfl, rfl⟩ := Run.unique hab hr ⟨hq1, hq2⟩ ⟨hm.1, hm.2.1⟩
    exact hm.unique hf

/-- No samples: an empty slice has no maximum. -/
theorem C57_no_samples : samplingPoints [] = .error .valueError := by
  simp [samplingPoints, flipBounds, flips, segPoints, argmax]

theorem mul_pos_trans {x y z : ℝ} (h1 : 0 < x * y) (h2 : 0 < y * z) : 0 < x * z := by
  have hy : y ≠ 0 := by rintro rfl; simp at h1
  have h3 : 0 < (x * z) * (y * y) := by have := mul_pos h1 h2; nlinarith
  exact pos_of_mul_pos_left h3 (mul_self_nonneg y)

/-- When no sample vanishes, the runs are exactly the sign-definite runs. -/
theorem run_iff_signRun (f : ℕ → ℝ) (n a b : ℕ) (h0 : ∀ i < n, f i ≠ 0) : Run f n a b ↔ SignRun f n a b := by
  have step : ∀ i, i + 1 < n → ¬ Flip f n i → 0 < f (i + 1) * f i := fun i hi hf =>
    lt_of_le_of_ne (not_lt.1 fun h => hf ⟨hi, h⟩) (mul_ne_zero (h0 _ hi) (h0 i (by omega))).symm
  constructor
  · rintro ⟨h1, h2, h3, h4, h5⟩
    have hs : ∀ k, a + k < b → 0 < f (a + k) * f a := by
      intro k
      induction k with
      | zero => intro _; exact mul_self_pos.2 (h0 a (by omega))
      | succ k ih =>
        intro hk
        exact mul_pos_trans (step (a + k) (by omega) (h5 (a + k) (by omega) (by omega))) (ih (by omega))
    have hs' : ∀ i, a ≤ i → i < b → 0 < f i * f a := fun i hi1 hi2 => by
      have := hs (i - a) (by omega)
      rwa [Nat.add_sub_cancel' hi1] at this
    refine ⟨h1, h2, hs', ?_, ?_⟩
    · rcases h3 with h | ⟨h, -, hf⟩
      · exact Or.inl h
      · right
        rw [Nat.sub_add_cancel h] at hf
        rw [mul_comm]
        exact hf.le
    · rcases h4 with h | ⟨h, hf⟩
      · exact Or.inl h
      · right
        rw [Nat.sub_add_cancel (by omega)] at hf
        by_contra hc
        have h6 := hs' (b - 1) (by omega) (by omega)
        rw [mul_comm] at h6
        exact absurd (mul_pos_trans (not_le.1 hc) h6) (not_lt.2 hf.le)
  · rintro ⟨h1, h2, h3, h4, h5⟩
    have hm : ∀ i, a ≤ i → i < b → ∀ j, a ≤ j → j < b → 0 < f i * f j := fun i hi1 hi2 j hj1 hj2 =>
      mul_pos_trans (h3 i hi1 hi2) (by rw [mul_comm]; exact h3 j hj1 hj2)
    refine ⟨h1, h2, ?_, ?_, fun i hi1 hi2 hf => absurd hf.2 (not_lt.2 (hm _ (by omega) hi2 _ hi1 (by omega)).le)⟩
    · rcases h4 with h | h
      · exact Or.inl h
      · rcases Nat.eq_zero_or_pos a with h' | h'
        · exact Or.inl h'
        · refine Or.inr ⟨h', by omega, ?_⟩
          rw [Nat.sub_add_cancel h', mul_comm]
          exact lt_of_le_of_ne h (mul_ne_zero (h0 _ (by omega)) (h0 _ (by omega)))
    · rcases h5 with h | h
      · exact Or.inl h
      · rcases Nat.eq_or_lt_of_le h2 with h' | h'
        · exact Or.inl h'
        · refine Or.inr ⟨by omega, ?_⟩
          rw [Nat.sub_add_cancel (by omega)]
          by_contra hc
          have h6 : f b * f (b - 1) ≠ 0 := mul_ne_zero (h0 _ h') (h0 _ (by omega))
          have h7 := mul_pos_trans (lt_of_le_of_ne (not_lt.1 hc) h6.symm) (h3 (b - 1) (by omega) (by omega))
          exact absurd h7 (not_lt.2 h)

/-- Exactly one point per sign-definite run, at the first largest magnitude, when no sample vanishes. -/
theorem C57_sign_partial (f : ℕ → ℝ) (n : ℕ) (hn : 0 < n) (h0 : ∀ i < n, f i ≠ 0) :
    ∃ pts, samplingPoints ((List.range n).map f) = .ok pts ∧ pts.Pairwise (· < ·) ∧
      (∀ p ∈ pts, ∃ a b, SignRun f n a b ∧ FirstMax (fun i => |f i|) a b p) ∧
      ∀ a b, SignRun f n a b → ∃! p, p ∈ pts ∧ a ≤ p ∧ p < b := by
  obtain ⟨pts, h1, h2, h3, h4⟩ := C57_runs f n hn
  refine ⟨pts, h1, h2, fun p hp => ?_, fun a b h => h4 a b ((run_iff_signRun f n a b h0).2 h)⟩
  obtain ⟨a, b, hr, hm⟩ := h3 p hp
  exact ⟨a, b, (run_iff_signRun f n a b h0).1 hr, hm⟩

/-- An exact zero between two sign-definite runs hides the sign change: one of the two runs gets no point. -/
theorem C57_sign_negation : samplingPoints [1, 0, -1] = .ok [0] ∧
    SignRun (fun i => if i = 0 then 1 else if i = 1 then 0 else -1) 3 2 3 := by
  constructor
  · have : flips [1, 0, -1] = [] := by
      unfold flips
      rw [List.filter_eq_nil_iff]
      intro i hi
      have : i < 2 := by simpa using hi
      interval_cases i <;> simp
    simp [samplingPoints, flipBounds, this, segPoints, argmax, argmaxLoop]
  · refine ⟨by norm_num, by norm_num, fun i h1 h2 => ?_, by norm_num, Or.inl rfl⟩
    have : i = 2 := by omega
    subst this
    norm_num

/-- Specification: the mirrorIndex image of a reduced frequency index. -/
def mirrorIndex (stat : String) (n : ℤ) : ℤ := if stat = "F" then -n - 1 else -n

/-- `_full_interval`, for every strictly increasing non-empty sample of non-negative indices. -/
theorem C57_full (s : List ℤ) (stat : String) (hs : s.Pairwise (· < ·)) (h0 : ∀ n ∈ s, 0 ≤ n) (hne : s ≠ []) :
    ∃ r, fullInterval s stat = .ok r ∧ r.Pairwise (· < ·) ∧ (∀ n, n ∈ r ↔ mirrorIndex stat n ∈ r) ∧
      (stat ≠ "F" → (0 : ℤ) ∈ r) ∧ ∀ n, 0 ≤ n → (n ∈ r ↔ n ∈ s ∨ (stat ≠ "F" ∧ n = 0)) := by
  unfold fullInterval mirrorIndex
  by_cases hF : stat = "F"
  · simp only [hF, if_true]
    refine ⟨_, rfl, ?_, ?_, by simp, ?_⟩
    · rw [List.pairwise_append, List.pairwise_map, List.pairwise_reverse]
      refine ⟨hs.imp fun h => by omega, hs, fun a ha b hb => ?_⟩
      simp only [List.mem_map, List.mem_reverse] at ha
      obtain ⟨m, hm, rfl⟩ := ha
      have := h0 m hm; have := h0 b hb; omega
    · intro n
      simp only [List.mem_append, List.mem_map, List.mem_reverse]
      constructor
      · rintro (⟨m, hm, rfl⟩ | h)
        · right; convert hm using 1; omega
        · left; exact ⟨n, h, rfl⟩
      · rintro (⟨m, hm, he⟩ | h)
        · right; convert hm using 1; omega
        · left; exact ⟨_, h, by omega⟩
    · intro n hn
      simp only [List.mem_append, List.mem_map, List.mem_reverse]
      constructor
      · rintro (⟨m, hm, rfl⟩ | h)
        · have := h0 m hm; omega
        · exact Or.inl h
      · rintro (h | h)
        · exact Or.inr h
        · exact absurd rfl h.1
  · simp only [hF, if_false]
    obtain ⟨x, rest, rfl⟩ := List.exists_cons_of_ne_nil hne
    have hx0 := h0 x (by simp)
    set t := if x = 0 then rest else x :: rest with ht
    have hpos : ∀ n ∈ t, 0 < n := by
      intro n hn
      simp only [ht] at hn
      split at hn
      · have := List.rel_of_pairwise_cons hs hn; omega
      · rcases List.mem_cons.1 hn with rfl | hn
        · omega
        · have := List.rel_of_pairwise_cons hs hn; omega
    have hts : t.Pairwise (· < ·) := by
      simp only [ht]; split
      · exact hs.of_cons
      · exact hs
    have hmem : ∀ n, n ≠ 0 → (n ∈ t ↔ n ∈ x :: rest) := by
      intro n hn
      simp only [ht]; split
      · rename_i h; subst h; simp [hn]
      · rfl
    refine ⟨_, rfl, ?_, ?_, fun _ => by simp, ?_⟩
    · rw [List.pairwise_append, List.pairwise_map, List.pairwise_reverse, List.pairwise_cons]
      refine ⟨hts.imp fun h => by omega, ⟨hpos, hts⟩, fun a ha b hb => ?_⟩
      simp only [List.mem_map, List.mem_reverse] at ha
      obtain ⟨m, hm, rfl⟩ := ha
      have := hpos m hm
      rcases List.mem_cons.1 hb with rfl | hb
      · omega
      · have := hpos b hb; omega
    · intro n
      simp only [List.mem_append, List.mem_map, List.mem_reverse, List.mem_cons]
      constructor
      · rintro (⟨m, hm, rfl⟩ | h | h)
        · right; right; rwa [neg_neg]
        · right; left; omega
        · left; exact ⟨n, h, rfl⟩
      · rintro (⟨m, hm, he⟩ | h | h)
        · right; right; rwa [← neg_injective he]
        · right; left; omega
        · left; exact ⟨_, h, neg_neg n⟩
    · intro n hn
      simp only [List.mem_append, List.mem_map, List.mem_reverse]
      rw [List.mem_cons (a := n) (b := 0)]
      rcases eq_or_ne n 0 with rfl | hn0
      · simp [hF]
      · rw [hmem n hn0]
        constructor
        · rintro (⟨m, hm, rfl⟩ | h | h)
          · have := hpos m hm; omega
          · exact absurd h hn0
          · exact Or.inl h
        · rintro (h | h)
          · exact Or.inr (Or.inr h)
          · exact absurd h.2 hn0

/-- A bosonic sample must not be empty. -/
theorem C57_full_empty (stat : String) (h : stat ≠ "F") : fullInterval [] stat = .error .indexError := by
  simp [fullInterval, h]

/-- The probe grid increases strictly, is not negative, and contains all indices below `n`. -/
theorem startGuesses_spec (n : ℕ) : (startGuesses n).Pairwise (· < ·) ∧ (∀ m ∈ startGuesses n, 0 ≤ m) ∧
    ∀ i < n, (i : ℤ) ∈ startGuesses n := by
  refine ⟨Basis.npUnique_sorted _, fun m hm => ?_, fun i hi => ?_⟩
  · rw [startGuesses, Basis.mem_npUnique, List.mem_append, List.mem_map, List.mem_map] at hm
    rcases hm with ⟨i, -, rfl⟩ | ⟨i, -, rfl⟩
    · exact Int.natCast_nonneg i
    · exact Int.floor_nonneg.2 (Real.exp_pos _).le
  · rw [startGuesses, Basis.mem_npUnique, List.mem_append, List.mem_map]
    exact Or.inl ⟨i, List.mem_range.2 hi, rfl⟩

theorem computeUnl_ok (b : Adapter.Basis) (l : ℤ) (z : ℤ → ℂ) : ∀ x : List ℤ,
    (∀ n ∈ x, b.hat l (2 * n + if b.statistics = "F" then 1 else 0) = .ok (z n)) → b.computeUnl l x = .ok (x.map z)
  | [], _ => rfl
  | n :: x, h => by
    unfold Adapter.Basis.computeUnl
    rw [h n (by simp), computeUnl_ok b l z x fun m hm => h m (List.mem_cons_of_mem _ hm)]
    rfl

/-- Specification: the component of the transform that does not vanish, by statistics and parity. -/
def component (stat : String) (l : ℤ) (z : ℂ) : ℝ :=
  if l % 2 = (if stat = "F" then 1 else 0) then z.re else z.im

/-- Specification: the component that is expected to vanish. -/
def other (stat : String) (l : ℤ) (z : ℂ) : ℝ :=
  if l % 2 = (if stat = "F" then 1 else 0) then z.im else z.re

theorem realPart_ok (stat : String) (l : ℤ) (u : List ℂ) (h : ∀ z ∈ u, |other stat l z| ≤ 1e-8) :
    Adapter.realPart stat l u = .ok (u.map (component stat l)) := by
  unfold Adapter.realPart
  unfold other at h
  simp only
  by_cases hp : l % 2 = (if stat = "F" then 1 else 0)
  · rw [if_pos hp, if_pos (by simpa [hp] using h)]
    have : component stat l = Complex.re := by funext z; simp [component, hp]
    rw [this]
  · rw [if_neg hp, if_pos (by simpa [hp] using h)]
    have : component stat l = Complex.im := by funext z; simp [component, hp]
    rw [this]

/-- `_get_mats_sampling`, for every probe grid and every basis function whose transform has the stated symmetry on it. -/
theorem C57_sampling (b : Adapter.Basis) (l : ℤ) (z : ℤ → ℂ) (X : List ℤ) (hs : X.Pairwise (· < ·))
    (hnn : ∀ n ∈ X, 0 ≤ n) (hne0 : X ≠ [])
    (hz : ∀ n ∈ X, b.hat l (2 * n + if b.statistics = "F" then 1 else 0) = .ok (z n))
    (hr : ∀ n ∈ X, |other b.statistics l (z n)| ≤ 1e-8) :
    ∃ (x : ℕ → ℤ) (m : ℕ) (pts : List ℕ) (r : List ℤ), X = (List.range m).map x ∧
      getMatsSampling b X (some l) = .ok r ∧ r.Pairwise (· < ·) ∧ (∀ n, n ∈ r ↔ mirrorIndex b.statistics n ∈ r) ∧
      (b.statistics ≠ "F" → (0 : ℤ) ∈ r) ∧ pts.Pairwise (· < ·) ∧
      (∀ n, 0 ≤ n → (n ∈ r ↔ (∃ p ∈ pts, n = x p) ∨ (b.statistics ≠ "F" ∧ n = 0))) ∧
      (∀ p ∈ pts, ∃ c d, Run (fun i => component b.statistics l (z (x i))) m c d ∧
        FirstMax (fun i => |component b.statistics l (z (x i))|) c d p) ∧
      ∀ c d, Run (fun i => component b.statistics l (z (x i))) m c d → ∃! p, p ∈ pts ∧ c ≤ p ∧ p < d := by
  set x : ℕ → ℤ := fun i => X.getD i 0 with hx
  have hXx : X = (List.range X.length).map x := by
    apply List.ext_getElem
    · simp
    · intro i h1 h2
      simp [hx, List.getD_eq_getElem?_getD, h1]
  have hpos : 0 < X.length := List.length_pos_of_ne_nil hne0
  obtain ⟨pts, h1, h2, h3, h4⟩ := C57_runs (fun i => component b.statistics l (z (x i))) X.length hpos
  have hlt : ∀ p ∈ pts, p < X.length := by
    intro p hp
    obtain ⟨c, d, hrun, hm⟩ := h3 p hp
    exact hm.2.1.trans_le hrun.2.1
  have hsel : pts.filterMap (fun i => X[i]?) = pts.map x := by
    rw [← List.filterMap_eq_map]
    refine List.filterMap_congr fun i hi => ?_
    simp [hx, List.getD_eq_getElem?_getD, hlt i hi]
  have hxm : ∀ i j, i < j → j < X.length → x i < x j := by
    intro i j hij hj
    have hi : i < X.length := hij.trans hj
    have := List.pairwise_iff_getElem.1 hs i j hi hj hij
    simpa [hx, List.getD_eq_getElem?_getD, hi, hj] using this
  have hss : (pts.map x).Pairwise (· < ·) := by
    rw [List.pairwise_map]
    exact h2.imp_of_mem fun {i j} _ hj hij => hxm i j hij (hlt j hj)
  have hs0 : ∀ n ∈ pts.map x, 0 ≤ n := by
    intro n hn
    obtain ⟨p, hp, rfl⟩ := List.mem_map.1 hn
    refine hnn _ ?_
    simp only [hx, List.getD_eq_getElem?_getD, List.getElem?_eq_getElem (hlt p hp), Option.getD_some]
    exact List.getElem_mem _
  have hne : pts.map x ≠ [] := by
    intro h
    have : pts = [] := List.map_eq_nil_iff.1 h
    subst this
    have hl0 := h1
    unfold samplingPoints flipBounds at hl0
    generalize (flips _).map (· + 1) = w at hl0
    cases w with
    | nil =>
      simp only [List.nil_append, segPoints] at hl0
      split at hl0
      · cases hl0
      · cases hl0
    | cons c w =>
      simp only [List.cons_append, segPoints] at hl0
      split at hl0
      · cases hl0
      · split at hl0 <;> cases hl0
  obtain ⟨r, g1, g2, g3, g4, g5⟩ := C57_full (pts.map x) b.statistics hss hs0 hne
  refine ⟨x, X.length, pts, r, hXx, ?_, g2, g3, g4, h2, fun n hn => ?_, h3, h4⟩
  · unfold getMatsSampling
    simp only [Option.getD_some]
    rw [computeUnl_ok b l z X hz]
    simp only [bind, Except.bind]
    rw [realPart_ok b.statistics l _ (by
      intro w hw
      obtain ⟨n, hn, rfl⟩ := List.mem_map.1 hw
      exact hr n hn)]
    simp only
    have : (X.map z).map (component b.statistics l) =
        (List.range X.length).map fun i => component b.statistics l (z (x i)) := by
      conv_lhs => rw [hXx]
      simp [List.map_map, Function.comp_def]
    rw [this, h1]
    simp only
    rw [hsel, g1]
  · rw [g5 n hn, List.mem_map]
    refine or_congr_left (exists_congr fun p => and_congr_right fun _ => eq_comm)

/-- `sampling_points_matsubara`, for every basis function whose transform has the stated symmetry on the probe grid. -/
theorem C57_matsubara (b : Adapter.Basis) (l : ℤ) (z : ℤ → ℂ)
    (hst : b.statistics = "F" ∨ b.statistics = "B" ∨ b.statistics = "barB") (hl : l ≤ b.dim - 1)
    (hz : ∀ n ∈ startGuesses 1000, b.hat l (2 * n + if b.statistics = "F" then 1 else 0) = .ok (z n))
    (hr : ∀ n ∈ startGuesses 1000, |other b.statistics l (z n)| ≤ 1e-8) :
    ∃ (x : ℕ → ℤ) (m : ℕ) (pts : List ℕ) (r : List ℤ), startGuesses 1000 = (List.range m).map x ∧
      samplingPointsMatsubara b l = .ok r ∧ r.Pairwise (· < ·) ∧ (∀ n, n ∈ r ↔ mirrorIndex b.statistics n ∈ r) ∧
      (b.statistics ≠ "F" → (0 : ℤ) ∈ r) ∧ pts.Pairwise (· < ·) ∧
      (∀ n, 0 ≤ n → (n ∈ r ↔ (∃ p ∈ pts, n = x p) ∨ (b.statistics ≠ "F" ∧ n = 0))) ∧
      (∀ p ∈ pts, ∃ c d, Run (fun i => component b.statistics l (z (x i))) m c d ∧
        FirstMax (fun i => |component b.statistics l (z (x i))|) c d p) ∧
      ∀ c d, Run (fun i => component b.statistics l (z (x i))) m c d → ∃! p, p ∈ pts ∧ c ≤ p ∧ p < d := by
  obtain ⟨hs, hnn, hin⟩ := startGuesses_spec 1000
  obtain ⟨x, m, pts, r, h1, h2, h3⟩ := C57_sampling b l z _ hs hnn (List.ne_nil_of_mem (hin 0 (by norm_num))) hz hr
  refine ⟨x, m, pts, r, h1, ?_, h3⟩
  unfold samplingPointsMatsubara
  rw [if_neg (not_not.2 hst), if_neg (not_lt.2 hl)]
  exact h2

/-- Other statistics are refused. -/
theorem C57_statistics (b : Adapter.Basis) (l : ℤ) (h : ¬ (b.statistics = "F" ∨ b.statistics = "B" ∨ b.statistics = "barB")) :
    samplingPointsMatsubara b l = .error .assertionError := if_pos h

/-- A function number beyond the basis is refused. -/
theorem C57_whichl (b : Adapter.Basis) (l : ℤ) (h : b.statistics = "F" ∨ b.statistics = "B" ∨ b.statistics = "barB")
    (hl : (b.dim : ℤ) - 1 < l) : samplingPointsMatsubara b l = .error .runtimeError := by
  unfold samplingPointsMatsubara
  rw [if_neg (not_not.2 h), if_pos hl]

/-- Two sign-definite runs of a function without zeros. -/
example : samplingPoints [1, 2, 2, -1, -3] = .ok [1, 4] := by
  have : flips [1, 2, 2, -1, -3] = [2] := by
    unfold flips
    norm_num [List.range_succ]
  norm_num [samplingPoints, flipBounds, this, segPoints, argmax, argmaxLoop]

/-- A basis with a transform that is real for the even functions meets the hypotheses of `C57_matsubara`. -/
example : ∃ (b : Adapter.Basis) (r : List ℤ), b.statistics = "B" ∧ samplingPointsMatsubara b 0 = .ok r ∧ (0 : ℤ) ∈ r := by
  obtain ⟨x, m, pts, r, -, h, -, -, h0, -⟩ := C57_matsubara ⟨"B", 1, fun _ n => .ok (1 / (1 + n : ℝ) : ℝ)⟩ 0
    (fun n => (1 / (1 + (2 * n : ℤ) : ℝ) : ℝ)) (by simp) (by simp) (by simp) (by
      intro n _
      have : other "B" 0 ((1 / (1 + (2 * n : ℤ) : ℝ) : ℝ) : ℂ) = 0 := by
        simp only [other]
        rw [if_pos (by decide)]
        exact Complex.ofReal_im _
      rw [this]
      norm_num)
  exact ⟨_, r, rfl, h, h0 (by simp)⟩

end Verif.Props
