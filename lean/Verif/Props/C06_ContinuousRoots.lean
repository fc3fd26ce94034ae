import Verif.Lemmas.FindAll
import Mathlib.Topology.Order.IntermediateValue
import Mathlib.Topology.Instances.Real.Lemmas
import Mathlib.Tactic.NormNum
/-!
# C06 — continuous root search terminates and brackets a root to tolerance
-/

namespace Verif.Props
open Verif Verif.Np Verif.Roots

section
variable {K : Type _} [Field K] [LinearOrder K] [IsStrictOrderedRing K] [Archimedean K]

private theorem exists_pow_bound (xeps : K) (hx : 0 < xeps) (st : List (Roots.Bracket K K)) :
    ∃ n : ℕ, ∀ br ∈ st, br.b - br.a < 2 ^ n * xeps := by
  induction st with
  | nil => exact ⟨0, by simp⟩
  | cons x st ih =>
    obtain ⟨n, hn⟩ := ih
    obtain ⟨k, hk⟩ := pow_unbounded_of_one_lt ((x.b - x.a) / xeps) (one_lt_two : (1 : K) < 2)
    rw [div_lt_iff₀ hx] at hk
    refine ⟨n + k, ?_⟩
    intro br hbr
    rcases List.mem_cons.1 hbr with rfl | h
    · refine lt_of_lt_of_le hk ?_
      gcongr
      · norm_num
      · omega
    · refine lt_of_lt_of_le (hn br h) ?_
      gcongr
      · norm_num
      · omega

private theorem le_absMax (grid : List K) : ∀ x ∈ grid, |x| ≤ absMax grid := by
  have key : ∀ (l : List K) (m : K), m ≤ l.foldl (fun m x => max m |x|) m ∧
      ∀ x ∈ l, |x| ≤ l.foldl (fun m x => max m |x|) m := by
    intro l
    induction l with
    | nil => intro m; simp
    | cons y l ih =>
      intro m
      simp only [List.foldl_cons, List.mem_cons]
      obtain ⟨h1, h2⟩ := ih (max m |y|)
      refine ⟨le_trans (le_max_left _ _) h1, ?_⟩
      rintro x (rfl | hx)
      · exact le_trans (le_max_right _ _) h1
      · exact h2 x hx
  exact (key grid 0).2

/-- What the code promises without continuity: the returned point lies strictly inside the bracket
and is the end point of a sign-bit change of width below `xeps`. -/
def BracketedTo (f : K → FVal K) (xeps : K) (a b m : K) : Prop :=
  a < m ∧ m < b ∧ ∃ a' b', a ≤ a' ∧ a' < b' ∧ b' ≤ b ∧ b' - a' < xeps ∧
    (f a').signbit ≠ (f b').signbit ∧ (m = a' ∨ m = b')

/-- The vectorised bisection terminates for every positive tolerance. -/
theorem C06_bisect_terminates (f : K → FVal K) (xeps : K) (hx : 0 < xeps) (br : List (K × K))
    (hne : br ≠ []) (hbr : ∀ p ∈ br, p.1 < p.2 ∧ (f p.1).signbit ≠ (f p.2).signbit) :
    ∃ rs, bisectCont f xeps (br.map fun p => ⟨p.1, p.2, f p.1, f p.2⟩) = some rs ∧
      ∃ ms, rs.Perm ms ∧ List.Forall₂ (fun p m => BracketedTo f xeps p.1 p.2 m) br ms := by
  set st := br.map fun p => (⟨p.1, p.2, f p.1, f p.2⟩ : Roots.Bracket K K) with hst
  obtain ⟨n, hn⟩ := exists_pow_bound xeps hx st
  obtain ⟨rs, hrs, ms, hp, hf⟩ := bisectCont_spec f xeps n st (by simpa [hst] using hne)
    (by
      intro b hb
      rw [hst, List.mem_map] at hb
      obtain ⟨p, hp, rfl⟩ := hb
      exact ⟨(hbr p hp).1, rfl, rfl, (hbr p hp).2⟩) hn
  rw [hst, List.forall₂_map_left_iff] at hf
  exact ⟨rs, hrs, ms, hp, hf⟩

/-- `find_all(f, grid)` (continuous): terminates on every strictly increasing grid, for every `f`;
the result is strictly ascending with all grid zeros and exactly one point per sign change, located
to the tolerance `eps * max|grid|`. -/
theorem C06_find_all_cont (eps : K) (heps : 0 < eps) (f : K → FVal K) (grid : List K)
    (hgrid : grid.Pairwise (· < ·)) :
    ∃ r, findAllCont eps f grid = some (.ok r) ∧
      FindAllSpec f grid (BracketedTo f (eps * absMax grid)) r := by
  refine findAllWith_spec f _ grid hgrid _ (fun a b m h => ⟨h.1.le, h.2.1⟩) ?_
  intro st hne hinv hmem
  have hx : 0 < eps * absMax grid := by
    apply mul_pos heps
    obtain ⟨x, st', rfl⟩ := List.exists_cons_of_ne_nil hne
    have h1 := (hinv x (by simp)).lt
    have h2 := hmem x (by simp)
    have h3 := le_absMax grid _ h2.1
    have h4 := le_absMax grid _ h2.2
    by_contra h
    have h5 : x.a = 0 := abs_eq_zero.1 (le_antisymm (h3.trans (not_lt.1 h)) (abs_nonneg _))
    have h6 : x.b = 0 := abs_eq_zero.1 (le_antisymm (h4.trans (not_lt.1 h)) (abs_nonneg _))
    rw [h5, h6] at h1
    exact lt_irrefl _ h1
  obtain ⟨n, hn⟩ := exists_pow_bound (eps * absMax grid) hx st
  obtain ⟨rs, hrs, ms, hp, hf⟩ := bisectCont_spec f _ n st hne hinv hn
  exact ⟨rs, by rw [hrs]; rfl, ms, hp, hf⟩

end

/-- For continuous `f` every point reported for a sign change is within the tolerance
`eps * max|grid|` of a true root in the same grid interval. -/
theorem C06_true_root (eps : ℝ) (heps : 0 < eps) (f : ℝ → FVal ℝ) (grid : List ℝ)
    (hgrid : grid.Pairwise (· < ·))
    (hcont : ∀ a ∈ grid, ∀ b ∈ grid, ContinuousOn (fun x => (f x).val) (Set.Icc a b)) :
    ∃ r, findAllCont eps f grid = some (.ok r) ∧
      FindAllSpec f grid (fun a b m => a < m ∧ m < b ∧
        ∃ z, a ≤ z ∧ z ≤ b ∧ (f z).val = 0 ∧ |m - z| < eps * absMax grid) r := by
  obtain ⟨r, hr, hs⟩ := C06_find_all_cont eps heps f grid hgrid
  have key : ∀ a b m, Adjacent grid a b → BracketedTo f (eps * absMax grid) a b m →
      (a < m ∧ m < b ∧ ∃ z, a ≤ z ∧ z ≤ b ∧ (f z).val = 0 ∧ |m - z| < eps * absMax grid) := by
    rintro a b m hab ⟨h1, h2, a', b', h3, h4, h5, h6, h7, h8⟩
    refine ⟨h1, h2, ?_⟩
    have hc : ContinuousOn (fun x => (f x).val) (Set.uIcc a' b') := by
      rw [Set.uIcc_of_le h4.le]
      exact (hcont a hab.mem.1 b hab.mem.2).mono (Set.Icc_subset_Icc h3 h5)
    have h0 : (0 : ℝ) ∈ Set.uIcc ((f a').val) ((f b').val) := by
      have := FVal.mul_nonpos_of_signbit_ne h7
      rw [Set.mem_uIcc]
      rcases mul_nonpos_iff.1 this with h | h
      · exact Or.inr ⟨h.2, h.1⟩
      · exact Or.inl ⟨h.1, h.2⟩
    obtain ⟨z, hz, hz0⟩ := intermediate_value_uIcc hc h0
    rw [Set.uIcc_of_le h4.le, Set.mem_Icc] at hz
    refine ⟨z, h3.trans hz.1, hz.2.trans h5, hz0, ?_⟩
    rw [abs_lt]
    rcases h8 with rfl | rfl <;> constructor <;> linarith
  refine ⟨r, hr, hs.sorted, ?_, hs.zeros, ?_⟩
  · intro x hx
    rcases hs.sound x hx with h | ⟨a, b, h1, h2, h3⟩
    · exact Or.inl h
    · exact Or.inr ⟨a, b, h1, h2, key a b x h1 h3⟩
  · intro a b h1 h2
    obtain ⟨x, hx, hg, hu⟩ := hs.changes a b h1 h2
    exact ⟨x, hx, key a b x h1 hg, hu⟩

/- Non-vacuity: `x ↦ x² - 2` on the grid `0, 1, 2`. -/
example : ∃ r : List ℝ, findAllCont (1 / 1000) (fun x : ℝ => FVal.mk' (x ^ 2 - 2)) [0, 1, 2]
      = some (.ok r) ∧ ∃ m ∈ r, ∃ z, 1 ≤ z ∧ z ^ 2 = 2 ∧ |m - z| < 2 / 1000 := by
  obtain ⟨r, hr, hs⟩ := C06_true_root (1 / 1000) (by norm_num)
    (fun x : ℝ => FVal.mk' (x ^ 2 - 2)) [0, 1, 2]
    (by simp only [List.pairwise_cons, List.mem_cons, List.not_mem_nil, or_false]; norm_num)
    (by intro a _ b _; simp only [FVal.mk']; fun_prop)
  refine ⟨r, hr, ?_⟩
  obtain ⟨m, ⟨hm, -, -⟩, ⟨-, -, z, hz1, -, hz, h⟩, -⟩ := hs.changes 1 2 ⟨[0], [], rfl⟩
    (by norm_num [FVal.mk'])
  refine ⟨m, hm, z, hz1, ?_, ?_⟩
  · simp only [FVal.mk'] at hz; linarith
  · have : absMax ([0, 1, 2] : List ℝ) = 2 := by
      simp [absMax]
    rw [this] at h; linarith

end Verif.Props
