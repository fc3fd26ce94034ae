import Verif.Lemmas.NpUnique
/-!
# C21 — fencing of Matsubara points
-/

namespace Verif.Props
open Verif Verif.Poly Verif.Basis

/-- Closed under `n ↦ -n`. -/
def NegClosed (l : List ℤ) : Prop := ∀ x ∈ l, -x ∈ l

theorem fenceDiff_neg (w : ℤ) : fenceDiff (-w) = - fenceDiff w := by
  unfold fenceDiff
  rw [show (0.025 : ℝ) * ((-w : ℤ) : ℝ) = -(0.025 * (w : ℝ)) by push_cast; ring, npRound_neg]
  ring

theorem fenceDiff_even (w : ℤ) : fenceDiff w % 2 = 0 := by
  unfold fenceDiff; omega

theorem fenceDiff_bounds {w : ℤ} (hw : 0 ≤ w) : 0 ≤ fenceDiff w ∧ fenceDiff w ≤ w := by
  obtain ⟨h1, h2⟩ := npRound_bounds (0.025 * (w : ℝ))
  have hw' : (0 : ℝ) ≤ w := by exact_mod_cast hw
  have a1 : (-1 : ℝ) < npRound (0.025 * (w : ℝ)) := by norm_num at h1 ⊢; linarith
  have a1 : -1 < npRound (0.025 * (w : ℝ)) := by exact_mod_cast a1
  unfold fenceDiff
  refine ⟨by omega, ?_⟩
  rcases lt_or_ge w 2 with h | h
  · have : (npRound (0.025 * (w : ℝ)) : ℝ) < 1 := by
      have : (w : ℝ) ≤ 1 := by exact_mod_cast (by omega : w ≤ 1)
      norm_num at h2 ⊢; linarith
    have : npRound (0.025 * (w : ℝ)) < 1 := by exact_mod_cast this
    omega
  · have h3 : (2 : ℝ) ≤ w := by exact_mod_cast h
    have : 2 * (npRound (0.025 * (w : ℝ)) : ℝ) ≤ w := by norm_num at h2 ⊢; linarith
    exact_mod_cast this

theorem fenceDiff_pos {w : ℤ} (hw : 21 ≤ w) : 0 < fenceDiff w := by
  obtain ⟨h1, h2⟩ := npRound_bounds (0.025 * (w : ℝ))
  have hw' : (21 : ℝ) ≤ w := by exact_mod_cast hw
  have h3 : (21 / 40 : ℝ) ≤ 0.025 * (w : ℝ) := by norm_num; linarith
  have a1 : (0 : ℝ) < npRound (0.025 * (w : ℝ)) := by linarith
  have a1 : 0 < npRound (0.025 * (w : ℝ)) := by exact_mod_cast a1
  unfold fenceDiff; omega

/-- The list before `np.unique`. -/
theorem fence_mem {wn : List ℤ} {po : Bool} {outer r : List ℤ} (ho : fenceOuter wn po = .ok outer)
    (hr : fence wn po = .ok r) (x : ℤ) :
    x ∈ r ↔ x ∈ wn ∨ (20 ≤ wn.length ∧ ∃ w ∈ outer, x = w - w.sign * fenceDiff w) ∨
      (42 ≤ wn.length + (if 20 ≤ wn.length then outer.length else 0) ∧
        ∃ w ∈ outer, x = w + w.sign * fenceDiff w) := by
  unfold fence at hr
  rw [ho] at hr
  simp only [Except.ok.injEq] at hr
  rw [← hr, mem_npUnique]
  by_cases h1 : 20 ≤ wn.length
  · have h1' : wn.length ≥ 20 := h1
    simp only [h1', h1, if_true]
    by_cases h2 : 42 ≤ wn.length + outer.length
    · rw [if_pos (by simpa using h2)]
      simp only [List.mem_append, List.mem_map, h2, true_and, eq_comm, or_assoc]
    · rw [if_neg (by simpa using h2)]
      simp only [List.mem_append, List.mem_map, h2, true_and, false_and, or_false, eq_comm]
  · have h1' : ¬ wn.length ≥ 20 := h1
    simp only [h1', h1, if_false, false_and, false_or]
    rw [if_neg (by omega)]
    have : ¬ 42 ≤ wn.length + 0 := by omega
    simp only [this, false_and, or_false]

theorem fenceOuter_sub {wn : List ℤ} {po : Bool} {outer : List ℤ} (ho : fenceOuter wn po = .ok outer) :
    ∀ w ∈ outer, w ∈ wn := by
  intro w hw
  unfold fenceOuter at ho
  cases po with
  | true =>
    simp only [if_true, Except.ok.injEq] at ho
    rw [← ho] at hw
    exact List.mem_of_mem_drop hw
  | false =>
    simp only [Bool.false_eq_true, if_false] at ho
    split at ho
    · rename_i a b ha hb
      obtain rfl := (Except.ok.inj ho)
      rcases List.mem_cons.1 hw with rfl | hw
      · exact List.mem_of_mem_head? ha
      · rw [List.mem_singleton] at hw
        subst hw
        exact List.mem_of_getLast? hb
    · cases ho

/-- Fencing never fails on a non-empty set, keeps all original points, returns strictly increasing
points, keeps the parity, and keeps non-negativity of positive-only sets. -/
theorem C21_fence (wn : List ℤ) (hne : wn ≠ []) (po : Bool) :
    ∃ r, fence wn po = .ok r ∧ (∀ x ∈ wn, x ∈ r) ∧ r.Pairwise (· < ·) ∧
      (∀ z, (∀ x ∈ wn, x % 2 = z) → ∀ x ∈ r, x % 2 = z) ∧
      ((∀ x ∈ wn, 0 ≤ x) → ∀ x ∈ r, 0 ≤ x) := by
  obtain ⟨outer, ho⟩ : ∃ outer, fenceOuter wn po = .ok outer := by
    unfold fenceOuter
    cases po with
    | true => exact ⟨_, rfl⟩
    | false =>
      match wn, hne with
      | a :: l, _ => exact ⟨_, by simp [List.getLast?_cons]; rfl⟩
  have hr : ∃ r, fence wn po = .ok r := by
    unfold fence
    rw [ho]
    exact ⟨_, rfl⟩
  obtain ⟨r, hr⟩ := hr
  have hm := fence_mem ho hr
  have hsub := fenceOuter_sub ho
  refine ⟨r, hr, fun x hx => (hm x).2 (Or.inl hx), ?_, ?_, ?_⟩
  · unfold fence at hr
    rw [ho] at hr
    rw [← Except.ok.inj hr]
    exact npUnique_sorted _
  · intro z hz x hx
    have hmul : ∀ w : ℤ, (w.sign * fenceDiff w) % 2 = 0 := fun w => by
      rw [Int.mul_emod, fenceDiff_even]; simp
    rcases (hm x).1 hx with h | ⟨-, w, hw, rfl⟩ | ⟨-, w, hw, rfl⟩
    · exact hz x h
    · have := hz w (hsub w hw); have := hmul w; omega
    · have := hz w (hsub w hw); have := hmul w; omega
  · intro hn x hx
    have hsd : ∀ w : ℤ, 0 ≤ w → 0 ≤ w.sign * fenceDiff w ∧ w.sign * fenceDiff w ≤ w := by
      intro w hw
      have h := fenceDiff_bounds hw
      rcases eq_or_lt_of_le hw with rfl | hw
      · simp
      · rw [Int.sign_eq_one_of_pos hw, one_mul]; exact h
    rcases (hm x).1 hx with h | ⟨-, w, hw, rfl⟩ | ⟨-, w, hw, rfl⟩
    · exact hn x h
    · have := hsd w (hn w (hsub w hw)); omega
    · have h1 := hn w (hsub w hw); have := hsd w h1; omega

/-- Outer points of a strictly increasing reflection-symmetric set. -/
theorem outer_symm {wn : List ℤ} (hs : wn.Pairwise (· < ·)) (hc : NegClosed wn) (hne : wn ≠ []) :
    ∃ W, 0 ≤ W ∧ fenceOuter wn false = .ok [-W, W] ∧ (∀ x ∈ wn, x ≤ W) ∧ W ∈ wn := by
  match wn, hne with
  | a :: l, _ =>
    obtain ⟨b, hb⟩ : ∃ b, (a :: l).getLast? = some b := ⟨_, List.getLast?_cons⟩
    have hbm : b ∈ a :: l := List.mem_of_getLast? hb
    have hmin : ∀ x ∈ a :: l, a ≤ x := by
      intro x hx
      rcases List.mem_cons.1 hx with rfl | hx
      · exact le_refl _
      · exact (List.rel_of_pairwise_cons hs hx).le
    have hmax : ∀ x ∈ a :: l, x ≤ b := by
      obtain ⟨m, hm⟩ : ∃ m, a :: l = m ++ [b] := by
        rw [List.getLast?_eq_some_iff] at hb; exact hb
      intro x hx
      rw [hm] at hx hs
      rw [List.pairwise_append] at hs
      rcases List.mem_append.1 hx with hx | hx
      · exact (hs.2.2 x hx b (by simp)).le
      · rw [List.mem_singleton] at hx; exact hx.le
    have hab : a = -b := by
      have h1 := hmax (-a) (hc a (by simp))
      have h2 := hmin (-b) (hc b hbm)
      omega
    have hle := hmin b hbm
    refine ⟨b, by omega, ?_, hmax, hbm⟩
    unfold fenceOuter
    simp only [Bool.false_eq_true, if_false, List.head?_cons, hb]
    rw [hab]

/-- Proved part of the reflection claim: symmetric sets with fewer than 20 or at least 40 points stay
symmetric.  Missing (false): 20 to 39 points, see `C21_asymmetric`. -/
theorem C21_symmetric_partial (wn : List ℤ) (hs : wn.Pairwise (· < ·)) (hc : NegClosed wn)
    (hne : wn ≠ []) (hlen : wn.length < 20 ∨ 40 ≤ wn.length) :
    ∃ r, fence wn false = .ok r ∧ NegClosed r := by
  obtain ⟨W, hW, ho, -, -⟩ := outer_symm hs hc hne
  obtain ⟨r, hr, -⟩ := C21_fence wn hne false
  have hm := fence_mem ho hr
  refine ⟨r, hr, ?_⟩
  rcases hlen with h | h
  · have h1 : ¬ 20 ≤ wn.length := by omega
    simp only [h1, false_and, if_false, false_or] at hm
    have h2 : ¬ 42 ≤ wn.length + 0 := by omega
    simp only [h2, false_and, or_false] at hm
    intro x hx
    rw [hm] at *
    exact hc x hx
  · have h1 : 20 ≤ wn.length := by omega
    simp only [h1, true_and, if_true, List.length_cons, List.length_nil] at hm
    have h2 : 42 ≤ wn.length + (0 + 1 + 1) := by omega
    simp only [h2, true_and, List.mem_cons, List.not_mem_nil, or_false, exists_eq_or_imp,
      exists_eq_left, fenceDiff_neg, Int.sign_neg] at hm
    intro x hx
    rw [hm] at *
    rcases hx with hx | (rfl | rfl) | (rfl | rfl)
    · exact Or.inl (hc x hx)
    · right; right; right; ring
    · right; right; left; ring
    · right; left; right; ring
    · right; left; left; ring

/-- Disagreement: *every* symmetric set with 20 to 39 points whose largest frequency is at least 21
loses the reflection symmetry (`-W - d` and `W - d` are added, as `wn_diff` already carries the sign
of `wn_outer`). -/
theorem C21_asymmetric (wn : List ℤ) (hs : wn.Pairwise (· < ·)) (hc : NegClosed wn)
    (hlen : 20 ≤ wn.length ∧ wn.length < 40) (W : ℤ) (hW : 21 ≤ W) (hWm : W ∈ wn) :
    ∃ r, fence wn false = .ok r ∧ ¬ NegClosed r := by
  have hne : wn ≠ [] := by rintro rfl; simp at hlen
  obtain ⟨V, hV, ho, hmax, -⟩ := outer_symm hs hc hne
  obtain ⟨r, hr, -⟩ := C21_fence wn hne false
  have hm := fence_mem ho hr
  refine ⟨r, hr, ?_⟩
  have hV21 : 21 ≤ V := hW.trans (hmax W hWm)
  have hd := fenceDiff_pos hV21
  have h1 : 20 ≤ wn.length := hlen.1
  simp only [h1, true_and, if_true, List.length_cons, List.length_nil] at hm
  have h2 : ¬ 42 ≤ wn.length + (0 + 1 + 1) := by omega
  simp only [h2, false_and, List.mem_cons, List.not_mem_nil, or_false, exists_eq_or_imp,
    exists_eq_left, fenceDiff_neg, Int.sign_neg, Int.sign_eq_one_of_pos (by omega : 0 < V)] at hm
  intro hcl
  have h3 : -V - fenceDiff V ∈ r := (hm _).2 (Or.inr (Or.inl (by ring)))
  have h4 := hcl _ h3
  rcases (hm _).1 h4 with h | h | h
  · have := hmax _ h; omega
  · omega
  · omega

/-- Non-vacuity and witness: the 20 fermionic frequencies `±1, ±3, ..., ±19, ±41`-like set. -/
def exWn : List ℤ :=
  [-41, -17, -15, -13, -11, -9, -7, -5, -3, -1, 1, 3, 5, 7, 9, 11, 13, 15, 17, 41]

theorem C21_negation : ∃ wn : List ℤ, wn.Pairwise (· < ·) ∧ NegClosed wn ∧ (∀ x ∈ wn, x % 2 = 1) ∧
    ∃ r, fence wn false = .ok r ∧ ¬ NegClosed r :=
  ⟨exWn, by decide, by unfold NegClosed; decide, by decide,
    C21_asymmetric exWn (by decide) (by unfold NegClosed; decide) (by decide) 41 (by decide) (by decide)⟩

example : ∃ r, fence [-5, -1, 1, 5] false = .ok r ∧ NegClosed r :=
  C21_symmetric_partial _ (by decide) (by unfold NegClosed; decide) (by decide) (by decide)

end Verif.Props
