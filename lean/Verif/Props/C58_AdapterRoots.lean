import Verif.Model.Adapter
import Mathlib.Analysis.SpecialFunctions.Trigonometric.DerivHyp
import Mathlib.Topology.Order.IntermediateValue
import Mathlib.Analysis.Calculus.Deriv.MeanValue
import Mathlib.Analysis.Real.Pi.Bounds
import Mathlib.Analysis.Complex.ExponentialBounds
import Mathlib.Tactic.Linarith
/-!
# C58 — irbasis-compatible x/y sampling points interleave the roots
-/

namespace Verif.Props
open Verif Verif.Adapter

/-- Specification: `z` is the middle of a bracket of width at most `eps` inside `[x, y]`, at whose ends the function does
not have the same sign. -/
def Bracketed (u : ℝ → ℝ) (eps x y z : ℝ) : Prop :=
  ∃ b a, x ≤ b ∧ b < a ∧ a ≤ y ∧ a - b ≤ eps ∧ z = (b + a) / 2 ∧ u b * u a ≤ 0 ∧ u a ≠ 0

/-- Specification: neighbouring points of a grid between which the function strictly changes sign. -/
noncomputable def signChanges (u : ℝ → ℝ) (l : List ℝ) : List (ℝ × ℝ) :=
  open Classical in (l.zip l.tail).filter fun p => decide (u p.1 * u p.2 < 0)

theorem bisect_spec (u : ℝ → ℝ) (eps ua : ℝ) (heps : 0 < eps) : ∀ (n : ℕ) (a b : ℝ), b < a → a - b ≤ eps * 2 ^ n →
    0 < u a * ua → u b * ua ≤ 0 → ∃ a' b', Adapter.bisect u eps ua a b = some (a', b') ∧ b ≤ b' ∧ b' < a' ∧ a' ≤ a ∧
      a' - b' ≤ eps ∧ 0 < u a' * ua ∧ u b' * ua ≤ 0 := by
  intro n
  induction n with
  | zero =>
    intro a b h1 h2 h3 h4
    rw [Adapter.bisect, if_neg (by rw [pow_zero, mul_one] at h2; exact not_lt.2 h2)]
    exact ⟨a, b, rfl, le_rfl, h1, le_rfl, by simpa using h2, h3, h4⟩
  | succ n ih =>
    intro a b h1 h2 h3 h4
    rw [Adapter.bisect]
    split
    · rw [pow_succ] at h2
      simp only
      split
      · rename_i hh
        obtain ⟨a', b', e, g1, g2, g3, g4⟩ := ih (0.5 * (a + b)) b (by linarith) (by linarith) hh h4
        exact ⟨a', b', e, g1, g2, by linarith, g4⟩
      · rename_i hh
        obtain ⟨a', b', e, g1, g2, g3, g4⟩ := ih a (0.5 * (a + b)) (by linarith) (by linarith) h3 (not_lt.1 hh)
        exact ⟨a', b', e, by linarith, g2, g3, g4⟩
    · rename_i hh
      exact ⟨a, b, rfl, le_rfl, h1, le_rfl, not_lt.1 hh, h3, h4⟩

theorem bisect_ok (u : ℝ → ℝ) (eps : ℝ) (heps : 0 < eps) (x y : ℝ) (hxy : x < y) (hc : u x * u y < 0) :
    ∃ a b, Adapter.bisect u eps (u y) y x = some (a, b) ∧ x < 0.5 * (a + b) ∧ 0.5 * (a + b) < y ∧
      Bracketed u eps x y (0.5 * (a + b)) := by
  obtain ⟨n, hn⟩ := pow_unbounded_of_one_lt ((y - x) / eps) (one_lt_two)
  have hy : u y ≠ 0 := by intro h; rw [h, mul_zero] at hc; exact lt_irrefl _ hc
  obtain ⟨a, b, h, h1, h2, h3, h4, h5, h6⟩ := bisect_spec u eps (u y) heps n y x hxy
    (by rw [div_lt_iff₀ heps] at hn; linarith) (mul_self_pos.2 hy) hc.le
  refine ⟨a, b, h, by linarith, by linarith, b, a, h1, h2, h3, h4, by ring, ?_, ?_⟩
  · by_contra hcon
    have : 0 < (u b * u a) * (u y * u y) := mul_pos (not_le.1 hcon) (mul_self_pos.2 hy)
    nlinarith
  · intro h0; rw [h0, zero_mul] at h5; exact lt_irrefl _ h5

/-- On every increasing grid and for every function, the search terminates, with one bracketed root for each strict sign
change; the roots increase strictly. -/
theorem rootsOn_spec (u : ℝ → ℝ) (eps : ℝ) (heps : 0 < eps) : ∀ l : List ℝ, l.Pairwise (· < ·) →
    ∃ r, rootsOn u eps l = some r ∧ List.Forall₂ (fun p z => Bracketed u eps p.1 p.2 z) (signChanges u l) r ∧
      r.Pairwise (· < ·) ∧ ∀ z ∈ r, (∃ x ∈ l.head?, x < z) ∧ ∃ y ∈ l.getLast?, z < y
  | [], _ => ⟨[], rfl, by simp [signChanges], List.Pairwise.nil, by simp⟩
  | [x], _ => ⟨[], rfl, by simp [signChanges], List.Pairwise.nil, by simp⟩
  | x :: y :: l, h => by
    have hxy : x < y := List.rel_of_pairwise_cons h List.mem_cons_self
    obtain ⟨r, h1, h2, h3, h4⟩ := rootsOn_spec u eps heps (y :: l) h.of_cons
    have hlow : ∀ z ∈ r, y < z := fun z hz => by
      obtain ⟨⟨w, hw, hlt⟩, -⟩ := h4 z hz
      rwa [← Option.some.inj hw] at hlt
    have hlast : ∀ z ∈ r, ∃ w ∈ (x :: y :: l).getLast?, z < w := fun z hz => by
      rw [List.getLast?_cons_cons]; exact (h4 z hz).2
    unfold rootsOn
    by_cases hc : u x * u y < 0
    · rw [if_pos hc]
      obtain ⟨a, b, hb, hz1, hz2, hbr⟩ := bisect_ok u eps heps x y hxy hc
      rw [hb]
      simp only [h1, Option.map_some]
      refine ⟨_, rfl, ?_, List.pairwise_cons.2 ⟨fun z hz => hz2.trans (hlow z hz), h3⟩, ?_⟩
      · have : signChanges u (x :: y :: l) = (x, y) :: signChanges u (y :: l) := by
          simp [signChanges, hc]
        rw [this]
        exact List.Forall₂.cons hbr h2
      · intro z hz
        rcases List.mem_cons.1 hz with rfl | hz
        · refine ⟨⟨x, rfl, hz1⟩, ?_⟩
          have hne : (y :: l) ≠ [] := List.cons_ne_nil _ _
          refine ⟨(y :: l).getLast hne, ?_, ?_⟩
          · rw [List.getLast?_cons_cons, List.getLast?_eq_some_getLast hne]; rfl
          · rcases List.mem_cons.1 (List.getLast_mem hne) with he | he
            · rw [he]; exact hz2
            · exact hz2.trans (List.rel_of_pairwise_cons h.of_cons he)
        · exact ⟨⟨x, rfl, hxy.trans (hlow z hz)⟩, hlast z hz⟩
    · rw [if_neg hc]
      refine ⟨r, h1, ?_, h3, fun z hz => ⟨⟨x, rfl, hxy.trans (hlow z hz)⟩, hlast z hz⟩⟩
      have : signChanges u (x :: y :: l) = signChanges u (y :: l) := by simp [signChanges, hc]
      rwa [this]

theorem tanh_mono : StrictMono Real.tanh := by
  intro x y h
  rw [Real.tanh_eq_sinh_div_cosh, Real.tanh_eq_sinh_div_cosh, div_lt_div_iff₀ (Real.cosh_pos x) (Real.cosh_pos y)]
  have := Real.sinh_sub y x
  have h2 : 0 < Real.sinh (y - x) := Real.sinh_pos_iff.2 (by linarith)
  nlinarith

theorem grid_sorted : grid.Pairwise (· < ·) := by
  unfold grid
  rw [List.pairwise_map]
  refine List.Pairwise.imp (fun {i j} (hij : i < j) => ?_) List.pairwise_lt_range
  refine tanh_mono (mul_lt_mul_of_pos_left (Real.sinh_strictMono ?_) (by have := Real.pi_pos; positivity))
  have : (i : ℝ) < j := by exact_mod_cast hij
  linarith

theorem grid_bounds : ∀ x ∈ grid, -1 < x ∧ x < 1 := by
  intro x hx
  obtain ⟨i, -, rfl⟩ := List.mem_map.1 hx
  exact ⟨Real.neg_one_lt_tanh _, Real.tanh_lt_one _⟩

/-- `_find_roots` terminates for every function, with one bracketed root for each strict sign change on its grid, in
strictly increasing order and inside (-1, 1). -/
theorem C58_find_roots (u : ℝ → ℝ) : ∃ r, findRoots u = some r ∧
    List.Forall₂ (fun p z => Bracketed u 1e-14 p.1 p.2 z) (signChanges u grid) r ∧ r.Pairwise (· < ·) ∧
      ∀ z ∈ r, -1 < z ∧ z < 1 := by
  obtain ⟨r, h1, h2, h3, h4⟩ := rootsOn_spec u 1e-14 (by norm_num) grid grid_sorted
  refine ⟨r, h1, h2, h3, fun z hz => ?_⟩
  obtain ⟨⟨x, hx, hxz⟩, y, hy, hzy⟩ := h4 z hz
  exact ⟨(grid_bounds x (List.mem_of_head? hx)).1.trans hxz, hzy.trans (grid_bounds y (List.mem_of_getLast? hy)).2⟩

/-- For a continuous function each of them is within half the tolerance of a root. -/
theorem C58_root (u : ℝ → ℝ) (eps x y z : ℝ) (h : Bracketed u eps x y z) (hu : ContinuousOn u (Set.Icc x y)) :
    ∃ t, x ≤ t ∧ t ≤ y ∧ u t = 0 ∧ |t - z| ≤ eps / 2 := by
  obtain ⟨b, a, h1, h2, h3, h4, rfl, h6, h7⟩ := h
  have hc : ContinuousOn u (Set.Icc b a) := hu.mono (Set.Icc_subset_Icc h1 h3)
  obtain ⟨t, ⟨ht1, ht2⟩, ht⟩ : (0 : ℝ) ∈ u '' Set.Icc b a := by
    rcases lt_or_gt_of_ne h7 with ha | ha
    · exact intermediate_value_Icc' h2.le hc ⟨ha.le, by by_contra hb; nlinarith [not_le.1 hb]⟩
    · exact intermediate_value_Icc h2.le hc ⟨by by_contra hb; nlinarith [not_le.1 hb], ha.le⟩
  exact ⟨t, by linarith, by linarith, ht, abs_le.2 ⟨by linarith, by linarith⟩⟩

theorem exp_pow (n : ℕ) : Real.exp n = Real.exp 1 ^ n := by rw [← Real.exp_nat_mul, mul_one]

theorem tanh_last : 1 - 1e-12 < Real.tanh (0.5 * Real.pi * Real.sinh 3) := by
  have h1 := Real.exp_one_gt_d9
  have h2 : (15 : ℝ) < 0.5 * Real.pi * Real.sinh 3 := by
    have h3 := Real.pi_gt_d2
    have h4 : (9.8 : ℝ) < Real.sinh 3 := by
      rw [Real.sinh_eq]
      have h8 : (20.08 : ℝ) < Real.exp 3 := by
        rw [show (3 : ℝ) = (3 : ℕ) by norm_num, exp_pow 3]
        calc (20.08 : ℝ) < 2.7182818283 ^ 3 := by norm_num
          _ < _ := pow_lt_pow_left₀ h1 (by norm_num) (by norm_num)
      have h9 : Real.exp (-3) < 0.05 := by
        rw [Real.exp_neg, inv_lt_comm₀ (Real.exp_pos _) (by norm_num)]
        calc (0.05 : ℝ)⁻¹ = 20 := by norm_num
          _ < _ := by linarith
      linarith
    nlinarith
  refine lt_trans ?_ (tanh_mono h2)
  have h4 : (2 : ℝ) ^ 21 < Real.exp 15 := by
    rw [show (15 : ℝ) = (15 : ℕ) by norm_num, exp_pow 15]
    calc (2 : ℝ) ^ 21 < 2.7 ^ 15 := by norm_num
      _ < _ := pow_lt_pow_left₀ (by linarith) (by norm_num) (by norm_num)
  have h6 : Real.exp (-15) < 1e-6 := by
    rw [Real.exp_neg, inv_lt_comm₀ (Real.exp_pos _) (by norm_num)]
    calc (1e-6 : ℝ)⁻¹ < 2 ^ 21 := by norm_num
      _ < _ := h4
  rw [Real.tanh_eq, lt_div_iff₀ (by positivity)]
  norm_num at h4 h6 ⊢
  linarith

theorem tanh_step (s t : ℝ) (h : s ≤ t) :
    Real.tanh (0.5 * Real.pi * Real.sinh t) - Real.tanh (0.5 * Real.pi * Real.sinh s) ≤ 0.5 * Real.pi * (t - s) := by
  have hd : ∀ t : ℝ, HasDerivAt (fun t => Real.tanh (0.5 * Real.pi * Real.sinh t))
      (1 / Real.cosh (0.5 * Real.pi * Real.sinh t) ^ 2 * (0.5 * Real.pi * Real.cosh t)) t := fun t => by
    have h1 : HasDerivAt Real.tanh (1 / Real.cosh (0.5 * Real.pi * Real.sinh t) ^ 2) (0.5 * Real.pi * Real.sinh t) := by
      have h2 := (Real.hasDerivAt_sinh (0.5 * Real.pi * Real.sinh t)).div
        (Real.hasDerivAt_cosh (0.5 * Real.pi * Real.sinh t)) (Real.cosh_pos _).ne'
      have h3 : (Real.sinh / Real.cosh) = Real.tanh := by
        funext y; rw [Pi.div_apply, Real.tanh_eq_sinh_div_cosh]
      have h4 := Real.cosh_sq_sub_sinh_sq (0.5 * Real.pi * Real.sinh t)
      rwa [h3, ← sq, ← sq, h4] at h2
    exact h1.comp t ((Real.hasDerivAt_sinh t).const_mul _)
  have hb : ∀ t : ℝ, 1 / Real.cosh (0.5 * Real.pi * Real.sinh t) ^ 2 * (0.5 * Real.pi * Real.cosh t) ≤ 0.5 * Real.pi := by
    intro t
    have hpi := Real.pi_gt_three
    rw [one_div, inv_mul_le_iff₀ (by have := Real.cosh_pos (0.5 * Real.pi * Real.sinh t); positivity)]
    have h1 : 1 + (0.5 * Real.pi * Real.sinh t) ^ 2 ≤ Real.cosh (0.5 * Real.pi * Real.sinh t) ^ 2 := by
      have h2 := Real.cosh_sq_sub_sinh_sq (0.5 * Real.pi * Real.sinh t)
      have h3 : (0.5 * Real.pi * Real.sinh t) ^ 2 ≤ Real.sinh (0.5 * Real.pi * Real.sinh t) ^ 2 := by
        rcases le_total 0 (0.5 * Real.pi * Real.sinh t) with h | h
        · exact pow_le_pow_left₀ h (Real.self_le_sinh_iff.2 h) 2
        · have h5 := Real.sinh_le_self_iff.2 h
          nlinarith
      linarith
    have h4 : Real.cosh t ≤ Real.cosh (0.5 * Real.pi * Real.sinh t) ^ 2 := by
      have h5 := Real.cosh_sq_sub_sinh_sq t
      have h6 : Real.cosh t ≤ Real.cosh t ^ 2 := by nlinarith [Real.one_le_cosh t]
      have h7 : (1 : ℝ) ≤ (0.5 * Real.pi) ^ 2 := by nlinarith
      nlinarith [sq_nonneg (Real.sinh t)]
    nlinarith
  exact Convex.image_sub_le_mul_sub_of_deriv_le convex_univ (f := fun t => Real.tanh (0.5 * Real.pi * Real.sinh t))
    (Continuous.continuousOn (continuous_iff_continuousAt.2 fun t => (hd t).continuousAt))
    (fun t _ => (hd t).differentiableAt.differentiableWithinAt) (C := 0.5 * Real.pi)
    (fun t _ => by rw [(hd t).deriv]; exact hb t) s trivial t trivial h

theorem grid_get? (i : ℕ) : grid[i]? =
    if i < 10000 then some (Real.tanh (0.5 * Real.pi * Real.sinh (-3 + 6 * (i : ℝ) / 9999))) else none := by
  unfold grid
  rw [List.getElem?_map]
  split
  · rename_i h
    rw [List.getElem?_range h]
    rfl
  · rename_i h
    rw [List.getElem?_eq_none (by rw [List.length_range]; omega)]
    rfl

/-- The grid of the search is symmetric about zero, starts and ends within 1e-12 of -1 and 1, and its 10000 points are
nowhere 0.001 apart. -/
theorem C58_grid : grid.length = 10000 ∧ grid.reverse.map (fun x => -x) = grid ∧ (∀ x ∈ grid.head?, x < -1 + 1e-12) ∧
    (∀ x ∈ grid.getLast?, 1 - 1e-12 < x) ∧ ∀ p ∈ grid.zip grid.tail, p.2 < p.1 + 1e-3 := by
  have hlen : grid.length = 10000 := by unfold grid; rw [List.length_map, List.length_range]
  have hget := grid_get?
  generalize grid = g at hlen hget ⊢
  obtain ⟨N, hN⟩ : ∃ N, N = 10000 := ⟨_, rfl⟩
  rw [← hN] at hlen hget ⊢
  have hval : ∀ i (h : i < g.length), g[i] = Real.tanh (0.5 * Real.pi * Real.sinh (-3 + 6 * (i : ℝ) / 9999)) := by
    intro i h
    have := hget i
    rw [if_pos (hlen ▸ h), List.getElem?_eq_getElem h] at this
    exact Option.some.inj this
  have hlast := tanh_last
  have hN1 : ((N - 1 : ℕ) : ℝ) = 9999 := by rw [Nat.cast_sub (by omega), hN]; norm_num
  refine ⟨hlen, ?_, ?_, ?_, ?_⟩
  · refine List.ext_getElem (by simp) fun i h1 h2 => ?_
    rw [List.getElem_map, List.getElem_reverse, hval, hval, ← Real.tanh_neg, ← mul_neg, ← Real.sinh_neg]
    congr 3
    rw [Nat.cast_sub (by omega), hlen, hN1]
    ring
  · intro x hx
    rw [List.head?_eq_getElem?, hget, if_pos (by omega)] at hx
    cases hx
    have : (-3 + 6 * ((0 : ℕ) : ℝ) / 9999) = -3 := by norm_num
    rw [this, Real.sinh_neg, mul_neg, Real.tanh_neg]
    linarith
  · intro x hx
    rw [List.getLast?_eq_getElem?, hget, if_pos (by omega), hlen, hN1] at hx
    cases hx
    have : (-3 + 6 * 9999 / 9999 : ℝ) = 3 := by norm_num
    rw [this]
    exact hlast
  · intro p hp
    obtain ⟨i, hi, rfl⟩ := List.mem_iff_getElem.1 hp
    rw [List.length_zip, List.length_tail] at hi
    rw [List.getElem_zip]
    simp only [List.getElem_tail]
    rw [hval, hval]
    have hm := tanh_step (-3 + 6 * (i : ℝ) / 9999) (-3 + 6 * ((i + 1 : ℕ) : ℝ) / 9999) (by push_cast; linarith)
    have h8 : (-3 + 6 * ((i + 1 : ℕ) : ℝ) / 9999) - (-3 + 6 * (i : ℝ) / 9999) = 6 / 9999 := by push_cast; ring
    rw [h8] at hm
    have := Real.pi_lt_d2
    norm_num at hm ⊢
    linarith

/-- A sorted list with a point below `z`, one above, and not `z` itself, has neighbours around `z`. -/
theorem around (z : ℝ) : ∀ l : List ℝ, l.Pairwise (· < ·) → z ∉ l → (∀ x ∈ l.head?, x < z) → (∀ y ∈ l.getLast?, z < y) →
    l ≠ [] → ∃ p ∈ l.zip l.tail, p.1 < z ∧ z < p.2
  | [], _, _, _, _, h => absurd rfl h
  | [x], _, _, h1, h2, _ => absurd (h1 x rfl) (not_lt.2 (h2 x rfl).le)
  | x :: y :: l, h, hz, h1, h2, _ => by
    rcases lt_trichotomy y z with hy | rfl | hy
    · obtain ⟨p, hp, h3⟩ := around z (y :: l) h.of_cons (fun h => hz (List.mem_cons_of_mem _ h))
        (by intro w hw; cases hw; exact hy) (by rw [List.getLast?_cons_cons] at h2; exact h2) (List.cons_ne_nil _ _)
      exact ⟨p, List.mem_cons_of_mem _ hp, h3⟩
    · exact absurd (List.mem_cons_of_mem _ List.mem_cons_self) hz
    · exact ⟨(x, y), List.mem_cons_self, h1 x rfl, hy⟩

/-- Completeness: a function that changes sign at `z`, and nowhere else closer than 0.001, has a root within 5e-15 of `z`
in the result, provided that `z` is not itself a point of the grid. -/
theorem C58_complete (u : ℝ → ℝ) (z σ : ℝ) (hz : |z| ≤ 1 - 1e-12) (hg : z ∉ grid)
    (hneg : ∀ t, z - 1e-3 < t → t < z → σ * u t < 0) (hpos : ∀ t, z < t → t < z + 1e-3 → 0 < σ * u t) :
    ∃ r, findRoots u = some r ∧ ∃ t ∈ r, |t - z| ≤ 5e-15 := by
  obtain ⟨r, h1, h2, -⟩ := C58_find_roots u
  refine ⟨r, h1, ?_⟩
  clear h1
  obtain ⟨hlen, -, hfirst, hlast, hstep⟩ := C58_grid
  have hs := grid_sorted
  generalize grid = g at *
  rw [abs_le] at hz
  obtain ⟨⟨x, y⟩, hp, hx, hy⟩ := around z g hs hg (fun x hx => (hfirst x hx).trans_le (by linarith [hz.1]))
    (fun y hy => lt_of_le_of_lt hz.2 (hlast y hy)) (by rintro rfl; simp at hlen)
  have hst := hstep _ hp
  simp only at hx hy hst
  have ux := hneg x (by linarith) hx
  have uy := hpos y hy (by linarith)
  have hσ : 0 < σ ^ 2 := by
    have : σ ≠ 0 := by rintro rfl; simp at ux
    positivity
  have hmem : (x, y) ∈ signChanges u g := by
    unfold signChanges
    simp only [List.mem_filter, decide_eq_true_eq]
    exact ⟨hp, by nlinarith [mul_neg_of_neg_of_pos ux uy]⟩
  obtain ⟨i, hi, he⟩ := List.mem_iff_getElem.1 hmem
  have hi' : i < r.length := h2.length_eq ▸ hi
  obtain ⟨b, a, k1, k2, k3, k4, k5, k6, k7⟩ := (List.forall₂_iff_get.1 h2).2 i hi hi'
  simp only [List.get_eq_getElem, he] at k1 k3 k5
  refine ⟨r[i], List.getElem_mem _, ?_⟩
  rw [k5]
  have hb : b ≤ z := by
    by_contra hc
    have h3 := hpos b (not_le.1 hc) (by linarith)
    have h4 := hpos a (by linarith) (by linarith)
    nlinarith [mul_pos h3 h4]
  have ha : z ≤ a := by
    by_contra hc
    have h3 := hneg a (by linarith) (not_le.1 hc)
    have h4 := hneg b (by linarith) (by linarith)
    nlinarith [mul_pos_of_neg_of_neg h3 h4]
  rw [abs_le]
  norm_num at k4 ⊢
  constructor <;> linarith

/-- A root that is a point of the grid is missed. -/
theorem C58_missed (z : ℝ) (hz : z ∈ grid) : findRoots (fun x => x - z) = some [] := by
  obtain ⟨r, h1, h2, -⟩ := C58_find_roots fun x => x - z
  have : signChanges (fun x => x - z) grid = [] := by
    unfold signChanges
    rw [List.filter_eq_nil_iff]
    rintro ⟨x, y⟩ hp
    simp only [decide_eq_true_eq, not_lt]
    have hs := grid_sorted
    generalize grid = g at *
    obtain ⟨i, hi, he⟩ := List.mem_iff_getElem.1 hp
    rw [List.length_zip, List.length_tail] at hi
    rw [List.getElem_zip, Prod.mk.injEq, List.getElem_tail] at he
    obtain ⟨j, hj, rfl⟩ := List.mem_iff_getElem.1 hz
    have hm : ∀ a b (ha : a < g.length) (hb : b < g.length), a ≤ b → g[a] ≤ g[b] := by
      intro a b ha hb hab
      rcases hab.lt_or_eq with h | rfl
      · exact (List.pairwise_iff_getElem.1 hs a b ha hb h).le
      · exact le_rfl
    rcases Nat.lt_or_ge i j with h | h
    · have h3 := hm i j (by omega) hj h.le
      have h4 := hm (i + 1) j (by omega) hj h
      rw [he.1] at h3
      rw [he.2] at h4
      exact mul_nonneg_of_nonpos_of_nonpos (by linarith) (by linarith)
    · have h3 := hm j i hj (by omega) h
      have h4 := hm j (i + 1) hj (by omega) (by omega)
      rw [he.1] at h3
      rw [he.2] at h4
      exact mul_nonneg (by linarith) (by linarith)
  rw [this] at h2
  cases h2
  exact h1

/-- The case of a function with a root at 0, which the grid avoids. -/
example : ∃ r, findRoots (fun x => x) = some r ∧ ∃ t ∈ r, |t - 0| ≤ 5e-15 := by
  refine C58_complete _ 0 1 (by norm_num) ?_ (by intro t _ h; simpa using h) (by intro t h _; simpa using h)
  intro h
  obtain ⟨i, hi⟩ := List.mem_iff_getElem?.1 h
  rw [grid_get?] at hi
  split at hi
  · have h1 := Option.some.inj hi
    rw [Real.tanh_eq_sinh_div_cosh, div_eq_zero_iff, or_iff_left (Real.cosh_pos _).ne', Real.sinh_eq_zero] at h1
    have h2 : Real.sinh (-3 + 6 * (i : ℝ) / 9999) = 0 := by
      rcases mul_eq_zero.1 h1 with h | h
      · have := Real.pi_pos
        nlinarith
      · exact h
    rw [Real.sinh_eq_zero] at h2
    have h3 : 2 * (i : ℝ) = 9999 := by linarith
    have h4 : 2 * i = 9999 := by exact_mod_cast h3
    omega
  · cases hi

/-- Specification: `pts` has one point strictly between each pair of neighbours in `l`. -/
def Interleaves (l pts : List ℝ) : Prop := List.Forall₂ (fun p z => p.1 < z ∧ z < p.2) (l.zip l.tail) pts

theorem midpoints_spec : ∀ l : List ℝ, l.Pairwise (· < ·) → Interleaves l (midpoints l)
  | [], _ => List.Forall₂.nil
  | [_], _ => List.Forall₂.nil
  | x :: y :: l, h => by
    have hxy : x < y := List.rel_of_pairwise_cons h List.mem_cons_self
    exact List.Forall₂.cons ⟨by simp only; linarith, by simp only; linarith⟩ (midpoints_spec (y :: l) h.of_cons)

theorem Interleaves.length {l pts : List ℝ} (h : Interleaves l pts) : pts.length = l.length - 1 := by
  have := List.Forall₂.length_eq h
  rw [List.length_zip, List.length_tail] at this
  omega

theorem ends_sorted {r : List ℝ} {lo hi : ℝ} (h : r.Pairwise (· < ·)) (hb : ∀ z ∈ r, lo < z ∧ z < hi) (hlh : lo < hi) :
    (lo :: (r ++ [hi])).Pairwise (· < ·) := by
  rw [List.pairwise_cons, List.pairwise_append]
  refine ⟨fun z hz => ?_, h, List.pairwise_singleton _ _, fun z hz y hy => ?_⟩
  · rcases List.mem_append.1 hz with hz | hz
    · exact (hb z hz).1
    · rw [List.mem_singleton.1 hz]; exact hlh
  · rw [List.mem_singleton.1 hy]; exact (hb z hz).2

/-- `sampling_points_x`: one point strictly between each pair of neighbouring roots, end points included, thus one more
than the number of roots. -/
theorem C58_x (u : ℝ → ℝ) : ∃ r pts, findRoots u = some r ∧ samplingPointsX u = some pts ∧
    (-1 :: (r ++ [1])).Pairwise (· < ·) ∧ Interleaves (-1 :: (r ++ [1])) pts ∧ pts.length = r.length + 1 := by
  obtain ⟨r, h1, -, h3, h4⟩ := C58_find_roots u
  have hs := ends_sorted h3 h4 (by norm_num)
  have hm := midpoints_spec _ hs
  refine ⟨r, _, h1, by unfold samplingPointsX; rw [h1]; rfl, hs, hm, ?_⟩
  rw [hm.length]
  simp

theorem npSort_strict {l : List ℝ} (h : l.Nodup) : (npSort l).Pairwise (· < ·) := by
  classical
  unfold npSort
  have h1 : (l.mergeSort fun a b => decide (a ≤ b)).Pairwise (· ≤ ·) := by
    have := List.pairwise_mergeSort (le := fun a b : ℝ => decide (a ≤ b))
      (by intro a b c; simp only [decide_eq_true_eq]; exact le_trans)
      (by intro a b; simp only [Bool.or_eq_true, decide_eq_true_eq]; exact le_total a b) l
    exact this.imp (by intro a b h; simpa using h)
  have h2 : (l.mergeSort fun a b => decide (a ≤ b)).Nodup := (List.mergeSort_perm _ _).nodup_iff.2 h
  have h3 := h1.imp₂ (S := (· ≠ ·)) (T := (· < ·)) (fun a b h3 h4 => lt_of_le_of_ne h3 h4) h2
  convert h3

theorem mem_npSort (l : List ℝ) (x : ℝ) : x ∈ npSort l ↔ x ∈ l := (List.mergeSort_perm _ _).mem_iff

theorem midpoints_neg (l : List ℝ) : (midpoints (l.reverse.map fun z => -z)) = (midpoints l).reverse.map fun z => -z := by
  apply List.ext_getElem
  · simp [midpoints]
  · intro i h1 h2
    simp only [midpoints, List.length_zipWith, List.length_map, List.length_reverse, List.length_tail] at h1 h2
    simp only [midpoints, List.getElem_zipWith, List.getElem_tail, List.getElem_map, List.getElem_reverse,
      List.length_zipWith, List.length_tail]
    have e1 : l.length - 1 - i = (min l.length (l.length - 1) - 1 - i) + 1 := by omega
    have e2 : l.length - 1 - (i + 1) = min l.length (l.length - 1) - 1 - i := by omega
    simp only [e1, e2]
    ring

/-- `sampling_points_y`, for every function and both parities: with `pos` the roots found for positive arguments, which
lie in (0, 1), there is one point strictly between each pair of neighbours among -1, 1, the roots and their negatives,
and, for odd `whichl`, zero; the points are symmetric about zero. -/
theorem C58_y (v : ℝ → ℝ) (whichl : ℤ) : ∃ r ex pts, findRoots (fun y => v ((y + 1) / 2)) = some r ∧
    samplingPointsY v whichl = some pts ∧ ex.Pairwise (· < ·) ∧
    (∀ z, z ∈ ex ↔ z = -1 ∨ z = 1 ∨ (∃ t ∈ r, z = (t + 1) / 2 ∨ z = -((t + 1) / 2)) ∨ (whichl % 2 ≠ 0 ∧ z = 0)) ∧
    (∀ t ∈ r, 0 < (t + 1) / 2 ∧ (t + 1) / 2 < 1) ∧ Interleaves ex pts ∧
    pts.length = 2 * r.length + (if whichl % 2 = 0 then 1 else 2) ∧ pts.reverse.map (fun z => -z) = pts := by
  obtain ⟨r, h1, -, h3, h4⟩ := C58_find_roots fun y => v ((y + 1) / 2)
  set pos := r.map fun z : ℝ => 0.5 * z + 0.5 with hpos
  set neg := pos.map fun z : ℝ => -z with hneg
  set mid : List ℝ := if whichl % 2 = 0 then [] else [0] with hmid
  set L : List ℝ := -1 :: (neg ++ (mid ++ (pos ++ [1]))) with hL
  have hp : ∀ z ∈ pos, 0 < z ∧ z < 1 := by
    intro z hz
    obtain ⟨t, ht, rfl⟩ := List.mem_map.1 hz
    have := h4 t ht
    constructor <;> linarith [this.1, this.2]
  have hn : ∀ z ∈ neg, -1 < z ∧ z < 0 := by
    intro z hz
    obtain ⟨t, ht, rfl⟩ := List.mem_map.1 hz
    have := hp t ht
    constructor <;> linarith [this.1, this.2]
  have hm : ∀ z ∈ mid, z = 0 := by
    intro z hz
    simp only [hmid] at hz
    split at hz
    · cases hz
    · exact List.mem_singleton.1 hz
  have hrn : r.Nodup := h3.imp ne_of_lt
  have hpn : pos.Nodup := List.Nodup.map (fun a b h => by
    have h' : (0.5 : ℝ) * a + 0.5 = 0.5 * b + 0.5 := h
    linarith) hrn
  have hnn : neg.Nodup := List.Nodup.map (fun a b h => by simpa using h) hpn
  have hmn : mid.Nodup := by simp only [hmid]; split <;> simp
  have hnd : L.Nodup := by
    rw [hL, List.nodup_cons, List.nodup_append, List.nodup_append, List.nodup_append]
    refine ⟨?_, hnn, ⟨hmn, ⟨hpn, by simp, ?_⟩, ?_⟩, ?_⟩
    · simp only [List.mem_append, List.mem_singleton]
      rintro (h | h | h | h)
      · exact absurd (hn _ h).1 (lt_irrefl _)
      · have := hm _ h; norm_num at this
      · have := (hp _ h).1; norm_num at this
      · norm_num at h
    · intro a ha b hb hab
      rw [List.mem_singleton.1 hb] at hab
      have := (hp a ha).2
      linarith
    · intro a ha b hb hab
      have h5 := hm a ha
      rcases List.mem_append.1 hb with hb | hb
      · have := (hp b hb).1; linarith
      · rw [List.mem_singleton.1 hb] at hab; linarith
    · intro a ha b hb hab
      have h5 := (hn a ha).2
      rcases List.mem_append.1 hb with hb | hb
      · have := hm b hb; linarith
      · rcases List.mem_append.1 hb with hb | hb
        · have := (hp b hb).1; linarith
        · rw [List.mem_singleton.1 hb] at hab; linarith
  have hs := npSort_strict hnd
  have hmem : ∀ z, z ∈ npSort L ↔ z = -1 ∨ z = 1 ∨ (∃ t ∈ r, z = (t + 1) / 2 ∨ z = -((t + 1) / 2)) ∨
      (whichl % 2 ≠ 0 ∧ z = 0) := by
    intro z
    have e1 : z ∈ pos ↔ ∃ t ∈ r, z = (t + 1) / 2 := by
      rw [hpos, List.mem_map]
      exact exists_congr fun t => and_congr_right fun _ => by
        constructor
        · rintro rfl; ring
        · rintro rfl; ring
    have e2 : z ∈ neg ↔ ∃ t ∈ r, z = -((t + 1) / 2) := by
      rw [hneg, hpos, List.map_map, List.mem_map]
      exact exists_congr fun t => and_congr_right fun _ => by
        constructor
        · rintro rfl; simp only [Function.comp]; ring
        · rintro rfl; simp only [Function.comp]; ring
    have e3 : z ∈ mid ↔ whichl % 2 ≠ 0 ∧ z = 0 := by
      simp only [hmid]
      split <;> simp_all
    rw [mem_npSort, hL, List.mem_cons, List.mem_append, List.mem_append, List.mem_append, List.mem_singleton, e1, e2, e3]
    constructor
    · rintro (h | ⟨t, ht, h⟩ | h | ⟨t, ht, h⟩ | h)
      · exact Or.inl h
      · exact Or.inr (Or.inr (Or.inl ⟨t, ht, Or.inr h⟩))
      · exact Or.inr (Or.inr (Or.inr h))
      · exact Or.inr (Or.inr (Or.inl ⟨t, ht, Or.inl h⟩))
      · exact Or.inr (Or.inl h)
    · rintro (h | h | ⟨t, ht, h | h⟩ | h)
      · exact Or.inl h
      · exact Or.inr (Or.inr (Or.inr (Or.inr h)))
      · exact Or.inr (Or.inr (Or.inr (Or.inl ⟨t, ht, h⟩)))
      · exact Or.inr (Or.inl ⟨t, ht, h⟩)
      · exact Or.inr (Or.inr (Or.inl h))
  have hsym : (npSort L).reverse.map (fun z => -z) = npSort L := by
    refine List.Pairwise.eq_of_mem_iff (r := (· < ·)) ?_ hs fun z => ?_
    · rw [List.pairwise_map, List.pairwise_reverse]
      exact hs.imp fun h => neg_lt_neg h
    · rw [List.mem_map]
      simp only [List.mem_reverse]
      have : (∃ a ∈ npSort L, -a = z) ↔ -z ∈ npSort L :=
        ⟨by rintro ⟨a, ha, rfl⟩; rwa [neg_neg], fun h => ⟨-z, h, neg_neg z⟩⟩
      rw [this, hmem, hmem]
      constructor
      · rintro (h | h | ⟨t, ht, h | h⟩ | ⟨h, h'⟩)
        · exact Or.inr (Or.inl (by linarith))
        · exact Or.inl (by linarith)
        · exact Or.inr (Or.inr (Or.inl ⟨t, ht, Or.inr (by linarith)⟩))
        · exact Or.inr (Or.inr (Or.inl ⟨t, ht, Or.inl (by linarith)⟩))
        · exact Or.inr (Or.inr (Or.inr ⟨h, by linarith⟩))
      · rintro (h | h | ⟨t, ht, h | h⟩ | ⟨h, h'⟩)
        · exact Or.inr (Or.inl (by linarith))
        · exact Or.inl (by linarith)
        · exact Or.inr (Or.inr (Or.inl ⟨t, ht, Or.inr (by linarith)⟩))
        · exact Or.inr (Or.inr (Or.inl ⟨t, ht, Or.inl (by linarith)⟩))
        · exact Or.inr (Or.inr (Or.inr ⟨h, by linarith⟩))
  have hi := midpoints_spec _ hs
  refine ⟨r, npSort L, midpoints (npSort L), h1, ?_, hs, hmem, fun t ht => ?_, hi, ?_, ?_⟩
  · unfold samplingPointsY
    rw [h1]
    simp only [Option.map_some, Option.some.injEq, hL, hmid]
    split <;> rfl
  · have := h4 t ht
    constructor <;> linarith [this.1, this.2]
  · rw [hi.length]
    have : (npSort L).length = L.length := (List.mergeSort_perm _ _).length_eq
    rw [this, hL]
    simp only [hneg, hpos, hmid, List.length_cons, List.length_append, List.length_map, List.length_nil]
    split <;> simp <;> omega
  · rw [← midpoints_neg, hsym]

/-- The cubic with roots -1/2, 0 and 1/2 on a small grid: three sign changes, three roots. -/
example : ∃ r, rootsOn (fun x => x * (x - 1 / 2) * (x + 1 / 2)) 1e-14 [-1, -1 / 4, 1 / 4, 1] = some r ∧ r.length = 3 := by
  obtain ⟨r, h1, h2, -⟩ := rootsOn_spec (fun x => x * (x - 1 / 2) * (x + 1 / 2)) 1e-14 (by norm_num)
    [-1, -1 / 4, 1 / 4, 1] (by norm_num)
  refine ⟨r, h1, ?_⟩
  rw [← h2.length_eq]
  norm_num [signChanges]

end Verif.Props
