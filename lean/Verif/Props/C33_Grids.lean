import Verif.Model.Kernel
import Mathlib.Tactic.Linarith
import Mathlib.Tactic.Positivity
import Mathlib.Tactic.FieldSimp
/-!
# C33: the discretisation grids are valid
-/

namespace Verif.Props
open Verif Verif.Kernel

/-- A grid from `a` to `b`: strictly increasing, first point `a`, last point `b`. -/
structure GridFromTo (a b : ℝ) (l : List ℝ) : Prop where
  sorted : l.Pairwise (· < ·)
  first : l.head? = some a
  last : l.getLast? = some b

/-- A symmetric grid on `[-1, 1]` containing zero. -/
structure SymGrid (l : List ℝ) : Prop extends GridFromTo (-1) 1 l where
  symm : l.map (- ·) = l.reverse
  zero : 0 ∈ l

/-- `l` is strictly increasing, above `s`. -/
theorem cumsum_sorted : ∀ (l : List ℝ) (s : ℝ), (∀ d ∈ l, 0 < d) →
    (cumsumFrom s l).Pairwise (· < ·) ∧ ∀ t ∈ cumsumFrom s l, s < t
  | [], s, _ => by simp [cumsumFrom]
  | d :: l, s, h => by
    have hd : 0 < d := h d (by simp)
    obtain ⟨h1, h2⟩ := cumsum_sorted l (s + d) fun e he => h e (by simp [he])
    rw [cumsumFrom]
    refine ⟨List.pairwise_cons.2 ⟨h2, h1⟩, ?_⟩
    intro t ht
    rcases List.mem_cons.1 ht with rfl | ht
    · linarith
    · have := h2 t ht; linarith

theorem length_cumsum (l : List ℝ) : ∀ s, (cumsumFrom s l).length = l.length := by
  induction l with
  | nil => intro s; rfl
  | cons a l ih => intro s; rw [cumsumFrom, List.length_cons, ih, List.length_cons]

/-- A positive strictly increasing list mirrored at zero. -/
theorem mirror_sorted {z : List ℝ} (h1 : z.Pairwise (· < ·)) (h2 : ∀ t ∈ z, 0 < t) :
    (z.reverse.map (- ·) ++ [0] ++ z).Pairwise (· < ·) := by
  rw [List.append_assoc, List.pairwise_append]
  refine ⟨?_, ?_, ?_⟩
  · rw [List.pairwise_map, List.pairwise_reverse]
    exact h1.imp fun h => by linarith
  · rw [List.singleton_append, List.pairwise_cons]; exact ⟨h2, h1⟩
  · intro a ha b hb
    obtain ⟨t, ht, rfl⟩ := List.mem_map.1 ha
    have h3 := h2 t (List.mem_reverse.1 ht)
    rcases List.mem_append.1 hb with hb | hb
    · rw [List.mem_singleton.1 hb]; linarith
    · have := h2 b hb; linarith

theorem mirror_symm (z : List ℝ) :
    (z.reverse.map (- ·) ++ [0] ++ z).map (- ·) = (z.reverse.map (- ·) ++ [0] ++ z).reverse := by
  simp [List.map_map, Function.comp_def]

/-- Grid on the `x` axis with `n + 1` positive points. -/
theorem gridX_ok (k : ℝ) (n : ℕ) : ∃ g, gridX k (n + 1) = .ok g ∧ SymGrid g ∧ g.length = 2 * n + 3 := by
  set diffs := (List.range (n + 1)).map fun j : ℕ => 1 / Real.cosh (k * (j : ℝ)) with hd
  have hpos : ∀ d ∈ diffs, 0 < d := by
    intro d hd'
    obtain ⟨j, -, rfl⟩ := List.mem_map.1 hd'
    have := Real.cosh_pos (k * (j : ℝ))
    positivity
  obtain ⟨h1, h2⟩ := cumsum_sorted diffs 0 hpos
  have hlen : (cumsumFrom 0 diffs).length = n + 1 := by rw [length_cumsum, hd]; simp
  have hne : cumsumFrom 0 diffs ≠ [] := by intro h0; rw [h0] at hlen; cases hlen
  set z := cumsumFrom 0 diffs with hz
  have hlast : z.getLast? = some (z.getLast hne) := List.getLast?_eq_some_getLast hne
  have hl0 : 0 < z.getLast hne := h2 _ (List.getLast_mem hne)
  unfold gridX
  simp only [← hd, ← hz, hlast]
  refine ⟨_, rfl, ?_, ?_⟩
  · have s1 : (z.map (· / z.getLast hne)).Pairwise (· < ·) := by
      rw [List.pairwise_map]
      exact h1.imp fun h => div_lt_div_of_pos_right h hl0
    have s2 : ∀ t ∈ z.map (· / z.getLast hne), 0 < t := by
      intro t ht
      obtain ⟨u, hu, rfl⟩ := List.mem_map.1 ht
      exact div_pos (h2 u hu) hl0
    have s3 : (z.map (· / z.getLast hne)).getLast? = some 1 := by
      rw [List.getLast?_map, hlast, Option.map_some, div_self hl0.ne']
    refine ⟨⟨mirror_sorted s1 s2, ?_, ?_⟩, mirror_symm _, by simp⟩
    · rw [List.append_assoc, List.head?_append, List.head?_map, List.head?_reverse, s3]
      simp
    · rw [List.getLast?_append, s3]; rfl
  · simp only [List.length_append, List.length_map, List.length_reverse, hlen, List.length_singleton]
    ring

/-- Grid on the `y` axis from at least one positive spacing. -/
theorem gridY_ok (diffs : List ℝ) (hpos : ∀ d ∈ diffs, 0 < d) (hne : diffs ≠ []) :
    ∃ g, gridY diffs = .ok g ∧ SymGrid g ∧ g.length = 2 * diffs.length + 1 := by
  obtain ⟨h1, h2⟩ := cumsum_sorted diffs 0 hpos
  have hlen : (cumsumFrom 0 diffs).length = diffs.length := length_cumsum _ _
  have hne' : cumsumFrom 0 diffs ≠ [] := by
    intro h0; rw [h0] at hlen; exact hne (List.length_eq_zero_iff.1 hlen.symm)
  set z := cumsumFrom 0 diffs with hz
  have hlast : z.getLast? = some (z.getLast hne') := List.getLast?_eq_some_getLast hne'
  have hl0 : 0 < z.getLast hne' := h2 _ (List.getLast_mem hne')
  unfold gridY
  simp only [← hz, hlast]
  refine ⟨_, rfl, ?_, ?_⟩
  · -- mirrored positive list: `1 - zeros` reversed, then `1`
    set q := (z.dropLast.map (· / z.getLast hne')).map (· - 1) with hq
    have hzsplit : z.dropLast ++ [z.getLast hne'] = z := List.dropLast_append_getLast hne'
    have hz1 : z.dropLast.Pairwise (· < ·) := h1.sublist (List.dropLast_sublist z)
    have hz2 : ∀ t ∈ z.dropLast, 0 < t ∧ t < z.getLast hne' := by
      intro t ht
      refine ⟨h2 t (List.dropLast_subset z ht), ?_⟩
      have := h1
      rw [← hzsplit, List.pairwise_append] at this
      exact this.2.2 t ht _ (by simp)
    have q1 : q.Pairwise (· < ·) := by
      rw [hq, List.pairwise_map, List.pairwise_map]
      exact hz1.imp fun h => by
        have := div_lt_div_of_pos_right h hl0
        linarith
    have q2 : ∀ t ∈ q, -1 < t ∧ t < 0 := by
      intro t ht
      rw [hq, List.map_map] at ht
      obtain ⟨u, hu, rfl⟩ := List.mem_map.1 ht
      obtain ⟨h3, h4⟩ := hz2 u hu
      simp only [Function.comp]
      have h5 := div_pos h3 hl0
      have h6 := (div_lt_one hl0).2 h4
      constructor <;> linarith
    have hp : [-1] ++ q ++ [0] ++ q.reverse.map (- ·) ++ [1] =
        (q.reverse.map (- ·) ++ [1]).reverse.map (- ·) ++ [0] ++ (q.reverse.map (- ·) ++ [1]) := by
      simp [List.map_map, Function.comp_def]
    rw [hp]
    have s1 : (q.reverse.map (- ·) ++ [1]).Pairwise (· < ·) := by
      rw [List.pairwise_append]
      refine ⟨?_, by simp, ?_⟩
      · rw [List.pairwise_map, List.pairwise_reverse]
        exact q1.imp fun h => by linarith
      · intro a ha b hb
        obtain ⟨t, ht, rfl⟩ := List.mem_map.1 ha
        have := q2 t (List.mem_reverse.1 ht)
        rw [List.mem_singleton.1 hb]; linarith
    have s2 : ∀ t ∈ (q.reverse.map (- ·) ++ [1]), 0 < t := by
      intro t ht
      rcases List.mem_append.1 ht with ht | ht
      · obtain ⟨u, hu, rfl⟩ := List.mem_map.1 ht
        have := q2 u (List.mem_reverse.1 hu)
        linarith
      · rw [List.mem_singleton.1 ht]; norm_num
    refine ⟨⟨mirror_sorted s1 s2, ?_, ?_⟩, mirror_symm _, by simp⟩
    · simp
    · rw [List.getLast?_append]; simp
  · simp only [List.length_append, List.length_map, List.length_reverse, List.length_dropLast, hlen,
      List.length_singleton]
    have : diffs.length ≠ 0 := fun h => hne (List.length_eq_zero_iff.1 h)
    omega

theorem logisticDiffs_pos (n : ℕ) : (∀ d ∈ logisticDiffs n, 0 < d) ∧ (logisticDiffs n).length = n := by
  have hlead : ∀ d ∈ leadingDiffs, 0 < d := by
    unfold leadingDiffs
    simp only [List.forall_mem_cons, List.not_mem_nil, false_imp_iff, implies_true, and_true]
    norm_num
  have hlen : leadingDiffs.length = 20 := rfl
  unfold logisticDiffs
  simp only
  constructor
  · intro d hd
    rcases List.mem_append.1 hd with hd | hd
    · split at hd
      · exact hlead d (List.mem_of_mem_take hd)
      · exact hlead d hd
    · obtain ⟨i, -, rfl⟩ := List.mem_map.1 (List.mem_of_mem_drop hd)
      positivity
  · split
    · rename_i h
      simp only [List.length_append, List.length_take, hlen, List.length_drop, List.length_map, List.length_range]
      omega
    · rename_i h
      simp only [List.length_append, hlen, List.length_drop, List.length_map, List.length_range]
      omega

theorem nzerosOf_ok (c : ℝ) (m : ℤ) {lam : ℝ} (hl : 0 < lam) : ∃ n : ℕ, nzerosOf c m lam = .ok n ∧ m ≤ n := by
  unfold nzerosOf
  rw [if_neg hl.ne', if_neg (not_lt.2 hl.le)]
  refine ⟨_, rfl, ?_⟩
  have := le_max_right (roundEven (c * Real.logb 10 lam)) m
  have h2 := Int.self_le_toNat (max (roundEven (c * Real.logb 10 lam)) m)
  linarith

/-- For every cut-off `Λ > 0` all four hint grids are symmetric grids on `[-1, 1]` containing zero. -/
theorem C33_grids (lam : ℝ) (hl : 0 < lam) :
    (∃ g, logisticSegX lam = .ok g ∧ SymGrid g) ∧ (∃ g, logisticSegY lam = .ok g ∧ SymGrid g) ∧
    (∃ g, boseSegX lam = .ok g ∧ SymGrid g) ∧ (∃ g, boseSegY lam = .ok g ∧ SymGrid g) := by
  refine ⟨?_, ?_, ?_, ?_⟩
  · obtain ⟨n, hn, hm⟩ := nzerosOf_ok 15 1 hl
    obtain ⟨j, rfl⟩ : ∃ j, n = j + 1 := ⟨n - 1, by omega⟩
    obtain ⟨g, h1, h2, -⟩ := gridX_ok 0.143 j
    exact ⟨g, by simp only [logisticSegX, hn, h1], h2⟩
  · obtain ⟨n, hn, hm⟩ := nzerosOf_ok 20 2 hl
    obtain ⟨h1, h2⟩ := logisticDiffs_pos n
    obtain ⟨g, h3, h4, -⟩ := gridY_ok _ h1 (by intro h0; rw [h0] at h2; simp at h2; omega)
    exact ⟨g, by simp only [logisticSegY, hn, h3], h4⟩
  · obtain ⟨n, hn, hm⟩ := nzerosOf_ok 15 15 hl
    obtain ⟨j, rfl⟩ : ∃ j, n = j + 1 := ⟨n - 1, by omega⟩
    obtain ⟨g, h1, h2, -⟩ := gridX_ok 0.18 j
    exact ⟨g, by simp only [boseSegX, hn, h1], h2⟩
  · obtain ⟨n, hn, hm⟩ := nzerosOf_ok 20 20 hl
    obtain ⟨g, h3, h4, -⟩ := gridY_ok ((List.range n).map fun i : ℕ =>
        0.12 / Real.exp (0.0337 * (i : ℝ) * Real.log ((i : ℝ) + 1))) (by
      intro d hd
      obtain ⟨i, -, rfl⟩ := List.mem_map.1 hd
      positivity) (by
      intro h0
      have := congrArg List.length h0
      simp at this
      omega)
    exact ⟨g, by simp only [boseSegY, hn, h3], h4⟩

/-- `Λ = 0` and `Λ < 0` are refused. -/
theorem C33_bad_lambda (lam : ℝ) :
    (lam = 0 → logisticSegX lam = .error .overflowError ∧ logisticSegY lam = .error .overflowError ∧
      boseSegX lam = .error .overflowError ∧ boseSegY lam = .error .overflowError) ∧
    (lam < 0 → logisticSegX lam = .error .valueError ∧ logisticSegY lam = .error .valueError ∧
      boseSegX lam = .error .valueError ∧ boseSegY lam = .error .valueError) := by
  constructor
  · intro h
    have : ∀ c m, nzerosOf c m lam = .error .overflowError := fun c m => by unfold nzerosOf; rw [if_pos h]
    simp only [logisticSegX, logisticSegY, boseSegX, boseSegY, this, and_self]
  · intro h
    have : ∀ c m, nzerosOf c m lam = .error .valueError := fun c m => by
      unfold nzerosOf; rw [if_neg h.ne, if_pos h]
    simp only [logisticSegX, logisticSegY, boseSegX, boseSegY, this, and_self]

/-! ### The symmetric half -/

theorem sym_getElem {g : List ℝ} (h : g.map (- ·) = g.reverse) (i : ℕ) (hi : i < g.length) :
    g[g.length - 1 - i] = - g[i] := by
  have h1 : (g.map (- ·))[i]'(by simpa using hi) = g.reverse[i]'(by simpa using hi) := by
    simp only [h]
  rw [List.getElem_map, List.getElem_reverse] at h1
  exact h1.symm

theorem drop_nonneg {g : List ℝ} (hs : g.Pairwise (· < ·)) (h : g.map (- ·) = g.reverse) (i : ℕ)
    (hi : i < g.length) : (g.length / 2 ≤ i → 0 ≤ g[i]) ∧ (i < g.length / 2 → g[i] < 0) ∧
      (g[i] = 0 → i = g.length / 2) := by
  have e := sym_getElem h i hi
  have hlt : ∀ (i j : ℕ) (hi : i < g.length) (hj : j < g.length), i < j → g[i] < g[j] := fun i j hi hj hij =>
    List.pairwise_iff_getElem.1 hs i j hi hj hij
  have hj : g.length - 1 - i < g.length := by omega
  refine ⟨fun hc => ?_, fun hc => ?_, fun h0 => ?_⟩
  · rcases Nat.lt_or_ge (g.length - 1 - i) i with hc' | hc'
    · have := hlt _ _ hj hi hc'
      rw [e] at this
      linarith
    · have hii : g.length - 1 - i = i := by omega
      have : g[g.length - 1 - i] = g[i] := by simp only [hii]
      rw [e] at this
      linarith
  · have := hlt _ _ hi hj (by omega)
    rw [e] at this
    linarith
  · rcases Nat.lt_trichotomy (g.length - 1 - i) i with hc | hc | hc
    · have := hlt _ _ hj hi hc
      rw [e, h0] at this
      simp at this
    · omega
    · have := hlt _ _ hi hj hc
      rw [e, h0] at this
      simp at this

/-- For every strictly increasing, symmetric grid (even or odd number of points, with or without zero) the
half grid runs from `0` to the same end, strictly increasing, and its points are `0` and the positive points
of the grid. -/
theorem C33_half (g : List ℝ) (b : ℝ) (hs : g.Pairwise (· < ·)) (hsym : g.map (- ·) = g.reverse)
    (hb : g.getLast? = some b) :
    ∃ h, symmSegments g = .ok h ∧ GridFromTo 0 b h ∧ ∀ t, t ∈ h ↔ t = 0 ∨ (t ∈ g ∧ 0 < t) := by
  have hrev : g.reverse.map (- ·) = g := by
    rw [List.map_reverse, hsym, List.reverse_reverse]
  have hne : g ≠ [] := by rintro rfl; cases hb
  have hlen : 0 < g.length := List.length_pos_iff.2 hne
  have hclose : ∀ p ∈ g.zip (g.reverse.map (- ·)), Np.isClose p.1 p.2 := by
    rw [hrev]
    intro p hp
    obtain ⟨i, hi, rfl⟩ := List.mem_iff_getElem.1 hp
    simp only [List.getElem_zip]
    unfold Np.isClose
    rw [sub_self, abs_zero]
    positivity
  have hm : g.length / 2 < g.length := by omega
  have hdrop : g.drop (g.length / 2) = g[g.length / 2] :: g.drop (g.length / 2 + 1) :=
    List.drop_eq_getElem_cons hm
  have hmem : ∀ t ∈ g.drop (g.length / 2), 0 ≤ t := by
    intro t ht
    obtain ⟨i, hi, rfl⟩ := List.mem_iff_getElem.1 ht
    rw [List.getElem_drop]
    exact (drop_nonneg hs hsym _ _).1 (by omega)
  have hposmem : ∀ t ∈ g, 0 < t → t ∈ g.drop (g.length / 2) := by
    intro t ht h0
    obtain ⟨i, hi, rfl⟩ := List.mem_iff_getElem.1 ht
    have hi2 : g.length / 2 ≤ i := by
      by_contra hc
      have := (drop_nonneg hs hsym i hi).2.1 (by omega)
      linarith
    rw [List.mem_iff_getElem]
    refine ⟨i - g.length / 2, by rw [List.length_drop]; omega, ?_⟩
    rw [List.getElem_drop]
    congr 1
    omega
  have hdsort : (g.drop (g.length / 2)).Pairwise (· < ·) := hs.sublist (List.drop_sublist _ _)
  have hdlast : (g.drop (g.length / 2)).getLast? = some b := by
    rw [List.getLast?_drop, if_neg (by omega), hb]
  unfold symmSegments
  rw [if_neg (not_not.2 hclose)]
  simp only
  have hhead : (g.drop (g.length / 2)).head? = some g[g.length / 2] := by rw [hdrop]; rfl
  rw [hhead]
  simp only
  split
  · rename_i h0
    have hpos : ∀ t ∈ g.drop (g.length / 2), 0 < t := by
      intro t ht
      have hnn := hmem _ (by rw [hdrop]; exact List.mem_cons_self : g[g.length / 2] ∈ g.drop (g.length / 2))
      have hp0 : 0 < g[g.length / 2] := lt_of_le_of_ne hnn (Ne.symm h0)
      rw [hdrop] at ht
      rcases List.mem_cons.1 ht with rfl | ht
      · exact hp0
      · rw [hdrop] at hdsort
        exact hp0.trans ((List.pairwise_cons.1 hdsort).1 t ht)
    refine ⟨_, rfl, ⟨List.pairwise_cons.2 ⟨hpos, hdsort⟩, rfl, ?_⟩, ?_⟩
    · rw [List.getLast?_cons, hdlast]; rfl
    · intro t
      rw [List.mem_cons]
      constructor
      · rintro (rfl | ht)
        · exact Or.inl rfl
        · exact Or.inr ⟨List.mem_of_mem_drop ht, hpos t ht⟩
      · rintro (rfl | ⟨h1, h2⟩)
        · exact Or.inl rfl
        · exact Or.inr (hposmem t h1 h2)
  · rename_i h0
    have h0 : g[g.length / 2] = 0 := by simpa using h0
    refine ⟨_, rfl, ⟨hdsort, by rw [hhead, h0], hdlast⟩, ?_⟩
    intro t
    constructor
    · intro ht
      rcases eq_or_lt_of_le (hmem t ht) with h | h
      · exact Or.inl h.symm
      · exact Or.inr ⟨List.mem_of_mem_drop ht, h⟩
    · rintro (rfl | ⟨h1, h2⟩)
      · rw [hdrop, h0]; exact List.mem_cons_self
      · exact hposmem t h1 h2

/-- The half grids of the symmetrised kernels run from `0` to `1` for every `Λ > 0`. -/
theorem C33_half_grids (lam : ℝ) (hl : 0 < lam) :
    ∀ seg ∈ [logisticSegX lam, logisticSegY lam, boseSegX lam, boseSegY lam],
      ∃ g h, seg = .ok g ∧ symmSegments g = .ok h ∧ GridFromTo 0 1 h := by
  have key : ∀ seg : PyM (List ℝ), (∃ g, seg = .ok g ∧ SymGrid g) →
      ∃ g h, seg = .ok g ∧ symmSegments g = .ok h ∧ GridFromTo 0 1 h := by
    rintro seg ⟨g, h1, h2⟩
    obtain ⟨h, h3, h4, -⟩ := C33_half g 1 h2.sorted h2.symm h2.last
    exact ⟨g, h, h1, h3, h4⟩
  obtain ⟨h1, h2, h3, h4⟩ := C33_grids lam hl
  intro seg hseg
  simp only [List.mem_cons, List.not_mem_nil, or_false] at hseg
  rcases hseg with rfl | rfl | rfl | rfl
  · exact key _ h1
  · exact key _ h2
  · exact key _ h3
  · exact key _ h4

/-- A grid that is not symmetric within the tolerance is refused. -/
theorem C33_asymmetric (g : List ℝ) (i : ℕ) (hi : i < g.length)
    (h : 1e-8 + 1e-5 * |g[g.length - 1 - i]| < |g[i] + g[g.length - 1 - i]|) :
    symmSegments g = .error .valueError := by
  unfold symmSegments
  rw [if_pos]
  intro hall
  have hi2 : i < (g.zip (g.reverse.map (- ·))).length := by simpa using hi
  have := hall _ (List.getElem_mem hi2)
  simp only [List.getElem_zip, List.getElem_map, List.getElem_reverse] at this
  unfold Np.isClose at this
  rw [sub_neg_eq_add, abs_neg] at this
  linarith

example : ∃ h, symmSegments [-1, -0.5, 0, 0.5, 1] = .ok h ∧ GridFromTo 0 1 h := by
  obtain ⟨h, h1, h2, -⟩ := C33_half [-1, -0.5, 0, 0.5, 1] 1 (by norm_num) (by norm_num) rfl
  exact ⟨h, h1, h2⟩

/-- The number of singular values hinted at is positive. -/
theorem C33_nsvals (lam : ℝ) : 26 ≤ logisticNsvals lam ∧ 28 ≤ boseNsvals lam ∧
    13 ≤ reducedNsvals (logisticNsvals lam) ∧ 14 ≤ reducedNsvals (boseNsvals lam) := by
  have hl : (1 : ℝ) ≤ max 1 (Real.logb 10 lam) := le_max_left _ _
  have h1 : 26 ≤ logisticNsvals lam := by
    unfold logisticNsvals
    simp only
    set l := max 1 (Real.logb 10 lam)
    have h2 : (26 : ℝ) ≤ (25 + l) * l := by nlinarith
    have h3 : (26 : ℤ) ≤ ⌊(25 + l) * l⌋ := Int.le_floor.2 (by exact_mod_cast h2)
    unfold roundEven
    simp only
    split_ifs <;> omega
  have h2 : 28 ≤ boseNsvals lam := by
    unfold boseNsvals
    simp only
    apply Int.le_floor.2
    push_cast
    nlinarith
  unfold reducedNsvals
  refine ⟨h1, h2, ?_, ?_⟩ <;> omega

/-! ### Number of points and spacings -/

/-- `n` is `x` rounded to the nearest integer, halves to the even one. -/
def NearestInt (x : ℝ) (n : ℤ) : Prop := |x - n| ≤ 1 / 2 ∧ (|x - n| = 1 / 2 → Even n)

theorem roundEven_spec (x : ℝ) : NearestInt x (roundEven x) := by
  have h0 := Int.floor_le x
  have h1 := Int.lt_floor_add_one x
  unfold roundEven
  simp only
  by_cases hc : x - ⌊x⌋ < 1 / 2
  · rw [if_pos hc]
    constructor
    · rw [abs_of_nonneg (by linarith)]; linarith
    · rw [abs_of_nonneg (by linarith)]; intro h; linarith
  rw [if_neg hc]
  by_cases hc' : x - ⌊x⌋ > 1 / 2
  · rw [if_pos hc']
    constructor
    · push_cast; rw [abs_le]; constructor <;> linarith
    · push_cast; rw [abs_of_neg (by linarith)]; intro h; linarith
  rw [if_neg hc']
  have hx : x - ⌊x⌋ = 1 / 2 := by linarith
  by_cases he : ⌊x⌋ % 2 = 0
  · rw [if_pos he]
    exact ⟨by rw [hx]; norm_num, fun _ => Int.even_iff.2 he⟩
  · rw [if_neg he]
    refine ⟨?_, fun _ => ?_⟩
    · push_cast; rw [abs_le]; constructor <;> linarith
    · rw [Int.even_iff]; omega

/-- Specification: the number of positive points is `c * log10(lambda)`, rounded, but at least `m`. -/
def PointCount (c : ℝ) (m : ℤ) (lam : ℝ) (n : ℕ) : Prop := ∃ k : ℤ, NearestInt (c * Real.logb 10 lam) k ∧ (n : ℤ) = max k m

/-- Specification: from position `i` on, the next points of the grid have distances proportional to `d 0`, `d 1`, ... -/
def SpacingsFrom (g : List ℝ) (i n : ℕ) (d : ℕ → ℝ) : Prop :=
  ∃ c > 0, ∀ j < n, ∃ a b, g[i + j]? = some a ∧ g[i + j + 1]? = some b ∧ b - a = c * d j

theorem nzerosOf_count (c : ℝ) (m : ℤ) (hm : 0 < m) {lam : ℝ} (hl : 0 < lam) :
    ∃ n : ℕ, nzerosOf c m lam = .ok (n + 1) ∧ PointCount c m lam (n + 1) := by
  unfold nzerosOf
  rw [if_neg hl.ne', if_neg (not_lt.2 hl.le)]
  have h1 := le_max_right (roundEven (c * Real.logb 10 lam)) m
  obtain ⟨n, hn⟩ : ∃ n : ℕ, max (roundEven (c * Real.logb 10 lam)) m = ((n + 1 : ℕ) : ℤ) :=
    ⟨(max (roundEven (c * Real.logb 10 lam)) m - 1).toNat, by omega⟩
  exact ⟨n, by rw [hn]; rfl, _, roundEven_spec _, hn.symm⟩

theorem cumsum_step (l : List ℝ) (s : ℝ) (j : ℕ) (hj : j < l.length) :
    ∃ a b, (s :: cumsumFrom s l)[j]? = some a ∧ (s :: cumsumFrom s l)[j + 1]? = some b ∧ b - a = l[j] := by
  induction l generalizing s j with
  | nil => simp at hj
  | cons x l ih =>
    cases j with
    | zero => exact ⟨s, s + x, rfl, rfl, by simp⟩
    | succ j =>
      obtain ⟨a, b, h1, h2, h3⟩ := ih (s + x) j (by simpa using hj)
      exact ⟨a, b, h1, h2, by simpa using h3⟩

theorem gridX_spacing (k : ℝ) (n : ℕ) (g : List ℝ) (hg : gridX k (n + 1) = .ok g) :
    SpacingsFrom g (n + 1) (n + 1) fun j => 1 / Real.cosh (k * j) := by
  set diffs := (List.range (n + 1)).map fun j : ℕ => 1 / Real.cosh (k * (j : ℝ)) with hd
  have hpos : ∀ d ∈ diffs, 0 < d := by
    intro d hd'
    obtain ⟨j, -, rfl⟩ := List.mem_map.1 hd'
    have := Real.cosh_pos (k * (j : ℝ))
    positivity
  obtain ⟨h1, h2⟩ := cumsum_sorted diffs 0 hpos
  have hdl : diffs.length = n + 1 := by rw [hd]; simp
  have hlen : (cumsumFrom 0 diffs).length = n + 1 := by rw [length_cumsum, hdl]
  have hne : cumsumFrom 0 diffs ≠ [] := by intro h0; rw [h0] at hlen; cases hlen
  have hlast : (cumsumFrom 0 diffs).getLast? = some ((cumsumFrom 0 diffs).getLast hne) :=
    List.getLast?_eq_some_getLast hne
  have hl0 : 0 < (cumsumFrom 0 diffs).getLast hne := h2 _ (List.getLast_mem hne)
  unfold gridX at hg
  simp only [← hd, hlast] at hg
  obtain rfl := Except.ok.inj hg
  refine ⟨1 / (cumsumFrom 0 diffs).getLast hne, by positivity, fun j hj => ?_⟩
  obtain ⟨a, b, e1, e2, e3⟩ := cumsum_step diffs 0 j (by omega)
  set L := (cumsumFrom 0 diffs).getLast hne
  have hsplit : ((cumsumFrom 0 diffs).map (· / L)).reverse.map (- ·) ++ [0] ++ (cumsumFrom 0 diffs).map (· / L) =
      ((cumsumFrom 0 diffs).map (· / L)).reverse.map (- ·) ++ (0 :: cumsumFrom 0 diffs).map (· / L) := by simp
  rw [hsplit]
  have hl : (((cumsumFrom 0 diffs).map (· / L)).reverse.map (- ·)).length = n + 1 := by simp [hlen]
  refine ⟨a / L, b / L, ?_, ?_, ?_⟩
  · rw [List.getElem?_append_right (by omega), hl, show n + 1 + j - (n + 1) = j by omega, List.getElem?_map, e1]; rfl
  · rw [List.getElem?_append_right (by omega), hl, show n + 1 + j + 1 - (n + 1) = j + 1 by omega, List.getElem?_map, e2]
    rfl
  · rw [← sub_div, e3]
    simp only [hd, List.getElem_map, List.getElem_range]
    ring

theorem gridY_spacing (diffs : List ℝ) (hpos : ∀ d ∈ diffs, 0 < d) (hne : diffs ≠ []) (g : List ℝ)
    (hg : gridY diffs = .ok g) : SpacingsFrom g 0 diffs.length fun j => diffs.getD j 0 := by
  obtain ⟨h1, h2⟩ := cumsum_sorted diffs 0 hpos
  have hlen : (cumsumFrom 0 diffs).length = diffs.length := length_cumsum _ _
  have hne' : cumsumFrom 0 diffs ≠ [] := by
    intro h0; rw [h0] at hlen; exact hne (List.length_eq_zero_iff.1 hlen.symm)
  have hlast : (cumsumFrom 0 diffs).getLast? = some ((cumsumFrom 0 diffs).getLast hne') :=
    List.getLast?_eq_some_getLast hne'
  have hl0 : 0 < (cumsumFrom 0 diffs).getLast hne' := h2 _ (List.getLast_mem hne')
  unfold gridY at hg
  simp only [hlast] at hg
  obtain rfl := Except.ok.inj hg
  refine ⟨1 / (cumsumFrom 0 diffs).getLast hne', by positivity, fun j hj => ?_⟩
  obtain ⟨a, b, e1, e2, e3⟩ := cumsum_step diffs 0 j hj
  set L := (cumsumFrom 0 diffs).getLast hne' with hL
  have hsplit : [-1] ++ ((cumsumFrom 0 diffs).dropLast.map (· / L)).map (· - 1) ++ [0] =
      (0 :: cumsumFrom 0 diffs).map fun t => t / L - 1 := by
    conv_rhs => rw [← List.dropLast_append_getLast hne']
    rw [← hL]
    simp [hl0.ne', List.map_map, Function.comp_def]
  rw [List.append_assoc, hsplit]
  have hl : ((0 :: cumsumFrom 0 diffs).map fun t => t / L - 1).length = diffs.length + 1 := by simp [hlen]
  refine ⟨a / L - 1, b / L - 1, ?_, ?_, ?_⟩
  · rw [List.getElem?_append_left (by omega), Nat.zero_add, List.getElem?_map, e1]; rfl
  · rw [List.getElem?_append_left (by omega), Nat.zero_add, List.getElem?_map, e2]; rfl
  · simp only
    rw [List.getD_eq_getElem?_getD, List.getElem?_eq_getElem hj, Option.getD_some, ← e3]
    ring

theorem logisticDiffs_get (n j : ℕ) (hj : j < n) : (logisticDiffs n).getD j 0 =
    if j < 20 then ([0.01523, 0.03314, 0.04848, 0.05987, 0.06703, 0.07028, 0.07030, 0.06791, 0.06391, 0.05896, 0.05358,
      0.04814, 0.04288, 0.03795, 0.03342, 0.02932, 0.02565, 0.02239, 0.01951, 0.01699] : List ℝ).getD j 0
    else 0.25 * Real.exp (-0.141 * j) := by
  have hl : leadingDiffs.length = 20 := rfl
  unfold logisticDiffs
  simp only
  by_cases h : j < 20
  · rw [if_pos h]
    show _ = leadingDiffs.getD j 0
    rw [List.getD_eq_getElem?_getD, List.getD_eq_getElem?_getD]
    congr 1
    split
    · rw [List.getElem?_append_left (by rw [List.length_take, hl]; omega), List.getElem?_take_of_lt hj]
    · rw [List.getElem?_append_left (by omega)]
  · rw [if_neg h, if_neg (by omega), List.getD_eq_getElem?_getD, List.getElem?_append_right (by omega), hl,
      List.getElem?_drop, List.getElem?_map, show 20 + (j - 20) = j by omega, List.getElem?_range hj]
    simp only [Option.map_some, Option.getD_some]
    rw [show (-0.141 * (j : ℝ)) = -(0.141 * j) by ring, Real.exp_neg, div_eq_mul_inv]

/-- The four grids in detail: `n` points on either side of zero, where `n` is 15 (20) times the decadic logarithm of
the cut-off, rounded, but not less than a given number; spacings in the given proportions. -/
theorem C33_spacings (lam : ℝ) (hl : 0 < lam) :
    (∃ g n, logisticSegX lam = .ok g ∧ g.length = 2 * n + 1 ∧ PointCount 15 1 lam n ∧
      SpacingsFrom g n n fun j => 1 / Real.cosh (0.143 * j)) ∧
    (∃ g n, logisticSegY lam = .ok g ∧ g.length = 2 * n + 1 ∧ PointCount 20 2 lam n ∧
      SpacingsFrom g 0 n fun j => if j < 20 then ([0.01523, 0.03314, 0.04848, 0.05987, 0.06703, 0.07028, 0.07030,
        0.06791, 0.06391, 0.05896, 0.05358, 0.04814, 0.04288, 0.03795, 0.03342, 0.02932, 0.02565, 0.02239, 0.01951,
        0.01699] : List ℝ).getD j 0 else 0.25 * Real.exp (-0.141 * j)) ∧
    (∃ g n, boseSegX lam = .ok g ∧ g.length = 2 * n + 1 ∧ PointCount 15 15 lam n ∧
      SpacingsFrom g n n fun j => 1 / Real.cosh (0.18 * j)) ∧
    (∃ g n, boseSegY lam = .ok g ∧ g.length = 2 * n + 1 ∧ PointCount 20 20 lam n ∧
      SpacingsFrom g 0 n fun j => 0.12 * Real.exp (-0.0337 * j * Real.log (j + 1))) := by
  refine ⟨?_, ?_, ?_, ?_⟩
  · obtain ⟨n, hn, hc⟩ := nzerosOf_count 15 1 (by norm_num) hl
    obtain ⟨g, h1, -, h2⟩ := gridX_ok 0.143 n
    exact ⟨g, n + 1, by simp only [logisticSegX, hn, h1], by rw [h2]; ring, hc, gridX_spacing _ _ _ h1⟩
  · obtain ⟨n, hn, hc⟩ := nzerosOf_count 20 2 (by norm_num) hl
    obtain ⟨h1, h2⟩ := logisticDiffs_pos (n + 1)
    have hne : logisticDiffs (n + 1) ≠ [] := by intro h0; rw [h0] at h2; simp at h2
    obtain ⟨g, h3, -, h4⟩ := gridY_ok _ h1 hne
    refine ⟨g, n + 1, by simp only [logisticSegY, hn, h3], by rw [h4, h2], hc, ?_⟩
    obtain ⟨c, hc0, hsp⟩ := gridY_spacing _ h1 hne g h3
    rw [h2] at hsp
    refine ⟨c, hc0, fun j hj => ?_⟩
    obtain ⟨a, b, e1, e2, e3⟩ := hsp j hj
    exact ⟨a, b, e1, e2, by rw [e3]; exact congrArg (c * ·) (logisticDiffs_get _ _ hj)⟩
  · obtain ⟨n, hn, hc⟩ := nzerosOf_count 15 15 (by norm_num) hl
    obtain ⟨g, h1, -, h2⟩ := gridX_ok 0.18 n
    exact ⟨g, n + 1, by simp only [boseSegX, hn, h1], by rw [h2]; ring, hc, gridX_spacing _ _ _ h1⟩
  · obtain ⟨n, hn, hc⟩ := nzerosOf_count 20 20 (by norm_num) hl
    have hpos : ∀ d ∈ (List.range (n + 1)).map fun i : ℕ =>
        0.12 / Real.exp (0.0337 * (i : ℝ) * Real.log ((i : ℝ) + 1)), 0 < d := by
      intro d hd
      obtain ⟨i, -, rfl⟩ := List.mem_map.1 hd
      positivity
    have hne : ((List.range (n + 1)).map fun i : ℕ =>
        0.12 / Real.exp (0.0337 * (i : ℝ) * Real.log ((i : ℝ) + 1))) ≠ [] := by
      intro h0
      have := congrArg List.length h0
      simp at this
    obtain ⟨g, h3, -, h4⟩ := gridY_ok _ hpos hne
    refine ⟨g, n + 1, by simp only [boseSegY, hn, h3], by rw [h4]; simp, hc, ?_⟩
    obtain ⟨c, hc0, hsp⟩ := gridY_spacing _ hpos hne g h3
    refine ⟨c, hc0, fun j hj => ?_⟩
    obtain ⟨a, b, e1, e2, e3⟩ := hsp j (by simpa using hj)
    refine ⟨a, b, e1, e2, ?_⟩
    rw [e3]
    simp only
    rw [List.getD_eq_getElem?_getD, List.getElem?_map, List.getElem?_range hj]
    simp only [Option.map_some, Option.getD_some]
    rw [show (-0.0337 * (j : ℝ) * Real.log (j + 1)) = -(0.0337 * j * Real.log (j + 1)) by ring, Real.exp_neg, div_eq_mul_inv]

/-- The number of singular values hinted at: `(25 + l) l`, rounded, or `28 l`, rounded down, with
`l = max(1, log10(lambda))`; half of that, rounded up, for the even and odd part. -/
theorem C33_nsvals_value (lam : ℝ) : NearestInt ((25 + max 1 (Real.logb 10 lam)) * max 1 (Real.logb 10 lam)) (logisticNsvals lam) ∧
    (boseNsvals lam : ℝ) ≤ 28 * max 1 (Real.logb 10 lam) ∧ 28 * max 1 (Real.logb 10 lam) < boseNsvals lam + 1 ∧
    ∀ n : ℤ, 2 * reducedNsvals n = n ∨ 2 * reducedNsvals n = n + 1 := by
  refine ⟨roundEven_spec _, Int.floor_le _, Int.lt_floor_add_one _, fun n => ?_⟩
  unfold reducedNsvals
  omega

example : ∃ n, PointCount 15 1 1000 n ∧ n = 45 := by
  refine ⟨45, ⟨45, ?_, by norm_num⟩, rfl⟩
  have : Real.logb 10 1000 = 3 := by
    rw [show (1000 : ℝ) = 10 ^ (3 : ℝ) by norm_num, Real.logb_rpow (by norm_num) (by norm_num)]
  rw [this]
  constructor
  · norm_num
  · norm_num

end Verif.Props
