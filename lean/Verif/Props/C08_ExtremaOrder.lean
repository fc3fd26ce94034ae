import Verif.Props.C07_DiscreteExtremum
import Verif.Spec.Roots
import Mathlib.Tactic.Ring
/-!
# C08 — extrema are reported in ascending order

The full statement `ExtremaAscending` is false of the code: on coarse grids the brackets of two
adjacent secant sign changes overlap and the two searches may cross (`C08_negation`).  It holds
whenever adjacent secant changes only occur at unit spacing (`C08_ascending_partial`), in particular
on unit grids, where moreover exactly the discrete extrema are returned (`C08_unit_grid`).
-/

namespace Verif.Props
open Verif Verif.Np Verif.Roots

/-- The full English claim. -/
def ExtremaAscending (K : Type _) [Field K] [LinearOrder K] [IsStrictOrderedRing K] : Prop :=
  ∀ (f : ℤ → FVal K) (grid : List ℤ), grid.Pairwise (· < ·) → 2 ≤ grid.length →
    ∃ r, discreteExtrema f grid = .ok r ∧ r.Pairwise (· < ·)

/-- A function for which the two searches cross. -/
def crossing : ℤ → FVal ℚ := fun x => FVal.mk' (
  if x = 0 then 1 else if x = 10 then 5 else if x = 11 then 10 else if x = 12 then 9
  else if x = 13 then 8 else if x = 14 then 7 else if x = 15 then 3 else if x = 16 then 4
  else if x = 17 then 5 else if x = 18 then 6 else if x = 19 then 3 else if x = 20 then 2
  else if x = 40 then 9 else if x = 26 then 1 else 2)

/-- On the grid `0, 10, 20, 40` the code returns `18, 11, 40`. -/
theorem C08_crossing_value : discreteExtrema crossing [0, 10, 20, 40] = .ok [18, 11, 40] := by
  have e1 : bisectDiscrExtremum (fun x => (crossing x).abs) 0 20 (crossing 0).abs
      (crossing 20).abs = 18 := by
    repeat (rw [bisectDiscrExtremum]; norm_num [crossing, FVal.abs, FVal.mk', Int.fdiv])
  have e2 : bisectDiscrExtremum (fun x => (crossing x).abs) 10 40 (crossing 10).abs
      (crossing 40).abs = 11 := by
    repeat (rw [bisectDiscrExtremum]; norm_num [crossing, FVal.abs, FVal.mk', Int.fdiv])
  have e3 : secantChanges ([0, 10, 20, 40].map fun x => (x, crossing x)) =
      [((0, crossing 0), (20, crossing 20)), ((10, crossing 10), (40, crossing 40))] := by
    simp only [List.map_cons, List.map_nil, secantChanges]
    norm_num [FVal.sub, FVal.signbit, crossing, FVal.mk']
  have e4 : interiorExtrema crossing [0, 10, 20, 40] = [18, 11] := by
    unfold interiorExtrema
    rw [e3]
    simp only [List.map_cons, List.map_nil, e1, e2]
  unfold discreteExtrema
  simp only [e4, List.reverse_cons, List.reverse_nil, List.nil_append, List.cons_append]
  norm_num [crossing, FVal.abs, FVal.mk', FVal.signbit]

theorem C08_negation : ¬ ExtremaAscending ℚ := by
  intro h
  obtain ⟨r, hr, hs⟩ := h crossing [0, 10, 20, 40] (by decide) (by decide)
  rw [C08_crossing_value] at hr
  injection hr with hr
  subst hr
  revert hs
  decide

variable {K : Type _} [Field K] [LinearOrder K] [IsStrictOrderedRing K]

/-- `x, y, z` are three consecutive grid points at which the secant changes sign. -/
def SecantChange (f : ℤ → FVal K) (x y z : ℤ) : Prop :=
  ((f y).sub (f x)).signbit ≠ ((f z).sub (f y)).signbit

/-- Whenever two adjacent secants changes occur (at four consecutive grid points), the middle two
points are neighbouring integers. -/
def SeparatedChanges (f : ℤ → FVal K) (grid : List ℤ) : Prop :=
  ∀ l1 l2 x y z w, grid = l1 ++ x :: y :: z :: w :: l2 → SecantChange f x y z →
    SecantChange f y z w → z = y + 1

theorem SeparatedChanges.tail {f : ℤ → FVal K} {x : ℤ} {l : List ℤ}
    (h : SeparatedChanges f (x :: l)) : SeparatedChanges f l := by
  intro l1 l2 a b c d e
  exact h (x :: l1) l2 a b c d (by rw [e]; rfl)

theorem interior_cons (f : ℤ → FVal K) (x y z : ℤ) (l : List ℤ) :
    interiorExtrema f (x :: y :: z :: l) =
      if ((f y).sub (f x)).signbit != ((f z).sub (f y)).signbit then
        bisectDiscrExtremum (fun x => (f x).abs) x z (f x).abs (f z).abs
          :: interiorExtrema f (y :: z :: l)
      else interiorExtrema f (y :: z :: l) := by
  unfold interiorExtrema
  simp only [List.map_cons, secantChanges]
  split <;> rfl

theorem interior_short (f : ℤ → FVal K) (l : List ℤ) (h : l.length < 3) :
    interiorExtrema f l = [] := by
  unfold interiorExtrema
  match l, h with
  | [], _ => rfl
  | [_], _ => rfl
  | [_, _], _ => rfl
  | _ :: _ :: _ :: _, h => simp at h; omega

/-- All interior extrema lie strictly between the first and the last grid point. -/
theorem interior_bounds (f : ℤ → FVal K) : ∀ (l : List ℤ) (x : ℤ),
    (x :: l).Pairwise (· < ·) → ∀ e ∈ interiorExtrema f (x :: l), x < e ∧ ∃ t ∈ l, e < t := by
  intro l
  induction l with
  | nil => intro x _ e he; rw [interior_short f [x] (by simp)] at he; simp at he
  | cons y l ih =>
    intro x hp e he
    cases l with
    | nil => rw [interior_short f [x, y] (by simp)] at he; simp at he
    | cons z l =>
      rw [interior_cons] at he
      have hp2 := (List.pairwise_cons.1 hp).2
      have hxy : x < y := (List.pairwise_cons.1 hp).1 y (by simp)
      have hyz : y < z := (List.pairwise_cons.1 hp2).1 z (by simp)
      have hrec : ∀ e ∈ interiorExtrema f (y :: z :: l), x < e ∧ ∃ t ∈ y :: z :: l, e < t := by
        intro e he
        obtain ⟨h1, t, ht, h2⟩ := ih y hp2 e he
        exact ⟨hxy.trans h1, t, List.mem_cons_of_mem _ ht, h2⟩
      split at he
      · rcases List.mem_cons.1 he with rfl | he
        · have := C07_inside (fun x => (f x).abs) x z (f x).abs (f z).abs (by omega)
          exact ⟨this.1, z, by simp, this.2⟩
        · exact hrec e he
      · exact hrec e he

theorem interior_sorted (f : ℤ → FVal K) : ∀ (l : List ℤ), l.Pairwise (· < ·) →
    SeparatedChanges f l → (interiorExtrema f l).Pairwise (· < ·) := by
  intro l
  induction l with
  | nil => intro _ _; rw [interior_short f [] (by simp)]; exact .nil
  | cons x l ih =>
    intro hp hs
    have hp2 := (List.pairwise_cons.1 hp).2
    match l, hp, hs, ih, hp2 with
    | [], _, _, _, _ => rw [interior_short _ _ (by simp)]; exact .nil
    | [_], _, _, _, _ => rw [interior_short _ _ (by simp)]; exact .nil
    | y :: z :: l, hp, hs, ih, hp2 =>
      have hxy : x < y := (List.pairwise_cons.1 hp).1 y (by simp)
      have hyz : y < z := (List.pairwise_cons.1 hp2).1 z (by simp)
      have hp3 := (List.pairwise_cons.1 hp2).2
      rw [interior_cons]
      split
      · rename_i hch
        rw [List.pairwise_cons]
        refine ⟨?_, ih hp2 hs.tail⟩
        intro e he
        have h1 := C07_inside (fun x => (f x).abs) x z (f x).abs (f z).abs (by omega)
        cases l with
        | nil => rw [interior_short _ _ (by simp)] at he; simp at he
        | cons w l =>
          rw [interior_cons] at he
          have hzw : z < w := (List.pairwise_cons.1 hp3).1 w (by simp)
          split at he
          · rename_i hch2
            have hz := hs [] l x y z w rfl (by simpa [SecantChange] using hch)
              (by simpa [SecantChange] using hch2)
            have h2 := (interior_bounds f _ y hp2 e (by rw [interior_cons, if_pos hch2]; exact he)).1
            omega
          · have h2 := (interior_bounds f _ z hp3 e he).1
            omega
      · exact ih hp2 hs.tail

/-- Every grid has at least two points: `discrete_extrema` returns normally. -/
theorem extrema_eq (f : ℤ → FVal K) (grid : List ℤ) (x0 x1 y0 y1 : ℤ) (m m' : List ℤ)
    (h1 : grid = x0 :: x1 :: m) (h2 : grid = m' ++ [y1, y0]) :
    discreteExtrema f grid = .ok (
      (if (f x0).abs > (f x1).abs ∨ (f x0).signbit ≠ (f x1).signbit then [x0] else []) ++
      interiorExtrema f grid ++
      (if (f y0).abs > (f y1).abs ∨ (f y0).signbit ≠ (f y1).signbit then [y0] else [])) := by
  unfold discreteExtrema
  have e2 : grid.reverse = y0 :: y1 :: m'.reverse := by rw [h2]; simp
  rw [e2]
  subst h1
  simp only
  split <;> split <;> simp

/-- Proved part of the claim.  Missing (false): grids on which two adjacent secant changes occur at
non-unit spacing. -/
theorem C08_ascending_partial (f : ℤ → FVal K) (grid : List ℤ) (hgrid : grid.Pairwise (· < ·))
    (hlen : 2 ≤ grid.length) (hsep : SeparatedChanges f grid) :
    ∃ r, discreteExtrema f grid = .ok r ∧ r.Pairwise (· < ·) := by
  obtain ⟨x0, x1, m, h1⟩ : ∃ x0 x1 m, grid = x0 :: x1 :: m := by
    match grid, hlen with
    | x0 :: x1 :: m, _ => exact ⟨x0, x1, m, rfl⟩
  obtain ⟨y0, y1, m', h2⟩ : ∃ y0 y1 m', grid = m' ++ [y1, y0] := by
    have hl : 2 ≤ grid.reverse.length := by simpa using hlen
    match hr : grid.reverse, hl with
    | y0 :: y1 :: m', _ =>
      refine ⟨y0, y1, m'.reverse, ?_⟩
      have := congrArg List.reverse hr
      simpa using this
  refine ⟨_, extrema_eq f grid x0 x1 y0 y1 m m' h1 h2, ?_⟩
  have hmax : ∀ t ∈ grid, t ≤ y0 := by
    intro t ht
    rw [h2] at ht hgrid
    rw [List.pairwise_append] at hgrid
    simp only [List.mem_append, List.mem_cons, List.not_mem_nil, or_false] at ht
    rcases ht with ht | rfl | rfl
    · exact (hgrid.2.2 t ht y0 (by simp)).le
    · exact ((List.pairwise_cons.1 hgrid.2.1).1 y0 (by simp)).le
    · exact le_refl _
  have hb : ∀ e ∈ interiorExtrema f grid, x0 < e ∧ e < y0 := by
    intro e he
    rw [h1] at he hgrid
    obtain ⟨h3, t, ht, h4⟩ := interior_bounds f _ x0 hgrid e he
    exact ⟨h3, lt_of_lt_of_le h4 (hmax t (by rw [h1]; exact List.mem_cons_of_mem _ ht))⟩
  have hxy : x0 < y0 := by
    have h3 : x0 < x1 := by
      rw [h1] at hgrid; exact (List.pairwise_cons.1 hgrid).1 x1 (by simp)
    exact lt_of_lt_of_le h3 (hmax x1 (by rw [h1]; simp))
  have hint := interior_sorted f grid hgrid hsep
  rw [List.pairwise_append, List.pairwise_append]
  refine ⟨⟨?_, hint, ?_⟩, ?_, ?_⟩
  · split <;> simp
  · intro a ha b hb'
    split at ha
    · simp only [List.mem_singleton] at ha
      subst ha; exact (hb b hb').1
    · simp at ha
  · split <;> simp
  · intro a ha b hb'
    split at hb'
    · simp only [List.mem_singleton] at hb'
      subst hb'
      rcases List.mem_append.1 ha with h | h
      · split at h
        · simp only [List.mem_singleton] at h; subst h; exact hxy
        · simp at h
      · exact (hb a h).2
    · simp at hb'

/-- A grid of fewer than two points raises IndexError. -/
theorem C08_short_grid (f : ℤ → FVal K) (grid : List ℤ) (hlen : grid.length < 2) :
    discreteExtrema f grid = .error .indexError := by
  match grid, hlen with
  | [], _ => rfl
  | [_], _ => rfl
  | _ :: _ :: _, h => simp at h; omega

/-- The unit grid `n, n+1, ..., n+k`. -/
def unitGrid (n : ℤ) (k : ℕ) : List ℤ := (List.range (k + 1)).map fun i : ℕ => n + (i : ℤ)

theorem unitGrid_get (n : ℤ) (k i : ℕ) (x : ℤ) :
    (unitGrid n k)[i]? = some x ↔ i < k + 1 ∧ x = n + i := by
  unfold unitGrid
  rw [List.getElem?_map]
  by_cases h : i < k + 1
  · simp [List.getElem?_range h, h, eq_comm]
  · simp [h, not_lt.1 h]

/-- On the unit grid `n, n+1, ..., n+k` the claim always holds. -/
theorem C08_unit_grid_ascending (f : ℤ → FVal K) (n : ℤ) (k : ℕ) (hk : 1 ≤ k) :
    ∃ r, discreteExtrema f (unitGrid n k) = .ok r ∧
      r.Pairwise (· < ·) := by
  apply C08_ascending_partial
  · unfold unitGrid
    rw [List.pairwise_map]
    exact List.pairwise_lt_range.imp (by intro a b h; omega)
  · simp [unitGrid]; omega
  · intro l1 l2 x y z w h _ _
    have hy : (unitGrid n k)[l1.length + 1]? = some y := by
      rw [h]; simp [List.getElem?_append]
    have hz : (unitGrid n k)[l1.length + 2]? = some z := by
      rw [h]; simp [List.getElem?_append]
    rw [unitGrid_get] at hy hz
    rw [hy.2, hz.2]
    push_cast
    ring

/-- Which points are returned in the interior: exactly one search result per secant change. -/
theorem C08_members (f : ℤ → FVal K) (grid : List ℤ) (e : ℤ) :
    e ∈ interiorExtrema f grid ↔ ∃ l1 l2 x y z, grid = l1 ++ x :: y :: z :: l2 ∧
      SecantChange f x y z ∧
      e = bisectDiscrExtremum (fun x => (f x).abs) x z (f x).abs (f z).abs := by
  induction grid with
  | nil => rw [interior_short _ _ (by simp)]; simp
  | cons x l ih =>
    match l, ih with
    | [], _ =>
      rw [interior_short _ _ (by simp)]
      simp only [List.not_mem_nil, false_iff]
      rintro ⟨l1, l2, a, b, c, h, -⟩
      have := congrArg List.length h
      simp at this; omega
    | [_], _ =>
      rw [interior_short _ _ (by simp)]
      simp only [List.not_mem_nil, false_iff]
      rintro ⟨l1, l2, a, b, c, h, -⟩
      have := congrArg List.length h
      simp at this; omega
    | y :: z :: l, ih =>
      rw [interior_cons]
      have hsplit : (∃ l1 l2 a b c, x :: y :: z :: l = l1 ++ a :: b :: c :: l2 ∧
          SecantChange f a b c ∧
          e = bisectDiscrExtremum (fun x => (f x).abs) a c (f a).abs (f c).abs) ↔
          (SecantChange f x y z ∧
            e = bisectDiscrExtremum (fun x => (f x).abs) x z (f x).abs (f z).abs) ∨
          e ∈ interiorExtrema f (y :: z :: l) := by
        rw [ih]
        constructor
        · rintro ⟨l1, l2, a, b, c, h, h2, h3⟩
          cases l1 with
          | nil =>
            simp only [List.nil_append, List.cons.injEq] at h
            obtain ⟨rfl, rfl, rfl, -⟩ := h
            exact Or.inl ⟨h2, h3⟩
          | cons w l1 =>
            simp only [List.cons_append, List.cons.injEq] at h
            exact Or.inr ⟨l1, l2, a, b, c, h.2, h2, h3⟩
        · rintro (⟨h2, h3⟩ | ⟨l1, l2, a, b, c, h, h2, h3⟩)
          · exact ⟨[], l, x, y, z, rfl, h2, h3⟩
          · exact ⟨x :: l1, l2, a, b, c, by rw [h]; rfl, h2, h3⟩
      rw [hsplit]
      split
      · rename_i hc
        have hc' : SecantChange f x y z := by simpa [SecantChange] using hc
        simp [hc']
      · rename_i hc
        have hc' : ¬ SecantChange f x y z := by simpa [SecantChange] using hc
        simp [hc']

/-- On a unit grid the interior points returned are exactly the points where the forward difference
changes its sign bit: the discrete local extrema. -/
theorem C08_unit_grid_exact (f : ℤ → FVal K) (n : ℤ) (k : ℕ) (e : ℤ) :
    e ∈ interiorExtrema f (unitGrid n k) ↔
      n < e ∧ e < n + k ∧ SecantChange f (e - 1) e (e + 1) := by
  have h2 : ∀ (x z : ℤ) (u v : K), z = x + 2 →
      bisectDiscrExtremum (fun x => (f x).abs) x z u v = x + 1 := by
    intro x z u v h
    rw [bisectDiscrExtremum, if_neg (by omega), if_pos (by omega)]
  rw [C08_members]
  constructor
  · rintro ⟨l1, l2, x, y, z, h, hs, he⟩
    have hx : (unitGrid n k)[l1.length]? = some x := by
      rw [h]; simp
    have hy : (unitGrid n k)[l1.length + 1]? = some y := by
      rw [h]; simp [List.getElem?_append]
    have hz : (unitGrid n k)[l1.length + 2]? = some z := by
      rw [h]; simp [List.getElem?_append]
    rw [unitGrid_get] at hx hy hz
    obtain ⟨hc, rfl⟩ := hx
    obtain ⟨ha, rfl⟩ := hy
    obtain ⟨hb, rfl⟩ := hz
    rw [h2 _ _ _ _ (by push_cast; ring)] at he
    subst he
    push_cast at hs ⊢
    refine ⟨by omega, by omega, ?_⟩
    convert hs using 1 <;> ring
  · rintro ⟨h3, h4, hs⟩
    obtain ⟨j, rfl⟩ : ∃ j : ℕ, e = n + j + 1 := ⟨(e - n - 1).toNat, by omega⟩
    refine ⟨(List.range j).map fun i : ℕ => n + (i : ℤ),
      (List.range' (j + 3) (k - j - 2)).map fun i : ℕ => n + (i : ℤ),
      n + j, n + j + 1, n + j + 2, ?_, ?_, ?_⟩
    · have : List.range (k + 1) = List.range j ++ (j :: (j + 1) :: (j + 2) ::
          List.range' (j + 3) (k - j - 2)) := by
        have e1 : k + 1 = j + ((k - j - 2) + 1 + 1 + 1) := by omega
        conv_lhs => rw [e1]
        rw [List.range_eq_range', ← List.range'_append_1]
        simp [List.range'_succ, List.range_eq_range']
      unfold unitGrid
      rw [this]
      simp only [List.map_append, List.map_cons]
      push_cast
      simp only [add_assoc]
    · convert hs using 1 <;> ring
    · rw [h2 _ _ _ _ (by ring)]

/- Non-vacuity: `SeparatedChanges` for a grid with a unit-spaced oscillation. -/
example : SeparatedChanges (fun n : ℤ => FVal.mk' (((-1 : ℚ)) ^ n.natAbs)) [0, 1, 2, 3, 4] := by
  intro l1 l2 x y z w h _ _
  have h5 := congrArg List.length h
  simp at h5
  match l1 with
  | [] => simp at h; omega
  | [_] => simp at h; omega
  | _ :: _ :: _ => simp at h5; omega

end Verif.Props
