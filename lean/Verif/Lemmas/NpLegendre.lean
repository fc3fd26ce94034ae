import Verif.Np.Legendre
import Verif.Lemmas.Legendre
/-! numpy's Legendre routines compute Legendre sums, derivatives and values. -/

namespace Verif.Legendre
open Polynomial Verif.Spec Verif.Np

/-- The Legendre series with the given coefficient list, as a polynomial. -/
noncomputable def series (c : List ℝ) : ℝ[X] :=
  ∑ k ∈ Finset.range c.length, C (c.getD k 0) * legendre k

theorem series_eval (c : List ℝ) (x : ℝ) :
    (series c).eval x = ∑ k ∈ Finset.range c.length, c.getD k 0 * (legendre k).eval x := by
  simp [series, eval_finset_sum]

theorem series_append_singleton (c : List ℝ) (a : ℝ) :
    series (c ++ [a]) = series c + C a * legendre c.length := by
  unfold series
  rw [List.length_append, List.length_singleton, Finset.sum_range_succ]
  congr 1
  · apply Finset.sum_congr rfl
    intro k hk
    rw [List.getD_eq_getElem?_getD, List.getElem?_append_left (Finset.mem_range.1 hk),
      ← List.getD_eq_getElem?_getD]
  · simp

theorem clenshaw_eq (x : ℝ) (rest : List ℝ) (c0 c1 : ℝ) :
    clenshaw x rest (rest.length + 2) c0 c1 =
      (series rest.reverse).eval x + c0 * (legendre rest.length).eval x
        + c1 * (legendre (rest.length + 1)).eval x := by
  induction rest generalizing c0 c1 with
  | nil => simp [clenshaw, series]
  | cons c rest ih =>
    simp only [clenshaw, List.length_cons, Nat.add_sub_cancel]
    rw [show rest.length + 1 + 2 - 1 = rest.length + 2 from rfl, ih]
    rw [List.reverse_cons, series_append_singleton, eval_add, eval_mul, eval_C, List.length_reverse]
    have hb := bonnet_eval rest.length x
    have h2 : (rest.length : ℝ) + 2 ≠ 0 := by positivity
    have hb' : (legendre (rest.length + 1 + 1)).eval x =
        ((2 * (rest.length : ℝ) + 3) * x * (legendre (rest.length + 1)).eval x
          - ((rest.length : ℝ) + 1) * (legendre rest.length).eval x) / ((rest.length : ℝ) + 2) := by
      rw [eq_div_iff h2, mul_comm]; exact hb
    rw [hb']
    push_cast
    field_simp
    ring

/-- `legval(x, c)` is the Legendre sum. -/
theorem legval_eq (x : ℝ) (c : List ℝ) : legval x c = (series c).eval x := by
  unfold legval
  match h : c.reverse with
  | [] =>
    have : c = [] := List.reverse_eq_nil_iff.1 h
    subst this; simp [series]
  | [c0] =>
    have : c = [c0] := by have := congrArg List.reverse h; simpa using this
    subst this; simp [series]
  | c1 :: c0 :: rest =>
    have hc : c = rest.reverse ++ [c0] ++ [c1] := by
      have := congrArg List.reverse h; simpa using this
    have hl : c.length = rest.length + 2 := by rw [hc]; simp
    simp only
    rw [hl, clenshaw_eq, hc, series_append_singleton, series_append_singleton]
    simp

theorem legderLoop_spec (c der : ℕ → ℝ) (j m : ℕ) (hj : 2 ≤ j) :
    let r := legderLoop c der j
    (∑ k ∈ Finset.range 3, C (r.1 k) * derivative (legendre k)) +
      ∑ k ∈ Finset.Ico 2 (j + m), C (r.2 k) * legendre k =
    (∑ k ∈ Finset.range (j + 1), C (c k) * derivative (legendre k)) +
      ∑ k ∈ Finset.Ico j (j + m), C (der k) * legendre k := by
  induction j, hj using Nat.le_induction generalizing c der m with
  | base => simp [legderLoop]
  | succ j hj ih =>
    obtain ⟨i, rfl⟩ : ∃ i, j = i + 2 := ⟨j - 2, by omega⟩
    intro r
    have hr : r = legderLoop (Function.update c (i + 1) (c (i + 1) + c (i + 3)))
      (Function.update der (i + 2) ((2 * ((i + 3 : ℕ) : ℝ) - 1) * c (i + 3))) (i + 2) := by
      rfl
    have h1 := ih (Function.update c (i + 1) (c (i + 1) + c (i + 3)))
      (Function.update der (i + 2) ((2 * ((i + 3 : ℕ) : ℝ) - 1) * c (i + 3))) (m + 1)
    simp only [← hr] at h1
    rw [show i + 2 + 1 + m = i + 2 + (m + 1) by ring, h1]
    -- right-hand sides agree
    rw [Finset.sum_range_succ (n := i + 2 + 1), Finset.sum_range_succ (n := i + 2),
      Finset.sum_range_succ (n := i + 1), Finset.sum_range_succ (n := i + 2),
      Finset.sum_range_succ (n := i + 1)]
    rw [Finset.sum_eq_sum_Ico_succ_bot (show i + 2 < i + 2 + (m + 1) by omega)]
    have e1 : ∑ k ∈ Finset.range (i + 1), C (Function.update c (i + 1) (c (i + 1) + c (i + 3)) k)
        * derivative (legendre k) = ∑ k ∈ Finset.range (i + 1), C (c k) * derivative (legendre k) := by
      apply Finset.sum_congr rfl
      intro k hk
      rw [Function.update_of_ne (Finset.mem_range.1 hk).ne]
    have e2 : ∑ k ∈ Finset.Ico (i + 2 + 1) (i + 2 + (m + 1)),
        C (Function.update der (i + 2) ((2 * ((i + 3 : ℕ) : ℝ) - 1) * c (i + 3)) k) * legendre k =
        ∑ k ∈ Finset.Ico (i + 2 + 1) (i + 2 + (m + 1)), C (der k) * legendre k := by
      apply Finset.sum_congr rfl
      intro k hk
      have := (Finset.mem_Ico.1 hk).1
      rw [Function.update_of_ne (by omega)]
    rw [e1, e2, Function.update_self, Function.update_self,
      Function.update_of_ne (show i + 2 ≠ i + 1 by omega)]
    have hd := deriv_diff (i + 1)
    push_cast at hd ⊢
    have e3 : (C (2 * ((i : ℝ) + 1) + 3) : ℝ[X]) = C (2 * ((i : ℝ) + 3) - 1) := by congr 1; ring
    rw [e3] at hd
    rw [C_add, C_mul (a := 2 * ((i : ℝ) + 3) - 1)]
    rw [show i + 1 + 2 = i + 3 by ring, show i + 1 + 1 = i + 2 by ring] at hd
    rw [show i + 2 + 1 = i + 3 by ring]
    linear_combination - C (c (i + 3)) * hd

theorem series_map_range (n : ℕ) (f : ℕ → ℝ) :
    series ((List.range n).map f) = ∑ k ∈ Finset.range n, C (f k) * legendre k := by
  unfold series
  rw [List.length_map, List.length_range]
  apply Finset.sum_congr rfl
  intro k hk
  rw [List.getD_eq_getElem?_getD, List.getElem?_map, List.getElem?_range (Finset.mem_range.1 hk)]
  simp

theorem derivative_series (c : List ℝ) : derivative (series c) =
    ∑ k ∈ Finset.range c.length, C (c.getD k 0) * derivative (legendre k) := by
  unfold series
  rw [derivative_sum]
  apply Finset.sum_congr rfl
  intro k _
  rw [derivative_mul, derivative_C, zero_mul, zero_add]

theorem legderPass_spec (c : List ℝ) (hc : 2 ≤ c.length) :
    series (legderPass c) = derivative (series c) := by
  rw [derivative_series]
  obtain ⟨n, hn⟩ : ∃ n, c.length = n + 2 := ⟨c.length - 2, by omega⟩
  unfold legderPass
  simp only
  rw [series_map_range, hn]
  rw [show n + 2 - 1 = n + 1 from rfl]
  cases n with
  | zero =>
    simp [legderLoop, Finset.sum_range_succ]
  | succ n =>
    have h := legderLoop_spec (fun i => c.getD i 0) (fun _ => 0) (n + 2) 0 (by omega)
    simp only [Nat.add_zero, Finset.Ico_self, Finset.sum_empty, add_zero] at h
    rw [show n + 1 + 1 = n + 2 from rfl, show n + 1 + 2 = n + 2 + 1 from rfl, ← h]
    simp only [show n + 2 > 1 by omega, if_true]
    rw [Finset.range_eq_Ico, Finset.sum_eq_sum_Ico_succ_bot (show 0 < n + 2 by omega),
      Finset.sum_eq_sum_Ico_succ_bot (show 0 + 1 < n + 2 by omega)]
    have e2 : ∀ r : (ℕ → ℝ) × (ℕ → ℝ), ∑ k ∈ Finset.Ico (0 + 1 + 1) (n + 2),
        C (Function.update (Function.update r.2 1 (3 * r.1 2)) 0 (r.1 1) k) * legendre k =
        ∑ k ∈ Finset.Ico 2 (n + 2), C (r.2 k) * legendre k := by
      intro r
      apply Finset.sum_congr rfl
      intro k hk
      have := (Finset.mem_Ico.1 hk).1
      rw [Function.update_of_ne (by omega), Function.update_of_ne (by omega)]
    rw [e2]
    have hP2 := deriv_diff 0
    simp only [zero_add, legendre_zero, legendre_one, derivative_one, sub_zero, Nat.cast_zero,
      mul_zero] at hP2
    simp [Finset.sum_range_succ, hP2]
    ring

theorem length_legderPass (c : List ℝ) : (legderPass c).length = c.length - 1 := by
  simp [legderPass]

theorem length_legderPass_iter (c : List ℝ) (m : ℕ) :
    (legderPass^[m] c).length = c.length - m := by
  induction m generalizing c with
  | zero => rfl
  | succ m ih => rw [Function.iterate_succ_apply, ih, length_legderPass]; omega

theorem iterate_derivative_series_eq_zero (c : List ℝ) (m : ℕ) (h : c.length ≤ m) :
    derivative^[m] (series c) = 0 := by
  unfold series
  rw [iterate_derivative_sum]
  apply Finset.sum_eq_zero
  intro k hk
  rw [iterate_derivative_C_mul, iterate_derivative_eq_zero, mul_zero]
  exact lt_of_le_of_lt (natDegree_le k) (lt_of_lt_of_le (Finset.mem_range.1 hk) h)

/-- `legder(c, m)` represents the `m`-th derivative. -/
theorem legder_spec (c : List ℝ) (m : ℕ) :
    series (legder c m) = derivative^[m] (series c) := by
  unfold legder
  split
  · rename_i h; subst h; rfl
  · split
    · rename_i h1 h2
      rw [iterate_derivative_series_eq_zero c m h2]
      unfold series
      apply Finset.sum_eq_zero
      intro k hk
      rcases c with _ | ⟨a, c⟩
      · simp at hk
      · simp only [List.take_succ_cons, List.take_zero, List.map_cons, List.map_nil, mul_zero,
          List.length_cons, List.length_nil, zero_add] at hk ⊢
        have : k = 0 := by simpa using hk
        subst this; simp
    · rename_i h1 h2
      clear h1
      induction m generalizing c with
      | zero => rfl
      | succ m ih =>
        rw [Function.iterate_succ_apply, Function.iterate_succ_apply,
          ih _ (by rw [length_legderPass]; omega), legderPass_spec c (by omega)]

theorem length_legder (c : List ℝ) (m : ℕ) (hc : c ≠ []) :
    (legder c m).length = if m ≥ c.length then 1 else c.length - m := by
  have h0 : 0 < c.length := List.length_pos_iff.2 hc
  unfold legder
  split
  · subst m; rw [if_neg (by omega)]; rfl
  · split
    · rw [List.length_map, List.length_take]; omega
    · rw [length_legderPass_iter]

theorem legvanderLoop_get (x : ℝ) (n i : ℕ) (hi : 2 ≤ i) (k : ℕ) (hk : k < n) :
    (legvanderLoop x n i ((legendre (i - 2)).eval x) ((legendre (i - 1)).eval x))[k]? =
      some ((legendre (i + k)).eval x) := by
  induction n generalizing i k with
  | zero => omega
  | succ n ih =>
    obtain ⟨j, rfl⟩ : ∃ j, i = j + 2 := ⟨i - 2, by omega⟩
    have hb := bonnet_eval j x
    have h2 : (j : ℝ) + 2 ≠ 0 := by positivity
    have hv : ((legendre (j + 1)).eval x * x * (2 * ((j + 2 : ℕ) : ℝ) - 1) -
        (legendre j).eval x * (((j + 2 : ℕ) : ℝ) - 1)) / ((j + 2 : ℕ) : ℝ) =
        (legendre (j + 2)).eval x := by
      push_cast
      rw [div_eq_iff h2]; linear_combination -hb
    simp only [legvanderLoop]
    rw [show j + 2 - 2 = j from rfl, show j + 2 - 1 = j + 1 from rfl, hv]
    cases k with
    | zero => simp
    | succ k =>
      rw [List.getElem?_cons_succ]
      have := ih (j + 3) (by omega) k (by omega)
      rw [show j + 3 - 2 = j + 1 from rfl, show j + 3 - 1 = j + 2 from rfl] at this
      rw [show j + 2 + 1 = j + 3 from rfl, this, show j + 3 + k = j + 2 + (k + 1) by ring]

/-- `legvander(x, deg)[k] = P_k(x)`. -/
theorem legvander_get (x : ℝ) (deg k : ℕ) (hk : k ≤ deg) :
    (legvander x deg)[k]? = some ((legendre k).eval x) := by
  unfold legvander
  match deg with
  | 0 => have : k = 0 := by omega
         subst this; simp
  | d + 1 =>
    match k with
    | 0 => simp
    | 1 => simp
    | k + 2 =>
      simp only [List.getElem?_cons_succ]
      have := legvanderLoop_get x d 2 (le_refl _) k (by omega)
      simp only [Nat.sub_self, legendre_zero, eval_one, Nat.add_one_sub_one, legendre_one, eval_X] at this
      simp only [mul_zero, zero_add, show 2 - 1 = 1 from rfl] at *
      rw [show k + 2 = 2 + k by ring]
      convert this using 2
      simp

end Verif.Legendre
