import Verif.Model.Util
import Mathlib.Tactic.Linarith
import Mathlib.Tactic.NormNum
/-!
# C01 — reduced Matsubara frequencies are validated exactly
-/

namespace Verif.Props
open Verif Verif.Util

/-- Specification: the number `x` is the integer `n`. -/
def NumIs : IEEE → ℤ → Prop
  | .fin q, n => q = n
  | _, _ => False

/-- Specification: `n` has the parity `zeta`, if one is required. -/
def HasParity (zeta : Option ℤ) (n : ℤ) : Prop :=
  match zeta with
  | none => True
  | some z => n % 2 = z

private theorem land_one (n : ℤ) : Int.land n 1 = n % 2 := by
  have h : ∀ m : ℕ, m &&& 1 = m % 2 := fun m => Nat.and_one_is_mod m
  cases n with
  | ofNat m =>
    show ((m &&& 1 : ℕ) : ℤ) = _
    rw [h]; simp
  | negSucc m =>
    show ((Nat.ldiff 1 m : ℕ) : ℤ) = _
    have h1 : Nat.ldiff 1 m = (m + 1) % 2 := by
      apply Nat.eq_of_testBit_eq
      intro i
      rw [Nat.testBit_ldiff]
      rcases Nat.mod_two_eq_zero_or_one m with hm | hm
      · have h2 : (m + 1) % 2 = 1 := by omega
        rw [h2]
        rcases i with _ | i
        · simp [Nat.testBit_zero, hm]
        · simp [Nat.testBit_succ]
      · have h2 : (m + 1) % 2 = 0 := by omega
        rw [h2]
        rcases i with _ | i
        · simp [Nat.testBit_zero, hm]
        · simp [Nat.testBit_succ]
    rw [h1]
    rw [Int.negSucc_eq]
    omega

private theorem trunc_int (n : ℤ) : IEEE.truncZ (n : ℚ) = n := by
  unfold IEEE.truncZ; split <;> simp

private theorem astype_eq (x : IEEE) :
    IEEE.eqB (.fin (IEEE.astypeInt x)) x = true ↔
      ∃ n : ℤ, NumIs x n ∧ -2^63 ≤ n ∧ n < 2^63 := by
  cases x with
  | fin q =>
    have hE : IEEE.eqB (.fin (IEEE.astypeInt (.fin q))) (.fin q) = true ↔
        ((IEEE.astypeInt (.fin q) : ℤ) : ℚ) = q := by
      unfold IEEE.eqB; exact decide_eq_true_iff
    have hA : IEEE.astypeInt (.fin q) =
        if -2^63 ≤ IEEE.truncZ q ∧ IEEE.truncZ q < 2^63 then IEEE.truncZ q else IEEE.intMin := rfl
    rw [hE, hA]
    simp only [NumIs]
    constructor
    · intro h
      split at h
      · rename_i hr; exact ⟨_, h.symm, hr⟩
      · exact ⟨IEEE.intMin, h.symm, by unfold IEEE.intMin; norm_num⟩
    · rintro ⟨n, rfl, h1, h2⟩
      rw [trunc_int, if_pos ⟨h1, h2⟩]
  | pinf => simp [IEEE.eqB, NumIs]
  | ninf => simp [IEEE.eqB, NumIs]
  | nan => simp [IEEE.eqB, NumIs]

private theorem astype_of_numIs {x : IEEE} {n : ℤ} (h : NumIs x n) (h1 : -2^63 ≤ n)
    (h2 : n < 2^63) : IEEE.astypeInt x = n := by
  cases x with
  | fin q =>
    simp only [NumIs] at h; subst h
    simp only [IEEE.astypeInt, trunc_int, if_pos (And.intro h1 h2)]
  | _ => simp [NumIs] at h

private theorem parity_all (ns : List ℤ) (z : ℤ) :
    ns.all (fun i => decide (Int.land i 1 = z)) = true ↔ ∀ n ∈ ns, n % 2 = z := by
  simp [List.all_eq_true, land_one]

/-- Integer input: accepted iff every entry has the required parity; values are unchanged. -/
theorem C01_ints (xs ns : List ℤ) (zeta : Option ℤ) :
    checkReducedMatsubara (.ints xs) zeta = .ok ns ↔ ns = xs ∧ ∀ n ∈ xs, HasParity zeta n := by
  unfold checkReducedMatsubara
  cases zeta with
  | none => simp [HasParity, eq_comm]
  | some z =>
    simp only
    split
    · rename_i h; rw [parity_all] at h
      simp only [Except.ok.injEq, HasParity]
      constructor
      · rintro rfl; exact ⟨rfl, h⟩
      · rintro ⟨rfl, _⟩; rfl
    · rename_i h; rw [parity_all] at h
      simp only [reduceCtorEq, HasParity, false_iff, not_and]
      intro _; exact h

private theorem zip_all_map (xs : List IEEE) :
    (List.zipWith (fun (i : ℤ) x => IEEE.eqB (.fin i) x) (xs.map IEEE.astypeInt) xs).all id = true
      ↔ ∀ x ∈ xs, IEEE.eqB (.fin (IEEE.astypeInt x)) x = true := by
  induction xs with
  | nil => simp
  | cons a as ih => simp [ih]

private theorem forall2_astype (xs : List IEEE)
    (h : ∀ x ∈ xs, ∃ n : ℤ, NumIs x n ∧ -2^63 ≤ n ∧ n < 2^63) :
    List.Forall₂ (fun x n => NumIs x n ∧ -2^63 ≤ n ∧ n < 2^63) xs (xs.map IEEE.astypeInt) := by
  induction xs with
  | nil => simp
  | cons a as ih =>
    simp only [List.map_cons, List.forall₂_cons]
    refine ⟨?_, ih fun x hx => h x (List.mem_cons_of_mem _ hx)⟩
    obtain ⟨n, h1, h2, h3⟩ := h a (by simp)
    rw [astype_of_numIs h1 h2 h3]; exact ⟨h1, h2, h3⟩

private theorem map_of_forall2 (xs : List IEEE) (ns : List ℤ)
    (h : List.Forall₂ (fun x n => NumIs x n ∧ -2^63 ≤ n ∧ n < 2^63) xs ns) :
    xs.map IEEE.astypeInt = ns ∧ ∀ x ∈ xs, ∃ n : ℤ, NumIs x n ∧ -2^63 ≤ n ∧ n < 2^63 := by
  induction h with
  | nil => simp
  | cons h _ ih =>
    refine ⟨by simp [ih.1, astype_of_numIs h.1 h.2.1 h.2.2], ?_⟩
    intro x hx
    rcases List.mem_cons.1 hx with rfl | hx
    · exact ⟨_, h⟩
    · exact ih.2 x hx

/-- Float input: accepted with result `ns` iff `ns` lists, entry by entry, the (64-bit) integers
that the floats are, all with the required parity. -/
theorem C01_floats (xs : List IEEE) (ns : List ℤ) (zeta : Option ℤ) :
    checkReducedMatsubara (.floats xs) zeta = .ok ns ↔
      List.Forall₂ (fun x n => NumIs x n ∧ -2^63 ≤ n ∧ n < 2^63) xs ns ∧
        ∀ n ∈ ns, HasParity zeta n := by
  unfold checkReducedMatsubara
  by_cases hc : ∀ x ∈ xs, ∃ n : ℤ, NumIs x n ∧ -2^63 ≤ n ∧ n < 2^63
  · have h1 : (List.zipWith (fun (i : ℤ) x => IEEE.eqB (.fin i) x)
        (xs.map IEEE.astypeInt) xs).all id = true := by
      rw [zip_all_map]; intro x hx; exact (astype_eq x).2 (hc x hx)
    simp only [h1, if_true]
    have h2 := forall2_astype xs hc
    cases zeta with
    | none =>
      simp only [Except.ok.injEq, HasParity, implies_true, and_true]
      constructor
      · rintro rfl; exact h2
      · intro h; exact (map_of_forall2 _ _ h).1
    | some z =>
      simp only
      split
      · rename_i h; rw [parity_all] at h
        simp only [Except.ok.injEq, HasParity]
        constructor
        · rintro rfl; exact ⟨h2, h⟩
        · rintro ⟨h, -⟩; exact (map_of_forall2 _ _ h).1
      · rename_i h; rw [parity_all] at h
        simp only [reduceCtorEq, HasParity, false_iff, not_and]
        intro h3; rw [← (map_of_forall2 _ _ h3).1]; exact h
  · have h1 : ¬ (List.zipWith (fun (i : ℤ) x => IEEE.eqB (.fin i) x)
        (xs.map IEEE.astypeInt) xs).all id = true := by
      rw [zip_all_map]; intro h; exact hc fun x hx => (astype_eq x).1 (h x hx)
    simp only [h1, if_false, Bool.false_eq_true]
    simp only [reduceCtorEq, false_iff, not_and]
    intro h; exact absurd (map_of_forall2 _ _ h).2 hc

/-- Whatever is not accepted raises `ValueError` (and nothing else). -/
theorem C01_rejects_with_ValueError (n : NumArr) (zeta : Option ℤ) :
    (∃ ns, checkReducedMatsubara n zeta = .ok ns) ∨
      checkReducedMatsubara n zeta = .error .valueError := by
  unfold checkReducedMatsubara
  cases n with
  | ints xs => cases zeta <;> (dsimp only; try split) <;> simp
  | floats xs =>
    dsimp only
    by_cases h : (List.zipWith (fun (i : ℤ) x => IEEE.eqB (.fin i) x)
        (xs.map IEEE.astypeInt) xs).all id = true
    · simp only [h, if_true]; cases zeta <;> (dsimp only; try split) <;> simp
    · simp only [h, if_false, Bool.false_eq_true]; simp

/-- NaN, infinities and non-integral floats are always rejected. -/
theorem C01_non_integer_rejected (xs : List IEEE) (zeta : Option ℤ) (x : IEEE) (hx : x ∈ xs)
    (hbad : ∀ n : ℤ, x ≠ .fin n) : checkReducedMatsubara (.floats xs) zeta = .error .valueError := by
  rcases C01_rejects_with_ValueError (.floats xs) zeta with ⟨ns, h⟩ | h
  · rw [C01_floats] at h
    obtain ⟨n, h1, -⟩ := (map_of_forall2 _ _ h.1).2 x hx
    cases x with
    | fin q => simp only [NumIs] at h1; exact absurd (by rw [h1]) (hbad n)
    | _ => simp [NumIs] at h1
  · exact h

/- Non-vacuity: negative odd integers are fermionic, floats with integral value are accepted,
bosonic data are rejected by a fermionic object. -/
example : checkReducedMatsubara (.ints [-3, -1, 1, 7]) (some 1) = .ok [-3, -1, 1, 7] :=
  (C01_ints _ _ _).2 ⟨rfl, by simp [HasParity]⟩
example : ¬ ∀ n ∈ ([-3, 0] : List ℤ), HasParity (some 1) n := by simp [HasParity]
example : checkReducedMatsubara (.floats [.fin (-4), .fin 6]) (some 0) = .ok [-4, 6] :=
  (C01_floats _ _ _).2 ⟨by simp [NumIs], by simp [HasParity]⟩
example : checkReducedMatsubara (.floats [.fin 1, .nan]) none = .error .valueError :=
  C01_non_integer_rejected _ _ .nan (by simp) (by simp)

end Verif.Props
