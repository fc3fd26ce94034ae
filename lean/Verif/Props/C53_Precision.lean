import Verif.Model.Svd
/-!
# C53 — choice of the working precision
-/

namespace Verif.Props
open Verif Verif.Svd

/-- The accuracy that a data type offers, according to the code: `1e-8` for double precision, the root of the machine
epsilon for others. -/
def Offers (p : Platform) (d : Dtype) (a : ℝ) : Prop :=
  (d = .float64 ∧ a = 1e-8) ∨ (d ≠ .float64 ∧ ∃ e, p.finfoEps d = .ok e ∧ a = Real.sqrt e)

/-- Data types available by default: double precision, and double-double with xprec. -/
def Available (p : Platform) (d : Dtype) : Prop := d = .float64 ∨ (d = .ddouble ∧ p.haveXprec = true)

/-- xprec's data type is more precise than double precision (its machine epsilon is about `5e-32`). -/
def PlatformOk (p : Platform) : Prop :=
  p.finfoEps .float64 = .ok (2 ^ (-52 : ℤ)) ∧ ∃ e, p.finfoEps .ddouble = .ok e ∧ 0 < e ∧ e ≤ 5e-32

theorem safeEpsOf_offers {p : Platform} {d : Dtype} {a : ℝ} (h : safeEpsOf p d = .ok a) : Offers p d a := by
  unfold safeEpsOf at h
  split at h
  · rename_i hd
    cases h
    exact Or.inl ⟨hd, rfl⟩
  · rename_i hd
    cases he : p.finfoEps d with
    | error e => rw [he] at h; cases h
    | ok e =>
      rw [he] at h
      cases h
      exact Or.inr ⟨hd, e, he, rfl⟩

theorem ddouble_better {p : Platform} (h : PlatformOk p) : ∃ a, safeEpsOf p .ddouble = .ok a ∧ a < 1e-8 := by
  obtain ⟨-, e, he, h0, h1⟩ := h
  refine ⟨Real.sqrt e, ?_, ?_⟩
  · unfold safeEpsOf
    rw [if_neg (by decide), he]
    rfl
  · rw [Real.sqrt_lt' (by norm_num)]
    refine lt_of_le_of_lt h1 (by norm_num)

/-- Without a given data type, the one chosen meets the requested accuracy if any available type does, and is the most
accurate available one otherwise (also if no accuracy is requested). -/
theorem C53_meets_request (p : Platform) (h : PlatformOk p) (eps : Option ℝ) (strat : Option String) :
    ∃ c, safeEps p (eps.map .real) none strat = .ok c ∧ Available p c.dtype ∧ Offers p c.dtype c.safeEps ∧
      (∀ e ∈ eps, ∀ d a, Available p d → Offers p d a → a ≤ e → c.safeEps ≤ e) ∧
      ((∀ e ∈ eps, ¬ c.safeEps ≤ e) → ∀ d a, Available p d → Offers p d a → c.safeEps ≤ a) := by
  obtain ⟨a1, ha1, hlt⟩ := ddouble_better h
  have hmax : ∃ a, safeEpsOf p p.maxDtype = .ok a ∧ Available p p.maxDtype ∧
      ∀ d a', Available p d → Offers p d a' → a ≤ a' := by
    unfold Platform.maxDtype Available
    cases hx : p.haveXprec with
    | false =>
      refine ⟨1e-8, by simp [safeEpsOf], by simp, fun d a' hd ho => ?_⟩
      rcases hd with rfl | ⟨-, hd⟩
      · rcases ho with ⟨-, rfl⟩ | ⟨hd, -⟩
        · exact le_rfl
        · exact absurd rfl hd
      · cases hd
    | true =>
      refine ⟨a1, by simpa using ha1, by simp, fun d a' hd ho => ?_⟩
      rcases hd with rfl | ⟨rfl, -⟩
      · rcases ho with ⟨-, rfl⟩ | ⟨hd, -⟩
        · exact hlt.le
        · exact absurd rfl hd
      · rcases ho with ⟨hd, -⟩ | ⟨-, e, he, rfl⟩
        · cases hd
        · unfold safeEpsOf at ha1
          rw [if_neg (by decide), he] at ha1
          exact (Except.ok.inj ha1).symm.le
  obtain ⟨am, hm1, hm2, hm3⟩ := hmax
  have key : ∃ d a, chooseDtype p (eps.map .real) none = d ∧ safeEpsOf p d = .ok a ∧ Available p d ∧
      (∀ e ∈ eps, ∀ d a', Available p d → Offers p d a' → a' ≤ e → a ≤ e) ∧
      ((∀ e ∈ eps, ¬ a ≤ e) → ∀ d a', Available p d → Offers p d a' → a ≤ a') := by
    cases eps with
    | none => exact ⟨_, am, rfl, hm1, hm2, by simp, fun _ => hm3⟩
    | some e =>
      by_cases he : e < 1e-8
      · refine ⟨p.maxDtype, am, ?_, hm1, hm2, ?_, fun _ => hm3⟩
        · simp only [Option.map_some, chooseDtype, Flt.lt]
          exact if_pos he
        · intro e' he' d a' hd ho hle
          exact (hm3 d a' hd ho).trans hle
      · refine ⟨.float64, 1e-8, ?_, by simp [safeEpsOf], Or.inl rfl, ?_, ?_⟩
        · simp only [Option.map_some, chooseDtype, Flt.lt]
          exact if_neg he
        · intro e' he' d a' _ _ _
          cases he'
          exact not_lt.1 he
        · intro H
          exact absurd (not_lt.1 he) (H e rfl)
  obtain ⟨d, a, h1, h2, h3, h4, h5⟩ := key
  unfold safeEps
  simp only [h1, h2]
  cases strat with
  | some s => exact ⟨_, rfl, h3, safeEpsOf_offers h2, h4, h5⟩
  | none =>
    simp only
    split
    · exact ⟨_, rfl, h3, safeEpsOf_offers h2, h4, h5⟩
    · exact ⟨_, rfl, h3, safeEpsOf_offers h2, h4, h5⟩

/-- Whatever succeeds: a given data type and a given strategy are used as they are; there is a warning if and only if no
strategy was given and the requested accuracy is below what the data type offers; without a given strategy the
Jacobi solver is used in that case and the fast one otherwise. -/
theorem C53_choices (p : Platform) (eps : Option Flt) (work : Option Dtype) (strat : Option String) (c : Choice)
    (h : safeEps p eps work strat = .ok c) :
    Offers p c.dtype c.safeEps ∧ (∀ d ∈ work, c.dtype = d) ∧ (∀ s ∈ strat, c.strategy = s) ∧
    (c.warned = true ↔ strat = none ∧ ∃ x : ℝ, eps = some (.real x) ∧ x < c.safeEps) ∧
    (strat = none → c.strategy = if c.warned then "accurate" else "fast") := by
  have hlt : ∀ a : ℝ, (∃ e ∈ eps, e.lt a) ↔ ∃ x : ℝ, eps = some (.real x) ∧ x < a := by
    intro a
    constructor
    · rintro ⟨e, he, hl⟩
      cases e with
      | real x => exact ⟨x, he, hl⟩
      | nan => exact hl.elim
    · rintro ⟨x, rfl, hx⟩
      exact ⟨_, rfl, hx⟩
  unfold safeEps at h
  simp only at h
  cases ha : safeEpsOf p (chooseDtype p eps work) with
  | error e => rw [ha] at h; cases h
  | ok a =>
    rw [ha] at h
    have hw : ∀ d ∈ work, chooseDtype p eps work = d := by
      intro d hd
      cases hd
      rfl
    cases strat with
    | some s =>
      cases h
      exact ⟨safeEpsOf_offers ha, hw, by simp, by simp, by simp⟩
    | none =>
      simp only at h
      split at h <;> rename_i hc <;> cases h
      · exact ⟨safeEpsOf_offers ha, hw, by simp, by simpa using (hlt _).1 hc, by simp⟩
      · refine ⟨safeEpsOf_offers ha, hw, by simp, ?_, by simp⟩
        rw [hlt] at hc
        simpa using hc

/-- An accuracy of NaN counts as a moderate one: double precision, fast solver, no warning. -/
theorem C53_nan (p : Platform) : ∃ c, safeEps p (some .nan) none none = .ok c ∧ c.dtype = .float64 ∧
    c.strategy = "fast" ∧ c.warned = false := by
  refine ⟨⟨1e-8, .float64, "fast", false⟩, ?_, rfl, rfl, rfl⟩
  simp [safeEps, chooseDtype, Flt.lt, safeEpsOf]

/-- The documentation of `compute` promises "a data type with machine epsilon of at most ``eps**2`` and at most
``cutoff``". -/
def DocumentedDtype (p : Platform) : Prop :=
  ∀ (eps cutoff : ℝ) (c : Choice) (e : ℝ), p.haveXprec = true → 5e-32 ≤ cutoff → safeEps p (some (.real eps)) none none = .ok c →
    p.finfoEps c.dtype = .ok e → 3e-16 ≤ eps → e ≤ eps ^ 2 ∧ e ≤ cutoff

/-- This is not the case: for `eps = 1e-8` double precision is chosen although its machine epsilon exceeds `1e-16`, and
`cutoff` is not considered at all. -/
theorem C53_documented_negation (p : Platform) (h : PlatformOk p) (hx : p.haveXprec = true) : ¬ DocumentedDtype p := by
  intro H
  have := H 1e-8 1 ⟨1e-8, .float64, "fast", false⟩ (2 ^ (-52 : ℤ)) hx (by norm_num)
    (by simp [safeEps, chooseDtype, Flt.lt, safeEpsOf]) h.1 (by norm_num)
  norm_num at this

/-- ... the first part up to a factor of 3 (for accuracies that double-double can meet). -/
theorem C53_documented_partial (p : Platform) (h : PlatformOk p) (hx : p.haveXprec = true) (eps : ℝ) (he : 3e-16 ≤ eps)
    (strat : Option String) : ∃ c e, safeEps p (some (.real eps)) none strat = .ok c ∧ p.finfoEps c.dtype = .ok e ∧
      e ≤ 3 * eps ^ 2 := by
  obtain ⟨h1, e1, h2, h3, h4⟩ := h
  obtain ⟨c, hc, -⟩ := C53_meets_request p ⟨h1, e1, h2, h3, h4⟩ (some eps) strat
  have hd : c.dtype = chooseDtype p (some (.real eps)) none := by
    unfold safeEps at hc
    simp only [Option.map_some] at hc
    split at hc
    · cases hc
    · split at hc
      · cases hc; rfl
      · split at hc <;> (cases hc; rfl)
  by_cases hl : eps < 1e-8
  · refine ⟨c, e1, hc, ?_, ?_⟩
    · rw [hd]
      have : chooseDtype p (some (.real eps)) none = p.maxDtype := if_pos hl
      rw [this, Platform.maxDtype, hx]
      exact h2
    · nlinarith
  · refine ⟨c, 2 ^ (-52 : ℤ), hc, ?_, ?_⟩
    · rw [hd]
      have : chooseDtype p (some (.real eps)) none = .float64 := if_neg hl
      rw [this]
      exact h1
    · have : (1e-8 : ℝ) ≤ eps := not_lt.1 hl
      have h5 : (1e-8 : ℝ) ^ 2 ≤ eps ^ 2 := by gcongr
      refine le_trans ?_ (mul_le_mul_of_nonneg_left h5 (by norm_num))
      norm_num

/-- A platform with xprec. -/
noncomputable def exPlatform (xprec : Bool) : Platform :=
  ⟨xprec, fun d => match d with
    | .float64 => .ok (2 ^ (-52 : ℤ))
    | .ddouble => .ok 4.93e-32
    | .other _ => .error .valueError⟩

example (xprec : Bool) : PlatformOk (exPlatform xprec) := ⟨rfl, _, rfl, by norm_num, by norm_num⟩

example : ∃ c, safeEps (exPlatform false) (some (.real 1e-12)) none none = .ok c ∧ c.warned = true := by
  refine ⟨⟨1e-8, .float64, "accurate", true⟩, ?_, rfl⟩
  have h1 : (1e-12 : ℝ) < 1e-8 := by norm_num
  simp [safeEps, chooseDtype, Flt.lt, safeEpsOf, Platform.maxDtype, exPlatform, h1]

end Verif.Props
