import Verif.Model.Domain
import Verif.Props.C02_Range
import Mathlib.Tactic.FieldSimp
/-!
# C02, continued — domain checks of the kernels and of the DLR functions
-/

namespace Verif.Props
open Verif Verif.Kernel

/-- `_check_domain` accepts exactly arguments in the closed domain, and returns them unchanged. -/
theorem C02_check_domain_iff (xr yr : ℚ × ℚ) (x y : List IEEE) (r : List IEEE × List IEEE) :
    checkDomain xr yr x y = .ok r ↔ r = (x, y) ∧
      (∀ t ∈ x, InClosed xr.1 xr.2 t) ∧ ∀ t ∈ y, InClosed yr.1 yr.2 t := by
  have key : ∀ (l : List IEEE) (lo hi : ℚ),
      (!(l.all fun t => t.ge (.fin lo)) || !(l.all fun t => t.le (.fin hi))) = false ↔
        ∀ t ∈ l, InClosed lo hi t := by
    intro l lo hi
    simp only [← ieee_inClosed_iff, Bool.or_eq_false_iff, Bool.not_eq_eq_eq_not, Bool.not_false,
      List.all_eq_true]
    exact ⟨fun h t ht => ⟨h.1 t ht, h.2 t ht⟩, fun h => ⟨fun t ht => (h t ht).1, fun t ht => (h t ht).2⟩⟩
  unfold checkDomain
  rw [← key x, ← key y]
  split
  · rename_i h; simp [h]
  · rename_i h
    rw [Bool.not_eq_true] at h
    split
    · rename_i h2; simp [h2]
    · rename_i h2
      rw [Bool.not_eq_true] at h2
      simp only [h, h2, and_self, and_true, Except.ok.injEq]
      exact eq_comm

/-- Anything else raises ValueError. -/
theorem C02_check_domain_rejects (xr yr : ℚ × ℚ) (x y : List IEEE)
    (h : (∃ t ∈ x, ¬ InClosed xr.1 xr.2 t) ∨ ∃ t ∈ y, ¬ InClosed yr.1 yr.2 t) :
    checkDomain xr yr x y = .error .valueError := by
  have h1 : ∀ r, checkDomain xr yr x y ≠ .ok r := by
    intro r hr
    rw [C02_check_domain_iff] at hr
    rcases h with ⟨t, ht, hn⟩ | ⟨t, ht, hn⟩
    · exact hn (hr.2.1 t ht)
    · exact hn (hr.2.2 t ht)
  unfold checkDomain at *
  split
  · rfl
  · rename_i h2
    split
    · rfl
    · rename_i h3; exact absurd (by rw [if_neg h2, if_neg h3]) (h1 (x, y))

open Classical in
/-- DLR functions of imaginary time (`y` values valid): accepted iff every `tau` is a number in
`[0, beta]`; otherwise RuntimeError, except that NaN (with no out-of-range number present) gives
ValueError from the kernel. -/
theorem C02_tau_poles (beta : ℚ) (hb : 0 < beta) (ys tau : List IEEE)
    (hy : ∀ t ∈ ys, InClosed (-1) 1 t) :
    tauPolesArgs beta ys tau =
      if ∀ t ∈ tau, InClosed 0 beta t then
        .ok (tau.map (fun t => (t.mulPos (2 / beta)).addConst (-1)), ys)
      else if ∀ t ∈ tau, InClosed 0 beta t ∨ t = .nan then .error .valueError
      else .error .runtimeError := by
  have hout : ((tau.any fun t => t.lt (.fin 0)) || (tau.any fun t => t.gt (.fin beta))) = true ↔
      ¬ ∀ t ∈ tau, InClosed 0 beta t ∨ t = .nan := by
    push Not
    simp only [Bool.or_eq_true, List.any_eq_true]
    constructor
    · rintro (⟨t, ht, h⟩ | ⟨t, ht, h⟩)
      · refine ⟨t, ht, ?_, ?_⟩
        · rintro ⟨q, rfl, h1, h2⟩
          simp [IEEE.lt] at h; linarith
        · rintro rfl; simp [IEEE.lt] at h
      · refine ⟨t, ht, ?_, ?_⟩
        · rintro ⟨q, rfl, h1, h2⟩
          simp [IEEE.gt, IEEE.lt] at h; linarith
        · rintro rfl; simp [IEEE.gt, IEEE.lt] at h
    · rintro ⟨t, ht, h1, h2⟩
      cases t with
      | nan => exact absurd rfl h2
      | pinf => exact Or.inr ⟨_, ht, rfl⟩
      | ninf => exact Or.inl ⟨_, ht, rfl⟩
      | fin q =>
        by_cases hq : q < 0
        · exact Or.inl ⟨_, ht, by simpa [IEEE.lt] using hq⟩
        · refine Or.inr ⟨_, ht, ?_⟩
          simp only [IEEE.gt, IEEE.lt, decide_eq_true_eq]
          by_contra hq2
          exact h1 ⟨q, rfl, not_lt.1 hq, not_lt.1 hq2⟩
  unfold tauPolesArgs
  by_cases h : ∀ t ∈ tau, InClosed 0 beta t ∨ t = .nan
  · rw [if_neg (by rw [hout]; exact not_not.2 h)]
    by_cases h2 : ∀ t ∈ tau, InClosed 0 beta t
    · rw [if_pos h2]
      rw [C02_check_domain_iff]
      refine ⟨rfl, ?_, hy⟩
      intro t ht
      rw [List.mem_map] at ht
      obtain ⟨s, hs, rfl⟩ := ht
      obtain ⟨q, rfl, h3, h4⟩ := h2 s hs
      refine ⟨_, rfl, ?_, ?_⟩
      · show -1 ≤ 2 / beta * q + -1
        have : 0 ≤ 2 / beta * q := by positivity
        linarith
      · show 2 / beta * q + -1 ≤ 1
        have : 2 / beta * q ≤ 2 := by
          rw [div_mul_eq_mul_div, div_le_iff₀ hb]; linarith
        linarith
    · rw [if_neg h2, if_pos h]
      apply C02_check_domain_rejects
      left
      push Not at h2
      obtain ⟨t, ht, h3⟩ := h2
      have h4 := (h t ht).resolve_left h3
      subst h4
      refine ⟨.nan, ?_, by rintro ⟨q, hq, -⟩; cases hq⟩
      rw [List.mem_map]
      exact ⟨.nan, ht, rfl⟩
  · rw [if_pos (hout.2 h), if_neg h, if_neg (fun h2 => h fun t ht => Or.inl (h2 t ht))]

/- Non-vacuity -/
example : ∀ t ∈ [IEEE.fin 0, .fin (5/2), .fin 10], InClosed 0 10 t := by
  intro x hx; simp only [List.mem_cons, List.not_mem_nil, or_false] at hx
  rcases hx with rfl | rfl | rfl <;> exact ⟨_, rfl, by norm_num, by norm_num⟩
example : ¬ InClosed 0 1 (.fin (-1/7)) := by
  rintro ⟨q, hq, h, -⟩; cases hq; norm_num at h

/-- The domains: a kernel accepts arguments in `[-1, 1]`, its even and odd part arguments in `[0, 1]`. -/
theorem C02_kernel_domains (x y : List IEEE) :
    (checkDomain fullRange fullRange x y = .ok (x, y) ↔ (∀ t ∈ x, InClosed (-1) 1 t) ∧ ∀ t ∈ y, InClosed (-1) 1 t) ∧
    (checkDomain reducedRange reducedRange x y = .ok (x, y) ↔ (∀ t ∈ x, InClosed 0 1 t) ∧ ∀ t ∈ y, InClosed 0 1 t) := by
  constructor <;>
  · rw [C02_check_domain_iff]
    simp only [true_and]
    rfl

end Verif.Props
