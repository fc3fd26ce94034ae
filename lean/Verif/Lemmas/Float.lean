import Verif.Spec.Float
import Mathlib.Data.Set.Finite.Basic
import Mathlib.Data.Int.Interval
import Mathlib.Algebra.Order.Floor.Ring
import Mathlib.Data.Real.Archimedean
import Mathlib.Algebra.Order.Archimedean.Basic
import Mathlib.Algebra.Order.Field.Power
import Mathlib.Tactic.Linarith
import Mathlib.Tactic.Ring
import Mathlib.Tactic.NormNum
import Mathlib.Tactic.Positivity
import Mathlib.Tactic.FieldSimp
/-! Lemmas on binary floating-point numbers. -/

namespace Verif.Spec

variable {p : ℕ} {emin : ℤ} {rd : ℝ → ℝ} {a b c x y : ℝ}

theorem isFloat_zero : IsFloat p emin 0 := ⟨0, emin, by simp, le_rfl, by simp⟩

theorem IsFloat.neg (h : IsFloat p emin x) : IsFloat p emin (-x) := by
  obtain ⟨m, e, h1, h2, rfl⟩ := h
  exact ⟨-m, e, by rwa [abs_neg], h2, by push_cast; ring⟩

theorem IsFloat.two_mul (h : IsFloat p emin x) : IsFloat p emin (2 * x) := by
  obtain ⟨m, e, h1, h2, rfl⟩ := h
  refine ⟨m, e + 1, h1, by omega, ?_⟩
  rw [zpow_add₀ (by norm_num), zpow_one]; ring

theorem isFloat_of_mul (hp : 0 < p) {n e : ℤ} (hn : |n| ≤ 2 ^ p) (he : emin ≤ e) :
    IsFloat p emin (n * (2 : ℝ) ^ e) := by
  rcases hn.lt_or_eq with h | h
  · exact ⟨n, e, h, he, rfl⟩
  · obtain ⟨k, rfl⟩ : ∃ k, p = k + 1 := ⟨p - 1, by omega⟩
    have h2 : ∃ m : ℤ, n = 2 * m ∧ |m| < 2 ^ (k + 1) := by
      rw [pow_succ] at h
      rcases abs_eq (by positivity) |>.1 h with h | h
      · refine ⟨2 ^ k, by rw [h]; ring, ?_⟩
        rw [abs_of_pos (by positivity), pow_succ]
        have : (0 : ℤ) < 2 ^ k := by positivity
        omega
      · refine ⟨-2 ^ k, by rw [h]; ring, ?_⟩
        rw [abs_neg, abs_of_pos (by positivity), pow_succ]
        have : (0 : ℤ) < 2 ^ k := by positivity
        omega
    obtain ⟨m, rfl, hm⟩ := h2
    refine ⟨m, e + 1, hm, by omega, ?_⟩
    rw [zpow_add₀ (by norm_num), zpow_one]; push_cast; ring

/-- Multiples of a smaller power of two. -/
theorem exists_multiple {m e k : ℤ} (h : k ≤ e) : ∃ n : ℤ, (m : ℝ) * (2 : ℝ) ^ e = n * (2 : ℝ) ^ k := by
  refine ⟨m * 2 ^ (e - k).toNat, ?_⟩
  have h1 : e = (e - k).toNat + k := by omega
  conv_lhs => rw [h1, zpow_add₀ (by norm_num), zpow_natCast]
  push_cast; ring

theorem IsFloat.multiple (h : IsFloat p emin x) : ∃ n : ℤ, x = n * (2 : ℝ) ^ emin := by
  obtain ⟨m, e, h1, h2, rfl⟩ := h
  exact exists_multiple h2

namespace RoundsToNearest
variable (h : RoundsToNearest p emin rd)
include h

theorem le_rd (hc : IsFloat p emin c) (hx : c ≤ x) : c ≤ rd x := by
  by_contra hlt
  push Not at hlt
  have := (h x).2 c hc
  rw [abs_of_nonneg (by linarith), abs_of_nonneg (by linarith)] at this
  linarith

theorem rd_le (hc : IsFloat p emin c) (hx : x ≤ c) : rd x ≤ c := by
  by_contra hlt
  push Not at hlt
  have := (h x).2 c hc
  rw [abs_of_nonpos (by linarith), abs_of_nonpos (by linarith)] at this
  linarith

theorem rd_eq (hx : IsFloat p emin x) : rd x = x := le_antisymm (h.rd_le hx le_rfl) (h.le_rd hx le_rfl)

theorem mono (hxy : x ≤ y) : rd x ≤ rd y := by
  rcases hxy.eq_or_lt with rfl | hlt
  · exact le_rfl
  by_contra hc
  push Not at hc
  rcases le_total x (rd y) with h1 | h1
  · exact absurd (h.rd_le (h y).1 h1) (not_le.2 hc)
  · rcases le_total (rd x) y with h2 | h2
    · exact absurd (h.le_rd (h x).1 h2) (not_le.2 hc)
    · have h3 := (h x).2 _ (h y).1
      have h4 := (h y).2 _ (h x).1
      rw [abs_of_nonpos (by linarith), abs_of_nonneg (by linarith)] at h3
      rw [abs_of_nonneg (by linarith), abs_of_nonpos (by linarith)] at h4
      linarith

/-- A number next to which the floating-point numbers lie as densely as possible. -/
theorem small_sum {n k : ℤ} (hp : 0 < p) (hx : x = n * (2 : ℝ) ^ emin) (hk : rd x = k * (2 : ℝ) ^ emin) (hkp : |k| < 2 ^ p) :
    rd x = x := by
  have hq : (0 : ℝ) < (2 : ℝ) ^ emin := by positivity
  have key : n = k := by
    rcases lt_trichotomy n k with hlt | heq | hlt
    · have hc : IsFloat p emin (((k - 1 : ℤ) : ℝ) * (2 : ℝ) ^ emin) :=
        isFloat_of_mul hp (by rw [abs_le]; rw [abs_lt] at hkp; omega) le_rfl
      have h1 := h.rd_le hc (x := x) (by
        rw [hx]
        exact mul_le_mul_of_nonneg_right (by exact_mod_cast (by omega : n ≤ k - 1)) hq.le)
      rw [hk] at h1
      have := le_of_mul_le_mul_right h1 hq
      have : k ≤ k - 1 := by exact_mod_cast this
      omega
    · exact heq
    · have hc : IsFloat p emin (((k + 1 : ℤ) : ℝ) * (2 : ℝ) ^ emin) :=
        isFloat_of_mul hp (by rw [abs_le]; rw [abs_lt] at hkp; omega) le_rfl
      have h1 := h.le_rd hc (x := x) (by
        rw [hx]
        exact mul_le_mul_of_nonneg_right (by exact_mod_cast (by omega : k + 1 ≤ n)) hq.le)
      rw [hk] at h1
      have := le_of_mul_le_mul_right h1 hq
      have : k + 1 ≤ k := by exact_mod_cast this
      omega
  rw [hk, hx, key]

/-- The computed midpoint lies in the bracket. -/
theorem mid_mem (ha : IsFloat p emin a) (hb : IsFloat p emin b) (hab : a ≤ b) :
    a ≤ rd (1 / 2 * rd (a + b)) ∧ rd (1 / 2 * rd (a + b)) ≤ b := by
  have h1 := h.le_rd ha.two_mul (x := a + b) (by linarith)
  have h2 := h.rd_le hb.two_mul (x := a + b) (by linarith)
  exact ⟨h.le_rd ha (by linarith), h.rd_le hb (by linarith)⟩

/-- It lies strictly inside if there is a floating-point number to be found there. -/
theorem mid_between (hp : 0 < p) (ha : IsFloat p emin a) (hb : IsFloat p emin b) (hc : IsFloat p emin c) (hac : a < c)
    (hcb : c < b) : a < rd (1 / 2 * rd (a + b)) ∧ rd (1 / 2 * rd (a + b)) < b := by
  have h0 := (h (a + b)).2 _ hc.two_mul
  have h1 : |a + b - 2 * c| < b - a := by rw [abs_lt]; constructor <;> linarith
  have h2 := abs_lt.1 (h0.trans_lt h1)
  obtain ⟨m, e, hm, he, ht⟩ := (h (a + b)).1
  rcases he.lt_or_eq with he | rfl
  · -- half of the sum is a floating-point number
    have hf : IsFloat p emin (1 / 2 * rd (a + b)) := by
      refine ⟨m, e - 1, hm, by omega, ?_⟩
      rw [ht, zpow_sub₀ (by norm_num), zpow_one]; ring
    rw [h.rd_eq hf]
    constructor <;> linarith [h2.1, h2.2]
  · have hq : (0 : ℝ) < (2 : ℝ) ^ emin := by positivity
    obtain ⟨i, hi⟩ := ha.multiple
    obtain ⟨j, hj⟩ := hb.multiple
    obtain ⟨k, hk⟩ := hc.multiple
    have hik : i < k := by
      have : (i : ℝ) < k := lt_of_mul_lt_mul_right (by rw [← hi, ← hk]; exact hac) hq.le
      exact_mod_cast this
    have hkj : k < j := by
      have : (k : ℝ) < j := lt_of_mul_lt_mul_right (by rw [← hj, ← hk]; exact hcb) hq.le
      exact_mod_cast this
    have hsum : a + b = ((i + j : ℤ) : ℝ) * (2 : ℝ) ^ emin := by rw [hi, hj]; push_cast; ring
    have hex := h.small_sum hp hsum ht hm
    have hmij : m = i + j := by
      rw [ht, hsum] at hex
      have := mul_right_cancel₀ hq.ne' hex
      exact_mod_cast this
    rw [abs_lt] at hm
    have hlo : IsFloat p emin (((i + j) / 2 : ℤ) * (2 : ℝ) ^ emin) :=
      isFloat_of_mul hp (by rw [abs_le]; omega) le_rfl
    have hhi : IsFloat p emin (((i + j + 1) / 2 : ℤ) * (2 : ℝ) ^ emin) :=
      isFloat_of_mul hp (by rw [abs_le]; omega) le_rfl
    have e2 : ((i + j : ℤ) : ℝ) = 2 * ((i + j : ℤ) / 2 : ℝ) := by ring
    have l1 : (((i + j) / 2 : ℤ) : ℝ) ≤ 1 / 2 * ((i + j : ℤ) : ℝ) := by
      have : 2 * ((i + j) / 2) ≤ i + j := by omega
      have : ((2 * ((i + j) / 2) : ℤ) : ℝ) ≤ ((i + j : ℤ) : ℝ) := by exact_mod_cast this
      push_cast at this ⊢
      linarith
    have l2 : 1 / 2 * ((i + j : ℤ) : ℝ) ≤ (((i + j + 1) / 2 : ℤ) : ℝ) := by
      have : i + j ≤ 2 * ((i + j + 1) / 2) := by omega
      have : ((i + j : ℤ) : ℝ) ≤ ((2 * ((i + j + 1) / 2) : ℤ) : ℝ) := by exact_mod_cast this
      push_cast at this ⊢
      linarith
    have h3 := h.le_rd hlo (x := 1 / 2 * rd (a + b)) (by
      rw [hex, hsum, ← mul_assoc]
      exact mul_le_mul_of_nonneg_right l1 hq.le)
    have h4 := h.rd_le hhi (x := 1 / 2 * rd (a + b)) (by
      rw [hex, hsum, ← mul_assoc]
      exact mul_le_mul_of_nonneg_right l2 hq.le)
    constructor
    · refine lt_of_lt_of_le ?_ h3
      rw [hi]
      exact mul_lt_mul_of_pos_right (by exact_mod_cast (by omega : i < (i + j) / 2)) hq
    · refine lt_of_le_of_lt h4 ?_
      rw [hj]
      exact mul_lt_mul_of_pos_right (by exact_mod_cast (by omega : (i + j + 1) / 2 < j)) hq

end RoundsToNearest

/-- The difference of two numbers which are not far from each other is exact. -/
theorem sterbenz (ha : IsFloat p emin a) (hb : IsFloat p emin b) (h0 : 0 ≤ a) (hab : a ≤ b) (h2 : b ≤ 2 * a) :
    IsFloat p emin (b - a) := by
  obtain ⟨m, e, hm, he, hma⟩ := ha
  obtain ⟨n, f, hn, hf, hnb⟩ := hb
  have hp : ∀ (k : ℤ) (g : ℤ), (0:ℝ) ≤ k * (2:ℝ) ^ g → ∀ M : ℤ, |M| < 2 ^ p → (k : ℝ) * (2:ℝ) ^ g ≤ M * (2:ℝ) ^ g →
      |k| < 2 ^ p := by
    intro k g hk M hM hle
    have hq : (0 : ℝ) < (2 : ℝ) ^ g := by positivity
    have h1 : (0:ℝ) ≤ k := nonneg_of_mul_nonneg_left hk hq
    have h1' : 0 ≤ k := by exact_mod_cast h1
    have h3 : (k:ℝ) ≤ M := le_of_mul_le_mul_right hle hq
    have h3' : k ≤ M := by exact_mod_cast h3
    rw [abs_lt] at hM ⊢
    constructor <;> omega
  rcases le_total e f with h | h
  · obtain ⟨k, hk⟩ := exists_multiple (m := n) h
    have e1 : b - a = ((k - m : ℤ) : ℝ) * (2:ℝ) ^ e := by rw [hma, hnb, hk]; push_cast; ring
    refine ⟨k - m, e, hp _ e (by rw [← e1]; linarith) m hm (by rw [← e1, ← hma]; linarith), he, e1⟩
  · obtain ⟨k, hk⟩ := exists_multiple (m := m) h
    have e1 : b - a = ((n - k : ℤ) : ℝ) * (2:ℝ) ^ f := by rw [hma, hnb, hk]; push_cast; ring
    refine ⟨n - k, f, hp _ f (by rw [← e1]; linarith) n hn (by rw [← e1, ← hnb]; linarith), hf, e1⟩

/-- The power of two below a positive number. -/
theorem exists_binade {M : ℝ} (hM : 0 < M) : ∃ k : ℤ, (2:ℝ) ^ k < M ∧ M ≤ (2:ℝ) ^ (k + 1) :=
  exists_mem_Ioc_zpow hM (by norm_num)

/-- Between numbers further apart than the spacing at the largest magnitude there is another one. -/
theorem exists_between_of_far (hp : 0 < p) {M : ℝ} (hM : (2:ℝ) ^ (emin + p) ≤ M) (ha : |a| ≤ M) (hb : |b| ≤ M)
    (hab : (2:ℝ) ^ (1 - (p : ℤ)) * M ≤ b - a) : ∃ c, IsFloat p emin c ∧ a < c ∧ c < b := by
  obtain ⟨k, hk1, hk2⟩ := exists_binade (lt_of_lt_of_le (by positivity) hM)
  have hk : emin + p ≤ k + 1 := (zpow_le_zpow_iff_right₀ (by norm_num : (1:ℝ) < 2)).1 (hM.trans hk2)
  set U : ℝ := (2:ℝ) ^ (k + 1 - (p:ℤ)) with hU
  have hU0 : 0 < U := by positivity
  have hw : U < b - a := by
    refine lt_of_lt_of_le ?_ hab
    have : U = (2:ℝ) ^ (1 - (p:ℤ)) * (2:ℝ) ^ k := by
      rw [← zpow_add₀ (by norm_num), hU]; congr 1; ring
    rw [this]
    exact mul_lt_mul_of_pos_left hk1 (by positivity)
  set n : ℤ := ⌊a / U⌋ + 1 with hn
  have h1 : a < n * U := by
    have := Int.lt_floor_add_one (a / U)
    rw [div_lt_iff₀ hU0] at this
    rw [hn]; push_cast; exact this
  have h2 : (n : ℝ) * U ≤ a + U := by
    have := Int.floor_le (a / U)
    rw [le_div_iff₀ hU0] at this
    rw [hn]; push_cast; linarith
  have h3 : (n : ℝ) * U < b := by linarith
  refine ⟨n * U, ?_, h1, h3⟩
  refine isFloat_of_mul hp ?_ (by omega)
  have e : (2:ℝ) ^ (k + 1) = (2:ℝ) ^ p * U := by
    rw [hU, ← zpow_natCast, ← zpow_add₀ (by norm_num)]; congr 1; ring
  have h4 : |(n : ℝ) * U| ≤ (2:ℝ) ^ p * U := by
    rw [← e]
    refine le_trans ?_ hk2
    rw [abs_le] at *
    constructor <;> linarith [ha.1, ha.2, hb.1, hb.2]
  rw [abs_mul, abs_of_pos hU0] at h4
  have := le_of_mul_le_mul_right h4 hU0
  exact_mod_cast this

/-- A scaled number remains a floating-point number if it is large. -/
theorem isFloat_scaled {M : ℝ} (hf : IsFloat p emin M) (hM : (2:ℝ) ^ (emin + 2 * p) ≤ M) :
    IsFloat p emin ((2:ℝ) ^ (1 - (p : ℤ)) * M) := by
  obtain ⟨m, e, hm, he, rfl⟩ := hf
  refine ⟨m, e + (1 - (p:ℤ)), hm, ?_, by rw [zpow_add₀ (by norm_num)]; ring⟩
  have h1 : (2:ℝ) ^ (emin + 2 * p) < (2:ℝ) ^ ((p:ℤ) + e) := by
    refine lt_of_le_of_lt hM ?_
    rw [zpow_add₀ (by norm_num), zpow_natCast]
    refine mul_lt_mul_of_pos_right ?_ (by positivity)
    have := (abs_lt.1 hm).2
    exact_mod_cast this
  have := (zpow_lt_zpow_iff_right₀ (by norm_num : (1:ℝ) < 2)).1 h1
  omega

/-- Every number can be rounded. -/
theorem exists_roundsToNearest (p : ℕ) (emin : ℤ) : ∃ rd, RoundsToNearest p emin rd := by
  have key : ∀ x : ℝ, ∃ y, IsFloat p emin y ∧ ∀ z, IsFloat p emin z → |x - y| ≤ |x - z| := by
    intro x
    have hq : (0 : ℝ) < (2 : ℝ) ^ emin := by positivity
    set S : Set ℝ := {y | IsFloat p emin y ∧ |y| ≤ 2 * |x|} with hS
    have hfin : S.Finite := by
      refine Set.Finite.subset (s := (fun n : ℤ => (n : ℝ) * (2 : ℝ) ^ emin) ''
        (Set.Icc (-⌈2 * |x| / (2:ℝ) ^ emin⌉) ⌈2 * |x| / (2:ℝ) ^ emin⌉)) ((Set.finite_Icc _ _).image _) ?_
      rintro y ⟨hy, hy2⟩
      obtain ⟨n, rfl⟩ := hy.multiple
      refine ⟨n, ?_, rfl⟩
      rw [abs_mul, abs_of_pos hq, ← le_div_iff₀ hq] at hy2
      have h1 := hy2.trans (Int.le_ceil _)
      have h2 : |n| ≤ ⌈2 * |x| / (2:ℝ) ^ emin⌉ := by exact_mod_cast h1
      exact abs_le.1 h2
    obtain ⟨y, hy, hmin⟩ := hfin.exists_minimalFor (fun y => |x - y|) S ⟨0, isFloat_zero, by simp⟩
    refine ⟨y, hy.1, fun z hz => ?_⟩
    have hle : ∀ z ∈ S, |x - y| ≤ |x - z| := fun z hz => by
      rcases le_total (|x - y|) (|x - z|) with h | h
      · exact h
      · exact hmin hz h
    by_cases hzS : |z| ≤ 2 * |x|
    · exact hle z ⟨hz, hzS⟩
    · have h0 := hle 0 ⟨isFloat_zero, by simp⟩
      rw [sub_zero] at h0
      push Not at hzS
      have := abs_sub_abs_le_abs_sub z x
      rw [abs_sub_comm z x] at this
      linarith
  choose rd h using key
  exact ⟨rd, h⟩

end Verif.Spec
