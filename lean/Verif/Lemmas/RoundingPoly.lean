import Verif.Model.PolyFl
import Verif.Lemmas.LegendreBound
import Verif.Lemmas.NpLegendre
import Verif.Lemmas.RelError
import Verif.Lemmas.Poly
/-! Rounding errors of the evaluation of Legendre sums. -/

namespace Verif.Legendre
open Polynomial Verif.Spec Verif.Np Verif.Kernel

variable {A : Arith} {u eta x d : ℝ} {n : ℕ}

/-- A solution of the recurrence with given values at `r` and `r + 1`. -/
noncomputable def solFrom (x : ℝ) (r : ℕ) (a b : ℝ) : ℕ → ℝ × ℝ
  | 0 => (a, b)
  | j + 1 =>
    let q := solFrom x r a b j
    (q.2, ((2 * ((r + j : ℕ) : ℝ) + 3) * x * q.2 - (((r + j : ℕ) : ℝ) + 1) * q.1) / (((r + j : ℕ) : ℝ) + 2))

theorem exists_sol (x : ℝ) (r : ℕ) (a b : ℝ) : ∃ y : ℕ → ℝ, IsSol x r y ∧ y r = a ∧ y (r + 1) = b := by
  refine ⟨fun m => (solFrom x r a b (m - r)).1, ?_, ?_, ?_⟩
  · intro m hm
    obtain ⟨j, rfl⟩ : ∃ j, m = r + j := ⟨m - r, by omega⟩
    have e0 : r + j - r = j := by omega
    have e1 : r + j + 1 - r = j + 1 := by omega
    have e2 : r + j + 2 - r = j + 2 := by omega
    simp only [e0, e1, e2, solFrom]
    rw [mul_div_cancel₀]
    positivity
  · simp [solFrom]
  · have : r + 1 - r = 0 + 1 := by omega
    simp only [this, solFrom]

/-- Rounding errors of one step of the loop. -/
theorem step_error (hA : A.Ok u eta) (hu : u ≤ 1 / 1000) {M c c0 c1 : ℝ} (hx : |x| ≤ 25 / 24) (hc : |c| ≤ M)
    (h0 : |c0| ≤ M) (h1 : |c1| ≤ M) {k : ℝ} (hk : 1 ≤ k) :
    |A.sub c (A.div (A.mul c1 (k - 1)) k) - (c - c1 * (k - 1) / k)| ≤ 5 * u * M + 3 * eta ∧
    |A.add c0 (A.div (A.mul (A.mul c1 x) (2 * k - 1)) k) - (c0 + c1 * x * (2 * k - 1) / k)| ≤
      11 * u * M + 6 * eta := by
  have hu0 := hA.hu
  have he0 := hA.heta
  have hM : 0 ≤ M := (abs_nonneg _).trans hc
  have hk0 : 0 < k := by linarith
  have huM : 0 ≤ u * M := mul_nonneg hu0 hM
  have hue : u * eta ≤ 1 / 1000 * eta := mul_le_mul_of_nonneg_right hu he0
  have huuM : u * (u * M) ≤ 1 / 1000 * (u * M) := mul_le_mul_of_nonneg_right hu huM
  have huue : u * (u * eta) ≤ 1 / 1000 * (u * eta) := mul_le_mul_of_nonneg_right hu (by positivity)
  have h10 := abs_nonneg c1
  constructor
  · set p := A.mul c1 (k - 1) with hp
    have hpe : |p - c1 * (k - 1)| ≤ u * (|c1| * (k - 1)) + eta := by
      have := hA.mul c1 (k - 1)
      rwa [abs_mul, abs_of_nonneg (by linarith : 0 ≤ k - 1)] at this
    have hpk : |p / k - c1 * (k - 1) / k| ≤ u * M + eta := by
      rw [← sub_div, abs_div, abs_of_pos hk0, div_le_iff₀ hk0]
      have e1 : u * (|c1| * (k - 1)) ≤ u * (M * k) := by
        apply mul_le_mul_of_nonneg_left _ hu0
        exact mul_le_mul h1 (by linarith) (by linarith) hM
      have e2 : eta * 1 ≤ eta * k := mul_le_mul_of_nonneg_left hk he0
      nlinarith
    have hck : |c1 * (k - 1) / k| ≤ M := by
      rw [abs_div, abs_of_pos hk0, div_le_iff₀ hk0, abs_mul, abs_of_nonneg (by linarith : 0 ≤ k - 1)]
      exact mul_le_mul h1 (by linarith) (by linarith) hM
    have hpk' : |p / k| ≤ M + (u * M + eta) := by
      have := abs_add_le (p / k - c1 * (k - 1) / k) (c1 * (k - 1) / k)
      rw [sub_add_cancel] at this
      linarith
    have hq := hA.div p k hk0.ne'
    set q := A.div p k with hqd
    have hq' : |q - c1 * (k - 1) / k| ≤ 21 / 10 * (u * M) + 21 / 10 * eta := by
      have e1 := abs_sub_le q (p / k) (c1 * (k - 1) / k)
      have e2 := mul_le_mul_of_nonneg_left hpk' hu0
      nlinarith
    have e3 := hA.sub c q
    have e4 : |c - q - (c - c1 * (k - 1) / k)| = |q - c1 * (k - 1) / k| := by
      rw [abs_sub_comm q]
      congr 1
      ring
    have e5 : |c - q| ≤ 2 * M + (21 / 10 * (u * M) + 21 / 10 * eta) := by
      have e6 := abs_sub c q
      have e7 := abs_add_le (q - c1 * (k - 1) / k) (c1 * (k - 1) / k)
      rw [sub_add_cancel] at e7
      linarith
    have e8 := abs_sub_le (A.sub c q) (c - q) (c - c1 * (k - 1) / k)
    have e9 := mul_le_mul_of_nonneg_left e5 hu0
    rw [e4] at e8
    linarith
  · have hk2 : 0 ≤ 2 * k - 1 := by linarith
    set p := A.mul c1 x with hp
    have hcx : |c1 * x| ≤ 25 / 24 * M := by
      rw [abs_mul, mul_comm]
      exact mul_le_mul hx h1 h10 (by norm_num)
    have hpe : |p - c1 * x| ≤ 25 / 24 * (u * M) + eta := by
      have := hA.mul c1 x
      have := mul_le_mul_of_nonneg_left hcx hu0
      linarith
    have hp' : |p| ≤ 25 / 24 * M + (25 / 24 * (u * M) + eta) := by
      have := abs_add_le (p - c1 * x) (c1 * x)
      rw [sub_add_cancel] at this
      linarith
    have hr := hA.mul p (2 * k - 1)
    set r := A.mul p (2 * k - 1) with hrd
    rw [abs_mul, abs_of_nonneg hk2] at hr
    have hq := hA.div r k hk0.ne'
    set q := A.div r k with hqd
    have hrk : |r / k - c1 * x * (2 * k - 1) / k| ≤ 42 / 10 * (u * M) + 33 / 10 * eta := by
      rw [← sub_div, abs_div, abs_of_pos hk0, div_le_iff₀ hk0]
      have e1 := abs_sub_le r (p * (2 * k - 1)) (c1 * x * (2 * k - 1))
      rw [← sub_mul p, abs_mul (p - c1 * x), abs_of_nonneg hk2] at e1
      have e2 : |p - c1 * x| * (2 * k - 1) ≤ (25 / 24 * (u * M) + eta) * (2 * k) :=
        mul_le_mul hpe (by linarith) hk2 (by positivity)
      have e3 : |p| * (2 * k - 1) ≤ (25 / 24 * M + (25 / 24 * (u * M) + eta)) * (2 * k) :=
        mul_le_mul hp' (by linarith) hk2 (by positivity)
      have e4 := mul_le_mul_of_nonneg_left e3 hu0
      have e5 : eta * 1 ≤ eta * k := mul_le_mul_of_nonneg_left hk he0
      have e6 := mul_le_mul_of_nonneg_right huuM hk0.le
      have e7 := mul_le_mul_of_nonneg_right hue hk0.le
      have e8 := mul_nonneg huM hk0.le
      have e9 := mul_nonneg he0 hk0.le
      linarith
    have hcxk : |c1 * x * (2 * k - 1) / k| ≤ 25 / 12 * M := by
      rw [abs_div, abs_of_pos hk0, div_le_iff₀ hk0, abs_mul, abs_of_nonneg hk2]
      have := mul_le_mul hcx (by linarith : 2 * k - 1 ≤ 2 * k) hk2 (by positivity)
      linarith
    have hrk' : |r / k| ≤ 25 / 12 * M + (42 / 10 * (u * M) + 33 / 10 * eta) := by
      have := abs_add_le (r / k - c1 * x * (2 * k - 1) / k) (c1 * x * (2 * k - 1) / k)
      rw [sub_add_cancel] at this
      linarith
    have hq' : |q - c1 * x * (2 * k - 1) / k| ≤ 63 / 10 * (u * M) + 44 / 10 * eta := by
      have e1 := abs_sub_le q (r / k) (c1 * x * (2 * k - 1) / k)
      have e2 := mul_le_mul_of_nonneg_left hrk' hu0
      linarith
    have e3 := hA.add c0 q
    have e4 : |c0 + q - (c0 + c1 * x * (2 * k - 1) / k)| = |q - c1 * x * (2 * k - 1) / k| := by
      congr 1
      ring
    have e5 : |c0 + q| ≤ 38 / 12 * M + (63 / 10 * (u * M) + 44 / 10 * eta) := by
      have e6 := abs_add_le c0 q
      have e7 := abs_add_le (q - c1 * x * (2 * k - 1) / k) (c1 * x * (2 * k - 1) / k)
      rw [sub_add_cancel] at e7
      linarith
    have e8 := abs_sub_le (A.add c0 q) (c0 + q) (c0 + c1 * x * (2 * k - 1) / k)
    have e9 := mul_le_mul_of_nonneg_left e5 hu0
    rw [e4] at e8
    linarith

/-- Rounding errors of the last line of `legval`. -/
theorem last_error (hA : A.Ok u eta) (hu : u ≤ 1 / 1000) {M c0 c1 : ℝ} (hx : |x| ≤ 25 / 24)
    (h0 : |c0| ≤ M) (h1 : |c1| ≤ M) : |A.add c0 (A.mul c1 x) - (c0 + c1 * x)| ≤ 4 * u * M + 2 * eta := by
  have hu0 := hA.hu
  have he0 := hA.heta
  have hM : 0 ≤ M := (abs_nonneg _).trans h0
  have huM : 0 ≤ u * M := mul_nonneg hu0 hM
  have hue : u * eta ≤ 1 / 1000 * eta := mul_le_mul_of_nonneg_right hu he0
  have huuM : u * (u * M) ≤ 1 / 1000 * (u * M) := mul_le_mul_of_nonneg_right hu huM
  set p := A.mul c1 x with hp
  have hcx : |c1 * x| ≤ 25 / 24 * M := by
    rw [abs_mul, mul_comm]
    exact mul_le_mul hx h1 (abs_nonneg _) (by norm_num)
  have hpe : |p - c1 * x| ≤ 25 / 24 * (u * M) + eta := by
    have := hA.mul c1 x
    have := mul_le_mul_of_nonneg_left hcx hu0
    linarith
  have hp' : |p| ≤ 25 / 24 * M + (25 / 24 * (u * M) + eta) := by
    have := abs_add_le (p - c1 * x) (c1 * x)
    rw [sub_add_cancel] at this
    linarith
  have e3 := hA.add c0 p
  have e4 : |c0 + p - (c0 + c1 * x)| = |p - c1 * x| := by
    congr 1
    ring
  have e5 := abs_add_le c0 p
  have e8 := abs_sub_le (A.add c0 p) (c0 + p) (c0 + c1 * x)
  have e9 := mul_le_mul_of_nonneg_left (e5.trans (add_le_add h0 hp')) hu0
  rw [e4] at e8
  linarith

/-- The state `c0, c1` of the loop at level `m` is at most `N T`, measured by all solutions which are at most `N`. -/
def StateLe (x : ℝ) (n m : ℕ) (N c0 c1 T : ℝ) : Prop :=
  ∀ r ≤ m, ∀ y : ℕ → ℝ, IsSol x r y → (∀ j, r ≤ j → j < n → |y j| ≤ N) → |c0 * y m + c1 * y (m + 1)| ≤ N * T

theorem StateLe.abs_le (hd0 : 0 ≤ d) (hd : 24 * (n : ℝ) ^ 2 * d ≤ 1) (hx : |x| ≤ 1 + d) {m : ℕ} (hm : m + 2 ≤ n)
    {c0 c1 T : ℝ} (h : StateLe x n m (3 / 2 * n) c0 c1 T) : |c0| ≤ 3 / 2 * n * T ∧ |c1| ≤ 3 / 2 * n * T := by
  have key : ∀ y : ℕ → ℝ, IsSol x m y → ((y m = 0 ∧ y (m + 1) = 1) ∨ (y m = 1 ∧ y (m + 1) = 0)) →
      ∀ j, m ≤ j → j < n → |y j| ≤ 3 / 2 * n := by
    intro y hy hs j hj hjn
    obtain ⟨i, rfl⟩ : ∃ i, j = m + i := ⟨j - m, by omega⟩
    refine (sol_le hd0 hd hx hy hs (by omega : i ≤ n) (by omega)).trans ?_
    have : (i : ℝ) + 1 ≤ n := by exact_mod_cast (by omega : i + 1 ≤ n)
    linarith
  constructor
  · obtain ⟨y, hy, h0, h1⟩ := exists_sol x m 1 0
    have := h m le_rfl y hy (key y hy (Or.inr ⟨h0, h1⟩))
    rwa [h0, h1, mul_one, mul_zero, add_zero] at this
  · obtain ⟨y, hy, h0, h1⟩ := exists_sol x m 0 1
    have := h m le_rfl y hy (key y hy (Or.inl ⟨h0, h1⟩))
    rwa [h0, h1, mul_one, mul_zero, zero_add] at this

/-- A perturbed step of the loop. -/
theorem StateLe.step {N c0 c1 T c e0 e1 z0 z1 ε : ℝ} (hN : 0 ≤ N) {m : ℕ} (hm : m + 3 ≤ n)
    (h : StateLe x n (m + 1) N c0 c1 T)
    (h0 : z0 = c - c1 * (((m : ℝ) + 2) - 1) / ((m : ℝ) + 2) + e0)
    (h1 : z1 = c0 + c1 * x * (2 * ((m : ℝ) + 2) - 1) / ((m : ℝ) + 2) + e1) (he : |e0| + |e1| ≤ ε) :
    StateLe x n m N z0 z1 (T + |c| + ε) := by
  intro r hr y hy hb
  have h2 := h r (by omega) y hy hb
  have h3 := hy m hr
  have hm2 : (m : ℝ) + 2 ≠ 0 := by positivity
  have e : z0 * y m + z1 * y (m + 1) = c0 * y (m + 1) + c1 * y (m + 1 + 1) + (c * y m + (e0 * y m + e1 * y (m + 1))) := by
    rw [h0, h1, show m + 1 + 1 = m + 2 from rfl,
      show y (m + 2) = ((2 * (m : ℝ) + 3) * x * y (m + 1) - ((m : ℝ) + 1) * y m) / ((m : ℝ) + 2) by
        rw [eq_div_iff hm2, mul_comm]; exact h3]
    field_simp
    ring
  have b0 := hb m hr (by omega)
  have b1 := hb (m + 1) (by omega) (by omega)
  rw [e]
  have f1 := abs_add_le (c0 * y (m + 1) + c1 * y (m + 1 + 1)) (c * y m + (e0 * y m + e1 * y (m + 1)))
  have f2 := abs_add_le (c * y m) (e0 * y m + e1 * y (m + 1))
  have f3 := abs_add_le (e0 * y m) (e1 * y (m + 1))
  rw [abs_mul, abs_mul] at f3
  rw [abs_mul c] at f2
  have g1 := mul_le_mul_of_nonneg_left b0 (abs_nonneg c)
  have g2 := mul_le_mul_of_nonneg_left b0 (abs_nonneg e0)
  have g3 := mul_le_mul_of_nonneg_left b1 (abs_nonneg e1)
  have g4 := mul_le_mul_of_nonneg_left he hN
  linarith

/-- The rounding errors of the loop of `legval`. -/
theorem clenshaw_error (hA : A.Ok u eta) (hu : u ≤ 1 / 1000) (hd0 : 0 ≤ d) (hd : 24 * (n : ℝ) ^ 2 * d ≤ 1)
    (hx : |x| ≤ 1 + d) {S ε : ℝ} (hS : 0 ≤ S) (hε : 30 * (u * (n * S)) + 9 * eta ≤ ε) :
    ∀ (rest : List ℝ) (c0 c1 T : ℝ), rest.length + 2 ≤ n → StateLe x n rest.length (3 / 2 * n) c0 c1 T →
      T + (rest.map fun c => |c|).sum + rest.length * ε ≤ 5 / 4 * S →  0 ≤ T →
      |clenshawFl A x rest (rest.length + 2) c0 c1 - clenshaw x rest (rest.length + 2) c0 c1| ≤
        5 / 4 * ((rest.length + 1) * ε) := by
  have hu0 := hA.hu
  have he0 := hA.heta
  have hε0 : 0 ≤ ε := le_trans (by positivity) hε
  intro rest
  induction rest with
  | nil =>
    intro c0 c1 T hn h hT hT0
    obtain ⟨b0, b1⟩ := h.abs_le hd0 hd hx hn
    have hn1 : (2 : ℝ) ≤ n := by exact_mod_cast (by simpa using hn : 2 ≤ n)
    have hd1 : d ≤ 1 / 24 := by nlinarith
    simp only [clenshawFl, clenshaw, List.length_nil]
    simp only [List.map_nil, List.sum_nil, List.length_nil, Nat.cast_zero, zero_mul, add_zero] at hT
    have hTn : 3 / 2 * (n : ℝ) * T ≤ 15 / 8 * (n * S) := by
      have := mul_le_mul_of_nonneg_left hT (by positivity : (0 : ℝ) ≤ 3 / 2 * n)
      linarith
    have e := last_error (x := x) hA hu (by linarith) (b0.trans hTn) (b1.trans hTn)
    have : 0 ≤ u * (n * S) := by positivity
    push_cast
    linarith
  | cons c rest ih =>
    intro c0 c1 T hn h hT hT0
    simp only [List.length_cons] at hn h hT
    obtain ⟨b0, b1⟩ := h.abs_le hd0 hd hx (by omega)
    have hn1 : (3 : ℝ) ≤ n := by exact_mod_cast (by omega : 3 ≤ n)
    have hd1 : d ≤ 1 / 24 := by nlinarith
    simp only [List.map_cons, List.sum_cons, Nat.cast_add, Nat.cast_one] at hT
    have hsum : 0 ≤ (rest.map fun c => |c|).sum := List.sum_nonneg (by simp)
    have hl : (0 : ℝ) ≤ rest.length := Nat.cast_nonneg _
    have hlε : 0 ≤ (rest.length : ℝ) * ε := mul_nonneg hl hε0
    have hcT : T ≤ 5 / 4 * S ∧ |c| ≤ 5 / 4 * S := by
      constructor <;> linarith [abs_nonneg c]
    have hTn : 3 / 2 * (n : ℝ) * T ≤ 15 / 8 * (n * S) := by
      have := mul_le_mul_of_nonneg_left hcT.1 (by positivity : (0 : ℝ) ≤ 3 / 2 * n)
      linarith
    have hcn : |c| ≤ 15 / 8 * (n * S) := by
      have := mul_le_mul_of_nonneg_right hn1 hS
      linarith [hcT.2]
    have hk : (1 : ℝ) ≤ (rest.length : ℝ) + 2 := by linarith
    obtain ⟨s0, s1⟩ := step_error (x := x) hA hu (by linarith) hcn (b0.trans hTn) (b1.trans hTn) hk
    have hm : rest.length + 1 + 2 - 1 = rest.length + 2 := rfl
    simp only [clenshawFl, clenshaw, List.length_cons, hm]
    push_cast
    set z0 := A.sub c (A.div (A.mul c1 ((rest.length : ℝ) + 2 - 1)) ((rest.length : ℝ) + 2)) with hz0
    set z1 := A.add c0 (A.div (A.mul (A.mul c1 x) (2 * ((rest.length : ℝ) + 2) - 1)) ((rest.length : ℝ) + 2)) with hz1
    have herr : |z0 - (c - c1 * ((rest.length : ℝ) + 2 - 1) / ((rest.length : ℝ) + 2))| +
        |z1 - (c0 + c1 * x * (2 * ((rest.length : ℝ) + 2) - 1) / ((rest.length : ℝ) + 2))| ≤ ε := by
      linarith
    have hst := h.step (n := n) (c := c) (z0 := z0) (z1 := z1) (ε := ε) (by positivity) (by omega)
      (e0 := z0 - (c - c1 * ((rest.length : ℝ) + 2 - 1) / ((rest.length : ℝ) + 2)))
      (e1 := z1 - (c0 + c1 * x * (2 * ((rest.length : ℝ) + 2) - 1) / ((rest.length : ℝ) + 2)))
      (by ring) (by ring) herr
    have i1 := ih z0 z1 (T + |c| + ε) (by omega) hst (by linarith) (by linarith [abs_nonneg c])
    have i2 : |clenshaw x rest (rest.length + 2) z0 z1 - clenshaw x rest (rest.length + 2)
        (c - c1 * ((rest.length : ℝ) + 2 - 1) / ((rest.length : ℝ) + 2))
        (c0 + c1 * x * (2 * ((rest.length : ℝ) + 2) - 1) / ((rest.length : ℝ) + 2))| ≤ 5 / 4 * ε := by
      rw [clenshaw_eq, clenshaw_eq]
      have p0 := legendre_le hd0 hd hx (by omega : rest.length ≤ n) (by omega)
      have p1 := legendre_le hd0 hd hx (by omega : rest.length + 1 ≤ n) (by omega)
      set w0 := c - c1 * ((rest.length : ℝ) + 2 - 1) / ((rest.length : ℝ) + 2)
      set w1 := c0 + c1 * x * (2 * ((rest.length : ℝ) + 2) - 1) / ((rest.length : ℝ) + 2)
      have e : eval x (series rest.reverse) + z0 * eval x (legendre rest.length) + z1 * eval x (legendre (rest.length + 1)) -
          (eval x (series rest.reverse) + w0 * eval x (legendre rest.length) + w1 * eval x (legendre (rest.length + 1))) =
          (z0 - w0) * eval x (legendre rest.length) + (z1 - w1) * eval x (legendre (rest.length + 1)) := by ring
      rw [e]
      refine (abs_add_le _ _).trans ?_
      rw [abs_mul, abs_mul]
      have g0 := mul_le_mul_of_nonneg_left p0 (abs_nonneg (z0 - w0))
      have g1 := mul_le_mul_of_nonneg_left p1 (abs_nonneg (z1 - w1))
      linarith
    have i3 := abs_sub_le (clenshawFl A x rest (rest.length + 2) z0 z1) (clenshaw x rest (rest.length + 2) z0 z1)
      (clenshaw x rest (rest.length + 2)
        (c - c1 * ((rest.length : ℝ) + 2 - 1) / ((rest.length : ℝ) + 2))
        (c0 + c1 * x * (2 * ((rest.length : ℝ) + 2) - 1) / ((rest.length : ℝ) + 2)))
    linarith

/-- The sum of the magnitudes of the coefficients. -/
theorem sum_abs_reverse (c : List ℝ) : (c.reverse.map fun a => |a|).sum = (c.map fun a => |a|).sum := by
  rw [List.map_reverse, List.sum_reverse]

/-- The rounding errors of `legval`. -/
theorem legval_error (hA : A.Ok u eta) (hu0 : 0 < u) (hu : u ≤ 1 / 1000) (hd0 : 0 ≤ d) {c : List ℝ} (hc : c ≠ [])
    (hd : 24 * (c.length : ℝ) ^ 2 * d ≤ 1) (hn : 160 * (c.length : ℝ) ^ 2 * u ≤ 1) (hx : |x| ≤ 1 + d) {S : ℝ}
    (hS : S = (c.map fun a => |a|).sum + eta / u) :
    |legvalFl A x c - (series c).eval x| ≤ 50 * (c.length : ℝ) ^ 2 * u * S := by
  have he0 := hA.heta
  have hsum : 0 ≤ (c.map fun a => |a|).sum := List.sum_nonneg (by simp)
  have hSe : eta ≤ u * S := by
    rw [hS, mul_add, mul_div_cancel₀ _ hu0.ne']
    have := mul_nonneg hu0.le hsum
    linarith
  have hS0 : 0 ≤ S := by rw [hS]; positivity
  have hSc : (c.map fun a => |a|).sum ≤ S := by
    rw [hS]
    have : 0 ≤ eta / u := by positivity
    linarith
  rw [← legval_eq]
  unfold legvalFl legval
  match h : c.reverse with
  | [] => exact absurd (List.reverse_eq_nil_iff.1 h) hc
  | [c0] =>
    have hl : c = [c0] := by have := congrArg List.reverse h; simpa using this
    subst hl
    simp only [List.length_singleton, Nat.cast_one, List.map_cons, List.map_nil, List.sum_cons, List.sum_nil] at hd hSc ⊢
    have := last_error (x := x) (c0 := c0) (c1 := 0) (M := S) hA hu (by linarith) (by linarith) (by simpa using hS0)
    have : 0 ≤ u * S := by positivity
    linarith
  | c1 :: c0 :: rest =>
    have hlen : c.length = rest.length + 2 := by rw [← List.length_reverse, h]; simp
    have hsr : (c.map fun a => |a|).sum = |c1| + (|c0| + (rest.map fun a => |a|).sum) := by
      rw [← sum_abs_reverse, h]
      simp
    have hn1 : (1 : ℝ) ≤ c.length := by exact_mod_cast (by omega : 1 ≤ c.length)
    have hnr : (c.length : ℝ) = rest.length + 2 := by rw [hlen]; push_cast; ring
    set n : ℝ := (c.length : ℝ) with hndef
    have hr0 : (0 : ℝ) ≤ rest.length := Nat.cast_nonneg _
    have huS : u * S ≤ u * (n * S) := by
      apply mul_le_mul_of_nonneg_left _ hu0.le
      have := mul_le_mul_of_nonneg_right hn1 hS0
      linarith
    have hnS : 0 ≤ u * (n * S) := by positivity
    have hnn : n * (40 * (u * (n * S))) ≤ 1 / 4 * S := by
      have := mul_le_mul_of_nonneg_right hn hS0
      linarith
    have hrn : (rest.length : ℝ) * (40 * (u * (n * S))) ≤ n * (40 * (u * (n * S))) :=
      mul_le_mul_of_nonneg_right (by linarith) (by linarith)
    have key := clenshaw_error (n := c.length) hA hu hd0 hd hx hS0 (ε := 40 * (u * (n * S))) (by linarith) rest c0 c1
      (|c0| + |c1|) (by omega)
      (by
        intro r hr y _ hb
        refine (abs_add_le _ _).trans ?_
        rw [abs_mul, abs_mul]
        have g0 := mul_le_mul_of_nonneg_left (hb rest.length hr (by omega)) (abs_nonneg c0)
        have g1 := mul_le_mul_of_nonneg_left (hb (rest.length + 1) (by omega) (by omega)) (abs_nonneg c1)
        linarith)
      (by linarith) (by positivity)
    simp only [hlen]
    refine key.trans ?_
    have : (((rest.length : ℝ)) + 1) * (40 * (u * (n * S))) ≤ n * (40 * (u * (n * S))) :=
      mul_le_mul_of_nonneg_right (by linarith) (by linarith)
    linarith

/-- A Legendre sum is at most the sum of the magnitudes of its coefficients. -/
theorem series_abs_le (hx : |x| ≤ 1) (c : List ℝ) : |(series c).eval x| ≤ (c.map fun a => |a|).sum := by
  induction c using List.reverseRecOn with
  | nil => simp [series]
  | append_singleton c a ih =>
    rw [series_append_singleton, eval_add, eval_mul, eval_C, List.map_append, List.sum_append]
    refine (abs_add_le _ _).trans (add_le_add ih ?_)
    rw [abs_mul]
    have := mul_le_mul_of_nonneg_left (legendre_le_one hx c.length) (abs_nonneg a)
    simpa using this

/-- A Legendre sum is Lipschitz. -/
theorem series_lip (hd0 : 0 ≤ d) (hd : 24 * (n : ℝ) ^ 2 * d ≤ 1) {z : ℝ} (hx : |x| ≤ 1 + d) (hz : |z| ≤ 1 + d)
    (hn : 1 ≤ n) (c : List ℝ) (hc : c.length ≤ n) :
    |(series c).eval z - (series c).eval x| ≤ 5 / 8 * n ^ 2 * (c.map fun a => |a|).sum * |z - x| := by
  induction c using List.reverseRecOn with
  | nil => simp [series]
  | append_singleton c a ih =>
    have hl : c.length + 1 ≤ n := by simpa using hc
    have i1 := ih (by omega)
    rw [series_append_singleton, eval_add, eval_mul, eval_C, eval_add, eval_mul, eval_C, List.map_append, List.sum_append]
    have e : ∀ p q r s : ℝ, p + a * q - (r + a * s) = (p - r) + a * (q - s) := by intros; ring
    rw [e]
    refine (abs_add_le _ _).trans ?_
    rw [abs_mul]
    have l := legendre_lip hd0 hd hx hz hn (show c.length ≤ n by omega)
    have hln : (c.length : ℝ) + 1 ≤ n := by exact_mod_cast hl
    have h0 : (0 : ℝ) ≤ c.length := Nat.cast_nonneg _
    have l2 : 5 / 8 * ((c.length : ℝ) * (c.length + 1)) * |z - x| ≤ 5 / 8 * n ^ 2 * |z - x| := by
      apply mul_le_mul_of_nonneg_right _ (abs_nonneg _)
      nlinarith
    have := mul_le_mul_of_nonneg_left (l.trans l2) (abs_nonneg a)
    simp only [List.map_cons, List.map_nil, List.sum_cons, List.sum_nil, add_zero]
    linarith

/-- The rounding errors of `_inv_xs`; `k` is the size of the knots relative to the length of the segment. -/
theorem inv_error (hA : A.Ok u eta) (hu : u ≤ 1 / 1000) {w k dx : ℝ} (hw : 0 < w) (hk : 1 ≤ k) (huk : 400 * (k * u) ≤ 1)
    (hdx : |dx - w| ≤ 5 * u * (k * w)) (he : eta * w ≤ u) : dx ≠ 0 ∧ Kernel.Rel (39 / 5 * (k * u)) (A.div 2 dx) (2 / w) := by
  have hu0 := hA.hu
  have he0 := hA.heta
  have huk0 : u ≤ k * u := by have := mul_le_mul_of_nonneg_right hk hu0; linarith
  have h1 : Kernel.Rel (5 * (k * u)) dx w := by
    unfold Kernel.Rel
    rw [abs_of_pos hw]
    linarith
  have hdx0 : dx ≠ 0 := by
    rintro rfl
    rw [zero_sub, abs_neg, abs_of_pos hw] at hdx
    have := mul_le_mul_of_nonneg_right huk hw.le
    linarith
  refine ⟨hdx0, ?_⟩
  have h2 : Kernel.Rel (10 / 9 * (5 * (k * u))) (2 / dx) (2 / w) := by
    have := (Kernel.Rel.inv h1 (by linarith))
    unfold Kernel.Rel at this ⊢
    rw [div_eq_mul_inv, div_eq_mul_inv, ← mul_sub, abs_mul, abs_mul]
    linarith [abs_nonneg (dx⁻¹ - w⁻¹), abs_of_pos (by norm_num : (0 : ℝ) < 2)]
  have h3 := hA.div 2 dx hdx0
  have h4 := Kernel.Rel.abs_le h2
  unfold Kernel.Rel at h2 ⊢
  have hpos : 0 < 2 / w := by positivity
  rw [abs_of_pos hpos] at h2 h4 ⊢
  have h5 : eta ≤ u * (2 / w) := by
    rw [mul_div_assoc', le_div_iff₀ hw]
    linarith
  have h6 := mul_le_mul_of_nonneg_left h4 hu0
  have h7 := abs_sub_le (A.div 2 dx) (2 / dx) (2 / w)
  have h8 : u * (2 / w) ≤ k * u * (2 / w) := mul_le_mul_of_nonneg_right huk0 hpos.le
  have h9 : u * (10 / 9 * (5 * (k * u))) * (2 / w) ≤ 1 / 100 * (k * u) * (2 / w) := by
    apply mul_le_mul_of_nonneg_right _ hpos.le
    have := mul_le_mul_of_nonneg_right hu (by linarith : 0 ≤ k * u)
    linarith
  linarith

/-- The rounding errors of the local coordinate. -/
theorem coordinate_error (hA : A.Ok u eta) (hu : u ≤ 1 / 1000) {a b k x i : ℝ} (hab : a < b)
    (hk : k = (|a| + |b|) / (b - a)) (huk : 400 * (k * u) ≤ 1) (hax : a ≤ x) (hxb : x ≤ b)
    (he : eta ≤ u * (b - a)) (he1 : eta ≤ u)
    (hi : Kernel.Rel (39 / 5 * (k * u)) i (2 / (b - a))) :
    |A.mul (A.sub x (A.mul 0.5 (A.add b a))) i - (2 * x - (a + b)) / (b - a)| ≤ 16 * (k * u) := by
  have hu0 := hA.hu
  have he0 := hA.heta
  have hw : 0 < b - a := by linarith
  have hkw : |a| + |b| = k * (b - a) := by rw [hk, div_mul_cancel₀ _ hw.ne']
  set w := b - a with hwd
  have hab2 : w ≤ |a| + |b| := by
    have := abs_sub b a
    rw [← hwd, abs_of_pos hw] at this
    linarith
  have hk1 : 1 ≤ k := by rw [hk, le_div_iff₀ hw]; linarith
  have huk0 : u ≤ k * u := by have := mul_le_mul_of_nonneg_right hk1 hu0; linarith
  -- midpoint
  have m1 := hA.add b a
  set s := A.add b a
  have m2 := hA.mul 0.5 s
  set m := A.mul 0.5 s
  have hs : |b + a| ≤ k * w := (abs_add_le b a).trans (by linarith)
  have hus : u * |b + a| ≤ u * (k * w) := mul_le_mul_of_nonneg_left hs hu0
  have hkw0 : 0 ≤ u * (k * w) := le_trans (by positivity) hus
  have hs' : |s| ≤ k * w + u * (k * w) := by
    have := abs_add_le (s - (b + a)) (b + a)
    rw [sub_add_cancel] at this
    linarith
  have m3 : |m - (a + b) / 2| ≤ 51 / 50 * (u * (k * w)) + eta := by
    have e1 := abs_sub_le m (0.5 * s) ((a + b) / 2)
    have e2 : |(0.5 : ℝ) * s - (a + b) / 2| = 1 / 2 * |s - (b + a)| := by
      rw [show (0.5 : ℝ) * s - (a + b) / 2 = 1 / 2 * (s - (b + a)) by ring, abs_mul]
      norm_num
    have e3 : |(0.5 : ℝ) * s| = 1 / 2 * |s| := by rw [abs_mul]; norm_num
    rw [e3] at m2
    have e4 := mul_le_mul_of_nonneg_left hs' hu0
    have e5 := mul_le_mul_of_nonneg_right hu hkw0
    linarith
  -- difference
  have t1 := hA.sub x m
  set t := A.sub x m
  have hxm : |x - (a + b) / 2| ≤ w / 2 := by rw [abs_le]; constructor <;> linarith
  have hum : u * w ≤ u * (k * w) := mul_le_mul_of_nonneg_left (by have := mul_le_mul_of_nonneg_right hk1 hw.le; linarith) hu0
  have t2 : |t - (x - (a + b) / 2)| ≤ 26 / 10 * (u * (k * w)) := by
    have e1 := abs_sub_le t (x - m) (x - (a + b) / 2)
    have e2 : |x - m - (x - (a + b) / 2)| = |m - (a + b) / 2| := by
      rw [abs_sub_comm m]
      congr 1
      ring
    have e3 : |x - m| ≤ w / 2 + (51 / 50 * (u * (k * w)) + eta) := by
      have := abs_sub_le x ((a + b) / 2) m
      rw [abs_sub_comm ((a + b) / 2) m] at this
      linarith
    have e4 := mul_le_mul_of_nonneg_left e3 hu0
    have e5 := mul_le_mul_of_nonneg_right hu hkw0
    have e6 := mul_le_mul_of_nonneg_right hu he0
    linarith
  -- product
  have p1 := hA.mul t i
  set q := A.mul t i
  have hpos : 0 < 2 / w := by positivity
  unfold Kernel.Rel at hi
  rw [abs_of_pos hpos] at hi
  have hX : (2 * x - (a + b)) / w = (x - (a + b) / 2) * (2 / w) := by
    field_simp
  have f1 : |t * (2 / w) - (x - (a + b) / 2) * (2 / w)| ≤ 52 / 10 * (k * u) := by
    rw [← sub_mul, abs_mul, abs_of_pos hpos]
    refine (mul_le_mul_of_nonneg_right t2 hpos.le).trans (le_of_eq ?_)
    field_simp
    ring
  have f2 : |(x - (a + b) / 2) * (2 / w)| ≤ 1 := by
    rw [abs_mul, abs_of_pos hpos]
    refine (mul_le_mul_of_nonneg_right hxm hpos.le).trans (le_of_eq ?_)
    field_simp
  have f3 : |t * (2 / w)| ≤ 51 / 50 := by
    have := abs_add_le (t * (2 / w) - (x - (a + b) / 2) * (2 / w)) ((x - (a + b) / 2) * (2 / w))
    rw [sub_add_cancel] at this
    linarith
  have f4 : |t * i - t * (2 / w)| ≤ 8 * (k * u) := by
    rw [← mul_sub, abs_mul]
    have e1 := mul_le_mul_of_nonneg_left hi (abs_nonneg t)
    have e2 : |t| * (2 / w) ≤ 51 / 50 := by rwa [abs_mul, abs_of_pos hpos] at f3
    have e3 := mul_le_mul_of_nonneg_left e2 (by linarith : 0 ≤ 39 / 5 * (k * u))
    linarith
  have f5 : |t * i| ≤ 11 / 10 := by
    have := abs_add_le (t * i - t * (2 / w)) (t * (2 / w))
    rw [sub_add_cancel] at this
    linarith
  rw [hX]
  have g1 := abs_sub_le q (t * i) (t * (2 / w))
  have g2 := abs_sub_le q (t * (2 / w)) ((x - (a + b) / 2) * (2 / w))
  have g3 := mul_le_mul_of_nonneg_left f5 hu0
  linarith

/-- The rounding errors of the value on one segment. -/
theorem value_error {rt : ℝ → ℝ} (hA : A.Ok u eta) (hrt : ∀ a, 0 ≤ a → |rt a - Real.sqrt a| ≤ u * Real.sqrt a)
    (hu0 : 0 < u) (hu : u ≤ 1 / 1000) {a b k x dx : ℝ} {c : List ℝ} (hc : c ≠ []) (hab : a < b)
    (hk : k = (|a| + |b|) / (b - a)) (hn : 400 * (c.length : ℝ) ^ 2 * k * u ≤ 1) (hax : a ≤ x) (hxb : x ≤ b)
    (he : eta ≤ u * (b - a)) (he1 : eta ≤ u) (he2 : eta * (b - a) ≤ u) (hdx : |dx - (b - a)| ≤ 5 * u * (|a| + |b|)) :
    dx ≠ 0 ∧
    |A.mul (legvalFl A (A.mul (A.sub x (A.mul 0.5 (A.add b a))) (A.div 2 dx)) c) (rt (A.div 2 dx)) - segFun a b c x| ≤
      75 * (c.length : ℝ) ^ 2 * k * (u * (c.map fun a => |a|).sum + eta) * Real.sqrt (2 / (b - a)) + eta := by
  have he0 := hA.heta
  have hw : 0 < b - a := by linarith
  have hkw : |a| + |b| = k * (b - a) := by rw [hk, div_mul_cancel₀ _ hw.ne']
  have hk1 : 1 ≤ k := by
    rw [hk, le_div_iff₀ hw]
    have := abs_sub b a
    rw [abs_of_pos hw] at this
    linarith
  have hn1 : (1 : ℝ) ≤ c.length := by exact_mod_cast List.length_pos_iff.2 hc
  have hn2 : (1 : ℝ) ≤ (c.length : ℝ) ^ 2 := one_le_pow₀ hn1
  have hku0 : 0 ≤ k * u := by positivity
  have hnk : k * u ≤ (c.length : ℝ) ^ 2 * (k * u) := by
    have := mul_le_mul_of_nonneg_right hn2 hku0
    linarith
  have huk : 400 * (k * u) ≤ 1 := by linarith
  have huku : u ≤ k * u := by have := mul_le_mul_of_nonneg_right hk1 hu0.le; linarith
  obtain ⟨hdx0, hi⟩ := inv_error hA hu hw hk1 huk (by rwa [hkw] at hdx) he2
  refine ⟨hdx0, ?_⟩
  have hX := coordinate_error hA hu hab hk huk hax hxb he he1 hi
  set X := A.mul (A.sub x (A.mul 0.5 (A.add b a))) (A.div 2 dx)
  set Y := (2 * x - (a + b)) / (b - a) with hY
  have hY1 : |Y| ≤ 1 := by
    rw [hY, abs_div, abs_of_pos hw, div_le_one hw, abs_le]
    constructor <;> linarith
  have hX1 : |X| ≤ 1 + 16 * (k * u) := by
    have := abs_add_le (X - Y) Y
    rw [sub_add_cancel] at this
    linarith
  have hd : 24 * (c.length : ℝ) ^ 2 * (16 * (k * u)) ≤ 1 := by
    have : 0 ≤ (c.length : ℝ) ^ 2 * (k * u) := by positivity
    linarith
  have hnu : (c.length : ℝ) ^ 2 * u ≤ (c.length : ℝ) ^ 2 * (k * u) := mul_le_mul_of_nonneg_left huku (by positivity)
  have hsum : 0 ≤ (c.map fun a => |a|).sum := List.sum_nonneg (by simp)
  obtain ⟨S, hS⟩ : ∃ S, S = (c.map fun a => |a|).sum + eta / u := ⟨_, rfl⟩
  have hSu : u * S = u * (c.map fun a => |a|).sum + eta := by
    rw [hS, mul_add, mul_div_cancel₀ _ hu0.ne']
  have hS0 : 0 ≤ S := by rw [hS]; positivity
  have hSc : (c.map fun a => |a|).sum ≤ S := by
    rw [hS]
    have : 0 ≤ eta / u := by positivity
    linarith
  have hL := legval_error hA hu0 hu (by linarith : 0 ≤ 16 * (k * u)) hc hd (by linarith) hX1 hS
  set L := legvalFl A X c
  have hlip := series_lip (n := c.length) (by linarith : 0 ≤ 16 * (k * u)) hd (x := Y) (z := X)
    (by linarith) hX1 (List.length_pos_iff.2 hc) c le_rfl
  have hval := series_abs_le hY1 c
  set p := (series c).eval Y with hp
  -- abbreviations
  set nu : ℝ := (c.length : ℝ) ^ 2 * (k * u) with hnud
  have hnu0 : 0 ≤ nu := by positivity
  have hnuS : 0 ≤ nu * S := by positivity
  have h1 : |L - p| ≤ 60 * (nu * S) := by
    have e1 := abs_sub_le L ((series c).eval X) p
    have e2 : 5 / 8 * (c.length : ℝ) ^ 2 * (c.map fun a => |a|).sum * |X - Y| ≤ 5 / 8 * (c.length : ℝ) ^ 2 * S * (16 * (k * u)) :=
      mul_le_mul (mul_le_mul_of_nonneg_left hSc (by positivity)) hX (abs_nonneg _) (by positivity)
    have e3 : 5 / 8 * (c.length : ℝ) ^ 2 * S * (16 * (k * u)) = 10 * (nu * S) := by rw [hnud]; ring
    have e4 := mul_le_mul_of_nonneg_right hnu hS0
    linarith
  have h300 : 400 * nu ≤ 1 := by rw [hnud]; linarith
  have h2 : |L| ≤ 6 / 5 * S := by
    have e1 := abs_add_le (L - p) p
    rw [sub_add_cancel] at e1
    have := mul_le_mul_of_nonneg_right h300 hS0
    linarith
  -- norm
  have hpos : 0 < 2 / (b - a) := by positivity
  have hidiv0 := Kernel.Rel.nonneg hi (by linarith) hpos.le
  have q1 := Kernel.Rel.sqrt hi (by linarith) hpos.le
  have q2 := hrt _ hidiv0
  set N := Real.sqrt (2 / (b - a))
  have hN0 : 0 ≤ N := Real.sqrt_nonneg _
  set R := rt (A.div 2 dx)
  unfold Kernel.Rel at q1
  rw [abs_of_nonneg hN0] at q1
  have hkN : 0 ≤ k * u * N := by positivity
  have hQ : Real.sqrt (A.div 2 dx) ≤ N + 39 / 5 * (k * u) * N := by linarith [(abs_le.1 q1).2]
  have q3 : |R - N| ≤ 9 * (k * u) * N := by
    have e1 := abs_sub_le R (Real.sqrt (A.div 2 dx)) N
    have e2 := mul_le_mul_of_nonneg_left hQ hu0.le
    have e3 := mul_le_mul_of_nonneg_right hu hkN
    have e4 := mul_le_mul_of_nonneg_right huku hN0
    linarith
  have q4 : |R| ≤ 103 / 100 * N := by
    have e1 := abs_add_le (R - N) N
    rw [sub_add_cancel, abs_of_nonneg hN0] at e1
    have := mul_le_mul_of_nonneg_right huk hN0
    linarith
  have hseg : segFun a b c x = p * N := by
    rw [segFun, Poly.legendreSum_eq_series, mul_comm]
  rw [hseg]
  have r1 := hA.mul L R
  have r2 : |L * R| ≤ 6 / 5 * S * (103 / 100 * N) := by
    rw [abs_mul]
    exact mul_le_mul h2 q4 (abs_nonneg _) (by positivity)
  have r3 := mul_le_mul_of_nonneg_left r2 hu0.le
  have r4 : |L * R - p * N| ≤ 60 * (nu * S) * (103 / 100 * N) + S * (9 * (k * u) * N) := by
    have e : L * R - p * N = (L - p) * R + p * (R - N) := by ring
    rw [e]
    refine (abs_add_le _ _).trans (add_le_add ?_ ?_)
    · rw [abs_mul]
      exact mul_le_mul h1 q4 (abs_nonneg _) (by positivity)
    · rw [abs_mul]
      exact mul_le_mul (hval.trans hSc) q3 (abs_nonneg _) hS0
  have r5 := abs_sub_le (A.mul L R) (L * R) (p * N)
  have hSN : 0 ≤ S * N := by positivity
  have r6 : k * u * (S * N) ≤ nu * (S * N) := mul_le_mul_of_nonneg_right hnk hSN
  have r7 : u * (S * N) ≤ nu * (S * N) := mul_le_mul_of_nonneg_right (huku.trans hnk) hSN
  have r8 : 75 * (c.length : ℝ) ^ 2 * k * (u * (c.map fun a => |a|).sum + eta) * N = 75 * (nu * (S * N)) := by
    rw [← hSu, hnud]; ring
  rw [r8]
  have hnuSN : 0 ≤ nu * (S * N) := by positivity
  linarith

end Verif.Legendre
