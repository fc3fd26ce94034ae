import Verif.Lemmas.Poly
import Verif.Lemmas.Fourier
import Verif.Props.C11_Deriv
/-!
# C15 — the stable phase factor equals the naive one
-/

namespace Verif.Props
open Verif Verif.Np Verif.Poly Complex

variable {ι : Type _}

theorem sum_dx_le {p : PPoly ι} (h : p.WF) (i : Fin p.nseg) :
    (∑ j ∈ Finset.univ.filter (· ≤ i), p.dx j) = p.knots i.succ - p.xmin := by
  obtain ⟨k, hk⟩ := i
  induction k with
  | zero =>
    have : (Finset.univ.filter (· ≤ (⟨0, hk⟩ : Fin p.nseg))) = {⟨0, hk⟩} := by
      ext j; simp [Fin.le_def, Fin.ext_iff]
    rw [this, Finset.sum_singleton, h.dx_eq]; rfl
  | succ k ih =>
    have : (Finset.univ.filter (· ≤ (⟨k + 1, hk⟩ : Fin p.nseg))) =
        insert ⟨k + 1, hk⟩ (Finset.univ.filter (· ≤ (⟨k, by omega⟩ : Fin p.nseg))) := by
      ext j; simp [Fin.le_def, Fin.ext_iff]; omega
    rw [this, Finset.sum_insert (by simp [Fin.le_def]), ih, h.dx_eq]
    have : (Fin.castSucc ⟨k + 1, hk⟩ : Fin (p.nseg + 1)) = Fin.succ ⟨k, by omega⟩ := rfl
    rw [this]; ring

theorem sum_dx {p : PPoly ι} (h : p.WF) : (∑ j, p.dx j) = p.xmax - p.xmin := by
  obtain ⟨k, hk⟩ : ∃ k, p.nseg = k + 1 := ⟨p.nseg - 1, by have := h.pos; omega⟩
  have := sum_dx_le h ⟨k, by omega⟩
  rw [Finset.filter_true_of_mem (by intro j _; rw [Fin.le_def]; have := j.2; simp only; omega)] at this
  rw [this]
  congr 2
  ext; simp [hk]

theorem sum_dx_ge {p : PPoly ι} (h : p.WF) (i : Fin p.nseg) :
    (∑ j ∈ Finset.univ.filter (i ≤ ·), p.dx j) = p.xmax - p.knots i.castSucc := by
  have h1 := sum_dx_le h i
  have h2 := sum_dx h
  have h3 : (∑ j ∈ Finset.univ.filter (i ≤ ·), p.dx j) = p.dx i +
      ∑ j ∈ Finset.univ.filter (fun j => ¬ j ≤ i), p.dx j := by
    rw [← Finset.sum_insert (by simp)]
    congr 1
    ext j
    simp only [Finset.mem_filter, Finset.mem_univ, true_and, Finset.mem_insert, not_le]
    rw [le_iff_eq_or_lt, eq_comm]
  have h4 := Finset.sum_filter_add_sum_filter_not Finset.univ (· ≤ i) (fun j => p.dx j)
  rw [h3, h.dx_eq]
  linarith

theorem npRound_mem {x : ℝ} (h1 : -1 < x) (h2 : x < 1) :
    npRound x = -1 ∨ npRound x = 0 ∨ npRound x = 1 := by
  have hf : ⌊x⌋ = -1 ∨ ⌊x⌋ = 0 := by
    have a : -1 ≤ ⌊x⌋ := Int.le_floor.2 (by push_cast; exact h1.le)
    have b : ⌊x⌋ < 1 := Int.floor_lt.2 (by push_cast; exact h2)
    omega
  unfold npRound
  rcases hf with e | e <;> rw [e] <;> split_ifs <;> simp

/-- Midpoint of a segment. -/
noncomputable def segMid (p : PPoly ι) (i : Fin p.nseg) : ℝ :=
  (p.knots i.castSucc + p.knots i.succ) / 2

/-- `_shift_xmid`: never fails, the shift is the rounded midpoint, in `{-1, 0, 1}`, and the
difference is the midpoint minus the shift. -/
theorem C15_shift (p : PPoly ι) (h : p.WF) (hmin : p.xmin = -1) (hmax : p.xmax = 1)
    (i : Fin p.nseg) : ∃ diff : ℝ, ∃ shift : ℤ, p.shiftXmid i = .ok (diff, shift) ∧
      (shift = -1 ∨ shift = 0 ∨ shift = 1) ∧ diff + shift = segMid p i ∧ |diff| ≤ 1 / 2 := by
  have e0 : p.xmid0 i = segMid p i := by
    unfold PPoly.xmid0 segMid; rw [h.dx_eq]; ring
  have em : p.xmidM1 i = segMid p i + 1 := by
    unfold PPoly.xmidM1 segMid; rw [sum_dx_le h, h.dx_eq, hmin]; ring
  have ep : p.xmidP1 i = segMid p i - 1 := by
    unfold PPoly.xmidP1 segMid; rw [sum_dx_ge h, h.dx_eq, hmax]; ring
  have hlt := h.dx_pos i
  rw [h.dx_eq] at hlt
  have hlo : -1 ≤ p.knots i.castSucc := by rw [← hmin]; exact h.mono.monotone (Fin.zero_le _)
  have hhi : p.knots i.succ ≤ 1 := by rw [← hmax]; exact h.mono.monotone (Fin.le_last _)
  have hm1 : -1 < segMid p i := by unfold segMid; linarith
  have hm2 : segMid p i < 1 := by unfold segMid; linarith
  have hround : |segMid p i - npRound (segMid p i)| ≤ 1 / 2 := by
    have hfr := Int.self_sub_floor (segMid p i)
    have hfr0 := Int.fract_nonneg (segMid p i)
    have hfr1 := Int.fract_lt_one (segMid p i)
    unfold npRound
    rw [abs_le]
    split_ifs <;> push_cast <;> constructor <;> linarith
  unfold PPoly.shiftXmid
  rw [e0, em, ep]
  rcases npRound_mem hm1 hm2 with e | e | e <;> rw [e] at hround ⊢
  · refine ⟨segMid p i + 1, -1, rfl, Or.inl rfl, by push_cast; ring, ?_⟩
    push_cast at hround; rwa [sub_neg_eq_add] at hround
  · refine ⟨segMid p i, 0, rfl, Or.inr (Or.inl rfl), by push_cast; ring, ?_⟩
    push_cast at hround; rwa [sub_zero] at hround
  · refine ⟨segMid p i - 1, 1, rfl, Or.inr (Or.inr rfl), by push_cast; ring, ?_⟩
    push_cast at hround; exact hround

theorem I_zpow_eq_exp (n : ℤ) : (I : ℂ) ^ n = exp (I * Real.pi / 2 * n) := by
  have h : exp (I * Real.pi / 2) = I := by
    rw [show I * (Real.pi : ℂ) / 2 = (Real.pi / 2 : ℂ) * I by ring]
    exact exp_pi_div_two_mul_I
  conv_lhs => rw [← h]
  rw [← exp_int_mul]
  congr 1; ring

/-- For every integer frequency the stable phase factor equals `exp(i π/2 n (xmid + 1))`. -/
theorem C15_phase (p : PPoly ι) (h : p.WF) (hmin : p.xmin = -1) (hmax : p.xmax = 1)
    (n : ℤ) (i : Fin p.nseg) :
    p.phaseStable n i = .ok (exp (I * Real.pi / 2 * n * (segMid p i + 1))) := by
  obtain ⟨diff, shift, h1, -, h3, -⟩ := C15_shift p h hmin hmax i
  unfold PPoly.phaseStable
  rw [h1]
  simp only [Fourier.imagPower_eq, I_zpow_eq_exp, ← h3]
  rw [← exp_add]
  congr 2
  push_cast
  ring

/-- The branch for float frequencies (not reachable from `__call__`, which converts to integers)
is off by the phase `exp(i π/2 (n - trunc n))`; it is right exactly for integral `n`, up to full
turns. -/
theorem C15_float_branch (p : PPoly ι) (h : p.WF) (hmin : p.xmin = -1) (hmax : p.xmax = 1)
    (wn : ℝ) (hwn : 0 ≤ wn) (i : Fin p.nseg) :
    p.phaseStableFloat wn i = .ok (exp (I * Real.pi / 2 * wn * (segMid p i + 1)) *
      exp (-(I * Real.pi / 2 * (wn - ⌊wn⌋ : ℝ)))) := by
  obtain ⟨diff, shift, h1, -, h3, -⟩ := C15_shift p h hmin hmax i
  unfold PPoly.phaseStableFloat
  rw [h1]
  simp only [Fourier.imagPower_eq, I_zpow_eq_exp, ← h3, hwn, if_true]
  rw [← exp_add, ← exp_add]
  congr 2
  push_cast
  ring

/- Non-vacuity: the single segment `[-1, 1]`, midpoint 0, frequency 3. -/
example : exPoly.phaseStable 3 (0 : Fin 1) = .ok (exp (I * Real.pi / 2 * 3)) := by
  rw [C15_phase exPoly exPoly_WF rfl rfl 3 (0 : Fin 1)]
  have : segMid exPoly (0 : Fin 1) = 0 := by
    show ((-1 : ℝ) + 1) / 2 = 0
    norm_num
  rw [this]; simp

end Verif.Props
