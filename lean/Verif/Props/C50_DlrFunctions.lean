import Verif.Model.Dlr
import Verif.Spec.Fourier
import Verif.Props.C30_Kernels
import Mathlib.Analysis.SpecialFunctions.Integrals.Basic
/-!
# C50 — DLR basis functions are Fourier pairs
-/

namespace Verif.Props
open Verif Verif.Dlr Verif.Spec

/-- Specification: `-e^{-τω}/(1 + e^{-βω})`, (minus) the kernel at a pole at `ω`. -/
noncomputable def poleTau (beta w t : ℝ) : ℝ := -(Real.exp (-t * w) / (1 + Real.exp (-beta * w)))

/-- The maximum modulus of a non-empty list of poles. -/
theorem tauPoles_ok (stat : String) (beta : ℝ) (poles : List ℝ) (hp : poles ≠ []) :
    ∃ p, tauPoles stat beta poles = .ok p ∧ p.beta = beta ∧ p.poles = poles ∧ p.statistics = stat ∧
      (∀ w ∈ poles, |w| ≤ p.wmax) ∧ ∃ w ∈ poles, |w| = p.wmax := by
  unfold tauPoles
  cases h : (poles.map fun w => |w|).max? with
  | none => simp at h; exact absurd h hp
  | some wm =>
    rw [List.max?_eq_some_iff] at h
    refine ⟨_, rfl, rfl, rfl, rfl, fun w hw => h.2 _ (List.mem_map_of_mem hw), ?_⟩
    obtain ⟨w, hw, e⟩ := List.mem_map.1 h.1
    exact ⟨w, hw, e⟩

/-- For every list of poles that are not all zero, and all times in `[0, β]`, the functions are those of the
specification, in which the normalisation of the poles does not occur.  (Missing for the full claim: all poles
zero, see `C50_tau_negation`.) -/
theorem C50_tau_partial (stat : String) (beta : ℝ) (hb : 0 < beta) (poles : List ℝ) (hp : ∃ w ∈ poles, w ≠ 0) {t : ℕ}
    (tau : Fin t → ℝ) (ht : ∀ i, 0 ≤ tau i ∧ tau i ≤ beta) :
    ∃ p, ∃ h : p.poles = poles, tauPoles stat beta poles = .ok p ∧
      p.call tau = .ok fun i j => poleTau beta (poles.get (Fin.cast (congrArg List.length h) i)) (tau j) := by
  obtain ⟨w0, hw0, hne⟩ := hp
  obtain ⟨p, h1, rfl, rfl, -, hmax, -⟩ := tauPoles_ok stat beta poles (List.ne_nil_of_mem hw0)
  refine ⟨p, rfl, h1, ?_⟩
  have hw : 0 < p.wmax := lt_of_lt_of_le (abs_pos.2 hne) (hmax w0 hw0)
  have hin : InSquare (p.args tau) := by
    intro i
    have hx : 0 ≤ tau i.1 / p.beta ∧ tau i.1 / p.beta ≤ 1 :=
      ⟨div_nonneg (ht i.1).1 hb.le, (div_le_one hb).2 (ht i.1).2⟩
    have hy := abs_le.1 (hmax _ (List.get_mem p.poles i.2))
    simp only [TauPoles.args, mul_div_assoc]
    refine ⟨by linarith, by linarith, ?_, ?_⟩
    · rw [le_div_iff₀ hw]; linarith
    · rw [div_le_iff₀ hw]; linarith
  have hcall := C30_logistic (p.beta * p.wmax) (p.args tau) hin ⟨by simp [TauPoles.args], by simp [TauPoles.args]⟩
  unfold TauPoles.call
  rw [if_neg, if_neg (by simp [hw.ne', hb.ne']), hcall]
  · refine congrArg Except.ok ?_
    funext i j
    have e1 : -(p.beta * p.wmax) * (p.poles.get i / p.wmax) = -p.beta * p.poles.get i := by field_simp
    have e2 : -p.beta * p.poles.get i * (2 * tau j / p.beta - 1 + 1) / 2 = -tau j * p.poles.get i := by
      field_simp; ring
    show -(logisticK (p.beta * p.wmax) (2 * tau j / p.beta - 1) (p.poles.get i / p.wmax)) = poleTau p.beta (p.poles.get i) (tau j)
    unfold poleTau logisticK
    rw [e1, e2]
  · rintro (⟨i, hi⟩ | ⟨i, hi⟩)
    · exact absurd (ht i).1 (not_le.2 hi)
    · exact absurd (ht i).2 (not_le.2 hi)

/-- A time outside `[0, β]` raises RuntimeError. -/
theorem C50_tau_range (p : TauPoles) {t : ℕ} (tau : Fin t → ℝ) (h : ∃ i, tau i < 0 ∨ p.beta < tau i) :
    p.call tau = .error .runtimeError := by
  obtain ⟨i, hi⟩ := h
  unfold TauPoles.call
  rw [if_pos]
  exact hi.imp (fun h => ⟨i, h⟩) fun h => ⟨i, h⟩

/-- The claim fails if all poles are zero: the call raises ValueError (0/0 in the normalisation) although the function
is the constant -1/2. -/
theorem C50_tau_negation (stat : String) (beta : ℝ) (hb : 0 < beta) (poles : List ℝ) (hne : poles ≠ [])
    (hp : ∀ w ∈ poles, w = 0) {t : ℕ} (tau : Fin t → ℝ) (ht : ∀ i, 0 ≤ tau i ∧ tau i ≤ beta) :
    (∃ p, tauPoles stat beta poles = .ok p ∧ p.call tau = .error .valueError) ∧
      ∀ w ∈ poles, ∀ x, poleTau beta w x = -1 / 2 := by
  refine ⟨?_, fun w hw x => by rw [hp w hw]; norm_num [poleTau]⟩
  obtain ⟨p, h1, rfl, rfl, -, -, w, hw, e⟩ := tauPoles_ok stat beta poles hne
  refine ⟨p, h1, ?_⟩
  unfold TauPoles.call
  rw [if_neg, if_pos (Or.inl (by rw [← e, hp w hw, abs_zero]))]
  rintro (⟨i, hi⟩ | ⟨i, hi⟩)
  · exact absurd (ht i).1 (not_le.2 hi)
  · exact absurd (ht i).2 (not_le.2 hi)

/-- No poles at all: the constructor raises ValueError. -/
theorem C50_no_poles (stat : String) (beta : ℝ) : tauPoles stat beta [] = .error .valueError := rfl

/-- Fourier transform of a pole away from the singularity. -/
theorem ftTau_pole (beta : ℝ) (hb : 0 < beta) (w : ℝ) (n : ℤ)
    (hc : Complex.I * n * Real.pi / beta - w ≠ 0) :
    ftTau beta (poleTau beta w) n =
      -((Complex.exp (Complex.I * Real.pi * n) * Real.exp (-beta * w) - 1) / (Complex.I * n * Real.pi / beta - w)
        / (1 + Real.exp (-beta * w) : ℝ)) := by
  have hbc : (beta : ℂ) ≠ 0 := by exact_mod_cast hb.ne'
  unfold ftTau
  have e : ∀ x : ℝ, Complex.exp (Complex.I * Real.pi * n * x / beta) * (poleTau beta w x : ℂ) =
      (-1 / (1 + Real.exp (-beta * w) : ℝ)) * Complex.exp ((Complex.I * n * Real.pi / beta - w) * x) := by
    intro x
    have : (Complex.I * n * Real.pi / beta - w) * x = Complex.I * Real.pi * n * x / beta + ((-x * w : ℝ) : ℂ) := by
      push_cast; ring
    rw [this, Complex.exp_add, ← Complex.ofReal_exp]
    unfold poleTau
    push_cast
    ring
  simp_rw [e]
  rw [intervalIntegral.integral_const_mul, integral_exp_mul_complex hc]
  have e2 : (Complex.I * n * Real.pi / beta - w) * (beta : ℂ) = Complex.I * Real.pi * n + ((-beta * w : ℝ) : ℂ) := by
    push_cast; field_simp; ring
  rw [e2, Complex.exp_add, ← Complex.ofReal_exp]
  simp only [Complex.ofReal_zero, mul_zero, Complex.exp_zero]
  ring

theorem exp_pi_even {n : ℤ} (h : Even n) : Complex.exp (Complex.I * Real.pi * n) = 1 := by
  obtain ⟨k, rfl⟩ := h
  rw [Complex.exp_eq_one_iff]
  exact ⟨k, by push_cast; ring⟩

theorem exp_pi_odd {n : ℤ} (h : Odd n) : Complex.exp (Complex.I * Real.pi * n) = -1 := by
  obtain ⟨k, rfl⟩ := h
  have : Complex.I * Real.pi * ((2 * k + 1 : ℤ) : ℂ) = Complex.I * Real.pi * ((k + k : ℤ) : ℂ) + Real.pi * Complex.I := by
    push_cast; ring
  rw [this, Complex.exp_add, exp_pi_even ⟨k, rfl⟩, Complex.exp_pi_mul_I, one_mul]

theorem denom_ne (beta : ℝ) (hb : 0 < beta) (w : ℝ) (n : ℤ) (h : n ≠ 0 ∨ w ≠ 0) :
    Complex.I * n * Real.pi / beta - w ≠ 0 := by
  intro h0
  have e : Complex.I * n * Real.pi / beta - w = ⟨-w, n * Real.pi / beta⟩ := by
    apply Complex.ext <;> simp [Complex.div_re, Complex.div_im, Complex.normSq, hb.ne'] <;> field_simp
  rw [e, Complex.ext_iff] at h0
  simp only [Complex.zero_re, Complex.zero_im, neg_eq_zero] at h0
  rcases h with h | h
  · have : (n : ℝ) * Real.pi / beta ≠ 0 :=
      div_ne_zero (mul_ne_zero (by exact_mod_cast h) Real.pi_ne_zero) hb.ne'
    exact this h0.2
  · exact h h0.1

/-- Fermions: at every odd frequency and every pole, `uhat` is the Fourier transform of `u`. -/
theorem C50_fermion (p : MatsubaraPoles) (hs : p.statistics = "F") (hb : 0 < p.beta) {t : ℕ} (n : Fin t → ℤ)
    (hn : ∀ j, Odd (n j)) (i : Fin p.poles.length) (j : Fin t) :
    p.call n i j = some (ftTau p.beta (poleTau p.beta (p.poles.get i)) (n j)) ∧
      p.call n i j = some (1 / (Complex.I * n j * Real.pi / p.beta - p.poles.get i)) := by
  have hc := denom_ne p.beta hb (p.poles.get i) (n j) (Or.inl fun h => by have := hn j; rw [h] at this; exact absurd this (by decide))
  have hval : p.call n i j = some (1 / (Complex.I * n j * Real.pi / p.beta - p.poles.get i)) := by
    simp only [MatsubaraPoles.call, hs, if_true, divC, if_neg hc]
  refine ⟨?_, hval⟩
  rw [hval, ftTau_pole p.beta hb _ _ hc, exp_pi_odd (hn j)]
  have h1 : ((1 + Real.exp (-p.beta * p.poles.get i) : ℝ) : ℂ) ≠ 0 := by
    exact_mod_cast (by positivity : (0 : ℝ) < 1 + Real.exp (-p.beta * p.poles.get i)).ne'
  congr 1
  rw [eq_comm, div_div, ← neg_div, div_eq_div_iff (mul_ne_zero hc h1) hc]
  push_cast
  ring

theorem tanh_half (x : ℝ) : Real.tanh (x / 2) = (1 - Real.exp (-x)) / (1 + Real.exp (-x)) := by
  have h : Real.exp (-x) = Real.exp (-(x / 2)) * Real.exp (-(x / 2)) := by rw [← Real.exp_add]; ring_nf
  have hm : Real.exp (x / 2) * Real.exp (-(x / 2)) = 1 := by rw [← Real.exp_add]; simp
  rw [Real.tanh_eq_sinh_div_cosh, Real.sinh_eq, Real.cosh_eq, h, div_eq_div_iff (by positivity) (by positivity)]
  linear_combination Real.exp (-(x / 2)) * hm

/-- Bosons: at every even frequency, `uhat` is the Fourier transform of `u`, except for a pole at zero and frequency
zero.  (Missing for the full claim: that point, see `C50_boson_negation`.) -/
theorem C50_boson_partial (p : MatsubaraPoles) (hs : p.statistics ≠ "F") (hb : 0 < p.beta) {t : ℕ} (n : Fin t → ℤ)
    (hn : ∀ j, Even (n j)) (i : Fin p.poles.length) (j : Fin t) (h0 : n j ≠ 0 ∨ p.poles.get i ≠ 0) :
    p.call n i j = some (ftTau p.beta (poleTau p.beta (p.poles.get i)) (n j)) ∧
      p.call n i j = some (Real.tanh (p.beta * p.poles.get i / 2) /
        (Complex.I * n j * Real.pi / p.beta - p.poles.get i)) := by
  have hc := denom_ne p.beta hb (p.poles.get i) (n j) h0
  have hval : p.call n i j = some (Real.tanh (p.beta * p.poles.get i / 2) /
      (Complex.I * n j * Real.pi / p.beta - p.poles.get i)) := by
    have e : (0.5 : ℝ) * p.beta * p.poles.get i = p.beta * p.poles.get i / 2 := by ring
    simp only [MatsubaraPoles.call, if_neg hs, divC, if_neg hc, e]
  refine ⟨?_, hval⟩
  rw [hval, ftTau_pole p.beta hb _ _ hc, exp_pi_even (hn j), tanh_half, ← neg_mul]
  have h1 : ((1 + Real.exp (-p.beta * p.poles.get i) : ℝ) : ℂ) ≠ 0 := by
    exact_mod_cast (by positivity : (0 : ℝ) < 1 + Real.exp (-p.beta * p.poles.get i)).ne'
  congr 1
  rw [Complex.ofReal_div, div_div, div_div, ← neg_div, div_eq_div_iff (mul_ne_zero h1 hc) (mul_ne_zero hc h1)]
  push_cast
  ring

/-- The claim fails at a bosonic pole at zero and frequency zero: the result is not finite, whereas the Fourier
transform is `-β/2`. -/
theorem C50_boson_negation (p : MatsubaraPoles) (hb : 0 < p.beta) {t : ℕ} (n : Fin t → ℤ)
    (i : Fin p.poles.length) (j : Fin t) (hn : n j = 0) (hw : p.poles.get i = 0) :
    p.call n i j = none ∧ ftTau p.beta (poleTau p.beta (p.poles.get i)) (n j) = -(p.beta / 2 : ℝ) := by
  refine ⟨?_, ?_⟩
  · simp only [MatsubaraPoles.call, divC, hn, hw]
    simp
  · rw [hn, hw]
    unfold ftTau poleTau
    simp only [Int.cast_zero, mul_zero, zero_mul, zero_div, Complex.exp_zero, one_mul, Real.exp_zero]
    rw [intervalIntegral.integral_const]
    norm_num
    ring

/-- Example: poles -1, 0 and 2 at beta = 3, evaluated at both ends and in the middle. -/
example : ∃ p, ∃ h : p.poles = [-1, 0, 2], tauPoles "F" 3 [-1, 0, 2] = .ok p ∧
    p.call ![0, 1.5, 3] = .ok fun i j => poleTau 3 (([-1, 0, 2] : List ℝ).get (Fin.cast (congrArg List.length h) i))
      ((![0, 1.5, 3] : Fin 3 → ℝ) j) :=
  C50_tau_partial "F" 3 (by norm_num) [-1, 0, 2] ⟨2, by simp, by norm_num⟩ _
    (by intro i; fin_cases i <;> norm_num)

/-- Example: the bosonic negation has a witness next to a pole where the claim holds. -/
example : (MatsubaraPoles.mk "B" 1 [0, 1]).call ![(0 : ℤ)] 0 0 = none :=
  (C50_boson_negation ⟨"B", 1, [0, 1]⟩ (by norm_num) _ 0 0 rfl rfl).1

end Verif.Props
