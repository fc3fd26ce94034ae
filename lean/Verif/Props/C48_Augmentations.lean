import Verif.Model.Augment
import Verif.Spec.Fourier
import Verif.Props.C01_Matsubara
import Mathlib.MeasureTheory.Integral.IntervalIntegral.FundThmCalculus
import Mathlib.Analysis.Calculus.IteratedDeriv.Lemmas
/-!
# C48 — augmentations are normalised Fourier pairs
-/

namespace Verif.Props
open Verif Verif.Augment

/-- The constant of unit norm on `[0, β]`. -/
noncomputable def unitConst (beta : ℝ) : ℝ → ℝ := fun _ => 1 / Real.sqrt beta

/-- The linear function of unit norm that is odd around `β/2` and increasing. -/
noncomputable def unitLinear (beta : ℝ) : ℝ → ℝ := fun t => Real.sqrt (3 / beta) * (2 * t / beta - 1)

/-- `o` evaluates to `f` on `[0, β]` and refuses times outside. -/
def Evaluates (o : TArg → PyM (Option ℝ)) (beta : ℝ) (f : ℝ → ℝ) : Prop :=
  ∀ t : TArg, (0 ≤ t.tau ∧ t.tau ≤ beta → o t = .ok (some (f t.tau))) ∧
    (¬ (0 ≤ t.tau ∧ t.tau ≤ beta) → o t = .error .valueError)

theorem checkRangeR_eq (x lo hi : ℝ) :
    checkRangeR x lo hi = if lo ≤ x ∧ x ≤ hi then .ok x else .error .valueError := by
  unfold checkRangeR
  by_cases h1 : lo ≤ x <;> by_cases h2 : x ≤ hi <;> simp [h1, h2]

/-- Construction: for positive temperature, and only then. -/
theorem C48_create (npc : Bool) (beta : ℝ) :
    ((∃ o, tauConst npc beta = .ok o) ↔ 0 < beta) ∧ ((∃ o, tauLinear beta = .ok o) ↔ 0 < beta) ∧
    ((∃ o, matsubaraConst beta = .ok o) ↔ 0 < beta) := by
  by_cases h : beta ≤ 0
  · simp [tauConst, tauLinear, matsubaraConst, h]
  · simp [tauConst, tauLinear, matsubaraConst, h, not_le.1 h]

theorem C48_const_call (npc : Bool) (beta : ℝ) (o : AugObj) (h : tauConst npc beta = .ok o) :
    Evaluates o.call beta (unitConst beta) := by
  unfold tauConst at h
  split at h
  · cases h
  · cases h
    intro t
    simp only [tauConstCall, checkRangeR_eq]
    constructor <;> intro ht
    · rw [if_pos ht]; rfl
    · rw [if_neg ht]

theorem C48_linear_call (beta : ℝ) (o : AugObj) (h : tauLinear beta = .ok o) :
    Evaluates o.call beta (unitLinear beta) := by
  unfold tauLinear at h
  split at h
  · cases h
  · cases h
    intro t
    simp only [tauLinearCall, checkRangeR_eq]
    constructor <;> intro ht
    · rw [if_pos ht]
      unfold unitLinear
      simp only
      congr 4
      ring
    · rw [if_neg ht]

/-- Unit norm, and orthogonality to each other. -/
theorem C48_norm (beta : ℝ) (hb : 0 < beta) :
    (∫ t in (0 : ℝ)..beta, unitConst beta t ^ 2) = 1 ∧ (∫ t in (0 : ℝ)..beta, unitLinear beta t ^ 2) = 1 ∧
    (∫ t in (0 : ℝ)..beta, unitConst beta t * unitLinear beta t) = 0 ∧
    ∀ t, unitLinear beta (beta - t) = -unitLinear beta t := by
  have hb' := hb.ne'
  refine ⟨?_, ?_, ?_, fun t => ?_⟩
  · unfold unitConst
    rw [intervalIntegral.integral_const, div_pow, Real.sq_sqrt hb.le]
    simp [hb']
  · have : (fun t : ℝ => unitLinear beta t ^ 2) = fun t => 3 / beta * (2 * t / beta - 1) ^ 2 := by
      funext t
      unfold unitLinear
      rw [mul_pow, Real.sq_sqrt (by positivity)]
    rw [this]
    have hd : ∀ t ∈ Set.uIcc (0 : ℝ) beta, HasDerivAt (fun t : ℝ => 1 / 2 * (2 * t / beta - 1) ^ 3)
        (3 / beta * (2 * t / beta - 1) ^ 2) t := by
      intro t _
      have h1 : HasDerivAt (fun t : ℝ => 2 * t / beta - 1) (2 * 1 / beta) t :=
        (((hasDerivAt_id t).const_mul 2).div_const beta).sub_const 1
      have := ((h1.pow 3).const_mul (1 / 2 : ℝ))
      refine HasDerivAt.congr_deriv this ?_
      simp only [Nat.cast_ofNat, Nat.reduceSub, pow_one]
      field_simp
    rw [intervalIntegral.integral_eq_sub_of_hasDerivAt hd (Continuous.intervalIntegrable (by fun_prop) _ _)]
    field_simp
    ring
  · have hd : ∀ t ∈ Set.uIcc (0 : ℝ) beta, HasDerivAt
        (fun t : ℝ => 1 / Real.sqrt beta * Real.sqrt (3 / beta) * (beta / 4) * (2 * t / beta - 1) ^ 2)
        (unitConst beta t * unitLinear beta t) t := by
      intro t _
      have h1 : HasDerivAt (fun t : ℝ => 2 * t / beta - 1) (2 * 1 / beta) t :=
        (((hasDerivAt_id t).const_mul 2).div_const beta).sub_const 1
      have := ((h1.pow 2).const_mul (1 / Real.sqrt beta * Real.sqrt (3 / beta) * (beta / 4)))
      refine HasDerivAt.congr_deriv this ?_
      unfold unitConst unitLinear
      simp only [Nat.cast_ofNat, Nat.reduceSub, pow_one]
      field_simp
      norm_num
    rw [intervalIntegral.integral_eq_sub_of_hasDerivAt hd
      (Continuous.intervalIntegrable (by unfold unitConst unitLinear; fun_prop) _ _)]
    field_simp
    norm_num
  · unfold unitLinear
    field_simp
    ring

/-- Even `n` passes the parity check, odd `n` is refused. -/
theorem even_check (n : ℤ) : Util.checkReducedMatsubara (.ints [n]) (some 0) =
    if Even n then .ok [n] else .error .valueError := by
  by_cases h : Even n
  · rw [if_pos h]
    refine (C01_ints [n] [n] (some 0)).2 ⟨rfl, fun m hm => ?_⟩
    rw [List.mem_singleton.1 hm]
    simpa [HasParity] using Int.even_iff.1 h
  · rw [if_neg h]
    have : ∀ ns, Util.checkReducedMatsubara (.ints [n]) (some 0) ≠ .ok ns := by
      intro ns hns
      have := ((C01_ints [n] ns (some 0)).1 hns).2 n (by simp)
      exact h (Int.even_iff.2 (by simpa [HasParity] using this))
    cases hc : Util.checkReducedMatsubara (.ints [n]) (some 0) with
    | ok ns => exact absurd hc (this ns)
    | error e =>
      unfold Util.checkReducedMatsubara at hc
      simp only at hc
      split at hc
      · cases hc
      · exact hc.symm ▸ rfl

open Complex in
theorem exp_even (n : ℤ) (h : Even n) : exp (I * Real.pi * n) = 1 := by
  obtain ⟨k, rfl⟩ := h
  rw [show I * Real.pi * ((k + k : ℤ) : ℂ) = k * (2 * Real.pi * I) by push_cast; ring]
  exact exp_int_mul_two_pi_mul_I k

open Complex in
/-- Fourier transforms, from the integral. -/
theorem ftTau_unitConst (beta : ℝ) (hb : 0 < beta) (n : ℤ) (hn : Even n) :
    Spec.ftTau beta (unitConst beta) n = if n = 0 then (Real.sqrt beta : ℂ) else 0 := by
  have hb' : (beta : ℂ) ≠ 0 := ofReal_ne_zero.2 hb.ne'
  unfold Spec.ftTau unitConst
  by_cases h0 : n = 0
  · subst h0
    rw [if_pos rfl]
    simp only [Int.cast_zero, mul_zero, zero_mul, zero_div, exp_zero, one_mul]
    rw [intervalIntegral.integral_const]
    rw [sub_zero, Complex.real_smul, ← ofReal_mul]
    congr 1
    rw [mul_one_div, Real.div_sqrt]
  · rw [if_neg h0]
    have hw : I * Real.pi * n / beta ≠ (0 : ℂ) := by
      simp [I_ne_zero, Real.pi_ne_zero, h0, hb']
    have hd : ∀ t ∈ Set.uIcc (0 : ℝ) beta, HasDerivAt
        (fun t : ℝ => exp (I * Real.pi * n * t / beta) / (I * Real.pi * n / beta) * ((1 / Real.sqrt beta : ℝ) : ℂ))
        (exp (I * Real.pi * n * t / beta) * ((1 / Real.sqrt beta : ℝ) : ℂ)) t := by
      intro t _
      have h1 : HasDerivAt (fun t : ℝ => I * Real.pi * n * t / beta) (I * Real.pi * n * 1 / beta) t :=
        ((ofRealCLM.hasDerivAt (x := t)).const_mul (I * Real.pi * n)).div_const (beta : ℂ)
      have := (h1.cexp.div_const (I * Real.pi * n / beta)).mul_const ((1 / Real.sqrt beta : ℝ) : ℂ)
      refine HasDerivAt.congr_deriv this ?_
      rw [mul_one, mul_div_assoc, div_self hw, mul_one]
    rw [intervalIntegral.integral_eq_sub_of_hasDerivAt hd (Continuous.intervalIntegrable (by fun_prop) _ _)]
    have e : I * Real.pi * n * beta / beta = I * Real.pi * n := by field_simp
    rw [e, exp_even n hn]
    simp

open Complex in
theorem ftTau_unitLinear (beta : ℝ) (hb : 0 < beta) (n : ℤ) (hn : Even n) :
    Spec.ftTau beta (unitLinear beta) n =
      if n = 0 then 0 else Real.sqrt (3 / beta) * (2 / (I * (Real.pi * n / beta))) := by
  have hb' : (beta : ℂ) ≠ 0 := ofReal_ne_zero.2 hb.ne'
  unfold Spec.ftTau
  by_cases h0 : n = 0
  · subst h0
    rw [if_pos rfl]
    simp only [Int.cast_zero, mul_zero, zero_mul, zero_div, exp_zero, one_mul]
    rw [intervalIntegral.integral_ofReal]
    have := (C48_norm beta hb).2.2.1
    unfold unitConst at this
    rw [intervalIntegral.integral_const_mul] at this
    have h1 : 1 / Real.sqrt beta ≠ 0 := by positivity
    rw [(mul_eq_zero.1 this).resolve_left h1]
    simp
  · rw [if_neg h0]
    have hw : I * Real.pi * n / beta ≠ (0 : ℂ) := by
      simp [I_ne_zero, Real.pi_ne_zero, h0, hb']
    have hd : ∀ t ∈ Set.uIcc (0 : ℝ) beta, HasDerivAt
        (fun t : ℝ => (Real.sqrt (3 / beta) : ℂ) * (exp (I * Real.pi * n * t / beta) *
          ((2 * t / beta - 1) / (I * Real.pi * n / beta) - 2 / beta / (I * Real.pi * n / beta) ^ 2)))
        (exp (I * Real.pi * n * t / beta) * ((unitLinear beta t : ℝ) : ℂ)) t := by
      intro t _
      have h1 : HasDerivAt (fun t : ℝ => I * Real.pi * n * t / beta) (I * Real.pi * n * 1 / beta) t :=
        ((ofRealCLM.hasDerivAt (x := t)).const_mul (I * Real.pi * n)).div_const (beta : ℂ)
      have h2 : HasDerivAt (fun t : ℝ => (2 * (t : ℂ) / beta - 1)) (2 * 1 / beta) t :=
        (((ofRealCLM.hasDerivAt (x := t)).const_mul (2 : ℂ)).div_const (beta : ℂ)).sub_const 1
      have h3 := (h2.div_const (I * Real.pi * n / beta)).sub_const (2 / beta / (I * Real.pi * n / beta) ^ 2)
      have := (h1.cexp.mul h3).const_mul (Real.sqrt (3 / beta) : ℂ)
      refine HasDerivAt.congr_deriv this ?_
      unfold unitLinear
      push_cast
      rw [mul_one, mul_one]
      field_simp
      ring
    rw [intervalIntegral.integral_eq_sub_of_hasDerivAt hd
      (Continuous.intervalIntegrable (by unfold unitLinear; fun_prop) _ _)]
    have e : I * Real.pi * n * beta / beta = I * Real.pi * n := by field_simp
    have e2 : (2 * (beta : ℂ) / beta - 1) = 1 := by field_simp; norm_num
    rw [e, exp_even n hn, e2]
    simp only [ofReal_zero, mul_zero, zero_div, exp_zero, one_mul, zero_sub]
    have e3 : I * (Real.pi * n / beta) = (I * Real.pi * n / beta : ℂ) := by ring
    rw [e3]
    ring

/-- `TauConst.hat` is the Fourier integral of `TauConst`, on even frequencies; odd ones are refused.  Needs a numpy
that still has `np.complex`. -/
theorem C48_const_hat_partial (beta : ℝ) (o : AugObj) (h : tauConst true beta = .ok o) (a : MArg) :
    (Even a.n → o.hat a = .ok (Spec.ftTau beta (unitConst beta) a.n)) ∧ (¬ Even a.n → o.hat a = .error .valueError) := by
  unfold tauConst at h
  split at h
  · cases h
  · rename_i hb
    cases h
    simp only [even_check]
    constructor <;> intro hn
    · rw [if_pos hn, ftTau_unitConst beta (not_le.1 hb) a.n hn]
      simp
    · rw [if_neg hn]

/-- With numpy 1.24 or later every valid call of `TauConst.hat` raises AttributeError. -/
theorem C48_const_hat_broken (beta : ℝ) (o : AugObj) (h : tauConst false beta = .ok o) (a : MArg) (hn : Even a.n) :
    o.hat a = .error .attributeError := by
  unfold tauConst at h
  split at h
  · cases h
  · cases h
    simp only [even_check]
    rw [if_pos hn]
    rfl

/-- `TauLinear.hat` is the Fourier integral of `TauLinear`, on arrays of even frequencies; odd ones are refused. -/
theorem C48_linear_hat_partial (beta : ℝ) (o : AugObj) (h : tauLinear beta = .ok o) (a : MArg) (hs : a.scalar = false) :
    (Even a.n → o.hat a = .ok (Spec.ftTau beta (unitLinear beta) a.n)) ∧ (¬ Even a.n → o.hat a = .error .valueError) := by
  unfold tauLinear at h
  split at h
  · cases h
  · rename_i hb
    cases h
    simp only [even_check, hs]
    constructor <;> intro hn
    · rw [if_pos hn, ftTau_unitLinear beta (not_le.1 hb) a.n hn]
      by_cases h0 : a.n = 0
      · simp [h0]
      · simp only [h0, ne_eq, not_false_eq_true, if_true, if_false, Bool.false_eq_true]
        congr 1
        push_cast
        ring
    · rw [if_neg hn]

/-- For a single frequency (zero-dimensional `n`) it raises TypeError. -/
theorem C48_linear_hat_scalar (beta : ℝ) (o : AugObj) (h : tauLinear beta = .ok o) (a : MArg) (hs : a.scalar = true)
    (hn : Even a.n) : o.hat a = .error .typeError := by
  unfold tauLinear at h
  split at h
  · cases h
  · cases h
    simp only [even_check, hs]
    rw [if_pos hn]
    rfl

/-- The claim about `hat`, for one kind of argument. -/
def HatIsFourier (o : AugObj) (beta : ℝ) (f : ℝ → ℝ) : Prop :=
  ∀ a : MArg, Even a.n → o.hat a = .ok (Spec.ftTau beta f a.n)

/-- The claim is false in general: at `n = 0` given as a number for `TauLinear`, and for `TauConst` with a
current numpy. -/
theorem C48_hat_negation : (∃ beta o, tauLinear beta = .ok o ∧ ¬ HatIsFourier o beta (unitLinear beta)) ∧
    ∃ beta o, tauConst false beta = .ok o ∧ ¬ HatIsFourier o beta (unitConst beta) := by
  constructor
  · obtain ⟨o, ho⟩ := (C48_create true 1).2.1.2 one_pos
    refine ⟨1, o, ho, fun H => ?_⟩
    have := (H ⟨0, true⟩ (by simp)).symm.trans (C48_linear_hat_scalar 1 o ho ⟨0, true⟩ rfl (by simp))
    cases this
  · obtain ⟨o, ho⟩ := (C48_create false 1).1.2 one_pos
    refine ⟨1, o, ho, fun H => ?_⟩
    have := (H ⟨0, true⟩ (by simp)).symm.trans (C48_const_hat_broken 1 o ho ⟨0, true⟩ (by simp))
    cases this

/-- `deriv(n)` of `TauConst` is the `n`-th derivative. -/
theorem C48_const_deriv (npc : Bool) (beta : ℝ) (o : AugObj) (h : tauConst npc beta = .ok o) (n : ℕ) (t : TArg)
    (ht : 0 ≤ t.tau ∧ t.tau ≤ beta) : o.deriv n t = .ok (some (iteratedDeriv n (unitConst beta) t.tau)) := by
  have hc := C48_const_call npc beta o h
  unfold tauConst at h
  split at h
  · cases h
  · cases h
    cases n with
    | zero => simpa using (hc t).1 ht
    | succ n =>
      simp only [Nat.add_eq_zero_iff, one_ne_zero, and_false, if_false]
      unfold unitConst
      rw [iteratedDeriv_const]
      simp

theorem iteratedDeriv_unitLinear (beta : ℝ) (n : ℕ) (t : ℝ) :
    iteratedDeriv n (unitLinear beta) t =
      if n = 0 then unitLinear beta t else if n = 1 then Real.sqrt (3 / beta) * (2 / beta) else 0 := by
  have h1 : deriv (unitLinear beta) = fun _ => Real.sqrt (3 / beta) * (2 / beta) := by
    funext t
    have : HasDerivAt (unitLinear beta) (Real.sqrt (3 / beta) * (2 * 1 / beta)) t :=
      ((((hasDerivAt_id t).const_mul 2).div_const beta).sub_const 1).const_mul _
    rw [this.deriv]
    ring
  rcases n with _ | _ | n
  · simp
  · simp [h1]
  · rw [iteratedDeriv_succ', h1, iteratedDeriv_const]
    simp

/-- `deriv(n)` of `TauLinear` is the `n`-th derivative, if times are given as floats (missing: integer times, for
which the first derivative is rounded towards zero). -/
theorem C48_linear_deriv_partial (beta : ℝ) (o : AugObj) (h : tauLinear beta = .ok o) (n : ℕ) (t : TArg)
    (ht : 0 ≤ t.tau ∧ t.tau ≤ beta) (hf : t.isInt = false) :
    o.deriv n t = .ok (some (iteratedDeriv n (unitLinear beta) t.tau)) := by
  have hc := C48_linear_call beta o h
  rw [iteratedDeriv_unitLinear]
  unfold tauLinear at h
  split at h
  · cases h
  · cases h
    rcases n with _ | _ | n
    · simpa using (hc t).1 ht
    · simp [hf]
      ring
    · simp

/-- With times `[0, 1, 2, 3]` of integer dtype and `beta = 3` the first derivative `2/3` is returned as zero. -/
theorem C48_linear_deriv_negation : ∃ (beta : ℝ) (o : AugObj) (t : TArg), tauLinear beta = .ok o ∧ 0 ≤ t.tau ∧
    t.tau ≤ beta ∧ o.deriv 1 t = .ok (some 0) ∧ iteratedDeriv 1 (unitLinear beta) t.tau = 2 / 3 := by
  obtain ⟨o, ho⟩ := (C48_create true 3).2.1.2 (by norm_num)
  refine ⟨3, o, ⟨1, true⟩, ho, by norm_num, by norm_num, ?_, ?_⟩
  · unfold tauLinear at ho
    rw [if_neg (by norm_num)] at ho
    cases ho
    simp only [one_ne_zero, if_false, if_true]
    unfold truncR
    rw [div_self (by norm_num), Real.sqrt_one, if_pos (by norm_num)]
    have : ⌊(1 * 2 / 3 : ℝ)⌋ = 0 := by rw [Int.floor_eq_iff]; norm_num
    rw [this]
    simp
  · rw [iteratedDeriv_unitLinear]
    simp

/-- As augmentation classes, `TauConst` and `TauLinear` are accepted for bosonic bases and refused for all others. -/
theorem C48_bosonic_only (npc : Bool) (stat : String) (beta : ℝ) (hb : 0 < beta) :
    (stat = "B" → ∃ o1 o2, factory stat beta [TauConst npc, TauLinear] = .ok [o1, o2] ∧
      tauConst npc beta = .ok o1 ∧ tauLinear beta = .ok o2) ∧
    (stat ≠ "B" → factory stat beta [TauConst npc] = .error .valueError ∧
      factory stat beta [TauLinear] = .error .valueError) := by
  obtain ⟨h1, h2, -⟩ := C48_create npc beta
  obtain ⟨o1, h1⟩ := h1.2 hb
  obtain ⟨o2, h2⟩ := h2.2 hb
  constructor
  · rintro rfl
    refine ⟨o1, o2, ?_, h1, h2⟩
    simp [factory, TauConst, TauLinear, checkBosonic, h1, h2, Except.map]
  · intro hs
    constructor
    · simp only [factory, TauConst, checkBosonic, if_neg hs, ite_self]
    · simp only [factory, TauLinear, checkBosonic, if_neg hs, ite_self]

/-- The class `MatsubaraConst` is accepted for both; its transform is one everywhere and its values are NaN. -/
theorem C48_matsubara (stat : String) (beta : ℝ) (hb : 0 < beta) :
    ∃ o, factory stat beta [MatsubaraConst] = .ok [o] ∧ o.isMatsubaraConst = true ∧ (∀ a, o.hat a = .ok 1) ∧
      ∀ t, 0 ≤ t.tau ∧ t.tau ≤ beta → o.call t = .ok none := by
  obtain ⟨o, ho⟩ := (C48_create true beta).2.2.2 hb
  refine ⟨o, by simp [factory, MatsubaraConst, ho, Except.map], ?_⟩
  unfold matsubaraConst at ho
  simp only at ho
  rw [if_neg (not_le.2 hb)] at ho
  cases ho
  refine ⟨rfl, fun a => rfl, fun t ht => ?_⟩
  simp only [checkRangeR_eq, if_pos ht]

/-- The check of `beta` in the constructors lets NaN pass. -/
theorem C48_beta_nan : checkBeta .nan = .ok () ∧ checkBeta (.fin (-1)) = .error .valueError ∧
    checkBeta (.fin 0) = .error .valueError := by decide

/-- A concrete case. -/
example : ∃ o, tauLinear 3 = .ok o ∧ o.hat ⟨2, false⟩ = .ok (Spec.ftTau 3 (unitLinear 3) 2) ∧
    o.call ⟨3, true⟩ = .ok (some 1) := by
  obtain ⟨o, ho⟩ := (C48_create true 3).2.1.2 (by norm_num)
  refine ⟨o, ho, (C48_linear_hat_partial 3 o ho ⟨2, false⟩ rfl).1 even_two, ?_⟩
  rw [(C48_linear_call 3 o ho ⟨3, true⟩).1 (by norm_num)]
  unfold unitLinear
  norm_num

end Verif.Props
