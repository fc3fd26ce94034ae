import Verif.Model.Kernel
import Verif.Spec.Kernel
import Mathlib.Analysis.Calculus.Deriv.Slope
import Mathlib.Tactic.Linarith
import Mathlib.Tactic.FieldSimp
import Mathlib.Tactic.Positivity
/-!
# C30, C31: the kernels equal their defining formulas
-/

namespace Verif.Props
open Verif Verif.Kernel Verif.Spec Real

variable {ι : Type}

/-- All points lie in the square. -/
def InSquare (a : Args ι) : Prop := ∀ i, -1 ≤ a.x i ∧ a.x i ≤ 1 ∧ -1 ≤ a.y i ∧ a.y i ≤ 1

/-- Explicitly given `x_plus`, `x_minus` are what they are documented to be. -/
def EdgesOk (a : Args ι) : Prop :=
  (∀ p, a.xPlus = some p → ∀ i, p i = a.x i + 1) ∧ (∀ p, a.xMinus = some p → ∀ i, p i = 1 - a.x i)

theorem uv_eq {a : Args ι} (h : EdgesOk a) (lam : ℝ) (i : ι) :
    a.uv lam i = ((1 + a.x i) / 2, (1 - a.x i) / 2, lam * a.y i) := by
  obtain ⟨h1, h2⟩ := h
  unfold Args.uv computeUV
  refine Prod.ext ?_ (Prod.ext ?_ rfl)
  · cases hp : a.xPlus with
    | none => simp; ring
    | some p => simp [h1 p hp i]; ring
  · cases hp : a.xMinus with
    | none => simp; ring
    | some p => simp [h2 p hp i]; ring

theorem check_ok {a : Args ι} (h : InSquare a) : checkDomainR (-1, 1) (-1, 1) a.x a.y = .ok () := by
  unfold checkDomainR
  rw [if_neg, if_neg]
  · push Not; exact ⟨fun i => (h i).2.2.1, fun i => (h i).2.2.2⟩
  · push Not; exact ⟨fun i => (h i).1, fun i => (h i).2.1⟩

theorem logisticCompute_eq (lam x y : ℝ) :
    logisticCompute exp ((1 + x) / 2) ((1 - x) / 2) (lam * y) = logisticK lam x y := by
  unfold logisticCompute logisticK
  simp only
  split
  · rename_i h
    rw [abs_of_pos h]
    congr 2 <;> ring_nf
  · rename_i h
    push Not at h
    rw [abs_of_nonpos h]
    rw [div_eq_div_iff (by positivity) (by positivity), mul_add, mul_add, mul_one, mul_one, ← exp_add, ← exp_add,
      add_comm]
    congr 2 <;> ring

/-- Outside the square the call raises ValueError. -/
theorem C30_domain (lam : ℝ) (a : Args ι) (h : ¬ InSquare a) :
    (logistic lam).call a = .error .valueError ∧ (bose lam).call a = .error .valueError := by
  have : checkDomainR (-1, 1) (-1, 1) a.x a.y = .error .valueError := by
    unfold checkDomainR
    by_cases h1 : (∀ i, a.x i ≥ -1) ∧ (∀ i, a.x i ≤ 1)
    · by_cases h2 : (∀ i, a.y i ≥ -1) ∧ (∀ i, a.y i ≤ 1)
      · exact absurd (fun i => ⟨h1.1 i, h1.2 i, h2.1 i, h2.2 i⟩) h
      · rw [if_neg (not_not.2 h1), if_pos h2]
    · rw [if_pos h1]
  constructor
  · simp [logistic, logisticWith, this]
  · simp [bose, boseWith, this]

/-- `LogisticKernel(Λ)(x, y)` is the defining formula at every point of the square, with or without
explicitly given distances to the edges. -/
theorem C30_logistic (lam : ℝ) (a : Args ι) (hs : InSquare a) (he : EdgesOk a) :
    (logistic lam).call a = .ok fun i => logisticK lam (a.x i) (a.y i) := by
  simp only [logistic, logisticWith, check_ok hs]
  congr 1
  funext i
  rw [uv_eq he]
  exact logisticCompute_eq _ _ _

/-- Centrosymmetry and range. -/
theorem C30_properties (lam x y : ℝ) :
    logisticK lam (-x) (-y) = logisticK lam x y ∧
    (0 ≤ lam → -1 ≤ x → x ≤ 1 → 0 < logisticK lam x y ∧ logisticK lam x y < 1) := by
  have hsym : ∀ x y, logisticK lam (-x) (-y) = logisticK lam x y := by
    intro x y
    unfold logisticK
    rw [div_eq_div_iff (by positivity) (by positivity), mul_one_add, mul_one_add, ← exp_add, ← exp_add,
      add_comm]
    congr 2 <;> ring
  refine ⟨hsym x y, ?_⟩
  have key : ∀ x y, -1 ≤ x → 0 ≤ lam * y → 0 < logisticK lam x y ∧ logisticK lam x y < 1 := by
    intro x y hx hy
    unfold logisticK
    refine ⟨by positivity, ?_⟩
    rw [div_lt_one (by positivity)]
    have h1 : exp (-lam * y * (x + 1) / 2) ≤ 1 := by
      rw [exp_le_one_iff]
      have : 0 ≤ lam * y * (x + 1) := mul_nonneg hy (by linarith)
      linarith
    have h2 := exp_pos (-lam * y)
    linarith
  intro hl hx1 hx2
  rcases le_total 0 y with hy | hy
  · exact key x y hx1 (mul_nonneg hl hy)
  · rw [← hsym x y]
    exact key (-x) (-y) (by linarith) (mul_nonneg hl (by linarith))

/-- No overflow: only exponentials of non-positive numbers are evaluated.  Replacing `exp` by any function
that agrees with it on the non-positive numbers does not change the result. -/
theorem C30_no_overflow (lam : ℝ) (exp' : ℝ → ℝ) (h : ∀ t ≤ 0, exp' t = exp t) (a : Args ι)
    (hs : InSquare a) (he : EdgesOk a) :
    (logisticWith exp' lam).call a = (logistic lam).call a := by
  simp only [logistic, logisticWith, check_ok hs]
  congr 1
  funext i
  rw [uv_eq he]
  unfold logisticCompute
  have hx := hs i
  simp only
  rw [h, h (-|lam * a.y i|)]
  · have := abs_nonneg (lam * a.y i); linarith
  · have h1 := abs_nonneg (lam * a.y i)
    split
    · have : 0 ≤ |lam * a.y i| * ((1 + a.x i) / 2) := mul_nonneg h1 (by linarith [hx.1])
      linarith
    · have : 0 ≤ |lam * a.y i| * ((1 - a.x i) / 2) := mul_nonneg h1 (by linarith [hx.2.1])
      linarith

/-- Some points in the square, with `x_plus` given. -/
noncomputable def sampleArgs : Args (Fin 2) :=
  ⟨![-1, 0.5], ![1, -0.25], some ![0, 1.5], none, false, false⟩

theorem sampleArgs_ok : InSquare sampleArgs ∧ EdgesOk sampleArgs := by
  constructor
  · intro i; fin_cases i <;> norm_num [sampleArgs]
  · constructor
    · rintro p hp i
      cases hp
      fin_cases i <;> norm_num [sampleArgs]
    · rintro p hp; cases hp

example : (logistic 10).call sampleArgs = .ok fun i => logisticK 10 (sampleArgs.x i) (sampleArgs.y i) :=
  C30_logistic _ _ sampleArgs_ok.1 sampleArgs_ok.2

/-! ### Regularised Bose kernel -/

theorem exp_sub_one_ne {v : ℝ} (hv : v ≠ 0) : exp v - 1 ≠ 0 := by
  intro h0
  exact hv ((exp_eq_one_iff v).1 (by linarith))

theorem boseK_eq {lam x y : ℝ} (hl : lam ≠ 0) (hy : y ≠ 0) :
    boseK lam x y = -1 / lam * exp (-|lam * y| * (if lam * y ≥ 0 then (1 + x) / 2 else (1 - x) / 2)) *
      (|lam * y| / (exp (-|lam * y|) - 1)) := by
  have hne : lam * y ≠ 0 := mul_ne_zero hl hy
  have hne' : -lam * y ≠ 0 := by simpa using hne
  have h2 : 1 - exp (-lam * y) ≠ 0 := by
    intro h0
    exact exp_sub_one_ne hne' (by linarith)
  unfold boseK
  split
  · rename_i h
    have h1 := exp_sub_one_ne hne'
    rw [abs_of_nonneg h, show -(lam * y) = -lam * y by ring]
    rw [show -lam * y * ((1 + x) / 2) = -lam * y * (x + 1) / 2 by ring]
    rw [show 1 - exp (-lam * y) = -(exp (-lam * y) - 1) by ring]
    field_simp
  · rename_i h
    push Not at h
    rw [abs_of_neg h, neg_neg]
    have h1 := exp_sub_one_ne hne
    have e1 : exp (lam * y * ((1 - x) / 2)) = exp (-lam * y * (x + 1) / 2) * exp (lam * y) := by
      rw [← exp_add]; congr 1; ring
    have e2 : exp (-lam * y) * exp (lam * y) = 1 := by rw [← exp_add]; simp
    rw [e1]
    symm
    rw [eq_div_iff h2]
    have h3 : exp (lam * y) * (1 - exp (-lam * y)) = exp (lam * y) - 1 := by
      rw [mul_sub, mul_one, mul_comm (exp (lam * y)), e2]
    calc -1 / lam * (exp (-lam * y * (x + 1) / 2) * exp (lam * y)) * (-(lam * y) / (exp (lam * y) - 1)) *
          (1 - exp (-lam * y))
        = (-1 / lam * exp (-lam * y * (x + 1) / 2) * (-(lam * y) / (exp (lam * y) - 1))) *
          (exp (lam * y) * (1 - exp (-lam * y))) := by ring
      _ = y * exp (-lam * y * (x + 1) / 2) := by rw [h3]; field_simp

theorem boseCompute_exact {lam x y : ℝ} (hl : 0 < lam) (hy : 1e-200 ≤ |lam * y|) :
    boseCompute exp (fun t => exp t - 1) lam ((1 + x) / 2) ((1 - x) / 2) (lam * y) = boseK lam x y := by
  have hne : y ≠ 0 := by
    intro h0; rw [h0, mul_zero, abs_zero] at hy; norm_num at hy
  rw [boseK_eq hl.ne' hne]
  unfold boseCompute
  simp only
  rw [if_pos hy]

theorem boseK_pos {lam : ℝ} (hl : 0 < lam) (x : ℝ) {y : ℝ} (hy : y ≠ 0) : 0 < boseK lam x y := by
  rw [boseK_eq hl.ne' hy]
  have h0 : 0 < |lam * y| := abs_pos.2 (mul_ne_zero hl.ne' hy)
  have h1 : exp (-|lam * y|) - 1 < 0 := by
    have := (exp_lt_one_iff (x := -|lam * y|)).2 (by linarith)
    linarith
  have h2 : |lam * y| / (exp (-|lam * y|) - 1) < 0 := div_neg_of_pos_of_neg h0 h1
  have h3 : -1 / lam < 0 := div_neg_of_neg_of_pos (by norm_num) hl
  exact mul_pos_of_neg_of_neg (mul_neg_of_neg_of_pos h3 (exp_pos _)) h2

/-- What the array call computes: the formula where `|Λ y| >= 1e-200`, `1/Λ` at `y = 0`, and in between a
value with relative error at most `1e-200`.  (The full property C31 also covers scalar `y`, for which the
call fails: `C31_scalar_raises`.) -/
theorem C31_bose_partial (lam : ℝ) (hl : 0 < lam) (a : Args ι) (hy : a.yScalar = false) (hs : InSquare a)
    (he : EdgesOk a) : ∃ k, (bose lam).call a = .ok k ∧ (∀ i, 0 < k i) ∧
      ∀ i, (1e-200 ≤ |lam * a.y i| → k i = boseK lam (a.x i) (a.y i)) ∧ (a.y i = 0 → k i = 1 / lam) ∧
        (a.y i ≠ 0 → |k i - boseK lam (a.x i) (a.y i)| ≤ 1e-200 * boseK lam (a.x i) (a.y i)) := by
  simp only [bose, boseWith, check_ok hs, hy, Bool.false_eq_true, if_false]
  have htiny : ∀ i, ¬ |lam * a.y i| ≥ 1e-200 →
      boseCompute exp (fun t => exp t - 1) lam ((1 + a.x i) / 2) ((1 - a.x i) / 2) (lam * a.y i) =
        1 / lam * exp (-|lam * a.y i| * (if lam * a.y i ≥ 0 then (1 + a.x i) / 2 else (1 - a.x i) / 2)) := by
    intro i h
    unfold boseCompute
    simp only
    rw [if_neg h]
    ring
  refine ⟨_, rfl, ?_, ?_⟩
  · intro i
    rw [uv_eq he]
    by_cases h : |lam * a.y i| ≥ 1e-200
    · simp only
      rw [boseCompute_exact hl h]
      apply boseK_pos hl
      intro h0
      rw [h0, mul_zero, abs_zero] at h
      norm_num at h
    · simp only
      rw [htiny i h]
      positivity
  · intro i
    rw [uv_eq he]
    refine ⟨fun h => boseCompute_exact hl h, fun h => ?_, fun h => ?_⟩
    · simp only
      rw [htiny i (by rw [h]; norm_num), h]
      simp
    · by_cases ht : |lam * a.y i| ≥ 1e-200
      · simp only
        rw [boseCompute_exact hl ht, sub_self, abs_zero]
        have := boseK_pos hl (a.x i) h
        positivity
      · simp only
        rw [htiny i ht, boseK_eq hl.ne' h]
        push Not at ht
        have h0 : 0 < |lam * a.y i| := abs_pos.2 (mul_ne_zero hl.ne' h)
        set t := |lam * a.y i|
        set E := exp (-t * (if lam * a.y i ≥ 0 then (1 + a.x i) / 2 else (1 - a.x i) / 2))
        have hE : 0 < E := exp_pos _
        have h1 : 0 < 1 - exp (-t) := by
          have := (exp_lt_one_iff (x := -t)).2 (by linarith)
          linarith
        set g := t / (1 - exp (-t)) with hg
        have hg1 : 1 ≤ g := by
          rw [hg, le_div_iff₀ h1]
          have := add_one_le_exp (-t)
          linarith
        have hg2 : g ≤ 1 + t := by
          rw [hg, div_le_iff₀ h1]
          have h3 := add_one_le_exp t
          have h4 : exp t * exp (-t) = 1 := by rw [← exp_add]; simp
          have h5 := mul_le_mul_of_nonneg_right h3 (exp_pos (-t)).le
          rw [h4] at h5
          linarith
        have e : -1 / lam * E * (t / (exp (-t) - 1)) = 1 / lam * E * g := by
          rw [hg, show exp (-t) - 1 = -(1 - exp (-t)) by ring]
          field_simp
        rw [e, show 1 / lam * E - 1 / lam * E * g = -(1 / lam * E * (g - 1)) by ring, abs_neg,
          abs_of_nonneg (by have : 0 ≤ g - 1 := by linarith
                            positivity)]
        rw [show 1e-200 * (1 / lam * E * g) = 1 / lam * E * (1e-200 * g) by ring]
        apply mul_le_mul_of_nonneg_left _ (by positivity)
        have : (1e-200 : ℝ) * 1 ≤ 1e-200 * g := mul_le_mul_of_nonneg_left hg1 (by norm_num)
        linarith

/-- With a zero-dimensional `y` (a plain number) the call raises TypeError: the property fails for scalar
arguments. -/
theorem C31_scalar_raises (lam : ℝ) (a : Args ι) (hy : a.yScalar = true) (hs : InSquare a) :
    (bose lam).call a = .error .typeError := by
  simp only [bose, boseWith, check_ok hs, hy, if_true]

/-- Positive and centrosymmetric; the value `1/Λ` chosen at `y = 0` is the limit. -/
theorem C31_properties (lam : ℝ) (hl : 0 < lam) (x : ℝ) :
    (∀ y, y ≠ 0 → 0 < boseK lam x y ∧ boseK lam (-x) (-y) = boseK lam x y) ∧
    Filter.Tendsto (fun y => boseK lam x y) (nhdsWithin 0 {0}ᶜ) (nhds (1 / lam)) := by
  refine ⟨fun y hy => ⟨boseK_pos hl x hy, ?_⟩, ?_⟩
  · rw [boseK_eq hl.ne' (neg_ne_zero.2 hy), boseK_eq hl.ne' hy]
    have hne : lam * y ≠ 0 := mul_ne_zero hl.ne' hy
    have e : |lam * -y| = |lam * y| := by rw [mul_neg, abs_neg]
    rw [e]
    rcases lt_or_gt_of_ne hne with h | h
    · rw [if_pos (by linarith), if_neg (by linarith)]; ring_nf
    · rw [if_neg (by linarith), if_pos (by linarith)]; ring_nf
  · have hd : HasDerivAt (fun y => 1 - exp (-lam * y)) lam 0 := by
      have h1 : HasDerivAt (fun y : ℝ => -lam * y) (-lam) 0 := by
        simpa using (hasDerivAt_id (0 : ℝ)).const_mul (-lam)
      have := (h1.exp).const_sub 1
      simpa using this
    have hslope := hd.tendsto_slope_zero
    have hc : Filter.Tendsto (fun y => exp (-lam * y * (x + 1) / 2)) (nhdsWithin 0 {0}ᶜ) (nhds 1) := by
      have : Continuous fun y : ℝ => exp (-lam * y * (x + 1) / 2) := by fun_prop
      have h0 := this.tendsto 0
      simp only [mul_zero, zero_mul, zero_div, exp_zero] at h0
      exact h0.mono_left nhdsWithin_le_nhds
    have h2 := hc.div hslope hl.ne'
    refine h2.congr' ?_
    filter_upwards [self_mem_nhdsWithin] with y hy
    have hy0 : y ≠ 0 := hy
    simp only [Pi.div_apply, zero_add, mul_zero, exp_zero, sub_self, sub_zero, smul_eq_mul]
    unfold boseK
    have h3 : 1 - exp (-lam * y) ≠ 0 := by
      intro h0
      exact exp_sub_one_ne (mul_ne_zero (neg_ne_zero.2 hl.ne') hy0) (by linarith)
    field_simp

/-- The formula in the docstring of `RegularizedBoseKernel` has the opposite sign. -/
theorem C31_docstring_sign (lam x y : ℝ) :
    y * exp (-lam * y * (x + 1) / 2) / (exp (-lam * y) - 1) = - boseK lam x y := by
  unfold boseK
  rw [← div_neg, neg_sub]

/-- Only exponentials of non-positive numbers are evaluated. -/
theorem C31_no_overflow (lam : ℝ) (exp' expm1' : ℝ → ℝ) (h : ∀ t ≤ 0, exp' t = exp t)
    (h1 : ∀ t ≤ 0, expm1' t = exp t - 1) (a : Args ι) (hs : InSquare a) (he : EdgesOk a) :
    (boseWith exp' expm1' lam).call a = (bose lam).call a := by
  simp only [bose, boseWith, check_ok hs]
  split
  · rfl
  congr 1
  funext i
  rw [uv_eq he]
  unfold boseCompute
  have hx := hs i
  simp only
  rw [h, h1 (-|lam * a.y i|)]
  · have := abs_nonneg (lam * a.y i); linarith
  · have h1 := abs_nonneg (lam * a.y i)
    split
    · have : 0 ≤ |lam * a.y i| * ((1 + a.x i) / 2) := mul_nonneg h1 (by linarith [hx.1])
      linarith
    · have : 0 ≤ |lam * a.y i| * ((1 - a.x i) / 2) := mul_nonneg h1 (by linarith [hx.2.1])
      linarith

example : ∃ k, (bose 10).call sampleArgs = .ok k ∧ k 1 = boseK 10 0.5 (-0.25) := by
  obtain ⟨k, h1, -, h2⟩ := C31_bose_partial 10 (by norm_num) sampleArgs rfl sampleArgs_ok.1 sampleArgs_ok.2
  refine ⟨k, h1, ?_⟩
  have := (h2 1).1 (by norm_num [sampleArgs, abs_of_nonneg])
  rw [this]
  simp [sampleArgs]

end Verif.Props
