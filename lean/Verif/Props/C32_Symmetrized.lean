import Verif.Props.C30_Kernels
import Mathlib.Data.Real.Sign
/-!
# C32: symmetrised kernels
-/

namespace Verif.Props
open Verif Verif.Kernel Verif.Spec Real

variable {ι : Type}

/-- All points lie in `[0, 1] × [0, 1]`. -/
def InQuarter (a : Args ι) : Prop := ∀ i, 0 ≤ a.x i ∧ a.x i ≤ 1 ∧ 0 ≤ a.y i ∧ a.y i ≤ 1

/-- `x_plus` is given, and is the distance to the left edge `0`; `x_minus`, if given, the distance to
`1`. -/
def EdgesRed (a : Args ι) : Prop :=
  (∃ p, a.xPlus = some p ∧ ∀ i, p i = a.x i) ∧ (∀ p, a.xMinus = some p → ∀ i, p i = 1 - a.x i)

theorem checkRed_ok {a : Args ι} (h : InQuarter a) : checkDomainR (0, 1) (0, 1) a.x a.y = .ok () := by
  unfold checkDomainR
  rw [if_neg, if_neg]
  · push Not; exact ⟨fun i => (h i).2.2.1, fun i => (h i).2.2.2⟩
  · push Not; exact ⟨fun i => (h i).1, fun i => (h i).2.1⟩

/-- The two arguments passed to the inner kernel. -/
theorem inner_args {a : Args ι} (h : InQuarter a) (he : EdgesRed a) {p : ι → ℝ} (hp : a.xPlus = some p) :
    InSquare { a with xPlus := some fun i => 1 + p i } ∧ EdgesOk { a with xPlus := some fun i => 1 + p i } ∧
    InSquare { a with y := fun i => - a.y i, xPlus := some fun i => 1 + p i } ∧
    EdgesOk { a with y := fun i => - a.y i, xPlus := some fun i => 1 + p i } := by
  obtain ⟨⟨p', hp', hpx⟩, hm⟩ := he
  obtain rfl : p' = p := Option.some.inj (hp'.symm.trans hp)
  refine ⟨?_, ⟨?_, hm⟩, ?_, ⟨?_, hm⟩⟩
  · intro i; obtain ⟨h1, h2, h3, h4⟩ := h i
    refine ⟨?_, ?_, ?_, ?_⟩ <;> simp only <;> linarith
  · rintro q hq i; cases hq; simp only [hpx i]; ring
  · intro i; obtain ⟨h1, h2, h3, h4⟩ := h i
    refine ⟨?_, ?_, ?_, ?_⟩ <;> simp only <;> linarith
  · rintro q hq i; cases hq; simp only [hpx i]; ring

theorem reducedInit_ok {inner : KernelObj ι} (hc : inner.centrosymmetric = true) {sign : ℝ} (hs : |sign| = 1)
    (call : Args ι → PyM (ι → ℝ)) :
    reducedInit inner sign call = .ok ⟨call, (0, inner.xrange.2), (0, inner.yrange.2), false⟩ := by
  unfold reducedInit
  rw [hc, if_neg (by simp), if_neg (by simpa using hs)]

theorem reduced_logistic (lam sign : ℝ) (hsg : sign = 1 ∨ sign = -1) {a : Args ι} (h : InQuarter a)
    (he : EdgesRed a) : reducedCall (logistic lam) sign a =
      .ok fun i => logisticK lam (a.x i) (a.y i) + sign * logisticK lam (a.x i) (-a.y i) := by
  obtain ⟨p, hp, -⟩ := id he.1
  obtain ⟨h1, h2, h3, h4⟩ := inner_args h he hp
  unfold reducedCall
  have hc : checkDomainR (0, (logistic lam : KernelObj ι).xrange.2) (0, (logistic lam : KernelObj ι).yrange.2)
    a.x a.y = .ok () := checkRed_ok h
  simp only [hc, hp, C30_logistic lam _ h1 h2, C30_logistic lam _ h3 h4]
  congr 1
  funext i
  rcases hsg with rfl | rfl
  · simp
  · rw [if_neg (by norm_num)]; ring

theorem logisticK_cosh (lam x y : ℝ) :
    logisticK lam x y = exp (-(lam / 2 * y * x)) / (2 * cosh (lam / 2 * y)) := by
  unfold logisticK
  rw [div_eq_div_iff (by positivity) (by have := cosh_pos (lam / 2 * y); positivity), cosh_eq,
    mul_div_cancel₀ _ (two_ne_zero), mul_one_add, mul_add, ← exp_add, ← exp_add, ← exp_add]
  congr 2 <;> ring

/-- The closed form of the odd kernel. -/
theorem logistic_odd (lam x y : ℝ) : logisticK lam x y - logisticK lam x (-y) =
    -sinh (lam / 2 * y * x) / cosh (lam / 2 * y) := by
  have := cosh_pos (lam / 2 * y)
  rw [logisticK_cosh, logisticK_cosh, mul_neg, neg_mul, neg_neg, cosh_neg, sinh_eq]
  field_simp
  ring

/-- `LogisticKernel(Λ).get_symmetrized(±1)`, called with arrays on the quarter, is
`K(x, y) ± K(x, -y)`, whichever points are evaluated by the closed form. -/
theorem C32_logistic_partial (lam sign : ℝ) (hsg : sign = 1 ∨ sign = -1) :
    ∃ K : KernelObj ι, logisticSymmetrized lam sign = .ok K ∧
      ∀ a, InQuarter a → EdgesRed a → ¬ (a.xScalar = true ∧ a.yScalar = true) →
        K.call a = .ok fun i => logisticK lam (a.x i) (a.y i) + sign * logisticK lam (a.x i) (-a.y i) := by
  unfold logisticSymmetrized
  rcases hsg with rfl | rfl
  · rw [if_neg (by norm_num), reducedInit_ok rfl (by norm_num)]
    exact ⟨_, rfl, fun a h he _ => reduced_logistic lam 1 (Or.inl rfl) h he⟩
  · rw [if_pos rfl, reducedInit_ok rfl (by norm_num)]
    refine ⟨_, rfl, fun a h he hsc => ?_⟩
    show logisticOddCall (logistic lam) lam (-1) a = _
    unfold logisticOddCall
    have hb : (a.xScalar && a.yScalar) = false := by
      cases hx : a.xScalar <;> cases hy : a.yScalar <;> simp_all
    simp only [reduced_logistic lam (-1) (Or.inr rfl) h he, hb, Bool.false_eq_true, if_false]
    congr 1
    funext i
    split
    · rw [← logistic_odd]; ring
    · rfl

/-! ### Bose kernel -/

theorem boseK_sinh {lam : ℝ} (hl : lam ≠ 0) (x : ℝ) {y : ℝ} (hy : y ≠ 0) :
    boseK lam x y = y * exp (-(lam / 2 * y * x)) / (2 * sinh (lam / 2 * y)) := by
  have h1 : 1 - exp (-lam * y) ≠ 0 := by
    intro h0
    exact exp_sub_one_ne (v := -lam * y) (mul_ne_zero (neg_ne_zero.2 hl) hy) (by linarith)
  have h2 : sinh (lam / 2 * y) ≠ 0 := by
    rw [Ne, sinh_eq_zero]
    exact mul_ne_zero (div_ne_zero hl two_ne_zero) hy
  have e1 : 2 * sinh (lam / 2 * y) = exp (lam / 2 * y) * (1 - exp (-lam * y)) := by
    rw [sinh_eq, mul_sub, ← exp_add, mul_div_cancel₀ _ two_ne_zero, mul_one]
    congr 2
    ring
  unfold boseK
  rw [e1, div_eq_div_iff h1 (mul_ne_zero (exp_pos _).ne' h1)]
  have e2 : exp (-(lam / 2 * y * x)) = exp (-lam * y * (x + 1) / 2) * exp (lam / 2 * y) := by
    rw [← exp_add]; congr 1; ring
  rw [e2]; ring

theorem bose_odd {lam : ℝ} (hl : lam ≠ 0) (x : ℝ) {y : ℝ} (hy : y ≠ 0) :
    boseK lam x y - boseK lam x (-y) = (-y * sinh (x * (lam / 2 * y))) / sinh (lam / 2 * y) := by
  have h2 : sinh (lam / 2 * y) ≠ 0 := by
    rw [Ne, sinh_eq_zero]
    exact mul_ne_zero (div_ne_zero hl two_ne_zero) hy
  rw [boseK_sinh hl x hy, boseK_sinh hl x (neg_ne_zero.2 hy), show lam / 2 * -y = -(lam / 2 * y) by ring,
    show -(-(lam / 2 * y) * x) = lam / 2 * y * x by ring, sinh_neg, sinh_eq (x * (lam / 2 * y)), show x * (lam / 2 * y) = lam / 2 * y * x by ring]
  field_simp
  ring

/-- `RegularizedBoseKernel(Λ).get_symmetrized(±1)`, called with arrays on the quarter, is
`K(x, y) ± K(x, -y)`, `K` being the kernel object itself (the explicit distances to its edges are
`1 + x` and `1 - x`). -/
theorem C32_bose_partial (lam sign : ℝ) (hl : 0 < lam) (hsg : sign = 1 ∨ sign = -1) :
    ∃ K : KernelObj ι, boseSymmetrized lam sign = .ok K ∧
      ∀ a, InQuarter a → EdgesRed a → a.yScalar = false →
        ∃ kp km, (bose lam).call { a with xPlus := none, xMinus := none } = .ok kp ∧
          (bose lam).call { a with xPlus := none, xMinus := none, y := fun i => - a.y i } = .ok km ∧
          K.call a = .ok fun i => kp i + sign * km i := by
  have hcall : ∀ (b : Args ι), b.yScalar = false → InSquare b → EdgesOk b →
      (bose lam).call b = .ok fun i => boseCompute exp (fun t => exp t - 1) lam ((1 + b.x i) / 2)
        ((1 - b.x i) / 2) (lam * b.y i) := by
    intro b hb h1 h2
    simp only [bose, boseWith, check_ok h1, hb, Bool.false_eq_true, if_false, uv_eq h2]
  have hred : ∀ a : Args ι, InQuarter a → EdgesRed a → a.yScalar = false →
      ∃ kp km, (bose lam).call { a with xPlus := none, xMinus := none } = .ok kp ∧
          (bose lam).call { a with xPlus := none, xMinus := none, y := fun i => - a.y i } = .ok km ∧
          reducedCall (bose lam) sign a = .ok (fun i => kp i + sign * km i) ∧
          (∀ i, lam / 2 * a.y i > 1e-200 → kp i = boseK lam (a.x i) (a.y i) ∧
            km i = boseK lam (a.x i) (-a.y i)) := by
    intro a h he hy
    obtain ⟨p, hp, -⟩ := id he.1
    obtain ⟨h1, h2, h3, h4⟩ := inner_args h he hp
    have hsq1 : InSquare { a with xPlus := none, xMinus := none } := fun i => h1 i
    have hsq2 : InSquare { a with xPlus := none, xMinus := none, y := fun i => - a.y i } := fun i => h3 i
    have hed : ∀ y : ι → ℝ, EdgesOk { a with xPlus := none, xMinus := none, y := y } := by
      intro y; constructor <;> · intro p hp; cases hp
    refine ⟨_, _, hcall _ hy hsq1 (hed _), hcall _ hy hsq2 (hed _), ?_, ?_⟩
    · unfold reducedCall
      have hc : checkDomainR (0, (bose lam : KernelObj ι).xrange.2) (0, (bose lam : KernelObj ι).yrange.2)
        a.x a.y = .ok () := checkRed_ok h
      simp only [hc, hp]
      rw [hcall { a with xPlus := some fun i => 1 + p i } hy h1 h2]
      simp only
      rw [hcall { a with y := fun i => - a.y i, xPlus := some fun i => 1 + p i } hy h3 h4]
      simp only
      congr 1
      funext i
      rcases hsg with rfl | rfl
      · simp
      · rw [if_neg (by norm_num)]; ring
    · intro i hi
      have hv : 1e-200 ≤ |lam * a.y i| := by
        refine le_trans ?_ (le_abs_self _)
        have : (0:ℝ) < 1e-200 := by norm_num
        linarith
      have hv' : 1e-200 ≤ |lam * -a.y i| := by rwa [mul_neg, abs_neg]
      exact ⟨boseCompute_exact hl hv, boseCompute_exact hl hv'⟩
  unfold boseSymmetrized
  rcases id hsg with hs1 | hs1
  · rw [if_neg (by rw [hs1]; norm_num), reducedInit_ok rfl (by rw [hs1]; norm_num)]
    refine ⟨_, rfl, fun a h he hy => ?_⟩
    obtain ⟨kp, km, h1, h2, h3, -⟩ := hred a h he hy
    exact ⟨kp, km, h1, h2, h3⟩
  · rw [if_pos hs1, reducedInit_ok rfl (by rw [hs1]; norm_num)]
    refine ⟨_, rfl, fun a h he hy => ?_⟩
    obtain ⟨kp, km, h1, h2, h3, h4⟩ := hred a h he hy
    refine ⟨kp, km, h1, h2, ?_⟩
    show boseOddCall (bose lam) lam sign a = _
    unfold boseOddCall
    simp only [h3, hy, Bool.and_false, Bool.false_eq_true, if_false]
    congr 1
    funext i
    split
    · rename_i hc
      obtain ⟨e1, e2⟩ := h4 i hc.2.1
      have hy0 : a.y i ≠ 0 := by
        intro h0
        rw [h0, mul_zero] at hc
        have := hc.2.1
        norm_num at this
      rw [e1, e2, ← bose_odd hl.ne' _ hy0, hs1]; ring
    · rfl

/-! ### Where the property fails or calls are refused -/

/-- Without an explicit `x_plus` every symmetrised kernel raises TypeError. -/
theorem C32_needs_xplus (inner : KernelObj ι) (hx : inner.xrange = (-1, 1)) (hy : inner.yrange = (-1, 1))
    (sign : ℝ) (a : Args ι) (h : InQuarter a) (hp : a.xPlus = none) :
    reducedCall inner sign a = .error .typeError := by
  unfold reducedCall
  rw [hx, hy]
  simp only [checkRed_ok h, hp]

theorem C32_needs_xplus_odd (lam : ℝ) (a : Args ι) (h : InQuarter a) (hp : a.xPlus = none) :
    logisticOddCall (logistic lam) lam (-1) a = .error .typeError ∧
    boseOddCall (bose lam) lam (-1) a = .error .typeError := by
  unfold logisticOddCall boseOddCall
  rw [C32_needs_xplus _ rfl rfl _ _ h hp, C32_needs_xplus _ rfl rfl _ _ h hp]
  exact ⟨rfl, rfl⟩

/-- Called with two plain numbers, the odd kernels raise TypeError even if `x_plus` is given. -/
theorem C32_scalar_raises (lam : ℝ) (a : Args ι) (h : InQuarter a) (he : EdgesRed a)
    (hx : a.xScalar = true) (hy : a.yScalar = true) :
    logisticOddCall (logistic lam) lam (-1) a = .error .typeError ∧
    boseOddCall (bose lam) lam (-1) a = .error .typeError := by
  constructor
  · unfold logisticOddCall
    simp only [reduced_logistic lam (-1) (Or.inr rfl) h he, hx, hy, Bool.and_self, if_true]
  · unfold boseOddCall
    have : reducedCall (bose lam) (-1) a = .error .typeError := by
      obtain ⟨p, hp, -⟩ := id he.1
      obtain ⟨h1, h2, -, -⟩ := inner_args h he hp
      unfold reducedCall
      have hc : checkDomainR (0, (bose lam : KernelObj ι).xrange.2) (0, (bose lam : KernelObj ι).yrange.2)
        a.x a.y = .ok () := checkRed_ok h
      simp only [hc, hp]
      rw [C31_scalar_raises lam { a with xPlus := some fun i => 1 + p i } hy h1]
    rw [this]

/-- A sign other than `±1` is refused. -/
theorem C32_sign (lam sign : ℝ) (hs : |sign| ≠ 1) :
    logisticSymmetrized (ι := ι) lam sign = .error .valueError ∧
    boseSymmetrized (ι := ι) lam sign = .error .valueError := by
  have hne : sign ≠ -1 := by rintro rfl; apply hs; norm_num
  unfold logisticSymmetrized boseSymmetrized
  rw [if_neg hne, if_neg hne]
  unfold reducedInit
  rw [if_neg (by simp [logistic, logisticWith]), if_pos hs, if_neg (by simp [bose, boseWith])]
  exact ⟨rfl, if_pos hs⟩

/-- A kernel which is not centrosymmetric is refused; so a reduced kernel cannot be reduced again. -/
theorem C32_not_symmetric (inner : KernelObj ι) (sign : ℝ) (call : Args ι → PyM (ι → ℝ)) :
    (inner.centrosymmetric = false → reducedInit inner sign call = .error .valueError) ∧
    ∀ lam sign', (logisticSymmetrized lam sign' = .ok inner ∨ boseSymmetrized lam sign' = .ok inner) →
      reducedInit inner sign call = .error .valueError := by
  have h0 : inner.centrosymmetric = false → reducedInit inner sign call = .error .valueError := fun h => by
    unfold reducedInit
    rw [if_pos h]
  have key : ∀ (o : KernelObj ι) (c : Args ι → PyM (ι → ℝ)) (sg : ℝ), reducedInit o sg c = .ok inner →
      inner.centrosymmetric = false := by
    intro o c sg h
    unfold reducedInit at h
    split at h
    · cases h
    · split at h
      · cases h
      · cases h; rfl
  refine ⟨h0, fun lam sg h => h0 ?_⟩
  unfold logisticSymmetrized boseSymmetrized at h
  rcases h with h | h <;> split at h <;> exact key _ _ _ h

/-- A centrosymmetric kernel is determined by its even and odd parts on the quarter. -/
theorem C32_determines (K : ℝ → ℝ → ℝ) (hK : ∀ x y, K (-x) (-y) = K x y) (x y : ℝ) :
    K x y = ((K |x| |y| + K |x| (-|y|)) + (if 0 ≤ x * y then 1 else -1) * (K |x| |y| - K |x| (-|y|))) / 2 := by
  have hK' : K (-x) y = K x (-y) := by rw [← hK x (-y), neg_neg]
  rcases le_total 0 x with hx | hx <;> rcases le_total 0 y with hy | hy
  · rw [abs_of_nonneg hx, abs_of_nonneg hy, if_pos (mul_nonneg hx hy)]; ring
  · rw [abs_of_nonneg hx, abs_of_nonpos hy, neg_neg]
    rcases eq_or_lt_of_le hx with rfl | hx'
    · have := hK 0 y; rw [neg_zero] at this; rw [if_pos (by simp), this]; ring
    · rcases eq_or_lt_of_le hy with rfl | hy'
      · simp
      · rw [if_neg (not_le.2 (mul_neg_of_pos_of_neg hx' hy'))]; ring
  · rw [abs_of_nonpos hx, abs_of_nonneg hy]
    have h2 := hK x y
    rw [hK', h2]
    rcases eq_or_lt_of_le hx with rfl | hx'
    · have := hK 0 y; rw [neg_zero] at this; rw [if_pos (by simp), this]; ring
    · rcases eq_or_lt_of_le hy with rfl | hy'
      · simp
      · rw [if_neg (not_le.2 (mul_neg_of_neg_of_pos hx' hy'))]; ring
  · rw [abs_of_nonpos hx, abs_of_nonpos hy, neg_neg, if_pos (mul_nonneg_of_nonpos_of_nonpos hx hy), hK]; ring

/-- Points on the quarter with `x_plus` given. -/
noncomputable def quarterArgs : Args (Fin 2) :=
  ⟨![0, 0.5], ![1, 0.25], some ![0, 0.5], none, false, false⟩

example : InQuarter quarterArgs ∧ EdgesRed quarterArgs := by
  constructor
  · intro i; fin_cases i <;> norm_num [quarterArgs]
  · constructor
    · exact ⟨_, rfl, fun i => rfl⟩
    · rintro p hp; cases hp

end Verif.Props
