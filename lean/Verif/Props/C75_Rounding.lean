import Verif.Lemmas.RoundingOdd
import Verif.Props.C32_Symmetrized
/-!
# C75: Evaluating the kernels in floating-point arithmetic

`Arith.Ok u eta` (in `Lemmas/Rounding.lean`) is the contract on the arithmetic: every operation and every elementary
function has relative error at most `u`, and, where the result may underflow, absolute error at most `eta`
(double precision: `u` of the order of `2^-53`, `eta = 2^-1075`).  Nothing else is assumed of the arithmetic.  `X` is the
true position; `x`, `xp`, `xm` are the numbers handed to the kernel as `x`, `x_plus`, `x_minus`.
-/

namespace Verif.Props
open Verif Verif.Kernel Verif.Spec

/-- In real arithmetic, the functions evaluated here are those of `Model/Kernel.lean`. -/
theorem C75_exact (lam x y : ℝ) (xp xm : Option ℝ) (uPlus uMinus v : ℝ) :
    computeUVFl Arith.exact lam x y xp xm = computeUV lam x y xp xm ∧
    logisticComputeFl Arith.exact uPlus uMinus v = logisticCompute Real.exp uPlus uMinus v ∧
    boseComputeFl Arith.exact lam uPlus uMinus v = boseCompute Real.exp (fun t => Real.exp t - 1) lam uPlus uMinus v :=
  ⟨rfl, rfl, rfl⟩

/-- The same for the kernel objects, applied to arrays on their domains. -/
theorem C75_exact_objects {ι : Type} (lam : ℝ) (a : Args ι) (h : ∀ i, |a.x i| ≤ 1 ∧ |a.y i| ≤ 1) :
    (logistic lam).call a = .ok (fun i =>
      logisticFl Arith.exact lam (a.x i) (a.y i) (a.xPlus.map (· i)) (a.xMinus.map (· i))) ∧
    (a.yScalar = false → (bose lam).call a = .ok (fun i =>
      boseFl Arith.exact lam (a.x i) (a.y i) (a.xPlus.map (· i)) (a.xMinus.map (· i)))) := by
  have hc : checkDomainR (-1, 1) (-1, 1) a.x a.y = .ok () := by
    unfold checkDomainR
    rw [if_neg (not_not.2 ⟨fun i => (abs_le.1 (h i).1).1, fun i => (abs_le.1 (h i).1).2⟩),
      if_neg (not_not.2 ⟨fun i => (abs_le.1 (h i).2).1, fun i => (abs_le.1 (h i).2).2⟩)]
  constructor
  · simp only [logistic, logisticWith, hc]
    rfl
  · intro hy
    simp only [bose, boseWith, hc, hy, Bool.false_eq_true, if_false]
    rfl

/-- The same for the symmetrised kernels. -/
theorem C75_exact_reduced {ι : Type} (lam sign : ℝ) (a : Args ι) (h : ∀ i, 0 ≤ a.x i ∧ a.x i ≤ 1 ∧ 0 ≤ a.y i ∧ a.y i ≤ 1)
    {p : ι → ℝ} (hp : a.xPlus = some p) (hy : a.yScalar = false) :
    reducedCall (logistic lam) sign a = .ok (fun i =>
      reducedFl Arith.exact (logisticFl Arith.exact lam) sign (a.x i) (a.y i) (p i) (a.xMinus.map (· i))) ∧
    reducedCall (bose lam) sign a = .ok (fun i =>
      reducedFl Arith.exact (boseFl Arith.exact lam) sign (a.x i) (a.y i) (p i) (a.xMinus.map (· i))) ∧
    logisticOddCall (logistic lam) lam sign a = .ok (fun i =>
      logisticOddFl Arith.exact lam sign (a.x i) (a.y i) (p i) (a.xMinus.map (· i))) ∧
    boseOddCall (bose lam) lam sign a = .ok (fun i =>
      boseOddFl Arith.exact lam sign (a.x i) (a.y i) (p i) (a.xMinus.map (· i))) := by
  have hc : checkDomainR (0, 1) (0, 1) a.x a.y = .ok () := by
    unfold checkDomainR
    rw [if_neg (not_not.2 ⟨fun i => (h i).1, fun i => (h i).2.1⟩),
      if_neg (not_not.2 ⟨fun i => (h i).2.2.1, fun i => (h i).2.2.2⟩)]
  have hcl : checkDomainR (0, (logistic lam : KernelObj ι).xrange.2) (0, (logistic lam : KernelObj ι).yrange.2) a.x a.y =
    .ok () := hc
  have hcb : checkDomainR (0, (bose lam : KernelObj ι).xrange.2) (0, (bose lam : KernelObj ι).yrange.2) a.x a.y =
    .ok () := hc
  have h1 : ∀ i, |a.x i| ≤ 1 ∧ |a.y i| ≤ 1 := fun i => by
    obtain ⟨h1, h2, h3, h4⟩ := h i
    rw [abs_of_nonneg h1, abs_of_nonneg h3]
    exact ⟨h2, h4⟩
  have h2 : ∀ i, |a.x i| ≤ 1 ∧ |-a.y i| ≤ 1 := fun i => by
    rw [abs_neg]
    exact h1 i
  have hl := (C75_exact_objects lam { a with xPlus := some fun i => 1 + p i } h1).1
  have hl' := (C75_exact_objects lam { a with y := fun i => -a.y i, xPlus := some fun i => 1 + p i } h2).1
  have hb := (C75_exact_objects lam { a with xPlus := some fun i => 1 + p i } h1).2 hy
  have hb' := (C75_exact_objects lam { a with y := fun i => -a.y i, xPlus := some fun i => 1 + p i } h2).2 hy
  have r1 : reducedCall (logistic lam) sign a = .ok (fun i =>
      reducedFl Arith.exact (logisticFl Arith.exact lam) sign (a.x i) (a.y i) (p i) (a.xMinus.map (· i))) := by
    unfold reducedCall
    simp only [hcl, hp, hl, hl']
    rfl
  have r2 : reducedCall (bose lam) sign a = .ok (fun i =>
      reducedFl Arith.exact (boseFl Arith.exact lam) sign (a.x i) (a.y i) (p i) (a.xMinus.map (· i))) := by
    unfold reducedCall
    simp only [hcb, hp, hb, hb']
    rfl
  refine ⟨r1, r2, ?_, ?_⟩
  · unfold logisticOddCall
    simp only [r1, hy, Bool.and_false, Bool.false_eq_true, if_false]
    rfl
  · unfold boseOddCall
    simp only [r2, hy, Bool.and_false, Bool.false_eq_true, if_false]
    rfl

/-- `LogisticKernel(Λ)` in floating-point arithmetic: relative error at most `22 u (1 + t)` where the kernel decays as
`exp(-t)`, and hence absolute error at most `22 u` whatever `Λ` is, up to underflow. -/
theorem C75_logistic {A : Arith} {u eta : ℝ} (hA : A.Ok u eta) {lam X y x : ℝ} {xp xm : Option ℝ} (hl : 0 ≤ lam)
    (hsm : 64 * (1 + lam) * (u + eta) ≤ 1) (hX : |X| ≤ 1) (hy : |y| ≤ 1)
    (hp : |xp.getD (A.add 1 x) - (1 + X)| ≤ 3 * u * (1 + X)) (hm : |xm.getD (A.sub 1 x) - (1 - X)| ≤ 3 * u * (1 - X)) :
    |logisticFl A lam x y xp xm - logisticK lam X y| ≤
      22 * u * (1 + lam * (|y| + y * X) / 2) * logisticK lam X y + 40 * (1 + lam) * eta ∧
    |logisticFl A lam x y xp xm - logisticK lam X y| ≤ 22 * u + 40 * (1 + lam) * eta := by
  have h := logistic_error hA hl hsm hX hy hp hm
  refine ⟨h, h.trans ?_⟩
  have h1 := mul_le_mul_of_nonneg_left (logistic_weight (X := X) (y := y) hl) hA.hu
  linarith

/-- Called without the distances from the edges, at a position which is not rounded. -/
theorem C75_logistic_plain {A : Arith} {u eta : ℝ} (hA : A.Ok u eta) {lam x y : ℝ} (hl : 0 ≤ lam)
    (hsm : 64 * (1 + lam) * (u + eta) ≤ 1) (hx : |x| ≤ 1) (hy : |y| ≤ 1) :
    |logisticFl A lam x y none none - logisticK lam x y| ≤ 22 * u + 40 * (1 + lam) * eta := by
  have hx' := abs_le.1 hx
  have hu := hA.hu
  refine (C75_logistic hA hl hsm hx hy ?_ ?_).2
  · have := hA.add 1 x
    rw [abs_of_nonneg (by linarith : 0 ≤ 1 + x)] at this
    show |A.add 1 x - (1 + x)| ≤ _
    nlinarith [mul_nonneg hu (by linarith : 0 ≤ 1 + x)]
  · have := hA.sub 1 x
    rw [abs_of_nonneg (by linarith : 0 ≤ 1 - x)] at this
    show |A.sub 1 x - (1 - x)| ≤ _
    nlinarith [mul_nonneg hu (by linarith : 0 ≤ 1 - x)]

/-- Without the distances from the edges, a position rounded to relative accuracy `u` gives an error which grows with
`Λ u`, even if everything else is exact; with them there is no error. -/
theorem C75_needs_x_plus {u lam : ℝ} (hu : 0 < u) (hu1 : u ≤ 1) (hl : 0 < lam) (hlu : lam * u ≤ 1) :
    ∃ X x : ℝ, |X| ≤ 1 ∧ |x| ≤ 1 ∧ |x - X| ≤ u * |X| ∧
      lam * u / 16 ≤ |logisticFl Arith.exact lam x 1 none none - logisticK lam X 1| ∧
      logisticFl Arith.exact lam x 1 (some (1 + X)) (some (1 - X)) = logisticK lam X 1 := by
  refine ⟨-1 + u / 2, -1, ?_, by norm_num, ?_, ?_, ?_⟩
  · rw [abs_le]; constructor <;> linarith
  · rw [show (-1 : ℝ) - (-1 + u / 2) = -(u / 2) by ring, abs_neg, abs_of_pos (by linarith), abs_of_neg (by linarith)]
    nlinarith
  · have e1 : logisticFl Arith.exact lam (-1) 1 none none = 1 / (1 + Real.exp (-lam)) := by
      have : logisticFl Arith.exact lam (-1) 1 none none = Real.exp (-|lam * 1| *
        (if lam * 1 > 0 then 0.5 * (1 + -1) else 0.5 * (1 - -1))) / (1 + Real.exp (-|lam * 1|)) := rfl
      rw [this, mul_one, if_pos hl, abs_of_pos hl]
      norm_num
    have e2 : logisticK lam (-1 + u / 2) 1 = Real.exp (-(lam * u / 4)) / (1 + Real.exp (-lam)) := by
      unfold logisticK
      congr 2
      · ring
      · rw [mul_one]
    rw [e1, e2, ← sub_div]
    have hb : Real.exp (-lam) ≤ 1 := Real.exp_le_one_iff.2 (by linarith)
    have hb0 := Real.exp_pos (-lam)
    have hs : lam * u / 8 ≤ 1 - Real.exp (-(lam * u / 4)) := by
      obtain ⟨s, hs⟩ : ∃ s, s = lam * u / 4 := ⟨_, rfl⟩
      rw [← hs]
      have hs0 : 0 ≤ s := by rw [hs]; positivity
      have h1 := Real.add_one_le_exp s
      have h2 : Real.exp s * Real.exp (-s) = 1 := by rw [← Real.exp_add]; simp
      have h3 := Real.exp_pos (-s)
      have h4 : (1 + s) * Real.exp (-s) ≤ 1 := by nlinarith
      nlinarith
    rw [abs_of_nonneg (div_nonneg (by nlinarith) (by linarith)), le_div_iff₀ (by linarith)]
    have : 0 ≤ lam * u := by positivity
    nlinarith
  · have e1 : logisticFl Arith.exact lam (-1) 1 (some (1 + (-1 + u / 2))) (some (1 - (-1 + u / 2))) =
        Real.exp (-|lam * 1| * (if lam * 1 > 0 then 0.5 * (1 + (-1 + u / 2)) else 0.5 * (1 - (-1 + u / 2)))) /
          (1 + Real.exp (-|lam * 1|)) := rfl
    rw [e1, mul_one, if_pos hl, abs_of_pos hl]
    unfold logisticK
    congr 2
    · ring
    · rw [mul_one]

/-- `RegularizedBoseKernel(Λ)` in floating-point arithmetic, at zero frequency the limit `1/Λ`. -/
theorem C75_bose {A : Arith} {u eta : ℝ} (hA : A.Ok u eta) {lam X y x : ℝ} {xp xm : Option ℝ} (hl : 0 < lam)
    (hsm : 64 * (1 + lam) * (u + eta) ≤ 1) (hu0 : 1e-199 ≤ u) (heu : eta ≤ 1e-201 * u) (hel : lam * eta ≤ u)
    (hX : |X| ≤ 1) (hy : |y| ≤ 1)
    (hp : |xp.getD (A.add 1 x) - (1 + X)| ≤ 3 * u * (1 + X)) (hm : |xm.getD (A.sub 1 x) - (1 - X)| ≤ 3 * u * (1 - X))
    {K : ℝ} (hK : K = if y = 0 then 1 / lam else boseK lam X y) :
    |boseFl A lam x y xp xm - K| ≤
      20 * u * (1 + lam * (|y| + y * X) / 2) * K + 44 * ((1 + lam) ^ 2 * (1 + 1 / lam)) * eta ∧
    |boseFl A lam x y xp xm - K| ≤ 20 * u * (1 + 1 / lam) + 44 * ((1 + lam) ^ 2 * (1 + 1 / lam)) * eta := by
  have hK' : K = boseT lam X y := hK
  rw [hK']
  have h := bose_error hA hl hsm hu0 heu hel hX hy hp hm
  refine ⟨h, h.trans ?_⟩
  have h1 := mul_le_mul_of_nonneg_left (bose_weight (X := X) (y := y) hl hX hy) hA.hu
  generalize (1 + lam) ^ 2 * (1 + 1 / lam) = cl
  linarith

/-- The symmetrised logistic kernels, computed from the sum or the difference of two values. -/
theorem C75_logistic_reduced {A : Arith} {u eta : ℝ} (hA : A.Ok u eta) {lam X y x xp : ℝ} {xm : Option ℝ} (hl : 0 ≤ lam)
    (hsm : 64 * (1 + lam) * (u + eta) ≤ 1) (hX0 : 0 ≤ X) (hX : X ≤ 1) (hy0 : 0 ≤ y) (hy : y ≤ 1)
    (hp : |xp - X| ≤ u * (1 + X)) (hm : |xm.getD (A.sub 1 x) - (1 - X)| ≤ 3 * u * (1 - X)) {sign : ℝ}
    (hsg : sign = 1 ∨ sign = -1) :
    |reducedFl A (logisticFl A lam) sign x y xp xm - (logisticK lam X y + sign * logisticK lam X (-y))| ≤
      48 * u + 82 * (1 + lam) * eta := by
  refine (logistic_reduced_error hA hl hsm hX0 hX hy0 hy hp hm hsg).trans ?_
  have h1 := logistic_weight (X := X) (y := y) hl
  have h2 := logistic_weight (X := X) (y := -y) hl
  rw [abs_of_nonneg hy0] at h1
  rw [abs_neg, abs_of_nonneg hy0, show y + -y * X = y - y * X by ring] at h2
  have h3 := mul_le_mul_of_nonneg_left (add_le_add h1 h2) hA.hu
  linarith

/-- The symmetrised Bose kernels, computed from the sum or the difference of two values. -/
theorem C75_bose_reduced {A : Arith} {u eta : ℝ} (hA : A.Ok u eta) {lam X y x xp : ℝ} {xm : Option ℝ} (hl : 0 < lam)
    (hsm : 64 * (1 + lam) * (u + eta) ≤ 1) (hu0 : 1e-199 ≤ u) (heu : eta ≤ 1e-201 * u) (hel : lam * eta ≤ u)
    (hX0 : 0 ≤ X) (hX : X ≤ 1) (hy0 : 0 < y) (hy : y ≤ 1)
    (hp : |xp - X| ≤ u * (1 + X)) (hm : |xm.getD (A.sub 1 x) - (1 - X)| ≤ 3 * u * (1 - X)) {sign : ℝ}
    (hsg : sign = 1 ∨ sign = -1) :
    |reducedFl A (boseFl A lam) sign x y xp xm - (boseK lam X y + sign * boseK lam X (-y))| ≤
      44 * u * (1 + 1 / lam) + 90 * ((1 + lam) ^ 2 * (1 + 1 / lam)) * eta := by
  have h := bose_reduced_error hA hl hsm hu0 heu hel hX0 hX hy0.le hy hp hm hsg
  have e1 : boseT lam X y = boseK lam X y := if_neg hy0.ne'
  have e2 : boseT lam X (-y) = boseK lam X (-y) := if_neg (neg_ne_zero.2 hy0.ne')
  have hXa : |X| ≤ 1 := by rw [abs_of_nonneg hX0]; exact hX
  have h1 := bose_weight (y := y) hl hXa (by rw [abs_of_pos hy0]; exact hy)
  have h2 := bose_weight (y := -y) hl hXa (by rw [abs_neg, abs_of_pos hy0]; exact hy)
  rw [abs_of_pos hy0] at h1
  rw [abs_neg, abs_of_pos hy0, show y + -y * X = y - y * X by ring] at h2
  rw [e1] at h1 h
  rw [e2] at h2 h
  refine h.trans ?_
  have h3 := mul_le_mul_of_nonneg_left (add_le_add h1 h2) hA.hu
  generalize (1 + lam) ^ 2 * (1 + 1 / lam) = cl
  linarith

theorem logistic_ratio (lam X y : ℝ) :
    logisticK lam X y = logisticK lam X (-y) * Real.exp (-(2 * (lam / 2 * y * X))) := by
  have h : Real.exp (-(lam / 2 * y * X)) = Real.exp (-(-(lam / 2 * y) * X)) * Real.exp (-(2 * (lam / 2 * y * X))) := by
    rw [← Real.exp_add]
    congr 1
    ring
  rw [logisticK_cosh, logisticK_cosh, show lam / 2 * -y = -(lam / 2 * y) from mul_neg _ _, Real.cosh_neg, h]
  ring

/-- The odd logistic kernel `-sinh(Λ x y/2)/cosh(Λ y/2)`: the absolute error is at most `100 u`, and the relative error at
most `92 u (1 + Λ y/2)` except where `Λ y` is large and `x` so small that `Λ x y` is of order one. -/
theorem C75_logistic_odd {A : Arith} {u eta : ℝ} (hA : A.Ok u eta) {lam X y x xp : ℝ} {xm : Option ℝ} (hl : 0 ≤ lam)
    (hsm : 64 * (1 + lam) * (u + eta) ≤ 1) (hu4 : u ≤ 1e-4) (he4 : eta ≤ 1e-4)
    (hX0 : 0 ≤ X) (hX : X ≤ 1) (hy0 : 0 ≤ y) (hy : y ≤ 1) (hx : |x - X| ≤ 3 * u * X)
    (hp : |xp - X| ≤ u * (1 + X)) (hm : |xm.getD (A.sub 1 x) - (1 - X)| ≤ 3 * u * (1 - X))
    {K : ℝ} (hK : K = logisticK lam X y - logisticK lam X (-y)) :
    |logisticOddFl A lam (-1) x y xp xm - K| ≤ 100 * u + 82 * (1 + lam) * eta ∧
    (21 / 10 ≤ lam * y * X ∨ lam * y ≤ 169 →
      |logisticOddFl A lam (-1) x y xp xm - K| ≤ 92 * u * (1 + lam * y / 2) * |K| + 82 * (1 + lam) * eta) := by
  have hu := hA.hu
  have he := hA.heta
  obtain ⟨hu64, he64, huL, hLe, hall⟩ := small_of hu he hl hsm
  have hh0 : 0 ≤ lam / 2 * y := by positivity
  have hvh := vhalf_error hA hu64 hl hy0 hy
  obtain ⟨hw1, hw2⟩ := xvhalf_error hA hu64 hh0 hX0 hX hvh hx
  have hw0 : 0 ≤ lam / 2 * y * X := mul_nonneg hh0 hX0
  have huw : u * (lam / 2 * y * X) ≤ 1e-4 * (lam / 2 * y * X) := mul_le_mul_of_nonneg_right hu4 hw0
  have huh : u * (lam / 2 * y) ≤ 1e-4 * (lam / 2 * y) := mul_le_mul_of_nonneg_right hu4 hh0
  have hdef : logisticOddFl A lam (-1) x y xp xm =
      if A.mul x (A.mul (A.div lam 2) y) < 1 ∧ A.mul (A.div lam 2) y < 85 then
        A.div (-A.sinh (A.mul (A.mul (A.div lam 2) y) x)) (A.cosh (A.mul (A.div lam 2) y))
      else reducedFl A (logisticFl A lam) (-1) x y xp xm := rfl
  have hle := mul_nonneg hl he
  rw [hdef]
  split
  · rename_i hb
    have hh : lam / 2 * y ≤ 86 := by
      have := (abs_le.1 hvh).1
      linarith
    have hw : lam / 2 * y * X ≤ 11 / 10 := by
      have := (abs_le.1 hw2).1
      linarith
    have h := logistic_closed hA hu4 he4 hh0 hh hX0 hX hw hvh hw1
    have hKe : K = -Real.sinh (lam / 2 * y * X) / Real.cosh (lam / 2 * y) := by rw [hK, logistic_odd]
    rw [← hKe] at h
    have hs0 : 0 ≤ Real.sinh (lam / 2 * y * X) := hw0.trans (sinh_ge hw0)
    have hc1 := Real.one_le_cosh (lam / 2 * y)
    have hKa : |K| = Real.sinh (lam / 2 * y * X) / Real.cosh (lam / 2 * y) := by
      rw [hKe, neg_div, abs_neg, abs_of_nonneg (div_nonneg hs0 (by linarith))]
    rw [← hKa] at h
    have hKn := abs_nonneg K
    have k1 := mul_nonneg hu hKn
    have k2 := mul_nonneg hh0 k1
    constructor
    · refine h.trans ?_
      have hs : Real.sinh (lam / 2 * y * X) ≤ 9 / 4 := (Real.sinh_lt_cosh _).le.trans (cosh_small hw0 hw)
      have h1 : |K| ≤ 1 := by
        rw [hKa, div_le_one (by linarith)]
        have k1 : Real.sinh (lam / 2 * y * X) ≤ Real.sinh (lam / 2 * y) :=
          Real.sinh_le_sinh.2 (mul_le_of_le_one_right hh0 hX)
        have k2 := Real.sinh_lt_cosh (lam / 2 * y)
        linarith
      have h2 : lam / 2 * y * |K| ≤ 9 / 4 := by
        rw [hKa, ← mul_div_assoc, div_le_iff₀ (by linarith)]
        have k3 : lam / 2 * y ≤ Real.cosh (lam / 2 * y) := (sinh_ge hh0).trans (Real.sinh_lt_cosh _).le
        have := mul_le_mul k3 hs hs0 (by linarith)
        linarith
      have h3 := mul_le_mul_of_nonneg_left h1 hu
      have h4 := mul_le_mul_of_nonneg_left h2 hu
      linarith
    · intro _
      refine h.trans ?_
      linarith
  · rename_i hb
    have h := logistic_reduced_error hA hl hsm hX0 hX hy0 hy hp hm (sign := -1) (Or.inr rfl)
    have habs := C75_logistic_reduced hA hl hsm hX0 hX hy0 hy hp hm (sign := -1) (Or.inr rfl)
    rw [neg_one_mul, ← sub_eq_add_neg, ← hK] at h habs
    refine ⟨habs.trans (by linarith), fun hr => h.trans ?_⟩
    have hw : 99 / 100 ≤ lam / 2 * y * X := by
      rw [not_and_or] at hb
      rcases hb with hb | hb
      · have := (abs_le.1 hw2).2
        have := not_lt.1 hb
        linarith
      · rcases hr with hr | hr
        · linarith
        · have := (abs_le.1 hvh).2
          have := not_lt.1 hb
          linarith
    have hKm : 0 < logisticK lam X (-y) := by unfold logisticK; positivity
    have hyX : y * X ≤ y := mul_le_of_le_one_right (by linarith) hX
    have htm : 0 ≤ lam * (y - y * X) / 2 := by
      have : 0 ≤ y - y * X := by linarith
      positivity
    have hn := no_cancel (tp := lam * (y + y * X) / 2) (c := 24 * u) hKm.le hw htm (logistic_ratio lam X y) (by ring)
      (by linarith)
    rw [← hK] at hn
    have ht : lam * (y - y * X) / 2 ≤ lam * y / 2 := by
      have := mul_nonneg hl (mul_nonneg hy0 hX0)
      linarith
    have hKn := abs_nonneg K
    have k1 := mul_nonneg hu hKn
    have k2 := mul_le_mul_of_nonneg_left ht k1
    have k3 := mul_nonneg k1 hh0
    linarith

theorem bose_ratio {lam : ℝ} (hl : lam ≠ 0) (X : ℝ) {y : ℝ} (hy : y ≠ 0) :
    boseK lam X y = boseK lam X (-y) * Real.exp (-(2 * (lam / 2 * y * X))) := by
  have h : Real.exp (-(lam / 2 * y * X)) = Real.exp (-(-(lam / 2 * y) * X)) * Real.exp (-(2 * (lam / 2 * y * X))) := by
    rw [← Real.exp_add]
    congr 1
    ring
  rw [boseK_sinh hl X hy, boseK_sinh hl X (neg_ne_zero.2 hy), show lam / 2 * -y = -(lam / 2 * y) from mul_neg _ _,
    Real.sinh_neg, h, mul_neg 2, neg_mul y, neg_div_neg_eq]
  ring

/-- The odd Bose kernel `-y sinh(Λ x y/2)/sinh(Λ y/2)`. -/
theorem C75_bose_odd {A : Arith} {u eta : ℝ} (hA : A.Ok u eta) {lam X y x xp : ℝ} {xm : Option ℝ} (hl : 0 < lam)
    (hsm : 64 * (1 + lam) * (u + eta) ≤ 1) (hu0 : 1e-199 ≤ u) (heu : eta ≤ 1e-240 * u) (hel : lam * eta ≤ u)
    (hu4 : u ≤ 1e-4)
    (hX0 : 0 ≤ X) (hX : X ≤ 1) (hy0 : 0 < y) (hy : y ≤ 1) (hx : |x - X| ≤ 3 * u * X)
    (hp : |xp - X| ≤ u * (1 + X)) (hm : |xm.getD (A.sub 1 x) - (1 - X)| ≤ 3 * u * (1 - X))
    {K : ℝ} (hK : K = boseK lam X y - boseK lam X (-y)) :
    |boseOddFl A lam (-1) x y xp xm - K| ≤
      100 * u * (1 + 1 / lam) + 90 * ((1 + lam) ^ 2 * (1 + 1 / lam)) * eta ∧
    (21 / 10 ≤ lam * y * X ∨ (1e-199 ≤ lam * y ∧ lam * y ≤ 169) →
      |boseOddFl A lam (-1) x y xp xm - K| ≤ 92 * u * (1 + lam * y / 2) * |K| + 1e-38 * u +
        90 * ((1 + lam) ^ 2 * (1 + 1 / lam)) * eta) := by
  have hu := hA.hu
  have he := hA.heta
  have heu' : eta ≤ 1e-201 * u := heu.trans (mul_le_mul_of_nonneg_right (by norm_num) hu)
  have he244 : eta ≤ 1e-244 := heu.trans ((mul_le_mul_of_nonneg_left hu4 (by norm_num)).trans (by norm_num))
  obtain ⟨hu64, he64, huL, hLe, hall⟩ := small_of hu he hl.le hsm
  have hh0 : 0 ≤ lam / 2 * y := by positivity
  have hvh := vhalf_error hA hu64 hl.le hy0.le hy
  obtain ⟨hw1, hw2⟩ := xvhalf_error hA hu64 hh0 hX0 hX hvh hx
  have hw0 : 0 ≤ lam / 2 * y * X := mul_nonneg hh0 hX0
  have huw : u * (lam / 2 * y * X) ≤ 1e-4 * (lam / 2 * y * X) := mul_le_mul_of_nonneg_right hu4 hw0
  have huh : u * (lam / 2 * y) ≤ 1e-4 * (lam / 2 * y) := mul_le_mul_of_nonneg_right hu4 hh0
  have hdef : boseOddFl A lam (-1) x y xp xm =
      if A.mul x (A.mul (A.div lam 2) y) < 1 ∧ A.mul (A.div lam 2) y > 1e-200 ∧ A.mul (A.div lam 2) y < 85 then
        A.div (A.mul (-y) (A.sinh (A.mul x (A.mul (A.div lam 2) y)))) (A.sinh (A.mul (A.div lam 2) y))
      else reducedFl A (boseFl A lam) (-1) x y xp xm := rfl
  have hle : 0 ≤ (1 + lam) ^ 2 * (1 + 1 / lam) * eta := by positivity
  have hul : 0 ≤ u * (1 / lam) := by positivity
  have habs := C75_bose_reduced hA hl hsm hu0 heu' hel hX0 hX hy0 hy hp hm (sign := -1) (Or.inr rfl)
  have hred := bose_reduced_error hA hl hsm hu0 heu' hel hX0 hX hy0.le hy hp hm (sign := -1) (Or.inr rfl)
  have e1 : boseT lam X y = boseK lam X y := if_neg hy0.ne'
  have e2 : boseT lam X (-y) = boseK lam X (-y) := if_neg (neg_ne_zero.2 hy0.ne')
  rw [e1, e2] at hred
  generalize (1 + lam) ^ 2 * (1 + 1 / lam) = cl at *
  rw [hdef]
  split
  · rename_i hb
    have hh : lam / 2 * y ≤ 86 := by
      have := (abs_le.1 hvh).1
      linarith [hb.2.2]
    have hw : lam / 2 * y * X ≤ 11 / 10 := by
      have := (abs_le.1 hw2).1
      linarith [hb.1]
    obtain ⟨hhp, h⟩ := bose_closed hA hu4 heu hy0.le hy hh0 hh hX0 hw hvh hb.2.1 hw2
    have hKe : K = -(y * Real.sinh (lam / 2 * y * X)) / Real.sinh (lam / 2 * y) := by
      rw [hK, bose_odd hl.ne' X hy0.ne', mul_comm X, neg_mul]
    rw [← hKe] at h
    have hs0 : 0 ≤ Real.sinh (lam / 2 * y * X) := hw0.trans (sinh_ge hw0)
    have hsp : 0 < Real.sinh (lam / 2 * y) := lt_of_lt_of_le hhp (sinh_ge hh0)
    have hKa : |K| = y * Real.sinh (lam / 2 * y * X) / Real.sinh (lam / 2 * y) := by
      rw [hKe, neg_div, abs_neg, abs_of_nonneg (div_nonneg (mul_nonneg hy0.le hs0) hsp.le)]
    rw [← hKa] at h
    have hKn := abs_nonneg K
    have k1 := mul_nonneg hu hKn
    have k2 := mul_nonneg hh0 k1
    constructor
    · refine h.trans ?_
      have hs : Real.sinh (lam / 2 * y * X) ≤ 9 / 4 := (Real.sinh_lt_cosh _).le.trans (cosh_small hw0 hw)
      have h1 : |K| ≤ 1 := by
        rw [hKa, div_le_one hsp]
        have k1 : Real.sinh (lam / 2 * y * X) ≤ Real.sinh (lam / 2 * y) :=
          Real.sinh_le_sinh.2 (mul_le_of_le_one_right hh0 hX)
        have k5 := mul_le_mul_of_nonneg_right hy hs0
        linarith
      have h2 : lam / 2 * y * |K| ≤ 9 / 4 := by
        rw [hKa, ← mul_div_assoc, div_le_iff₀ hsp]
        have k4 : y * Real.sinh (lam / 2 * y * X) ≤ 9 / 4 := by
          have k5 := mul_le_mul_of_nonneg_right hy hs0
          linarith
        have := mul_le_mul (sinh_ge hh0) k4 (mul_nonneg hy0.le hs0) hsp.le
        linarith
      have h3 := mul_le_mul_of_nonneg_left h1 hu
      have h4 := mul_le_mul_of_nonneg_left h2 hu
      linarith
    · intro _
      refine h.trans ?_
      linarith
  · rename_i hb
    rw [neg_one_mul, ← sub_eq_add_neg, ← hK] at hred habs
    refine ⟨habs.trans (by linarith), fun hr => hred.trans ?_⟩
    have hw : 99 / 100 ≤ lam / 2 * y * X := by
      rw [not_and_or, not_and_or] at hb
      rcases hb with hb | hb
      · have := (abs_le.1 hw2).2
        have := not_lt.1 hb
        linarith
      · rcases hr with hr | ⟨hr1, hr⟩
        · linarith
        · exfalso
          rcases hb with hb | hb
          · have := (abs_le.1 hvh).1
            have := not_lt.1 hb
            linarith
          · have := (abs_le.1 hvh).2
            have := not_lt.1 hb
            linarith
    have hKm : 0 < boseK lam X (-y) := by rw [← e2]; exact boseT_pos hl X (-y)
    have hyX : y * X ≤ y := mul_le_of_le_one_right (by linarith) hX
    have htm : 0 ≤ lam * (y - y * X) / 2 := by
      have : 0 ≤ y - y * X := by linarith
      positivity
    have hn := no_cancel (tp := lam * (y + y * X) / 2) (c := 22 * u) hKm.le hw htm (bose_ratio hl.ne' X hy0.ne') (by ring)
      (by linarith)
    rw [← hK] at hn
    have ht : lam * (y - y * X) / 2 ≤ lam * y / 2 := by
      have := mul_nonneg hl.le (mul_nonneg hy0.le hX0)
      linarith
    have hKn := abs_nonneg K
    have k1 := mul_nonneg hu hKn
    have k2 := mul_le_mul_of_nonneg_left ht k1
    have k3 := mul_nonneg k1 hh0
    linarith

/-- An arithmetic in which a summand is lost if it is below the precision of the sum. -/
noncomputable def absorbing (u : ℝ) : Arith :=
  { Arith.exact with add := fun a b => if |b| ≤ u * |a + b| then a else a + b }

theorem absorbing_ok {u eta : ℝ} (hu : 0 ≤ u) (he : 0 ≤ eta) : (absorbing u).Ok u eta where
  hu := hu
  heta := he
  add := fun a b => by
    show |(if |b| ≤ u * |a + b| then a else a + b) - (a + b)| ≤ u * |a + b|
    split
    · rename_i h
      rwa [sub_add_cancel_left, abs_neg]
    · rw [sub_self, abs_zero]
      positivity
  sub := (exact_ok u eta hu he).sub
  mul := (exact_ok u eta hu he).mul
  div := (exact_ok u eta hu he).div
  exp := (exact_ok u eta hu he).exp
  expm1 := (exact_ok u eta hu he).expm1
  sinh := (exact_ok u eta hu he).sinh
  cosh := (exact_ok u eta hu he).cosh

/-- Where `Λ y/2 ≥ 85` the odd kernel is the difference of two values also for small `Λ x y`, and nothing of it needs to
be left: zero is computed for a kernel which is not zero. -/
theorem C75_cancellation {u : ℝ} (hu : 0 < u) (hu1 : u ≤ 1e-4) : ∃ A : Arith, A.Ok u 0 ∧ ∃ X : ℝ, 0 < X ∧ X ≤ 1 ∧
    ∃ xm : ℝ, |xm - (1 - X)| ≤ 3 * u * (1 - X) ∧
      logisticOddFl A 200 (-1) X 1 X (some xm) = 0 ∧ logisticK 200 X 1 - logisticK 200 X (-1) ≠ 0 := by
  refine ⟨absorbing u, absorbing_ok hu.le le_rfl, u / 2, by linarith, by linarith, 1, ?_, ?_, ?_⟩
  · rw [sub_sub_cancel, abs_of_pos (by linarith)]
    nlinarith
  · have hadd : (absorbing u).add 1 (u / 2) = 1 := by
      show (if |u / 2| ≤ u * |1 + u / 2| then (1 : ℝ) else 1 + u / 2) = 1
      rw [if_pos]
      rw [abs_of_pos (by linarith), abs_of_pos (by linarith)]
      nlinarith
    have hdef : logisticOddFl (absorbing u) 200 (-1) (u / 2) 1 (u / 2) (some 1) =
        if u / 2 * (200 / 2 * 1) < 1 ∧ (200 / 2 * 1 : ℝ) < 85 then
          -Real.sinh (200 / 2 * 1 * (u / 2)) / Real.cosh (200 / 2 * 1)
        else reducedFl (absorbing u) (logisticFl (absorbing u) 200) (-1) (u / 2) 1 (u / 2) (some 1) := rfl
    rw [hdef, if_neg (by norm_num)]
    simp only [reducedFl, if_neg (by norm_num : ¬(-1 : ℝ) = 1), hadd]
    have h1 : ∀ y : ℝ, logisticFl (absorbing u) 200 (u / 2) y (some 1) (some 1) =
        Real.exp (-|200 * y| * (if 200 * y > 0 then 0.5 * 1 else 0.5 * 1)) /
          (absorbing u).add 1 (Real.exp (-|200 * y|)) := fun y => rfl
    rw [h1, h1, mul_neg, abs_neg, if_pos (by norm_num), if_neg (by norm_num)]
    exact sub_self _
  · rw [logistic_odd, neg_div, neg_ne_zero]
    refine div_ne_zero (fun h => ?_) (Real.cosh_pos _).ne'
    rw [Real.sinh_eq_zero] at h
    linarith

/-- Non-vacuity: an arithmetic which rounds, in the middle of the domain. -/
example : |logisticFl (absorbing 1e-16) 1000 0.5 0.5 none none - logisticK 1000 0.5 0.5| ≤
    22 * 1e-16 + 40 * (1 + 1000) * 1e-200 :=
  C75_logistic_plain (absorbing_ok (by norm_num) (by norm_num)) (by norm_num) (by norm_num)
    (by rw [abs_of_pos] <;> norm_num) (by rw [abs_of_pos] <;> norm_num)

/-- Non-vacuity of the hypotheses on the Bose kernels. -/
example {K : ℝ} (hK : K = boseK 1000 0.25 0.5 - boseK 1000 0.25 (-0.5)) :
    |boseOddFl (absorbing 1e-16) 1000 (-1) 0.25 0.5 0.25 (some 0.75) - K| ≤
      100 * 1e-16 * (1 + 1 / 1000) + 90 * ((1 + 1000) ^ 2 * (1 + 1 / 1000)) * 1e-256 :=
  (C75_bose_odd (X := 0.25) (absorbing_ok (by norm_num) (by norm_num)) (by norm_num) (by norm_num) (by norm_num)
    (by norm_num) (by norm_num) (by norm_num) (by norm_num) (by norm_num) (by norm_num) (by norm_num)
    (by norm_num) (by norm_num) (by norm_num) hK).1

end Verif.Props
