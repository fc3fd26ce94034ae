import Verif.Props.C30_Kernels
import Verif.Props.C54_Parameters
/-!
# C62 — kernel times weight function is the kernel of the given statistics
-/

namespace Verif.Props
open Verif Verif.Spec Verif.Kernel Real

/-- Specification: the dimensionless kernels of the analytic continuation, `exp(-Λ y (x+1)/2)` divided by
`1 + exp(-Λ y)` for fermions and by `1 - exp(-Λ y)` for bosons. -/
noncomputable def continuationK (fermion : Bool) (lam x y : ℝ) : ℝ :=
  exp (-lam * y * (x + 1) / 2) / (if fermion then 1 + exp (-lam * y) else 1 - exp (-lam * y))

theorem coth_half (z : ℝ) : 1 / tanh (z / 2) = (1 + exp (-z)) / (1 - exp (-z)) := by
  have h1 : sinh (z / 2) = exp (z / 2) * (1 - exp (-z)) / 2 := by
    rw [sinh_eq, mul_sub, mul_one, ← exp_add, show z / 2 + -z = -(z / 2) by ring]
  have h2 : cosh (z / 2) = exp (z / 2) * (1 + exp (-z)) / 2 := by
    rw [cosh_eq, mul_add, mul_one, ← exp_add, show z / 2 + -z = -(z / 2) by ring]
  rw [tanh_eq_sinh_div_cosh, one_div_div, h1, h2]
  have := (exp_pos (z / 2)).ne'
  rw [div_div_div_cancel_right₀ (by norm_num), mul_div_mul_left _ _ this]

/-- Logistic kernel: the weight function for fermions is one, and the product with the bosonic one is the
bosonic kernel, for every cut-off and all arrays of points with `Λ y ≠ 0` (for bosons). -/
theorem C62_logistic {ι : Type} (lam : ℝ) (a : Args ι) (hs : InSquare a) (he : EdgesOk a) :
    ∃ k wF wB, (logistic lam).call a = .ok k ∧ logisticWeight lam "F" = .ok wF ∧
      logisticWeight lam "B" = .ok wB ∧
      (∀ i, wF (a.y i) * k i = continuationK true lam (a.x i) (a.y i)) ∧
      ∀ i, lam * a.y i ≠ 0 → wB (a.y i) * k i = continuationK false lam (a.x i) (a.y i) := by
  refine ⟨_, fun _ => 1, fun y => 1 / tanh (0.5 * lam * y), C30_logistic lam a hs he, ?_, ?_, ?_, ?_⟩
  · unfold logisticWeight
    rw [(pyIn_FB "F").2 (by simp)]
    simp
  · unfold logisticWeight
    rw [(pyIn_FB "B").2 (by simp)]
    simp
  · intro i
    simp [continuationK, logisticK]
  · intro i hne
    have e : 0.5 * lam * a.y i = (lam * a.y i) / 2 := by norm_num; ring
    simp only [e, coth_half, continuationK, logisticK, Bool.false_eq_true, if_false]
    have h1 : 1 - exp (-(lam * a.y i)) ≠ 0 := by
      intro h0
      exact exp_sub_one_ne (neg_ne_zero.2 hne) (by linarith)
    have h2 : 1 + exp (-(lam * a.y i)) ≠ 0 := by positivity
    rw [show -lam * a.y i = -(lam * a.y i) by ring]
    field_simp

/-- Regularised Bose kernel: times the bosonic weight function it is the bosonic kernel. -/
theorem C62_bose {ι : Type} (lam : ℝ) (hl : 0 < lam) (a : Args ι) (hy : a.yScalar = false) (hs : InSquare a)
    (he : EdgesOk a) :
    ∃ k wB, (bose lam).call a = .ok k ∧ boseWeight "B" = .ok wB ∧
      ∀ i, 1e-200 ≤ |lam * a.y i| → wB (a.y i) * k i = continuationK false lam (a.x i) (a.y i) := by
  obtain ⟨k, hk, -, h⟩ := C31_bose_partial lam hl a hy hs he
  refine ⟨k, fun y => 1 / y, hk, by simp [boseWeight], ?_⟩
  intro i hi
  have hne : a.y i ≠ 0 := by
    intro h0; rw [h0, mul_zero, abs_zero] at hi; norm_num at hi
  rw [(h i).1 hi]
  simp only [continuationK, boseK, Bool.false_eq_true, if_false]
  field_simp

/-- In physical units, `tau = beta (x+1)/2` and `omega = wmax y` with `Λ = beta wmax`, these are the usual kernels. -/
theorem C62_units (beta wmax tau omega : ℝ) (hb : beta ≠ 0) (hw : wmax ≠ 0) (fermion : Bool) :
    continuationK fermion (beta * wmax) (2 * tau / beta - 1) (omega / wmax) =
      exp (-tau * omega) / (if fermion then 1 + exp (-beta * omega) else 1 - exp (-beta * omega)) := by
  unfold continuationK
  have e1 : -(beta * wmax) * (omega / wmax) * (2 * tau / beta - 1 + 1) / 2 = -tau * omega := by
    field_simp; ring
  have e2 : -(beta * wmax) * (omega / wmax) = -beta * omega := by field_simp
  rw [e1, e2]

/-- The points with `Λ y = 0` have to be left out for bosons: the bosonic kernel grows beyond all bounds as `y`
tends to zero from above. -/
theorem C62_singular (lam x : ℝ) (hl : 0 < lam) :
    Filter.Tendsto (fun y => continuationK false lam x y) (nhdsWithin 0 (Set.Ioi 0)) Filter.atTop := by
  unfold continuationK
  simp only [Bool.false_eq_true, if_false]
  have h1 : Filter.Tendsto (fun y => exp (-lam * y * (x + 1) / 2)) (nhdsWithin 0 (Set.Ioi 0)) (nhds 1) := by
    have hc : Continuous fun y => exp (-lam * y * (x + 1) / 2) := by fun_prop
    have := hc.tendsto 0
    simp only [mul_zero, zero_mul, zero_div, exp_zero] at this
    exact this.mono_left nhdsWithin_le_nhds
  have h2 : Filter.Tendsto (fun y => 1 - exp (-lam * y)) (nhdsWithin 0 (Set.Ioi 0)) (nhdsWithin 0 (Set.Ioi 0)) := by
    rw [tendsto_nhdsWithin_iff]
    constructor
    · have hc : Continuous fun y => 1 - exp (-lam * y) := by fun_prop
      have := hc.tendsto 0
      simp only [mul_zero, exp_zero, sub_self] at this
      exact this.mono_left nhdsWithin_le_nhds
    · filter_upwards [self_mem_nhdsWithin] with y hy
      have hy : 0 < y := hy
      have : exp (-lam * y) < 1 := exp_lt_one_iff.2 (by nlinarith)
      simpa using this
  have h3 := (h2.inv_tendsto_nhdsGT_zero)
  have := h1.pos_mul_atTop one_pos h3
  simpa [div_eq_mul_inv] using this

example : InSquare sampleArgs ∧ EdgesOk sampleArgs ∧ sampleArgs.yScalar = false ∧
    ∀ i, (10 : ℝ) * sampleArgs.y i ≠ 0 :=
  ⟨sampleArgs_ok.1, sampleArgs_ok.2, rfl, fun i => by fin_cases i <;> norm_num [sampleArgs]⟩

end Verif.Props
