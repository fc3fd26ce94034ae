import Verif.Props.C83_Discretisation
/-!
# C84: accuracy of a basis in physical units, and of the expansion of Green's functions

`FiniteTempBasis(stat, beta, wmax, eps, max_size=…)` constructed from scratch: the kernel over the whole region
`[0, beta] × [-wmax, wmax]`, and what this means for Green's functions with a given spectral function.
-/

namespace Verif.Props
open Verif Verif.Np Verif.Sve Verif.Gauss Verif.Kernel Verif.Spec Verif.Poly Verif.Svd Verif.FiniteTemp Verif.SveCompute
open MeasureTheory

/-! ## Specification -/

/-- The norm of a function on `[0, beta] × [-wmax, wmax]`: the root of the integral of its square. -/
noncomputable def regionNorm (beta wmax : ℝ) (f : ℝ → ℝ → ℝ) : ℝ :=
  Real.sqrt (∫ omega in (-wmax)..wmax, ∫ tau in (0 : ℝ)..beta, f tau omega ^ 2)

/-- The Green's function with spectral function `ρ` for the kernel `κ`. -/
noncomputable def greens (κ : ℝ → ℝ → ℝ) (wmax : ℝ) (ρ : ℝ → ℝ) (tau : ℝ) : ℝ :=
  -∫ omega in (-wmax)..wmax, κ tau omega * ρ omega

/-- The coefficients: `-s[l]` times the overlap of `v[l]` with the spectral function. -/
noncomputable def coefs (b : Basis) (wmax : ℝ) (ρ : ℝ → ℝ) (l : Fin b.size) : ℝ :=
  -b.s l * ∫ omega in (-wmax)..wmax, fn b.v l omega * ρ omega

/-- The expansion in imaginary time. -/
noncomputable def expanded (b : Basis) (wmax : ℝ) (ρ : ℝ → ℝ) (tau : ℝ) : ℝ := ∑ l, coefs b wmax ρ l * fn b.u l tau

/-- A spectral function is square integrable. -/
def SquareIntegrable (wmax : ℝ) (ρ : ℝ → ℝ) : Prop := MemLp ρ 2 (volume.restrict (Set.Ioc (-wmax) wmax))

/-! ## From the square to the region -/

theorem region_eq {beta wmax c : ℝ} (hb : 0 < beta) (hw : 0 < wmax) (hc : 0 ≤ c) {f g : ℝ → ℝ → ℝ}
    (h : ∀ x y, |x| ≤ 1 → |y| ≤ 1 → f (beta / 2 * (x + 1)) (wmax * y) = c * g x y) :
    regionNorm beta wmax f = Real.sqrt (beta / 2 * wmax) * c * squareNorm g := by
  have e1 : ∀ omega, ∫ tau in (0 : ℝ)..beta, f tau omega ^ 2 =
      beta / 2 * ∫ x in (-1 : ℝ)..1, f (beta / 2 * x + beta / 2) omega ^ 2 := by
    intro omega
    have := intervalIntegral.mul_integral_comp_mul_add (a := -1) (b := 1) (f := fun tau => f tau omega ^ 2) (beta / 2) (beta / 2)
    rw [this]
    congr 1 <;> ring
  have e2 : ∫ omega in (-wmax)..wmax, ∫ tau in (0 : ℝ)..beta, f tau omega ^ 2 =
      wmax * ∫ y in (-1 : ℝ)..1, ∫ tau in (0 : ℝ)..beta, f tau (wmax * y) ^ 2 := by
    have := intervalIntegral.mul_integral_comp_mul_left (a := -1) (b := 1)
      (f := fun omega => ∫ tau in (0 : ℝ)..beta, f tau omega ^ 2) wmax
    rw [this]
    congr 1 <;> ring
  unfold regionNorm squareNorm
  have e3 : ∫ omega in (-wmax)..wmax, ∫ tau in (0 : ℝ)..beta, f tau omega ^ 2 =
      beta / 2 * wmax * (c ^ 2 * ∫ y in (-1 : ℝ)..1, ∫ x in (-1 : ℝ)..1, g x y ^ 2) := by
    rw [e2, ← intervalIntegral.integral_const_mul (c ^ 2), mul_comm (beta / 2), mul_assoc,
      ← intervalIntegral.integral_const_mul (beta / 2)]
    congr 1
    refine intervalIntegral.integral_congr fun (y : ℝ) hy => ?_
    rw [Set.uIcc_of_le (by norm_num)] at hy
    simp only [e1]
    rw [← intervalIntegral.integral_const_mul (c ^ 2)]
    congr 1
    refine intervalIntegral.integral_congr fun (x : ℝ) hx => ?_
    rw [Set.uIcc_of_le (by norm_num)] at hx
    rw [show beta / 2 * x + beta / 2 = beta / 2 * (x + 1) by ring, h x y (abs_le.2 hx) (abs_le.2 hy), mul_pow]
  rw [e3, Real.sqrt_mul (by positivity), Real.sqrt_mul (sq_nonneg c), Real.sqrt_sq hc, mul_assoc]

/-! ## Green's functions -/

/-- Cauchy–Schwarz. -/
theorem integral_mul_sq_le {α : Type} [MeasurableSpace α] {ν : Measure α} {f g : α → ℝ} (hf : MemLp f 2 ν) (hg : MemLp g 2 ν) :
    (∫ t, f t * g t ∂ν) ^ 2 ≤ (∫ t, f t ^ 2 ∂ν) * ∫ t, g t ^ 2 ∂ν := by
  have hfg : Integrable (fun t => f t * g t) ν := hf.integrable_mul hg
  have key : ∀ a : ℝ, 0 ≤ (∫ t, g t ^ 2 ∂ν) * (a * a) + (-2 * ∫ t, f t * g t ∂ν) * a + ∫ t, f t ^ 2 ∂ν := by
    intro a
    have h1 : 0 ≤ ∫ t, (f t - a * g t) ^ 2 ∂ν := integral_nonneg fun t => sq_nonneg _
    have h2 : ∀ t, (f t - a * g t) ^ 2 = f t ^ 2 + -2 * a * (f t * g t) + a ^ 2 * g t ^ 2 := fun t => by ring
    simp only [h2] at h1
    have i1 : Integrable (fun t => -2 * a * (f t * g t)) ν := hfg.const_mul _
    have i2 : Integrable (fun t => f t ^ 2 + -2 * a * (f t * g t)) ν := hf.integrable_sq.add i1
    have i3 : Integrable (fun t => a ^ 2 * g t ^ 2) ν := hg.integrable_sq.const_mul _
    rw [integral_add i2 i3, integral_add hf.integrable_sq i1, integral_const_mul, integral_const_mul] at h1
    linarith
  have := discrim_le_zero key
  unfold discrim at this
  nlinarith

theorem fn_memLp {κ : Type} {p : PPoly κ} (h : p.WF) (l : κ) (hle : p.xmin ≤ p.xmax) :
    MemLp (fn p l) 2 (volume.restrict (Set.Ioc p.xmin p.xmax)) := by
  have h1 := fn_integrable h l (fun _ => 1) continuous_const
  have h2 := fn_mul_integrable h l l
  rw [intervalIntegrable_iff_integrableOn_Ioc_of_le hle] at h1 h2
  simp only [one_mul, ← sq] at h1 h2
  exact (memLp_two_iff_integrable_sq h1.aestronglyMeasurable).2 h2

theorem rect_memLp {beta wmax : ℝ} {κ : ℝ → ℝ → ℝ}
    (hκ : ContinuousOn (fun z : ℝ × ℝ => κ z.1 z.2) (Set.Icc 0 beta ×ˢ Set.Icc (-wmax) wmax)) :
    MemLp (fun z : ℝ × ℝ => κ z.1 z.2) 2
      ((volume.restrict (Set.Ioc 0 beta)).prod (volume.restrict (Set.Ioc (-wmax) wmax))) := by
  obtain ⟨M, hM⟩ := (isCompact_Icc.prod isCompact_Icc).exists_bound_of_continuousOn hκ
  have hsub : Set.Ioc 0 beta ×ˢ Set.Ioc (-wmax) wmax ⊆ Set.Icc 0 beta ×ˢ Set.Icc (-wmax) wmax :=
    Set.prod_mono Set.Ioc_subset_Icc_self Set.Ioc_subset_Icc_self
  have hms : MeasurableSet (Set.Ioc 0 beta ×ˢ Set.Ioc (-wmax) wmax) := measurableSet_Ioc.prod measurableSet_Ioc
  have e : (volume.restrict (Set.Ioc 0 beta)).prod (volume.restrict (Set.Ioc (-wmax) wmax)) =
      (volume.prod volume).restrict (Set.Ioc 0 beta ×ˢ Set.Ioc (-wmax) wmax) := Measure.prod_restrict _ _
  refine MemLp.of_bound ?_ M ?_
  · rw [e]
    exact (hκ.mono hsub).aestronglyMeasurable hms
  · rw [e]
    exact (ae_restrict_mem hms).mono fun z hz => hM z (hsub hz)

/-- The difference is square integrable, and its norm is bounded. -/
theorem greens_diff {b : Basis} {beta wmax : ℝ} (hb : 0 < beta) (hw : 0 < wmax) (hu : b.u.WF) (hv : b.v.WF)
    (hud : b.u.xmin = 0 ∧ b.u.xmax = beta) (hvd : b.v.xmin = -wmax ∧ b.v.xmax = wmax) {κ : ℝ → ℝ → ℝ}
    (hκ : ContinuousOn (fun z : ℝ × ℝ => κ z.1 z.2) (Set.Icc 0 beta ×ˢ Set.Icc (-wmax) wmax)) {ρ : ℝ → ℝ}
    (hρ : SquareIntegrable wmax ρ) :
    MemLp (fun tau => greens κ wmax ρ tau - expanded b wmax ρ tau) 2 (volume.restrict (Set.Ioc 0 beta)) ∧
    (∀ l, MemLp (fn b.u l) 2 (volume.restrict (Set.Ioc 0 beta))) ∧
    Real.sqrt (∫ tau in (0 : ℝ)..beta, (greens κ wmax ρ tau - expanded b wmax ρ tau) ^ 2) ≤
      regionNorm beta wmax (basisError κ b) * Real.sqrt (∫ omega in (-wmax)..wmax, ρ omega ^ 2) := by
  set μ := volume.restrict (Set.Ioc 0 beta) with hμ
  set ν := volume.restrict (Set.Ioc (-wmax) wmax) with hν
  have hmu : ∀ l, MemLp (fn b.u l) 2 μ := fun l => by
    have := fn_memLp hu l (by rw [hud.1, hud.2]; exact hb.le)
    rwa [hud.1, hud.2] at this
  have hmv : ∀ l, MemLp (fn b.v l) 2 ν := fun l => by
    have := fn_memLp hv l (by rw [hvd.1, hvd.2]; linarith)
    rwa [hvd.1, hvd.2] at this
  have hE : MemLp (fun z : ℝ × ℝ => basisError κ b z.1 z.2) 2 (μ.prod ν) := by
    refine (rect_memLp hκ).sub (memLp_finset_sum _ fun l _ => ?_)
    have h1 : MemLp (fun z : ℝ × ℝ => fn b.u l z.1 * fn b.v l z.2) 2 (μ.prod ν) := by
      have h0 : AEStronglyMeasurable (fun z : ℝ × ℝ => fn b.u l z.1 * fn b.v l z.2) (μ.prod ν) :=
        ((hmu l).1.comp_fst).mul ((hmv l).1.comp_snd)
      refine (memLp_two_iff_integrable_sq h0).2 ?_
      have := (hmu l).integrable_sq.mul_prod (hmv l).integrable_sq
      simpa only [mul_pow] using this
    simpa only [mul_assoc] using h1.const_mul (b.s l)
  have hrow : ∀ tau ∈ Set.Ioc 0 beta, MemLp (κ tau) 2 ν := by
    intro tau ht
    have hc : ContinuousOn (κ tau) (Set.Icc (-wmax) wmax) :=
      hκ.comp (f := fun omega => (tau, omega)) (by fun_prop) fun o ho => ⟨Set.Ioc_subset_Icc_self ht, ho⟩
    obtain ⟨M, hM⟩ := isCompact_Icc.exists_bound_of_continuousOn hc
    refine MemLp.of_bound ((hc.mono Set.Ioc_subset_Icc_self).aestronglyMeasurable measurableSet_Ioc) M ?_
    exact (ae_restrict_mem measurableSet_Ioc).mono fun x hx => hM x (Set.Ioc_subset_Icc_self hx)
  have hErow : ∀ tau ∈ Set.Ioc 0 beta, MemLp (basisError κ b tau) 2 ν := fun tau ht =>
    (hrow tau ht).sub (memLp_finset_sum _ fun l _ => (hmv l).const_mul (b.s l * fn b.u l tau))
  have hdiff : ∀ tau ∈ Set.Ioc 0 beta, greens κ wmax ρ tau - expanded b wmax ρ tau =
      -∫ omega, basisError κ b tau omega * ρ omega ∂ν := by
    intro tau ht
    have i1 : Integrable (fun omega => κ tau omega * ρ omega) ν := (hrow tau ht).integrable_mul hρ
    have i2 : ∀ l, Integrable (fun omega => fn b.v l omega * ρ omega) ν := fun l => (hmv l).integrable_mul hρ
    have e : ∀ omega, basisError κ b tau omega * ρ omega =
        κ tau omega * ρ omega - ∑ l, b.s l * fn b.u l tau * (fn b.v l omega * ρ omega) := by
      intro omega
      unfold basisError
      rw [sub_mul, Finset.sum_mul]
      congr 1
      exact Finset.sum_congr rfl fun l _ => by ring
    simp only [e]
    rw [integral_sub i1 (integrable_finset_sum _ fun l _ => (i2 l).const_mul _),
      integral_finset_sum _ fun l _ => (i2 l).const_mul _]
    simp only [integral_const_mul]
    unfold greens expanded coefs
    simp only [intervalIntegral.integral_of_le (show -wmax ≤ wmax by linarith)]
    rw [neg_sub, sub_eq_add_neg, ← Finset.sum_neg_distrib, add_comm, sub_eq_add_neg]
    congr 1
    exact Finset.sum_congr rfl fun l _ => by ring
  have hsq : ∀ tau ∈ Set.Ioc 0 beta, (greens κ wmax ρ tau - expanded b wmax ρ tau) ^ 2 ≤
      (∫ omega, basisError κ b tau omega ^ 2 ∂ν) * ∫ omega, ρ omega ^ 2 ∂ν := by
    intro tau ht
    rw [hdiff tau ht, neg_sq]
    exact integral_mul_sq_le (hErow tau ht) hρ
  have hI : Integrable (fun tau => ∫ omega, basisError κ b tau omega ^ 2 ∂ν) μ := (hE.integrable_sq).integral_prod_left
  have hswap : ∫ omega in (-wmax)..wmax, ∫ tau in (0 : ℝ)..beta, basisError κ b tau omega ^ 2 =
      ∫ tau, ∫ omega, basisError κ b tau omega ^ 2 ∂ν ∂μ := by
    rw [intervalIntegral.integral_of_le (show -wmax ≤ wmax by linarith)]
    simp only [intervalIntegral.integral_of_le hb.le]
    exact (integral_integral_swap (f := fun tau omega => basisError κ b tau omega ^ 2) hE.integrable_sq).symm
  have hP : 0 ≤ ∫ tau, ∫ omega, basisError κ b tau omega ^ 2 ∂ν ∂μ :=
    integral_nonneg fun tau => integral_nonneg fun omega => sq_nonneg _
  have hρ2 : MemLp (fun z : ℝ × ℝ => ρ z.2) 2 (μ.prod ν) := by
    have h0 : AEStronglyMeasurable (fun z : ℝ × ℝ => ρ z.2) (μ.prod ν) := hρ.1.comp_snd
    refine (memLp_two_iff_integrable_sq h0).2 ?_
    have := (integrable_const (μ := μ) (1 : ℝ)).mul_prod hρ.integrable_sq
    simpa only [one_mul] using this
  have hD : AEStronglyMeasurable (fun tau => greens κ wmax ρ tau - expanded b wmax ρ tau) μ := by
    have h1 : Integrable (fun z : ℝ × ℝ => basisError κ b z.1 z.2 * ρ z.2) (μ.prod ν) := hE.integrable_mul hρ2
    refine (h1.integral_prod_left.neg.1).congr ?_
    exact (ae_restrict_mem measurableSet_Ioc).mono fun tau ht => (hdiff tau ht).symm
  refine ⟨(memLp_two_iff_integrable_sq hD).2 ?_, hmu, ?_⟩
  · refine (hI.mul_const (∫ omega, ρ omega ^ 2 ∂ν)).mono' (hD.pow 2) ?_
    refine (ae_restrict_mem measurableSet_Ioc).mono fun tau ht => ?_
    rw [Real.norm_of_nonneg (sq_nonneg _)]
    exact hsq tau ht
  · unfold regionNorm
    rw [hswap, ← Real.sqrt_mul hP]
    refine Real.sqrt_le_sqrt ?_
    rw [intervalIntegral.integral_of_le hb.le, intervalIntegral.integral_of_le (show -wmax ≤ wmax by linarith),
      ← integral_mul_const]
    refine integral_mono_of_nonneg (Filter.Eventually.of_forall fun tau => sq_nonneg _) (hI.mul_const _) ?_
    exact (ae_restrict_mem measurableSet_Ioc).mono fun tau ht => hsq tau ht

/-- Any basis whose expansion of the kernel has an error `e` in the mean expands every Green's function with an error of
at most `e` times the norm of the spectral function. -/
theorem C84_greens {b : Basis} {beta wmax : ℝ} (hb : 0 < beta) (hw : 0 < wmax) (hu : b.u.WF) (hv : b.v.WF)
    (hud : b.u.xmin = 0 ∧ b.u.xmax = beta) (hvd : b.v.xmin = -wmax ∧ b.v.xmax = wmax) {κ : ℝ → ℝ → ℝ}
    (hκ : ContinuousOn (fun z : ℝ × ℝ => κ z.1 z.2) (Set.Icc 0 beta ×ˢ Set.Icc (-wmax) wmax)) {ρ : ℝ → ℝ}
    (hρ : SquareIntegrable wmax ρ) :
    Real.sqrt (∫ tau in (0 : ℝ)..beta, (greens κ wmax ρ tau - expanded b wmax ρ tau) ^ 2) ≤
      regionNorm beta wmax (basisError κ b) * Real.sqrt (∫ omega in (-wmax)..wmax, ρ omega ^ 2) :=
  (greens_diff hb hw hu hv hud hvd hκ hρ).2.2

/-- The same on the Matsubara axis. -/
theorem C84_matsubara {b : Basis} {beta wmax : ℝ} (hb : 0 < beta) (hw : 0 < wmax) (hu : b.u.WF) (hv : b.v.WF)
    (hud : b.u.xmin = 0 ∧ b.u.xmax = beta) (hvd : b.v.xmin = -wmax ∧ b.v.xmax = wmax) {κ : ℝ → ℝ → ℝ}
    (hκ : ContinuousOn (fun z : ℝ × ℝ => κ z.1 z.2) (Set.Icc 0 beta ×ˢ Set.Icc (-wmax) wmax)) {ρ : ℝ → ℝ}
    (hρ : SquareIntegrable wmax ρ) (n : ℤ) :
    ‖(∫ tau in (0 : ℝ)..beta, Complex.exp (Complex.I * Real.pi * n * tau / beta) * (greens κ wmax ρ tau : ℂ)) -
      ∑ l, (coefs b wmax ρ l : ℂ) *
        ∫ tau in (0 : ℝ)..beta, Complex.exp (Complex.I * Real.pi * n * tau / beta) * (fn b.u l tau : ℂ)‖ ≤
    Real.sqrt beta * (regionNorm beta wmax (basisError κ b) * Real.sqrt (∫ omega in (-wmax)..wmax, ρ omega ^ 2)) := by
  obtain ⟨hD, hmu, hle⟩ := greens_diff hb hw hu hv hud hvd hκ hρ
  have lift : ∀ f : ℝ → ℝ, MemLp f 2 (volume.restrict (Set.Ioc 0 beta)) → IntervalIntegrable
      (fun tau : ℝ => Complex.exp (Complex.I * Real.pi * n * tau / beta) * (f tau : ℂ)) volume 0 beta := by
    intro f hf
    have h1 : IntervalIntegrable f volume 0 beta :=
      (intervalIntegrable_iff_integrableOn_Ioc_of_le hb.le).2 (hf.integrable (by norm_num))
    have h2 : IntervalIntegrable (fun t => (f t : ℂ)) volume 0 beta := ⟨h1.1.ofReal, h1.2.ofReal⟩
    exact IntervalIntegrable.continuousOn_mul h2 (by fun_prop)
  have hX : MemLp (expanded b wmax ρ) 2 (volume.restrict (Set.Ioc 0 beta)) :=
    memLp_finset_sum _ fun l _ => (hmu l).const_mul (coefs b wmax ρ l)
  have hG : MemLp (greens κ wmax ρ) 2 (volume.restrict (Set.Ioc 0 beta)) := by
    have := hD.add hX
    refine (congrArg (fun f => MemLp f 2 (volume.restrict (Set.Ioc 0 beta))) (funext fun tau => ?_)).mp this
    simp
  have e1 : ∑ l, (coefs b wmax ρ l : ℂ) *
      (∫ tau in (0 : ℝ)..beta, Complex.exp (Complex.I * Real.pi * n * tau / beta) * (fn b.u l tau : ℂ)) =
      ∫ tau in (0 : ℝ)..beta, Complex.exp (Complex.I * Real.pi * n * tau / beta) * (expanded b wmax ρ tau : ℂ) := by
    simp only [← intervalIntegral.integral_const_mul]
    rw [← intervalIntegral.integral_finset_sum fun l _ => (lift _ (hmu l)).const_mul _]
    refine intervalIntegral.integral_congr fun (tau : ℝ) _ => ?_
    simp only [expanded]
    push_cast
    rw [Finset.mul_sum]
    exact Finset.sum_congr rfl fun l _ => by ring
  rw [e1, ← intervalIntegral.integral_sub (lift _ hG) (lift _ hX)]
  have hnorm : ∀ tau : ℝ, ‖Complex.exp (Complex.I * Real.pi * n * tau / beta)‖ = 1 := by
    intro tau
    rw [show Complex.I * Real.pi * n * tau / beta = ((Real.pi * n * tau / beta : ℝ) : ℂ) * Complex.I by push_cast; ring]
    exact Complex.norm_exp_ofReal_mul_I _
  have h1 : ‖∫ tau in (0 : ℝ)..beta, (Complex.exp (Complex.I * Real.pi * n * tau / beta) * (greens κ wmax ρ tau : ℂ) -
      Complex.exp (Complex.I * Real.pi * n * tau / beta) * (expanded b wmax ρ tau : ℂ))‖ ≤
      ∫ tau in (0 : ℝ)..beta, |greens κ wmax ρ tau - expanded b wmax ρ tau| := by
    refine (intervalIntegral.norm_integral_le_integral_norm hb.le).trans (le_of_eq ?_)
    refine intervalIntegral.integral_congr fun (tau : ℝ) _ => ?_
    rw [← mul_sub, norm_mul, hnorm, one_mul, ← Complex.ofReal_sub, Complex.norm_real, Real.norm_eq_abs]
  refine h1.trans (le_trans ?_ (mul_le_mul_of_nonneg_left hle (Real.sqrt_nonneg _)))
  rw [intervalIntegral.integral_of_le hb.le, intervalIntegral.integral_of_le hb.le, ← Real.sqrt_mul hb.le]
  refine Real.le_sqrt_of_sq_le ?_
  have hD' : MemLp (fun tau => |greens κ wmax ρ tau - expanded b wmax ρ tau|) 2 (volume.restrict (Set.Ioc 0 beta)) := hD.abs
  have h2 := integral_mul_sq_le hD' (memLp_const (1 : ℝ))
  simp only [mul_one, one_pow, sq_abs] at h2
  refine h2.trans (le_of_eq ?_)
  rw [mul_comm]
  congr 1
  simp [hb.le]

/-! ## A basis from scratch -/

/-- The outcome `res` of constructing a basis for the kernel `κ` (`k` in dimensionless variables) with an error `tail` due
to the discretisation: there are Gauss nodes in the upper right quarter and singular value decompositions of the even and
odd parts of `k` there, such that either the sign of a singular function could not be fixed, or `res` is a basis as in C66,
its singular values and the `omitted` ones being, up to `fac`, those of the decompositions.  Its expansion deviates from the
kernel in the mean over the whole region at most by the omitted singular values and `tail`; its expansion of a Green's
function deviates in the mean over `[0, beta]` at most by that times the norm of the spectral function, and on the
Matsubara axis, with `uhat`, at most by `sqrt(beta)` times as much. -/
def Accurate (k κ : ℝ → ℝ → ℝ) (n : ℕ) (stat : String) (beta wmax fac e t tail : ℝ) (maxSize : Option ℕ) (res : PyM Basis) :
    Prop :=
  ∃ (mx my : ℕ) (x wx : Fin mx → ℝ) (y wy : Fin my → ℝ) (fe fo : Factors ℝ mx my),
    NodesOn 0 n x wx ∧ NodesOn 0 n y wy ∧
    IsSvdFactors (nodeMatrix (fun x y => k x y + k x (-y)) x wx y wy) fe ∧
    IsSvdFactors (nodeMatrix (fun x y => k x y - k x (-y)) x wx y wy) fo ∧
    (res = .error .nanResult ∨
    ∃ (b : Basis) (omitted : List ℝ), res = .ok b ∧ IsBasis b stat beta wmax e ∧ (∀ m ∈ maxSize, b.size ≤ m) ∧
      (List.ofFn b.s ++ omitted).Perm ((List.ofFn fe.s ++ List.ofFn fo.s).map (fac * ·)) ∧
      (∀ q ∈ omitted, ∀ l, q ≤ b.s l) ∧
      (maxSize = none → ∀ q ∈ omitted, ∀ l0 : Fin b.size, l0.1 = 0 → q ≤ max e t * b.s l0) ∧
      regionNorm beta wmax (basisError κ b) ≤ Real.sqrt (omitted.map (· ^ 2)).sum + tail ∧
      ∀ ρ, SquareIntegrable wmax ρ →
        Real.sqrt (∫ tau in (0 : ℝ)..beta, (greens κ wmax ρ tau - expanded b wmax ρ tau) ^ 2) ≤
          (Real.sqrt (omitted.map (· ^ 2)).sum + tail) * Real.sqrt (∫ omega in (-wmax)..wmax, ρ omega ^ 2) ∧
        ∀ m : ℤ, |(m : ℝ)| < 40 * (beta * wmax) → (stat = "F" ↔ Odd m) → ∃ f, b.uhat.call m = .ok f ∧
          ‖(∫ tau in (0 : ℝ)..beta, Complex.exp (Complex.I * Real.pi * m * tau / beta) * (greens κ wmax ρ tau : ℂ)) -
            ∑ l, (coefs b wmax ρ l : ℂ) * f l‖ ≤
          Real.sqrt beta * ((Real.sqrt (omitted.map (· ^ 2)).sum + tail) *
            Real.sqrt (∫ omega in (-wmax)..wmax, ρ omega ^ 2)))

/-- From the expansion of the dimensionless kernel to the basis. -/
theorem region_le {b : Basis} {beta wmax : ℝ} (hbeta : 0 < beta) (hw : 0 < wmax) {k κ : ℝ → ℝ → ℝ} {r : SveResult} {d omitted : List ℝ}
    (c1 : b.size ≤ r.n) (c2 : omitted = ((List.ofFn r.s).drop b.size ++ d).map (Real.sqrt (beta / 2 * wmax) * ·))
    (c3 : ∀ x y, |x| ≤ 1 → |y| ≤ 1 → basisError κ b (beta / 2 * (x + 1)) (wmax * y) = 1 * resid k r b.size x y) {tail : ℝ}
    (hexp : squareNorm (resid k r b.size) ≤ Real.sqrt ((d.map (· ^ 2)).sum + ∑ l with b.size ≤ l.1, r.s l ^ 2) + tail) :
    regionNorm beta wmax (basisError κ b) ≤ Real.sqrt (omitted.map (· ^ 2)).sum + Real.sqrt (beta / 2 * wmax) * tail := by
  rw [region_eq hbeta hw zero_le_one c3, mul_one]
  have hS : Real.sqrt (omitted.map (· ^ 2)).sum = Real.sqrt (beta / 2 * wmax) *
      Real.sqrt ((d.map (· ^ 2)).sum + ∑ l with b.size ≤ l.1, r.s l ^ 2) := by
    rw [← Real.sqrt_mul (by positivity)]
    congr 1
    rw [c2, List.map_map, List.map_append, List.sum_append, add_comm, mul_add]
    have hf : ((fun t : ℝ => t ^ 2) ∘ fun t => Real.sqrt (beta / 2 * wmax) * t) = fun t => beta / 2 * wmax * t ^ 2 :=
      funext fun t => by
        show (Real.sqrt (beta / 2 * wmax) * t) ^ 2 = _
        rw [mul_pow, Real.sq_sqrt (by positivity)]
    rw [hf, List.sum_map_mul_left, List.sum_map_mul_left]
    congr 2
    rw [sum_drop c1, Finset.sum_filter]
    refine Finset.sum_congr rfl fun l _ => ?_
    by_cases hl : l.1 < b.size
    · rw [if_pos hl, if_neg (by omega)]
    · rw [if_neg hl, if_pos (by omega)]
  rw [hS, ← mul_add]
  exact mul_le_mul_of_nonneg_left hexp (Real.sqrt_nonneg _)

/-- `FiniteTempBasis` for the logistic kernel: the discretisation contributes at most `10⁻⁸` (`4·10⁻¹⁴`) times
`sqrt(beta * wmax / 2)`. -/
theorem C84_logistic (env : Env) (fp : Fp) (stat : String) (hstat : stat = "F" ∨ stat = "B") (beta wmax : ℝ)
    (hbeta : 0 < beta) (hw : 0 < wmax) (hfp : fp.mul beta wmax = beta * wmax) (hl1 : 10 ≤ beta * wmax)
    (hl2 : beta * wmax ≤ 10 ^ 6) (eps : Option ℝ) (maxSize : Option ℕ)
    (hmax : maxSize ≠ some 0) (c : Choice) (hc : safeEps env.platform (eps.map .real) none none = .ok c)
    (he : eps.getD c.safeEps ≤ 1) (t : ℝ) (ht : CutoffIs env.platform c.dtype none t) (h0 : 0 ≤ t) (h1 : t < 1)
    (hsvd : SvdOk env.libs (decide (c.dtype = .ddouble)) c.strategy)
    (hex : SvdExact env.libs (decide (c.dtype = .ddouble)) c.strategy) (hsort : ∀ k, ArgsortOk (env.argsort k))
    (rule : Rule) (hleg : env.legendre (if 1e-8 ≤ c.safeEps then 10 else 16) = .ok rule) (hr : GoodRule rule)
    (hrn : rule.x.length = if 1e-8 ≤ c.safeEps then 10 else 16) :
    Accurate (logisticK (beta * wmax)) (fun tau omega => Real.exp (-tau * omega) / (1 + Real.exp (-beta * omega)))
      (if 1e-8 ≤ c.safeEps then 10 else 16) stat beta wmax (Real.sqrt (beta / 2 * wmax)) (eps.getD c.safeEps) t
      (Real.sqrt (beta / 2 * wmax) * if 1e-8 ≤ c.safeEps then 1e-8 else 4e-14) maxSize
      (make fp (computeOf env) stat beta wmax eps maxSize none none) := by
  have hκ : ∀ x y, |x| ≤ 1 → |y| ≤ 1 → (fun tau omega => Real.exp (-tau * omega) / (1 + Real.exp (-beta * omega)))
      (beta / 2 * (x + 1)) (wmax * y) = wmax ^ (-(logisticInfo (beta * wmax)).ypower) * logisticK (beta * wmax) x y := by
    intro x y _ _
    show _ = wmax ^ (-(0 : ℤ)) * _
    rw [neg_zero, zpow_zero, one_mul]
    unfold logisticK
    simp only
    congr 2
    · ring
    · congr 1; ring
  obtain ⟨mx, my, x, wx, y, wy, hint, fe, we, fo, wo, a1, a2, a3, a4, hres⟩ :=
    scratch_full env fp stat hstat beta wmax hbeta hw eps maxSize hmax none (logisticInfo (beta * wmax))
      (by rw [hfp]; rcases hstat with rfl | rfl <;> rfl) rfl _ (if_pos rfl) (logisticK (beta * wmax))
      (fun tau omega => Real.exp (-tau * omega) / (1 + Real.exp (-beta * omega))) hκ c hc he
      (C65_logistic _ _ (by positivity)) t ht h0 h1 hsvd hsort _ rfl rule hleg hr hrn
  have hyp : wmax ^ (-(logisticInfo (beta * wmax)).ypower) = 1 := by
    show wmax ^ (-(0 : ℤ)) = 1
    rw [neg_zero, zpow_zero]
  have e1 := hex _ _ _ _ _ _ (a1.pos one_pos) (a2.pos one_pos) a3
  have e2 := hex _ _ _ _ _ _ (a1.pos one_pos) (a2.pos one_pos) a4
  refine ⟨mx, my, x, wx, y, wy, fe, fo, a1, a2, e1, e2, ?_⟩
  rcases hres with ⟨h, -⟩ | ⟨b, omitted, b1, b2, b3, b4, b5, b6, b7, b8, b9, r, d, c1, c2, c3, c4, c5⟩
  · exact Or.inl h
  · rw [hyp] at c2 c3 b4
    simp only [mul_one] at c2 b4
    have hn10 : 10 ≤ if (1e-8 : ℝ) ≤ c.safeEps then 10 else 16 := by split <;> norm_num
    have hexp := C83_expansion c4 (c5 _ (C65_logistic (beta * wmax) c.safeEps (by positivity)).symm e1 e2) (C83_hints hl1 hl2 c.safeEps hn10) b.size
    have htail : 4 * ((1 / 8 : ℝ) ^ (if (1e-8 : ℝ) ≤ c.safeEps then 10 else 16) +
        2 * (3 / 25) ^ (if (1e-8 : ℝ) ≤ c.safeEps then 10 else 16) / (1 - 3 / 25)) ≤
        if (1e-8 : ℝ) ≤ c.safeEps then 1e-8 else 4e-14 := by
      split
      · exact logisticTail_values.1
      · exact logisticTail_values.2
    have hreg : regionNorm beta wmax (basisError (fun tau omega => Real.exp (-tau * omega) / (1 + Real.exp (-beta * omega))) b)
        ≤ Real.sqrt (omitted.map (· ^ 2)).sum + Real.sqrt (beta / 2 * wmax) * if 1e-8 ≤ c.safeEps then 1e-8 else 4e-14 := by
      exact region_le hbeta hw c1 c2 c3 (hexp.trans (add_le_add le_rfl htail))
    refine Or.inr ⟨b, omitted, b1, b2, b3, b4, b5, b6, hreg, fun ρ hρ => ?_⟩
    have hcont : Continuous fun z : ℝ × ℝ => Real.exp (-z.1 * z.2) / (1 + Real.exp (-beta * z.2)) :=
      Continuous.div (by fun_prop) (by fun_prop) fun z => by positivity
    have hmul := mul_le_mul_of_nonneg_right hreg (Real.sqrt_nonneg (∫ omega in (-wmax)..wmax, ρ omega ^ 2))
    refine ⟨(C84_greens hbeta hw b8 b9 b2.udom b2.vdom hcont.continuousOn hρ).trans hmul, fun m hm hp => ?_⟩
    exact ⟨_, b2.uhat m hm hp, (C84_matsubara hbeta hw b8 b9 b2.udom b2.vdom hcont.continuousOn hρ m).trans
      (mul_le_mul_of_nonneg_left hmul (Real.sqrt_nonneg _))⟩

/-- The hypotheses are met, for example by `beta = 20`, `wmax = 5`, `eps = 10⁻⁶` and ideal libraries; constant and linear
spectral functions are square integrable. -/
example : (∃ env c, safeEps env.platform (some (.real 1e-6)) none none = .ok c ∧
      Accurate (logisticK (20 * 5)) (fun tau omega => Real.exp (-tau * omega) / (1 + Real.exp (-20 * omega)))
        (if 1e-8 ≤ c.safeEps then 10 else 16) "F" 20 5 (Real.sqrt (20 / 2 * 5)) 1e-6 (2 * 2 ^ (-52 : ℤ))
        (Real.sqrt (20 / 2 * 5) * if 1e-8 ≤ c.safeEps then 1e-8 else 4e-14) none
        (make Fp.exact (computeOf env) "F" 20 5 (some 1e-6) none none none)) ∧
    SquareIntegrable 5 (fun _ => 1) ∧ SquareIntegrable 5 fun omega => omega := by
  refine ⟨?_, memLp_const 1, ?_⟩
  · obtain ⟨env, c, rule, h1, h2, h3, h4, h5, h6, h7, h8⟩ := ideal_env true
    exact ⟨env, c, h1, C84_logistic env Fp.exact "F" (Or.inl rfl) 20 5 (by norm_num) (by norm_num) rfl (by norm_num)
      (by norm_num) (some 1e-6) none (by simp) c h1 (by norm_num) _ h2 (by positivity) (by norm_num) h3 h4 h5 rule h6 h7 h8⟩
  · refine MemLp.of_bound continuous_id.aestronglyMeasurable 5 ?_
    refine (ae_restrict_mem measurableSet_Ioc).mono fun x hx => ?_
    rw [Real.norm_eq_abs]
    exact abs_le.2 ⟨hx.1.le, hx.2⟩

end Verif.Props
