import Verif.Props.C69_NoiseAmplification
import Mathlib.Analysis.Fourier.AddCircle
import Mathlib.Analysis.Normed.Module.FiniteDimension
/-!
# C72 — how many sampling points are needed, and that they exist
-/

namespace Verif.Props
open Verif Verif.Np Verif.Poly Verif.Sve Verif.Kernel Verif.Spec Verif.FiniteTemp Verif.Sampling Verif.Np.NdArray Matrix
open MeasureTheory

/-! ## Linear algebra -/

section
variable {𝕜 : Type} [Field 𝕜]

/-- If all rows together determine a vector with `n` entries, then `n` of the rows do. -/
theorem determining_rows {X : Type} {n : ℕ} (φ : X → Fin n → 𝕜)
    (h : ∀ g : Fin n → 𝕜, (∀ x, ∑ l, g l * φ x l = 0) → g = 0) :
    ∃ e : Fin n → X, Function.Injective e ∧ ∀ g : Fin n → 𝕜, (∀ i, ∑ l, g l * φ (e i) l = 0) → g = 0 := by
  obtain ⟨κ, a, ha, hsp, hli⟩ := exists_linearIndependent' 𝕜 φ
  have hfun : ∀ (f : (Fin n → 𝕜) →ₗ[𝕜] 𝕜) (y : Fin n → 𝕜), ∑ l, f (Pi.single l 1) * y l = f y := by
    intro f y
    conv_rhs => rw [pi_eq_sum_univ' y, map_sum]
    refine Finset.sum_congr rfl fun l _ => ?_
    rw [map_smul, smul_eq_mul, mul_comm]
  have htop : Submodule.span 𝕜 (Set.range φ) = ⊤ := by
    by_contra hne
    obtain ⟨f, hf, hle⟩ := Submodule.exists_le_ker_of_lt_top _ (lt_top_iff_ne_top.2 hne)
    refine hf ?_
    have h0 := h (fun l => f (Pi.single l 1)) fun x => by
      rw [hfun]
      exact hle (Submodule.subset_span ⟨x, rfl⟩)
    ext l
    exact congrFun h0 l
  have hfin : Finite κ := hli.finite
  have := Fintype.ofFinite κ
  have hcard : Fintype.card κ = n := by
    have h1 := finrank_span_eq_card hli
    rw [hsp, htop, finrank_top, Module.finrank_fin_fun] at h1
    exact h1.symm
  let eq : Fin n ≃ κ := (Fintype.equivFinOfCardEq hcard).symm
  refine ⟨fun i => a (eq i), ha.comp eq.injective, fun g hg => ?_⟩
  have hker : Submodule.span 𝕜 (Set.range (φ ∘ a)) ≤ LinearMap.ker (∑ l, g l • LinearMap.proj (R := 𝕜) (φ := fun _ => 𝕜) l) := by
    rw [Submodule.span_le]
    rintro _ ⟨j, rfl⟩
    have := hg (eq.symm j)
    simp only [Equiv.apply_symm_apply] at this
    simpa [LinearMap.sum_apply] using this
  rw [hsp, htop] at hker
  funext l
  have := hker (x := Pi.single l 1) trivial
  simpa [LinearMap.sum_apply, Pi.single_apply] using this

/-- Points of a linearly ordered set, in ascending order. -/
theorem determining_list {X : Type} [LinearOrder X] {I : X → Prop} {n : ℕ} (φ : X → Fin n → 𝕜)
    (h : ∀ g : Fin n → 𝕜, (∀ x, I x → ∑ l, g l * φ x l = 0) → g = 0) :
    ∃ p : List X, p.length = n ∧ p.Pairwise (· < ·) ∧ (∀ x ∈ p, I x) ∧
      ∀ g : Fin n → 𝕜, (∀ x ∈ p, ∑ l, g l * φ x l = 0) → g = 0 := by
  obtain ⟨e, he, h1⟩ := determining_rows (X := {x // I x}) (fun x => φ x.1) fun g hg => h g fun x hx => hg ⟨x, hx⟩
  have hinj : Function.Injective fun i => (e i).1 := fun i j hij => he (Subtype.ext hij)
  refine ⟨(Finset.univ.image fun i => (e i).1).sort (· ≤ ·), ?_, ?_, fun x hx => ?_, fun g hg => h1 g fun i => ?_⟩
  · rw [Finset.length_sort, Finset.card_image_of_injective _ hinj, Finset.card_univ, Fintype.card_fin]
  · exact (Finset.sortedLT_sort _).pairwise
  · rw [Finset.mem_sort, Finset.mem_image] at hx
    obtain ⟨i, -, rfl⟩ := hx
    exact (e i).2
  · exact hg _ ((Finset.mem_sort _).2 (Finset.mem_image.2 ⟨i, Finset.mem_univ _, rfl⟩))

/-- Fewer than `n` linear conditions do not determine a vector with `n` entries. -/
theorem too_few {n : ℕ} {W : Type} [AddCommGroup W] [Module 𝕜 W] [FiniteDimensional 𝕜 W] (f : (Fin n → 𝕜) →ₗ[𝕜] W)
    (h : Module.finrank 𝕜 W < n) : ∃ g, g ≠ 0 ∧ f g = 0 := by
  have := LinearMap.ker_ne_bot_of_finrank_lt (f := f) (by simpa using h)
  obtain ⟨g, h1, h2⟩ := Submodule.exists_mem_ne_zero_of_ne_bot this
  exact ⟨g, h2, h1⟩

end

/-- A linear map which determines its argument is bounded below. -/
theorem bounded_below {𝕜 : Type} [RCLike 𝕜] [NormedSpace 𝕜 ℂ] {n m : ℕ} (f : (Fin n → 𝕜) →ₗ[𝕜] (Fin m → ℂ)) :
    (∀ g, f g = 0 → g = 0) ↔ ∃ σ : ℝ, 0 < σ ∧ ∀ g, σ ^ 2 * ∑ l, ‖g l‖ ^ 2 ≤ ∑ i, ‖f g i‖ ^ 2 := by
  constructor
  · intro hinj
    let L : EuclideanSpace 𝕜 (Fin n) →ₗ[𝕜] (Fin m → ℂ) := f ∘ₗ (WithLp.linearEquiv 2 𝕜 (Fin n → 𝕜)).toLinearMap
    have hker : LinearMap.ker L = ⊥ := by
      rw [LinearMap.ker_eq_bot']
      intro g hg
      have := hinj _ hg
      exact (WithLp.linearEquiv 2 𝕜 (Fin n → 𝕜)).map_eq_zero_iff.1 this
    obtain ⟨K, hK, hL⟩ := LinearMap.exists_antilipschitzWith L hker
    have hK' : (0 : ℝ) < K := hK
    refine ⟨(K : ℝ)⁻¹, by positivity, fun g => ?_⟩
    have h1 := ZeroHomClass.bound_of_antilipschitz L hL (WithLp.toLp 2 g)
    have h2 : ‖WithLp.toLp 2 g‖ ^ 2 = ∑ l, ‖g l‖ ^ 2 := by
      rw [EuclideanSpace.norm_sq_eq]
    have h3 : ‖f g‖ ^ 2 ≤ ∑ i, ‖f g i‖ ^ 2 := by
      have h4 : ‖f g‖ ≤ Real.sqrt (∑ i, ‖f g i‖ ^ 2) := by
        refine (pi_norm_le_iff_of_nonneg (Real.sqrt_nonneg _)).2 fun i => Real.le_sqrt_of_sq_le ?_
        exact Finset.single_le_sum (f := fun i => ‖f g i‖ ^ 2) (fun i _ => sq_nonneg _) (Finset.mem_univ i)
      calc ‖f g‖ ^ 2 ≤ Real.sqrt (∑ i, ‖f g i‖ ^ 2) ^ 2 := pow_le_pow_left₀ (norm_nonneg _) h4 2
        _ = _ := Real.sq_sqrt (Finset.sum_nonneg fun i _ => sq_nonneg _)
    refine le_trans ?_ h3
    rw [← h2, ← mul_pow]
    refine pow_le_pow_left₀ (by positivity) ?_ 2
    rw [inv_mul_le_iff₀ hK']
    exact h1
  · rintro ⟨σ, hσ, h⟩ g hg
    have h1 := h g
    rw [hg] at h1
    simp only [Pi.zero_apply, norm_zero, ne_eq, OfNat.ofNat_ne_zero, not_false_eq_true, zero_pow, Finset.sum_const_zero] at h1
    have h2 : ∑ l, ‖g l‖ ^ 2 ≤ 0 := by
      by_contra hc
      have : 0 < σ ^ 2 * ∑ l, ‖g l‖ ^ 2 := mul_pos (by positivity) (not_le.1 hc)
      linarith
    funext l
    have h3 := Finset.single_le_sum (f := fun l => ‖g l‖ ^ 2) (fun i _ => sq_nonneg _) (Finset.mem_univ l)
    have h4 : ‖g l‖ ^ 2 = 0 := le_antisymm (h3.trans h2) (sq_nonneg _)
    exact norm_eq_zero.1 (pow_eq_zero_iff (two_ne_zero) |>.1 h4)

/-! ## The functions of a basis -/

section
variable {fp : Fp} {compute : KernelInfo → Option ℝ → PyM SveResult} {stat : String} {beta wmax : ℝ}
    {eps : Option ℝ} {maxSize : Option ℕ} {kernel : Option KernelInfo} {sve : Option SveResult} {k : KernelInfo}
    {lam : ℝ} {r : SveResult} {h : Good r} {e : ℝ} {m : ℕ} {b : FiniteTemp.Basis}

theorem timeValue_re (g : Fin b.size → ℂ) (t : ℝ) : (timeValue b g t).re = ∑ l, (g l).re * fn b.u l t := by
  unfold timeValue
  rw [Complex.re_sum]
  exact Finset.sum_congr rfl fun l _ => Complex.re_mul_ofReal _ _

theorem timeValue_im (g : Fin b.size → ℂ) (t : ℝ) : (timeValue b g t).im = ∑ l, (g l).im * fn b.u l t := by
  unfold timeValue
  rw [Complex.im_sum]
  exact Finset.sum_congr rfl fun l _ => Complex.im_mul_ofReal _ _

theorem sq_combo (v : Valid fp compute stat beta wmax eps maxSize kernel sve k lam r h e m)
    (hb : make fp compute stat beta wmax eps maxSize kernel sve = .ok b) (ho : Orthonormal b.u 0 beta)
    (a : Fin b.size → ℝ) : IntervalIntegrable (fun t => (∑ l, a l * fn b.u l t) ^ 2) volume 0 beta ∧
      ∫ t in (0 : ℝ)..beta, (∑ l, a l * fn b.u l t) ^ 2 = ∑ l, a l ^ 2 := by
  have d := v.describes hb
  have hint : ∀ l l', IntervalIntegrable (fun t => a l * a l' * (fn b.u l t * fn b.u l' t)) volume 0 beta := by
    intro l l'
    have := fn_mul_integrable d.uwf l l'
    rw [d.umin, d.umax] at this
    exact this.const_mul _
  have hsum : (fun t => (∑ l, a l * fn b.u l t) ^ 2) = fun t => ∑ l, ∑ l', a l * a l' * (fn b.u l t * fn b.u l' t) := by
    funext t
    rw [sq, Finset.sum_mul_sum]
    refine Finset.sum_congr rfl fun l _ => Finset.sum_congr rfl fun l' _ => ?_
    ring
  have hi : ∀ l, IntervalIntegrable (fun t => ∑ l', a l * a l' * (fn b.u l t * fn b.u l' t)) volume 0 beta := by
    intro l
    have := IntervalIntegrable.sum Finset.univ fun l' _ => hint l l'
    refine this.congr fun t _ => ?_
    simp
  constructor
  · rw [hsum]
    have := IntervalIntegrable.sum Finset.univ fun l _ => hi l
    refine this.congr fun t _ => ?_
    simp
  · rw [hsum, intervalIntegral.integral_finset_sum fun l _ => hi l]
    refine Finset.sum_congr rfl fun l _ => ?_
    rw [intervalIntegral.integral_finset_sum fun l' _ => hint l l']
    rw [Finset.sum_eq_single l]
    · rw [intervalIntegral.integral_const_mul, ho l l, if_pos rfl]
      ring
    · intro l' _ hne
      rw [intervalIntegral.integral_const_mul, ho l l', if_neg (Ne.symm hne), mul_zero]
    · simp

/-- The norm of a function of imaginary time is the norm of its coefficients. -/
theorem C72_norm (v : Valid fp compute stat beta wmax eps maxSize kernel sve k lam r h e m)
    (hb : make fp compute stat beta wmax eps maxSize kernel sve = .ok b) (ho : Orthonormal b.u 0 beta)
    (g : Fin b.size → ℂ) : IntervalIntegrable (fun t => ‖timeValue b g t‖ ^ 2) volume 0 beta ∧
      ∫ t in (0 : ℝ)..beta, ‖timeValue b g t‖ ^ 2 = ∑ l, ‖g l‖ ^ 2 := by
  have hn : ∀ z : ℂ, ‖z‖ ^ 2 = z.re ^ 2 + z.im ^ 2 := fun z => by
    rw [Complex.sq_norm, Complex.normSq_apply]
    ring
  obtain ⟨i1, e1⟩ := sq_combo v hb ho fun l => (g l).re
  obtain ⟨i2, e2⟩ := sq_combo v hb ho fun l => (g l).im
  have hf : (fun t => ‖timeValue b g t‖ ^ 2) = fun t =>
      (∑ l, (g l).re * fn b.u l t) ^ 2 + (∑ l, (g l).im * fn b.u l t) ^ 2 := by
    funext t
    rw [hn, timeValue_re, timeValue_im]
  rw [hf]
  refine ⟨i1.add i2, ?_⟩
  rw [intervalIntegral.integral_add i1 i2, e1, e2, ← Finset.sum_add_distrib]
  exact Finset.sum_congr rfl fun l _ => (hn _).symm

theorem timeValue_int (v : Valid fp compute stat beta wmax eps maxSize kernel sve k lam r h e m)
    (hb : make fp compute stat beta wmax eps maxSize kernel sve = .ok b) (g : Fin b.size → ℂ) :
    IntervalIntegrable (timeValue b g) volume 0 beta := by
  have d := v.describes hb
  have h1 : ∀ l, IntervalIntegrable (fun t => g l * (fn b.u l t : ℂ)) volume 0 beta := by
    intro l
    have h1 := fn_integrable d.uwf l (fun _ => 1) continuous_const
    simp only [one_mul, d.umin, d.umax] at h1
    have h2 : IntervalIntegrable (fun y => (fn b.u l y : ℂ)) volume 0 beta := ⟨h1.1.ofReal, h1.2.ofReal⟩
    exact h2.const_mul _
  have := IntervalIntegrable.sum Finset.univ fun l _ => h1 l
  refine this.congr fun t _ => ?_
  simp [timeValue]

/-- The Fourier transform at all frequencies of either parity has the norm of the coefficients, times `√beta`. -/
theorem C72_parseval (v : Valid fp compute stat beta wmax eps maxSize kernel sve k lam r h e m)
    (hb : make fp compute stat beta wmax eps maxSize kernel sve = .ok b) (ho : Orthonormal b.u 0 beta)
    (g : Fin b.size → ℂ) (z : ℤ) :
    HasSum (fun j : ℤ => ‖matsubara beta (timeValue b g) (2 * j + z)‖ ^ 2) (beta * ∑ l, ‖g l‖ ^ 2) := by
  have hbeta : 0 < beta := v.hbeta
  obtain ⟨hi, hn⟩ := C72_norm v hb ho g
  set H : ℝ → ℂ := fun t => Complex.exp (Complex.I * Real.pi * z * t / beta) * timeValue b g t with hH
  have hexp : ∀ t : ℝ, ‖Complex.exp (Complex.I * Real.pi * z * t / beta)‖ = 1 := by
    intro t
    rw [Complex.norm_exp]
    have : (Complex.I * Real.pi * z * t / beta : ℂ) = ((Real.pi * z * t / beta : ℝ) : ℂ) * Complex.I := by
      push_cast
      ring
    rw [this, Complex.re_ofReal_mul, Complex.I_re, mul_zero, Real.exp_zero]
  have hHn : ∀ t, ‖H t‖ = ‖timeValue b g t‖ := by
    intro t
    rw [hH]
    simp only
    rw [norm_mul, hexp, one_mul]
  have hint : IntervalIntegrable H volume 0 beta := IntervalIntegrable.continuousOn_mul (timeValue_int v hb g) (by fun_prop)
  have hmem : MemLp H 2 (volume.restrict (Set.Ioc 0 beta)) := by
    rw [memLp_two_iff_integrable_sq_norm hint.1.aestronglyMeasurable]
    refine hi.1.congr (Filter.Eventually.of_forall fun t => ?_)
    simp only [hHn]
  have key := hasSum_sq_fourierCoeffOn hbeta hmem
  simp only [hHn, hn, sub_zero, smul_eq_mul] at key
  have hcoef : ∀ j : ℤ, ‖matsubara beta (timeValue b g) (2 * -j + z)‖ ^ 2 = beta ^ 2 * ‖fourierCoeffOn hbeta H j‖ ^ 2 := by
    intro j
    rw [fourierCoeffOn_eq_integral, ← mul_pow]
    congr 1
    rw [norm_smul, sub_zero, Real.norm_of_nonneg (by positivity), ← mul_assoc, mul_one_div_cancel hbeta.ne', one_mul]
    congr 1
    unfold matsubara
    refine intervalIntegral.integral_congr fun t _ => ?_
    simp only [hH]
    rw [fourier_coe_apply, smul_eq_mul, ← mul_assoc, ← Complex.exp_add]
    congr 2
    push_cast
    ring
  have h2 := key.mul_left (beta ^ 2)
  simp only [← hcoef] at h2
  rw [show beta ^ 2 * (beta⁻¹ * ∑ l, ‖g l‖ ^ 2) = beta * ∑ l, ‖g l‖ ^ 2 by field_simp] at h2
  exact (Equiv.hasSum_iff (Equiv.neg ℤ) (f := fun j : ℤ => ‖matsubara beta (timeValue b g) (2 * j + z)‖ ^ 2)).1 h2

theorem coeff_zero {n : ℕ} {g : Fin n → ℂ} (h : ∑ l, ‖g l‖ ^ 2 = 0) : g = 0 := by
  funext l
  have := (Finset.sum_eq_zero_iff_of_nonneg fun l _ => sq_nonneg ‖g l‖).1 h l (Finset.mem_univ l)
  exact norm_eq_zero.1 (pow_eq_zero_iff (two_ne_zero) |>.1 this)

theorem times_determine (v : Valid fp compute stat beta wmax eps maxSize kernel sve k lam r h e m)
    (hb : make fp compute stat beta wmax eps maxSize kernel sve = .ok b) (ho : Orthonormal b.u 0 beta)
    (g : Fin b.size → ℂ) (hg : ∀ t, 0 ≤ t ∧ t ≤ beta → timeValue b g t = 0) : g = 0 := by
  have hbeta : 0 < beta := v.hbeta
  apply coeff_zero
  rw [← (C72_norm v hb ho g).2]
  rw [intervalIntegral.integral_congr (g := fun _ => (0 : ℝ))]
  · simp
  · intro t ht
    rw [Set.uIcc_of_le hbeta.le] at ht
    simp only [hg t ht, norm_zero, ne_eq, OfNat.ofNat_ne_zero, not_false_eq_true, zero_pow]

theorem freqs_determine (v : Valid fp compute stat beta wmax eps maxSize kernel sve k lam r h e m)
    (hb : make fp compute stat beta wmax eps maxSize kernel sve = .ok b) (ho : Orthonormal b.u 0 beta)
    (g : Fin b.size → ℂ) (hg : ∀ n : ℤ, (stat = "F" ↔ Odd n) → matsubara beta (timeValue b g) n = 0) : g = 0 := by
  have hbeta : 0 < beta := v.hbeta
  have hz : ∃ z : ℤ, ∀ j : ℤ, stat = "F" ↔ Odd (2 * j + z) := by
    by_cases hF : stat = "F"
    · exact ⟨1, fun j => ⟨fun _ => ⟨j, rfl⟩, fun _ => hF⟩⟩
    · refine ⟨0, fun j => ⟨fun h => absurd h hF, fun ho => ?_⟩⟩
      rw [add_zero] at ho
      exact absurd ho (Int.not_odd_iff_even.2 (even_two_mul j))
  obtain ⟨z, hz⟩ := hz
  have h1 := C72_parseval v hb ho g z
  simp only [hg _ (hz _), norm_zero, ne_eq, OfNat.ofNat_ne_zero, not_false_eq_true, zero_pow] at h1
  have h2 := h1.unique hasSum_zero
  apply coeff_zero
  rcases mul_eq_zero.1 h2 with h3 | h3
  · exact absurd h3 hbeta.ne'
  · exact h3

/-- The transform of a function with real coefficients at a negative frequency. -/
theorem matsubara_neg (g : Fin b.size → ℝ) (n : ℤ) :
    matsubara beta (timeValue b fun l => (g l : ℂ)) (-n) =
      (starRingEnd ℂ) (matsubara beta (timeValue b fun l => (g l : ℂ)) n) := by
  unfold matsubara
  rw [intervalIntegral, intervalIntegral, map_sub, ← integral_conj, ← integral_conj]
  congr 1
  · refine integral_congr_ae (Filter.Eventually.of_forall fun t => ?_)
    simp only [map_mul, ← Complex.exp_conj]
    congr 2
    · simp
    · simp [timeValue]
  · refine integral_congr_ae (Filter.Eventually.of_forall fun t => ?_)
    simp only [map_mul, ← Complex.exp_conj]
    congr 2
    · simp
    · simp [timeValue]

/-- There are as many times in `[0, beta]` as functions in the basis such that sampling at these times is without
loss: `fit` returns the coefficients from the values, for arrays of any shape. -/
theorem C72_tau {svds : Svds} (hs : svds.Ok) (v : Valid fp compute stat beta wmax eps maxSize kernel sve k lam r h e m)
    (hb : make fp compute stat beta wmax eps maxSize kernel sve = .ok b) (ho : Orthonormal b.u 0 beta) (q : Search) :
    ∃ p : List ℝ, p.length = b.size ∧ p.Pairwise (· < ·) ∧ (∀ t ∈ p, 0 ≤ t ∧ t ≤ beta) ∧
      ∃ o, tauInit svds (b.sampled q) (some (1, p)) = .ok o ∧ o.points = p ∧
        ∀ (al : NdArray ℂ) (axis : ℤ) (j : ℕ), ValidAxis axis al.ndim j → al.shape[j]? = some b.size →
          ∃ x w, tauEvaluate svds o al (some axis) none = .ok x ∧ tauFit svds o x (some axis) none = .ok (al, w) := by
  obtain ⟨p, h1, h2, h3, h4⟩ := determining_list (I := fun t : ℝ => 0 ≤ t ∧ t ≤ beta) (fun t l => (fn b.u l t : ℂ))
    (times_determine v hb ho)
  obtain ⟨o, h5, h6, h7⟩ := (C68_tau hs v hb q p).2 h3
  refine ⟨p, h1, h2, h3, o, h5, h6, fun al axis j hj hal => ?_⟩
  obtain ⟨x, h8, -, h9⟩ := h7 al axis j hj hal
  obtain ⟨w, h10⟩ := h9 h4
  exact ⟨x, w, h8, h10⟩

/-- There are as many Matsubara frequencies as functions in the basis such that a function in the space of the basis
is determined by its transform at these frequencies.  If they are below the cutoff of the asymptotic model, then
sampling at these frequencies is without loss. -/
theorem C72_matsubara {svds : Svds} (hs : svds.Ok)
    (v : Valid fp compute stat beta wmax eps maxSize kernel sve k lam r h e m)
    (hb : make fp compute stat beta wmax eps maxSize kernel sve = .ok b) (ho : Orthonormal b.u 0 beta) (q : Search) :
    ∃ ns : List ℤ, ns.length = b.size ∧ ns.Pairwise (· < ·) ∧ (∀ n ∈ ns, stat = "F" ↔ Odd n) ∧
      (∀ g, (∀ n ∈ ns, matsubara beta (timeValue b g) n = 0) → g = 0) ∧
      ((∀ n ∈ ns, |(n : ℝ)| < 40 * lam) → ∃ o, matsInit svds (b.sampled q) (some (1, .ints ns)) false = .ok o ∧
        ∀ (al : NdArray ℂ) (axis : ℤ) (j : ℕ), ValidAxis axis al.ndim j → al.shape[j]? = some b.size →
          ∃ x w, matsEvaluate svds o al (some axis) none = .ok x ∧
            matsFit svds o x (some axis) none = .ok (al, w)) := by
  have hval : ∀ (g : Fin b.size → ℂ) (n : ℤ), ∑ l, g l *
      (∫ t in (0 : ℝ)..beta, Complex.exp (Complex.I * Real.pi * n * t / beta) * (fn b.u l t : ℂ)) =
      matsubara beta (timeValue b g) n := by
    intro g n
    rw [matsubara_combo v hb]
    exact Finset.sum_congr rfl fun l _ => mul_comm _ _
  obtain ⟨ns, h1, h2, h3, h4⟩ := determining_list (I := fun n : ℤ => stat = "F" ↔ Odd n) (fun n l =>
      ∫ t in (0 : ℝ)..beta, Complex.exp (Complex.I * Real.pi * n * t / beta) * (fn b.u l t : ℂ)) (fun g hg =>
    freqs_determine v hb ho g fun n hn => (hval g n).symm.trans (hg n hn))
  have h5 : ∀ g, (∀ n ∈ ns, matsubara beta (timeValue b g) n = 0) → g = 0 :=
    fun g hg => h4 g fun n hn => (hval g n).trans (hg n hn)
  refine ⟨ns, h1, h2, h3, h5, fun hns => ?_⟩
  obtain ⟨o, h6, -, -, h7, -⟩ := (C68_matsubara hs v hb q ns hns false (by simp)).2 h3
  refine ⟨o, h6, fun al axis j hj hal => ?_⟩
  obtain ⟨x, h8, -, h9⟩ := h7 al axis j hj hal
  obtain ⟨w, h10⟩ := h9 rfl h5
  exact ⟨x, w, h8, h10⟩

/-- For real coefficients, at most as many frequencies as functions in the basis, none of them negative, are enough. -/
theorem C72_positive {svds : Svds} (hs : svds.Ok)
    (v : Valid fp compute stat beta wmax eps maxSize kernel sve k lam r h e m)
    (hb : make fp compute stat beta wmax eps maxSize kernel sve = .ok b) (ho : Orthonormal b.u 0 beta) (q : Search) :
    ∃ ns : List ℤ, ns ≠ [] ∧ ns.length ≤ b.size ∧ ns.Pairwise (· < ·) ∧ (∀ n ∈ ns, 0 ≤ n ∧ (stat = "F" ↔ Odd n)) ∧
      (∀ g : Fin b.size → ℝ, (∀ n ∈ ns, matsubara beta (timeValue b fun l => (g l : ℂ)) n = 0) → g = 0) ∧
      ((∀ n ∈ ns, |(n : ℝ)| < 40 * lam) → ∃ o, matsInit svds (b.sampled q) (some (1, .ints ns)) true = .ok o ∧
        ∀ (al : NdArray ℝ) (axis : ℤ) (j : ℕ), ValidAxis axis al.ndim j → al.shape[j]? = some b.size →
          ∃ x w, matsEvaluate svds o (mapArr Complex.ofReal al) (some axis) none = .ok x ∧
            matsFit svds o x (some axis) none = .ok (mapArr Complex.ofReal al, w)) := by
  have hsz : 0 < b.size := by rw [(v.describes hb).size_eq]; exact v.hpos
  set V : ℤ → Fin b.size → ℂ := fun n l =>
      ∫ t in (0 : ℝ)..beta, Complex.exp (Complex.I * Real.pi * n * t / beta) * (fn b.u l t : ℂ) with hV
  have hval : ∀ (g : Fin b.size → ℝ) (n : ℤ), matsubara beta (timeValue b fun l => (g l : ℂ)) n =
      ⟨∑ l, g l * (V n l).re, ∑ l, g l * (V n l).im⟩ := by
    intro g n
    rw [matsubara_combo v hb]
    apply Complex.ext
    · rw [Complex.re_sum]
      exact Finset.sum_congr rfl fun l _ => by rw [Complex.re_mul_ofReal, mul_comm]
    · rw [Complex.im_sum]
      exact Finset.sum_congr rfl fun l _ => by rw [Complex.im_mul_ofReal, mul_comm]
  obtain ⟨e', -, h4⟩ := determining_rows (X := {n : ℤ // 0 ≤ n ∧ (stat = "F" ↔ Odd n)} × Bool)
    (fun x l => if x.2 then (V x.1.1 l).im else (V x.1.1 l).re) (fun g hg => by
      have h0 : ∀ n : ℤ, 0 ≤ n → (stat = "F" ↔ Odd n) → matsubara beta (timeValue b fun l => (g l : ℂ)) n = 0 := by
        intro n hn hp
        rw [hval]
        apply Complex.ext
        · exact hg (⟨n, hn, hp⟩, false)
        · exact hg (⟨n, hn, hp⟩, true)
      have h1 := freqs_determine v hb ho (fun l => (g l : ℂ)) (fun n hn => by
        rcases le_total 0 n with h | h
        · exact h0 n h hn
        · rw [← neg_neg n, matsubara_neg, h0 (-n) (by omega) (by rw [hn, odd_neg]), map_zero])
      funext l
      exact Complex.ofReal_eq_zero.1 (congrFun h1 l))
  have hmem : ∀ n, n ∈ (Finset.univ.image fun i => (e' i).1.1).sort (· ≤ ·) ↔ ∃ i, (e' i).1.1 = n := by
    intro n
    simp [Finset.mem_sort, Finset.mem_image]
  have h5 : ∀ g : Fin b.size → ℝ, (∀ n ∈ (Finset.univ.image fun i => (e' i).1.1).sort (· ≤ ·),
      matsubara beta (timeValue b fun l => (g l : ℂ)) n = 0) → g = 0 := by
    intro g hg
    refine h4 g fun i => ?_
    have := hg _ ((hmem _).2 ⟨i, rfl⟩)
    rw [hval] at this
    cases hx : (e' i).2 with
    | false => simpa using congrArg Complex.re this
    | true => simpa using congrArg Complex.im this
  have h3 : ∀ n ∈ (Finset.univ.image fun i => (e' i).1.1).sort (· ≤ ·), 0 ≤ n ∧ (stat = "F" ↔ Odd n) := by
    intro n hn
    obtain ⟨i, rfl⟩ := (hmem n).1 hn
    exact (e' i).1.2
  have hne : (Finset.univ.image fun i => (e' i).1.1).sort (· ≤ ·) ≠ [] := by
    intro h0
    have := (hmem (e' ⟨0, hsz⟩).1.1).2 ⟨_, rfl⟩
    rw [h0] at this
    simp at this
  refine ⟨_, hne, ?_, (Finset.sortedLT_sort _).pairwise, h3, h5, fun hns => ?_⟩
  · rw [Finset.length_sort]
    exact Finset.card_image_le.trans (by rw [Finset.card_univ, Fintype.card_fin])
  · obtain ⟨o, h6, -, -, -, h7⟩ := (C68_matsubara hs v hb q _ hns true fun _ => ⟨hne, fun n hn => (h3 n hn).1⟩).2
      fun n hn => (h3 n hn).2
    exact ⟨o, h6, fun al axis j hj hal => h7 al axis j hj hal rfl h5⟩

/-- The one-dimensional array of the coefficients. -/
def coefficients {n : ℕ} (g : Fin n → ℂ) : NdArray ℂ := ⟨[n], List.ofFn g, by simp⟩

theorem applied_fibre {n q : ℕ} {f : (Fin n → ℂ) → Fin q → ℂ} {g g' : Fin n → ℂ} {x : NdArray ℂ}
    (hf : f g = f g') (hx : AppliedAlong f 0 (coefficients g) x) : AppliedAlong f 0 (coefficients g') x := by
  have hget : ∀ (g : Fin n → ℂ) (j : Fin n), (coefficients g).get? [j.1] = some (g j) := by
    intro g j
    unfold coefficients NdArray.get? InBounds flatIdx
    simp [flatIdx]
  refine ⟨rfl, hx.shape, fun idx hidx => ?_⟩
  obtain ⟨i, fibre, h1, h2, h3⟩ := hx.val idx hidx
  have hsh : x.shape = [q] := hx.shape
  rw [hsh] at hidx
  have hlen : idx.length = 1 := inBounds_length hidx
  have hset : ∀ j : ℕ, idx.set 0 j = [j] := by
    intro j
    match idx, hlen with
    | [a], _ => rfl
  have hfib : fibre = g := by
    funext j
    have := h2 j
    rw [hset, hget] at this
    exact (Option.some.inj this).symm
  refine ⟨i, g', h1, fun j => by rw [hset, hget], ?_⟩
  rw [h3, hfib, hf]

theorem coefficients_inj {n : ℕ} {g g' : Fin n → ℂ} (h : coefficients g = coefficients g') : g = g' :=
  List.ofFn_injective (congrArg NdArray.data h)

theorem timeValue_linear (g g' : Fin b.size → ℂ) (c : ℂ) (t : ℝ) :
    timeValue b (g + g') t = timeValue b g t + timeValue b g' t ∧ timeValue b (c • g) t = c * timeValue b g t := by
  unfold timeValue
  constructor
  · rw [← Finset.sum_add_distrib]
    exact Finset.sum_congr rfl fun l _ => add_mul _ _ _
  · rw [Finset.mul_sum]
    exact Finset.sum_congr rfl fun l _ => mul_assoc _ _ _

theorem matsubara_linear (v : Valid fp compute stat beta wmax eps maxSize kernel sve k lam r h e m)
    (hb : make fp compute stat beta wmax eps maxSize kernel sve = .ok b) (g g' : Fin b.size → ℂ) (c : ℂ) (n : ℤ) :
    matsubara beta (timeValue b (g + g')) n = matsubara beta (timeValue b g) n + matsubara beta (timeValue b g') n ∧
      matsubara beta (timeValue b (c • g)) n = c * matsubara beta (timeValue b g) n := by
  simp only [matsubara_combo v hb]
  constructor
  · rw [← Finset.sum_add_distrib]
    exact Finset.sum_congr rfl fun l _ => mul_add _ _ _
  · rw [Finset.mul_sum]
    exact Finset.sum_congr rfl fun l _ => mul_left_comm _ _ _

/-- With fewer times than functions in the basis the coefficients are not determined: for some coefficients, `fit`
does not return them from the values. -/
theorem C72_needed {svds : Svds} (hs : svds.Ok) (v : Valid fp compute stat beta wmax eps maxSize kernel sve k lam r h e m)
    (hb : make fp compute stat beta wmax eps maxSize kernel sve = .ok b) (q : Search) (p : List ℝ)
    (hp : ∀ t ∈ p, 0 ≤ t ∧ t ≤ beta) (hlen : p.length < b.size) :
    ∃ o, tauInit svds (b.sampled q) (some (1, p)) = .ok o ∧ ∃ (g : Fin b.size → ℂ) (x : NdArray ℂ),
      tauEvaluate svds o (coefficients g) (some 0) none = .ok x ∧
      ∀ c w, tauFit svds o x (some 0) none = .ok (c, w) → c ≠ coefficients g := by
  obtain ⟨g, hg, h0⟩ := too_few (𝕜 := ℂ) (n := b.size) (W := Fin p.length → ℂ)
    ⟨⟨fun g i => timeValue b g (p.get i), fun g g' => funext fun i => (timeValue_linear g g' 0 _).1⟩,
      fun c g => funext fun i => (timeValue_linear g 0 c _).2⟩ (by simpa using hlen)
  obtain ⟨o, h1, h2, h3⟩ := (C68_tau hs v hb q p).2 hp
  have hz : (fun i => timeValue b g (o.points.get i)) = fun i => timeValue b 0 (o.points.get i) := by
    funext i
    have hsub : ∀ l : List ℝ, l = p → ∀ i : Fin l.length, l.get i ∈ p := by
      rintro _ rfl i
      exact List.get_mem _ _
    have h5 : o.points.get i ∈ p := hsub _ h2 i
    obtain ⟨i', hi'⟩ := List.get_of_mem h5
    rw [← hi']
    refine (congrFun h0 i').trans ?_
    simp [timeValue]
  obtain ⟨x, h4, h5, -⟩ := h3 (coefficients g) 0 0 ⟨Nat.one_pos, Or.inl rfl⟩ rfl
  obtain ⟨x', h6, h7, -⟩ := h3 (coefficients 0) 0 0 ⟨Nat.one_pos, Or.inl rfl⟩ rfl
  obtain rfl := h7.unique (applied_fibre hz h5)
  refine ⟨o, h1, ?_⟩
  by_cases hc : ∃ w, tauFit svds o x' (some 0) none = .ok (coefficients g, w)
  · obtain ⟨w, hw⟩ := hc
    refine ⟨0, x', h6, fun c w' hc' hcon => hg ?_⟩
    have := (Prod.mk.inj (Except.ok.inj (hw.symm.trans hc'))).1
    exact coefficients_inj (this.trans hcon)
  · exact ⟨g, x', h4, fun c w' hc' hcon => hc ⟨w', by rw [hc', hcon]⟩⟩

/-- The same for Matsubara frequencies. -/
theorem C72_needed_matsubara {svds : Svds} (hs : svds.Ok)
    (v : Valid fp compute stat beta wmax eps maxSize kernel sve k lam r h e m)
    (hb : make fp compute stat beta wmax eps maxSize kernel sve = .ok b) (q : Search) (ns : List ℤ)
    (hns : ∀ n ∈ ns, |(n : ℝ)| < 40 * lam ∧ (stat = "F" ↔ Odd n)) (hlen : ns.length < b.size) :
    ∃ o, matsInit svds (b.sampled q) (some (1, .ints ns)) false = .ok o ∧ ∃ (g : Fin b.size → ℂ) (x : NdArray ℂ),
      matsEvaluate svds o (coefficients g) (some 0) none = .ok x ∧
      ∀ c w, matsFit svds o x (some 0) none = .ok (c, w) → c ≠ coefficients g := by
  obtain ⟨g, hg, h0⟩ := too_few (𝕜 := ℂ) (n := b.size) (W := Fin ns.length → ℂ)
    ⟨⟨fun g i => matsubara beta (timeValue b g) (ns.get i), fun g g' => funext fun i => (matsubara_linear v hb g g' 0 _).1⟩,
      fun c g => funext fun i => (matsubara_linear v hb g 0 c _).2⟩ (by simpa using hlen)
  obtain ⟨o, h1, h2, -, h3, -⟩ := (C68_matsubara hs v hb q ns (fun n hn => (hns n hn).1) false (by simp)).2
    fun n hn => (hns n hn).2
  have hz : (fun i => matsubara beta (timeValue b g) (o.points.get i)) =
      fun i => matsubara beta (timeValue b 0) (o.points.get i) := by
    funext i
    obtain ⟨i', hi'⟩ := List.get_of_mem (h2.mem_iff.1 (List.get_mem o.points i))
    rw [← hi']
    refine (congrFun h0 i').trans ?_
    simp [timeValue, matsubara]
  obtain ⟨x, h4, h5, -⟩ := h3 (coefficients g) 0 0 ⟨Nat.one_pos, Or.inl rfl⟩ rfl
  obtain ⟨x', h6, h7, -⟩ := h3 (coefficients 0) 0 0 ⟨Nat.one_pos, Or.inl rfl⟩ rfl
  obtain rfl := h7.unique (applied_fibre hz h5)
  refine ⟨o, h1, ?_⟩
  by_cases hc : ∃ w, matsFit svds o x' (some 0) none = .ok (coefficients g, w)
  · obtain ⟨w, hw⟩ := hc
    refine ⟨0, x', h6, fun c w' hc' hcon => hg ?_⟩
    have := (Prod.mk.inj (Except.ok.inj (hw.symm.trans hc'))).1
    exact coefficients_inj (this.trans hcon)
  · exact ⟨g, x', h4, fun c w' hc' hcon => hc ⟨w', by rw [hc', hcon]⟩⟩

/-- With `positive_only` the values at a frequency are two real conditions, at frequency zero one.  With fewer
conditions than functions some real coefficients are not returned by `fit` from the values. -/
theorem C72_needed_positive {svds : Svds} (hs : svds.Ok)
    (v : Valid fp compute stat beta wmax eps maxSize kernel sve k lam r h e m)
    (hb : make fp compute stat beta wmax eps maxSize kernel sve = .ok b) (q : Search) (ns : List ℤ) (hne : ns ≠ [])
    (hns : ∀ n ∈ ns, |(n : ℝ)| < 40 * lam ∧ 0 ≤ n ∧ (stat = "F" ↔ Odd n))
    (hlen : ns.length + (ns.filter (· ≠ 0)).length < b.size) :
    ∃ o, matsInit svds (b.sampled q) (some (1, .ints ns)) true = .ok o ∧ ∃ (g : Fin b.size → ℝ) (x : NdArray ℂ),
      matsEvaluate svds o (coefficients fun l => (g l : ℂ)) (some 0) none = .ok x ∧
      ∀ c w, matsFit svds o x (some 0) none = .ok (c, w) → c ≠ coefficients fun l => (g l : ℂ) := by
  have hlin : ∀ (g g' : Fin b.size → ℝ) (n : ℤ), matsubara beta (timeValue b fun l => ((g + g') l : ℂ)) n =
      matsubara beta (timeValue b fun l => (g l : ℂ)) n + matsubara beta (timeValue b fun l => (g' l : ℂ)) n := by
    intro g g' n
    rw [← (matsubara_linear v hb (fun l => (g l : ℂ)) (fun l => (g' l : ℂ)) 0 n).1]
    congr 2
    funext l
    simp
  have hsmul : ∀ (c : ℝ) (g : Fin b.size → ℝ) (n : ℤ), matsubara beta (timeValue b fun l => ((c • g) l : ℂ)) n =
      c * matsubara beta (timeValue b fun l => (g l : ℂ)) n := by
    intro c g n
    rw [← (matsubara_linear v hb (fun l => (g l : ℂ)) 0 c n).2]
    congr 2
    funext l
    simp
  obtain ⟨nz, hnz⟩ : ∃ nz, nz = ns.filter (· ≠ 0) := ⟨_, rfl⟩
  rw [← hnz] at hlen
  obtain ⟨g, hg, h0⟩ := too_few (𝕜 := ℝ) (n := b.size) (W := (Fin ns.length → ℝ) × (Fin nz.length → ℝ))
    ⟨⟨fun g => (fun i => (matsubara beta (timeValue b fun l => (g l : ℂ)) (ns.get i)).re,
        fun i => (matsubara beta (timeValue b fun l => (g l : ℂ)) (nz.get i)).im),
      fun g g' => by
        apply Prod.ext
        · funext i
          simp only [hlin, Complex.add_re]
          rfl
        · funext i
          simp only [hlin, Complex.add_im]
          rfl⟩,
      fun c g => by
        apply Prod.ext
        · funext i
          simp only [hsmul, Complex.re_ofReal_mul]
          rfl
        · funext i
          simp only [hsmul, Complex.im_ofReal_mul]
          rfl⟩ (by simpa using hlen)
  have hall : ∀ n ∈ ns, matsubara beta (timeValue b fun l => (g l : ℂ)) n = 0 := by
    intro n hn
    apply Complex.ext
    · obtain ⟨i, rfl⟩ := List.get_of_mem hn
      exact congrFun (congrArg Prod.fst h0) i
    · by_cases hz : n = 0
      · subst hz
        have := matsubara_neg (beta := beta) g 0
        rw [neg_zero] at this
        have := congrArg Complex.im this
        rw [Complex.conj_im] at this
        show (matsubara beta (timeValue b fun l => (g l : ℂ)) 0).im = 0
        linarith
      · have hm : n ∈ nz := by simp [hnz, hn, hz]
        obtain ⟨i, rfl⟩ := List.get_of_mem hm
        exact congrFun (congrArg Prod.snd h0) i
  obtain ⟨o, h1, h2, -, h3, -⟩ := (C68_matsubara hs v hb q ns (fun n hn => (hns n hn).1) true
    fun _ => ⟨hne, fun n hn => (hns n hn).2.1⟩).2 fun n hn => (hns n hn).2.2
  have hz : (fun i => matsubara beta (timeValue b fun l => (g l : ℂ)) (o.points.get i)) =
      fun i => matsubara beta (timeValue b fun l => (((0 : Fin b.size → ℝ) l : ℝ) : ℂ)) (o.points.get i) := by
    funext i
    rw [hall _ (h2.mem_iff.1 (List.get_mem o.points i))]
    simp [timeValue, matsubara]
  obtain ⟨x, h4, h5, -⟩ := h3 (coefficients fun l => (g l : ℂ)) 0 0 ⟨Nat.one_pos, Or.inl rfl⟩ rfl
  obtain ⟨x', h6, h7, -⟩ := h3 (coefficients fun l => (((0 : Fin b.size → ℝ) l : ℝ) : ℂ)) 0 0 ⟨Nat.one_pos, Or.inl rfl⟩ rfl
  obtain rfl := h7.unique (applied_fibre hz h5)
  refine ⟨o, h1, ?_⟩
  by_cases hc : ∃ w, matsFit svds o x' (some 0) none = .ok (coefficients fun l => (g l : ℂ), w)
  · obtain ⟨w, hw⟩ := hc
    refine ⟨0, x', h6, fun c w' hc' hcon => hg ?_⟩
    have := (Prod.mk.inj (Except.ok.inj (hw.symm.trans hc'))).1
    have := coefficients_inj (this.trans hcon)
    funext l
    exact Complex.ofReal_injective (congrFun this l)
  · exact ⟨g, x', h4, fun c w' hc' hcon => hc ⟨w', by rw [hc', hcon]⟩⟩

/-- Points which determine the coefficients have a smallest singular value above zero, as required by `C69_pole`,
and conversely. -/
theorem C72_bound (p : List ℝ) : (∀ g : Fin b.size → ℂ, (∀ t ∈ p, timeValue b g t = 0) → g = 0) ↔
    ∃ σ : ℝ, 0 < σ ∧ ∀ g : Fin b.size → ℂ, σ ^ 2 * ∑ l, ‖g l‖ ^ 2 ≤ ∑ i, ‖timeValue b g (p.get i)‖ ^ 2 := by
  have := bounded_below (𝕜 := ℂ) (n := b.size) (m := p.length)
    ⟨⟨fun g i => timeValue b g (p.get i), fun g g' => funext fun i => (timeValue_linear g g' 0 _).1⟩,
      fun c g => funext fun i => (timeValue_linear g 0 c _).2⟩
  refine Iff.trans ?_ this
  refine forall_congr' fun g => ?_
  refine imp_congr_left ⟨fun hg => funext fun i => hg _ (List.get_mem p i), fun hg t ht => ?_⟩
  obtain ⟨i, rfl⟩ := List.get_of_mem ht
  exact congrFun hg i

/-- The same for frequencies, as required by `C69_pole_matsubara`. -/
theorem C72_bound_matsubara (v : Valid fp compute stat beta wmax eps maxSize kernel sve k lam r h e m)
    (hb : make fp compute stat beta wmax eps maxSize kernel sve = .ok b) (ns : List ℤ) (po : Bool) :
    (∀ g : Fin b.size → ℂ, (po = true → ∀ l, (g l).im = 0) → (∀ n ∈ ns, matsubara beta (timeValue b g) n = 0) → g = 0) ↔
    ∃ σ : ℝ, 0 < σ ∧ ∀ g : Fin b.size → ℂ, (po = true → ∀ l, (g l).im = 0) →
      σ ^ 2 * ∑ l, ‖g l‖ ^ 2 ≤ (ns.map fun n => ‖matsubara beta (timeValue b g) n‖ ^ 2).sum := by
  have hsum : ∀ G : ℤ → ℂ, (ns.map fun n => ‖G n‖ ^ 2).sum = ∑ i : Fin ns.length, ‖G (ns.get i)‖ ^ 2 := by
    intro G
    rw [← List.sum_ofFn]
    congr 1
    apply List.ext_get <;> simp
  simp only [hsum]
  have hiff : ∀ g : Fin b.size → ℂ, (∀ n ∈ ns, matsubara beta (timeValue b g) n = 0) ↔
      (fun i : Fin ns.length => matsubara beta (timeValue b g) (ns.get i)) = 0 := by
    intro g
    refine ⟨fun hg => funext fun i => hg _ (List.get_mem ns i), fun hg t ht => ?_⟩
    obtain ⟨i, rfl⟩ := List.get_of_mem ht
    exact congrFun hg i
  simp only [hiff]
  cases po with
  | false =>
    simp only [Bool.false_eq_true, false_imp_iff, true_imp_iff]
    exact bounded_below (𝕜 := ℂ) (n := b.size) (m := ns.length)
      ⟨⟨fun g i => matsubara beta (timeValue b g) (ns.get i), fun g g' => funext fun i => (matsubara_linear v hb g g' 0 _).1⟩,
        fun c g => funext fun i => (matsubara_linear v hb g 0 c _).2⟩
  | true =>
    simp only [true_imp_iff]
    have := bounded_below (𝕜 := ℝ) (n := b.size) (m := ns.length)
      ⟨⟨fun g i => matsubara beta (timeValue b fun l => (g l : ℂ)) (ns.get i), fun g g' => funext fun i => by
          rw [Pi.add_apply, ← (matsubara_linear v hb (fun l => (g l : ℂ)) (fun l => (g' l : ℂ)) 0 _).1]
          congr 2
          funext l
          simp⟩,
        fun c g => funext fun i => by
          show matsubara beta (timeValue b fun l => ((c • g) l : ℂ)) (ns.get i) =
            c • matsubara beta (timeValue b fun l => (g l : ℂ)) (ns.get i)
          rw [Complex.real_smul, ← (matsubara_linear v hb (fun l => (g l : ℂ)) 0 c _).2]
          congr 2
          funext l
          simp⟩
    have hre : ∀ g : Fin b.size → ℂ, (∀ l, (g l).im = 0) → ∃ g' : Fin b.size → ℝ, g = fun l => (g' l : ℂ) :=
      fun g hg => ⟨fun l => (g l).re, funext fun l => Complex.ext rfl (hg l)⟩
    constructor
    · intro h1
      obtain ⟨σ, hσ, h2⟩ := this.1 fun g hg => by
        have := h1 (fun l => (g l : ℂ)) (fun l => Complex.ofReal_im _) hg
        funext l
        exact Complex.ofReal_eq_zero.1 (congrFun this l)
      refine ⟨σ, hσ, fun g hg => ?_⟩
      obtain ⟨g', rfl⟩ := hre g hg
      have := h2 g'
      simpa using this
    · rintro ⟨σ, hσ, h1⟩ g hg h2
      obtain ⟨g', rfl⟩ := hre g hg
      have := this.2 ⟨σ, hσ, fun g => by simpa using h1 (fun l => (g l : ℂ)) fun l => Complex.ofReal_im _⟩ g' h2
      rw [this]
      funext l
      simp

end

/-! Non-vacuity: the orthonormal functions `1 / √2` and `√(3/2) x` with singular values `1` and `1/10`. -/

/-- Two orthonormal functions. -/
noncomputable def exOrtho : PPoly (Fin 2) :=
  ⟨1, 2, ![-1, 1], fun _ => 2, fun _ l => if l = 0 then [Real.sqrt (1 / 2), 0] else [0, Real.sqrt (3 / 2)],
    fun l => (-1) ^ (l : ℕ)⟩

theorem exOrtho_WF : exOrtho.WF := ⟨exPoly_WF.pos, exPoly_WF.mono, exPoly_WF.dx_eq⟩

theorem exOrtho_seg (l : Fin 2) (i : Fin exOrtho.nseg) (x : ℝ) :
    (exOrtho.seg l i).eval x = if l = 0 then Real.sqrt (1 / 2) else Real.sqrt (3 / 2) * x := by
  have hi : i = (0 : Fin 1) := Subsingleton.elim (α := Fin 1) _ _
  show (segPoly (exOrtho.knots i.castSucc) (exOrtho.knots i.succ) (exOrtho.coef i l)).eval x = _
  rw [segPoly_eval]
  rw [hi]
  show segFun (-1) 1 (if l = 0 then [Real.sqrt (1 / 2), 0] else [0, Real.sqrt (3 / 2)]) x = _
  rw [segFun_affine]
  split <;> norm_num [Legendre.series, Finset.sum_range_succ]

theorem exOrtho_fn (l : Fin 2) (x : ℝ) (h1 : -1 ≤ x) (h2 : x ≤ 1) :
    fn exOrtho l x = if l = 0 then Real.sqrt (1 / 2) else Real.sqrt (3 / 2) * x := by
  obtain ⟨i, hi⟩ := exOrtho_WF.exists_inSeg (x := x) h1 h2
  have hfn : fn exOrtho l x = (exOrtho.seg l i).eval x := by
    unfold fn
    rw [PPoly.call_eq exOrtho_WF hi]
    exact (segPoly_eval _ _ _ _).symm
  rw [hfn, exOrtho_seg]

theorem exOrtho_orthonormal : Orthonormal exOrtho (-1) 1 := by
  intro l m
  have h1 : Real.sqrt (1 / 2) * Real.sqrt (1 / 2) = 1 / 2 := Real.mul_self_sqrt (by norm_num)
  have h2 : Real.sqrt (3 / 2) * Real.sqrt (3 / 2) = 3 / 2 := Real.mul_self_sqrt (by norm_num)
  rw [intervalIntegral.integral_congr (g := fun x => (if l = 0 then Real.sqrt (1 / 2) else Real.sqrt (3 / 2) * x) *
    (if m = 0 then Real.sqrt (1 / 2) else Real.sqrt (3 / 2) * x)) (fun x hx => by
      rw [Set.uIcc_of_le (by norm_num)] at hx
      simp only [exOrtho_fn _ x hx.1 hx.2])]
  fin_cases l <;> fin_cases m
  · simp only [Fin.zero_eta, if_true, h1, intervalIntegral.integral_const]
    norm_num
  · simp only [Fin.zero_eta, if_true, Fin.mk_one, one_ne_zero, zero_ne_one, if_false, ← mul_assoc]
    rw [intervalIntegral.integral_const_mul, integral_id]
    norm_num
  · simp only [Fin.zero_eta, if_true, Fin.mk_one, one_ne_zero, if_false]
    rw [intervalIntegral.integral_mul_const, intervalIntegral.integral_const_mul, integral_id]
    norm_num
  · simp only [Fin.mk_one, one_ne_zero, if_false, if_true]
    rw [intervalIntegral.integral_congr (g := fun x : ℝ => 3 / 2 * x ^ 2) (fun x _ => by
      show Real.sqrt (3 / 2) * x * (Real.sqrt (3 / 2) * x) = 3 / 2 * x ^ 2
      linear_combination x ^ 2 * h2), intervalIntegral.integral_const_mul, integral_pow]
    norm_num

/-- An expansion with two terms. -/
noncomputable def exSveO : SveResult := ⟨2, exOrtho, ![1, 1 / 10], exOrtho, some 0.01⟩

theorem exSveO_good : Good exSveO where
  pos := Nat.two_pos
  spos := (exSve_good 0.01).spos
  anti := (exSve_good 0.01).anti
  uwf := exOrtho_WF
  vwf := exOrtho_WF
  umin := rfl
  umax := rfl
  vmin := rfl
  vmax := rfl
  ulen i l := by
    change Fin 2 at l
    change (if l = 0 then [Real.sqrt (1 / 2), 0] else [0, Real.sqrt (3 / 2)]).length = 2
    split <;> rfl
  upo := Nat.le_succ 1

theorem exValidO (compute : KernelInfo → Option ℝ → PyM SveResult) :
    Valid Fp.exact compute "F" 10 4 (some 0.01) none none (some exSveO) (logisticInfo 40) 40 exSveO exSveO_good 0.01 2 where
  hstat := Or.inl rfl
  hbeta := by norm_num
  hwmax := by norm_num
  hkernel := (exValid 0.01 0.01 (by norm_num) compute).hkernel
  hlam := rfl
  hsve := rfl
  heps := rfl
  hcut := exSve_cut_two 0.01 0.01 (by norm_num)
  hpos := by norm_num

/-- The hypotheses are met; two times are enough, one is not. -/
example (svds : Svds) (hs : svds.Ok) (q : Search) (compute : KernelInfo → Option ℝ → PyM SveResult) : ∃ b,
    make Fp.exact compute "F" 10 4 (some 0.01) none none (some exSveO) = .ok b ∧ Orthonormal b.u 0 10 ∧
    (∃ p : List ℝ, p.length = 2 ∧ ∃ o, tauInit svds (b.sampled q) (some (1, p)) = .ok o ∧
      ∀ al : NdArray ℂ, al.shape = [b.size] → ∃ x w, tauEvaluate svds o al (some 0) none = .ok x ∧
        tauFit svds o x (some 0) none = .ok (al, w)) ∧
    ∃ o, tauInit svds (b.sampled q) (some (1, [3])) = .ok o ∧ ∃ (g : Fin b.size → ℂ) (x : NdArray ℂ),
      tauEvaluate svds o (coefficients g) (some 0) none = .ok x ∧
      ∀ c w, tauFit svds o x (some 0) none = .ok (c, w) → c ≠ coefficients g := by
  have v := exValidO compute
  obtain ⟨b, hb, ho, -⟩ := C39_orthonormal v exOrtho_orthonormal exOrtho_orthonormal
  have hsz : b.size = 2 := (v.describes hb).size_eq
  refine ⟨b, hb, ho, ?_, ?_⟩
  · obtain ⟨p, h1, -, -, o, h2, -, h3⟩ := C72_tau hs v hb ho q
    exact ⟨p, h1.trans hsz, o, h2, fun al hal => h3 al 0 0
      ⟨by unfold NdArray.ndim; rw [hal]; simp, Or.inl rfl⟩ (by rw [hal]; rfl)⟩
  · exact C72_needed hs v hb q [3] (by intro t ht; simp at ht; subst ht; norm_num) (by rw [hsz]; simp)

end Verif.Props
