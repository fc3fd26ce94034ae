import Verif.Props.C92_BosePointwise
import Verif.Props.C69_NoiseAmplification
/-!
# C93: sparse sampling of Green's functions with a basis constructed from scratch

C69 for every spectral function, without its hypothesis on the expansion of the kernel: the coefficients that `fit` returns
for values at the sampling points, and the function of imaginary time that they represent.
-/

namespace Verif.Props
open Verif Verif.Np Verif.Sve Verif.Gauss Verif.Kernel Verif.Spec Verif.Poly Verif.Svd Verif.FiniteTemp Verif.SveCompute
open Verif.Sampling Verif.Np.NdArray
open MeasureTheory

/-- An error of the coefficients and the error it causes in a sum. -/
theorem coefs_to_value {n : ℕ} {σ B : ℝ} (hσ : 0 < σ) (hB : 0 ≤ B) {m : ℕ} {d : Fin n → ℂ}
    (h : σ ^ 2 * ∑ l, ‖d l‖ ^ 2 ≤ m * B ^ 2) (u : Fin n → ℝ) :
    ‖∑ l, d l * (u l : ℂ)‖ ≤ Real.sqrt (∑ l, u l ^ 2) * (Real.sqrt m * B / σ) := by
  have h1 : ‖∑ l, d l * (u l : ℂ)‖ ≤ ∑ l, |u l| * ‖d l‖ := (norm_sum_le _ _).trans (le_of_eq
    (Finset.sum_congr rfl fun l _ => by rw [norm_mul, Complex.norm_real, Real.norm_eq_abs, mul_comm]))
  have h2 := Real.sum_mul_le_sqrt_mul_sqrt Finset.univ (fun l => |u l|) fun l => ‖d l‖
  simp only [sq_abs] at h2
  refine (h1.trans h2).trans (mul_le_mul_of_nonneg_left ?_ (Real.sqrt_nonneg _))
  rw [le_div_iff₀ hσ, ← Real.sqrt_sq hσ.le, ← Real.sqrt_mul (Finset.sum_nonneg fun l _ => sq_nonneg _),
    ← Real.sqrt_sq hB, ← Real.sqrt_mul (Nat.cast_nonneg m)]
  refine Real.sqrt_le_sqrt ?_
  rw [mul_comm]
  exact h

theorem value_of_coefs {n : ℕ} {G : ℂ} {f c u : Fin n → ℂ} {D R : ℝ} (h1 : ‖G - ∑ l, c l * u l‖ ≤ D)
    (h2 : ‖∑ l, (f l - c l) * u l‖ ≤ R) : ‖G - ∑ l, f l * u l‖ ≤ D + R := by
  have e : G - ∑ l, f l * u l = (G - ∑ l, c l * u l) - ∑ l, (f l - c l) * u l := by
    simp only [sub_mul, Finset.sum_sub_distrib]
    ring
  rw [e]
  exact (norm_sub_le _ _).trans (add_le_add h1 h2)

theorem fn_of_call {κ : Type} {p : PPoly κ} {t : ℝ} {f : κ → ℝ} (h : p.call t = .ok f) (l : κ) : fn p l t = f l := by
  simp only [fn, h]

/-- With a basis as in C92 (or C87, C91): values of a Green's function at `m` times, each with an error of at most `η`, are
turned by `TauSampling.fit` into its coefficients up to `√m (D + η) / σ` in the norm, where `D` is the error of the basis
and `σ` a lower bound of the sampling matrix, and into a function which deviates from the Green's function at most by
`D + ‖u(tau)‖ √m (D + η) / σ` at every imaginary time. -/
theorem C93_tau {k κ : ℝ → ℝ → ℝ} {δ : ℝ} {n : ℕ} {ki : KernelInfo} {stat : String} {beta wmax fac e t : ℝ} (hbeta : 0 < beta)
    {E : List ℝ → ℝ} {maxSize : Option ℕ} {res : PyM Basis}
    (hres : AccurateWithin k κ δ n ki stat beta wmax fac e t E maxSize res) :
    res = .error .nanResult ∨ ∃ (b : Basis) (omitted : List ℝ), res = .ok b ∧ IsBasis b stat beta wmax e ∧
      (∀ m ∈ maxSize, b.size ≤ m) ∧ (∀ q ∈ omitted, ∀ l, q ≤ b.s l) ∧
      (maxSize = none → ∀ q ∈ omitted, ∀ l0 : Fin b.size, l0.1 = 0 → q ≤ max e t * b.s l0) ∧
      ∀ (svds : Svds), svds.Ok → ∀ (q : Search) (p : List ℝ), (∀ t ∈ p, 0 ≤ t ∧ t ≤ beta) → ∀ σ : ℝ, 0 < σ →
      (∀ g : Fin b.size → ℂ, σ ^ 2 * ∑ l, ‖g l‖ ^ 2 ≤ ∑ i, ‖timeValue b g (p.get i)‖ ^ 2) →
      ∃ (o : Obj (b.sampled q) ℝ) (fit : (Fin o.points.length → ℂ) → Fin b.size → ℂ),
        tauInit svds (b.sampled q) (some (1, p)) = .ok o ∧ o.points = p ∧
        (∀ (x : NdArray ℂ) (axis : ℤ) (j : ℕ), ValidAxis axis x.ndim j → x.shape[j]? = some p.length →
          ∃ c w, tauFit svds o x (some axis) none = .ok (c, w) ∧ AppliedAlong fit j x c) ∧
        ∀ ρ, SquareIntegrable wmax ρ → ∀ (η : ℝ) (x : Fin o.points.length → ℂ), 0 ≤ η →
          (∀ i, ‖x i - (greens κ wmax ρ (o.points.get i) : ℂ)‖ ≤ η) →
          σ ^ 2 * ∑ l, ‖fit x l - (coefs b wmax ρ l : ℂ)‖ ^ 2 ≤
            p.length * (E omitted * (∫ omega in (-wmax)..wmax, |ρ omega|) + η) ^ 2 ∧
          ∀ tau, 0 ≤ tau → tau ≤ beta → ∃ ut, b.u.call tau = .ok ut ∧
            ‖(greens κ wmax ρ tau : ℂ) - ∑ l, fit x l * (ut l : ℂ)‖ ≤
              E omitted * (∫ omega in (-wmax)..wmax, |ρ omega|) + Real.sqrt (∑ l, ut l ^ 2) *
                (Real.sqrt p.length * (E omitted * (∫ omega in (-wmax)..wmax, |ρ omega|) + η) / σ) := by
  obtain ⟨mx, my, x, wx, y, wy, fe, fo, -, -, -, -, h | ⟨b, omitted, h1, h2, -, h4, -, h5, h6, h7, h8⟩⟩ := hres
  · exact Or.inl h
  refine Or.inr ⟨b, omitted, h1, h2, h4, h5, h6, fun svds hs q p hp σ hσ hA => ?_⟩
  have hcall : ∀ t, 0 ≤ t → t ≤ beta → b.u.call t = .ok fun l => fn b.u l t := by
    intro t q1 q2
    obtain ⟨ut, u1, -⟩ := (h8 (fun _ => 0) MemLp.zero').1 t q1 q2
    rw [u1]
    congr 1
    funext l
    exact (fn_of_call u1 l).symm
  obtain ⟨M, fit, hinit, hfit, herr⟩ := tau_error hs (B := b.sampled q) h2.size_pos (fun t l => fn b.u l t)
    (fun t ht => hcall t (hp t ht).1 (hp t ht).2) hσ hA
  refine ⟨_, fit, hinit, rfl, hfit, fun ρ hρ η x hη hx => ?_⟩
  have hG : ∀ t, 0 ≤ t → t ≤ beta → ‖(greens κ wmax ρ t : ℂ) - ∑ l, (coefs b wmax ρ l : ℂ) * (fn b.u l t : ℂ)‖ ≤
      E omitted * ∫ omega in (-wmax)..wmax, |ρ omega| := by
    intro t q1 q2
    obtain ⟨ut, u1, hG⟩ := (h8 ρ hρ).1 t q1 q2
    rw [← Real.norm_eq_abs, ← Complex.norm_real] at hG
    push_cast at hG
    simpa only [fn_of_call u1] using hG
  set D := E omitted * ∫ omega in (-wmax)..wmax, |ρ omega| with hD
  have hD0 : 0 ≤ D := (norm_nonneg _).trans (hG 0 le_rfl hbeta.le)
  have hc : σ ^ 2 * ∑ l, ‖fit x l - (coefs b wmax ρ l : ℂ)‖ ^ 2 ≤ p.length * (D + η) ^ 2 := by
    refine (herr (fun l => (coefs b wmax ρ l : ℂ)) x).trans
      ((Finset.sum_le_card_nsmul Finset.univ _ ((D + η) ^ 2) fun i _ => ?_).trans ?_)
    · refine pow_le_pow_left₀ (norm_nonneg _) ?_ 2
      have hi := hp _ (List.get_mem p i)
      rw [← sub_add_sub_cancel (x i) (greens κ wmax ρ (p.get i) : ℂ), add_comm D]
      exact (norm_add_le _ _).trans (add_le_add (hx i) (hG _ hi.1 hi.2))
    · rw [Finset.card_univ, Fintype.card_fin, nsmul_eq_mul]
  refine ⟨hc, fun tau q1 q2 => ⟨_, hcall tau q1 q2, ?_⟩⟩
  have hv := coefs_to_value hσ (add_nonneg hD0 hη) hc fun l => fn b.u l tau
  exact value_of_coefs (hG tau q1 q2) hv

/-- The same with values on the Matsubara axis and `MatsubaraSampling.fit`, with or without `positive_only`: in place of `D` the
error of the data with respect to the basis is `beta D`. -/
theorem C93_matsubara {k κ : ℝ → ℝ → ℝ} {δ : ℝ} {n : ℕ} {ki : KernelInfo} {stat : String} {beta wmax fac e t : ℝ}
    (hbeta : 0 < beta) {E : List ℝ → ℝ} {maxSize : Option ℕ} {res : PyM Basis}
    (hres : AccurateWithin k κ δ n ki stat beta wmax fac e t E maxSize res) :
    res = .error .nanResult ∨ ∃ (b : Basis) (omitted : List ℝ), res = .ok b ∧ IsBasis b stat beta wmax e ∧
      (∀ m ∈ maxSize, b.size ≤ m) ∧ (∀ q ∈ omitted, ∀ l, q ≤ b.s l) ∧
      (maxSize = none → ∀ q ∈ omitted, ∀ l0 : Fin b.size, l0.1 = 0 → q ≤ max e t * b.s l0) ∧
      ∀ (svds : Svds), svds.Ok → ∀ (q : Search) (ns : List ℤ) (po : Bool),
      (∀ m ∈ ns, |(m : ℝ)| < 40 * (beta * wmax) ∧ (stat = "F" ↔ Odd m)) →
      (po = true → ns ≠ [] ∧ ∀ m ∈ ns, 0 ≤ m) → ∀ σ : ℝ, 0 < σ →
      (∀ (f : ℤ → Fin b.size → ℂ), (∀ m ∈ ns, b.uhat.call m = .ok (f m)) → ∀ g : Fin b.size → ℂ,
        (po = true → ∀ l, (g l).im = 0) → σ ^ 2 * ∑ l, ‖g l‖ ^ 2 ≤ (ns.map fun m => ‖∑ l, f m l * g l‖ ^ 2).sum) →
      ∃ (o : Obj (b.sampled q) ℤ) (fit : (Fin o.points.length → ℂ) → Fin b.size → ℂ),
        matsInit svds (b.sampled q) (some (1, .ints ns)) po = .ok o ∧ o.points.Perm ns ∧
        (∀ (x : NdArray ℂ) (axis : ℤ) (j : ℕ), ValidAxis axis x.ndim j → x.shape[j]? = some ns.length →
          ∃ c w, matsFit svds o x (some axis) none = .ok (c, w) ∧ AppliedAlong fit j x c) ∧
        ∀ ρ, SquareIntegrable wmax ρ → ∀ (η : ℝ) (x : Fin o.points.length → ℂ), 0 ≤ η →
          (∀ i, ‖x i - matsubara beta (fun tau => (greens κ wmax ρ tau : ℂ)) (o.points.get i)‖ ≤ η) →
          σ ^ 2 * ∑ l, ‖fit x l - (coefs b wmax ρ l : ℂ)‖ ^ 2 ≤
            ns.length * (beta * (E omitted * ∫ omega in (-wmax)..wmax, |ρ omega|) + η) ^ 2 ∧
          ∀ tau, 0 ≤ tau → tau ≤ beta → ∃ ut, b.u.call tau = .ok ut ∧
            ‖(greens κ wmax ρ tau : ℂ) - ∑ l, fit x l * (ut l : ℂ)‖ ≤
              E omitted * (∫ omega in (-wmax)..wmax, |ρ omega|) + Real.sqrt (∑ l, ut l ^ 2) *
                (Real.sqrt ns.length * (beta * (E omitted * ∫ omega in (-wmax)..wmax, |ρ omega|) + η) / σ) := by
  obtain ⟨mx, my, x, wx, y, wy, fe, fo, -, -, -, -, h | ⟨b, omitted, h1, h2, -, h4, -, h5, h6, h7, h8⟩⟩ := hres
  · exact Or.inl h
  refine Or.inr ⟨b, omitted, h1, h2, h4, h5, h6, fun svds hs q ns po hns hpo σ hσ hA => ?_⟩
  set V : ℤ → Fin (b.sampled q).size → ℂ := fun n l =>
    ∫ t in (0 : ℝ)..beta, Complex.exp (Complex.I * Real.pi * n * t / beta) * (fn b.u l t : ℂ) with hV
  have huhat : ∀ m ∈ ns, b.uhat.call m = .ok (V m) := fun m hm => h2.uhat m (hns m hm).1 (hns m hm).2
  have hV0 : ∀ l, (V 0 l).im = 0 := by
    intro l
    have : (fun t : ℝ => Complex.exp (Complex.I * Real.pi * ((0 : ℤ) : ℂ) * t / beta) * (fn b.u l t : ℂ)) =
        fun t : ℝ => ((fn b.u l t : ℝ) : ℂ) := by
      funext t
      simp
    rw [hV]
    simp only
    rw [this, intervalIntegral.integral_ofReal]
    exact Complex.ofReal_im _
  obtain ⟨o, fit, hinit, hperm, -, hfit, -, herr⟩ := mats_error hs (B := b.sampled q) h2.size_pos V huhat po hpo hV0 hσ
    (fun g hg => hA V huhat g hg)
  refine ⟨o, fit, hinit, hperm, hfit, fun ρ hρ η x hη hx => ?_⟩
  have hG : ∀ t, 0 ≤ t → t ≤ beta → ∃ ut, b.u.call t = .ok ut ∧
      ‖(greens κ wmax ρ t : ℂ) - ∑ l, (coefs b wmax ρ l : ℂ) * (ut l : ℂ)‖ ≤
      E omitted * ∫ omega in (-wmax)..wmax, |ρ omega| := by
    intro t q1 q2
    obtain ⟨ut, u1, hG⟩ := (h8 ρ hρ).1 t q1 q2
    rw [← Real.norm_eq_abs, ← Complex.norm_real] at hG
    push_cast at hG
    exact ⟨ut, u1, hG⟩
  have hM : ∀ i, ‖matsubara beta (fun tau => (greens κ wmax ρ tau : ℂ)) (o.points.get i) -
      ∑ l, V (o.points.get i) l * (coefs b wmax ρ l : ℂ)‖ ≤ beta * (E omitted * ∫ omega in (-wmax)..wmax, |ρ omega|) := by
    intro i
    have hm : o.points.get i ∈ ns := hperm.mem_iff.1 (List.get_mem _ i)
    obtain ⟨f, f1, f2⟩ := (h8 ρ hρ).2 _ (hns _ hm).1 (hns _ hm).2
    obtain rfl := Except.ok.inj ((huhat _ hm).symm.trans f1)
    refine (le_of_eq ?_).trans f2
    unfold matsubara
    congr 2
    exact Finset.sum_congr rfl fun l _ => mul_comm _ _
  set D := E omitted * ∫ omega in (-wmax)..wmax, |ρ omega| with hD
  have hD0 : 0 ≤ D := by
    obtain ⟨ut, -, h⟩ := hG 0 le_rfl hbeta.le
    exact (norm_nonneg _).trans h
  have hc : σ ^ 2 * ∑ l, ‖fit x l - (coefs b wmax ρ l : ℂ)‖ ^ 2 ≤ ns.length * (beta * D + η) ^ 2 := by
    refine (herr (fun l => (coefs b wmax ρ l : ℂ)) x fun _ l => Complex.ofReal_im _).trans
      ((Finset.sum_le_card_nsmul Finset.univ _ ((beta * D + η) ^ 2) fun i _ => ?_).trans ?_)
    · refine pow_le_pow_left₀ (norm_nonneg _) ?_ 2
      rw [← sub_add_sub_cancel (x i) (matsubara beta (fun tau => (greens κ wmax ρ tau : ℂ)) (o.points.get i)), add_comm (beta * D)]
      exact (norm_add_le _ _).trans (add_le_add (hx i) (hM i))
    · rw [Finset.card_univ, Fintype.card_fin, nsmul_eq_mul, hperm.length_eq]
  refine ⟨hc, fun tau q1 q2 => ?_⟩
  obtain ⟨ut, u1, hGt⟩ := hG tau q1 q2
  refine ⟨ut, u1, ?_⟩
  have hv := coefs_to_value hσ (add_nonneg (by positivity) hη) hc ut
  exact value_of_coefs hGt hv

/-! ## Sampling times exist -/

theorem fn_measurable {κ : Type} (p : PPoly κ) (l : κ) : Measurable (fn p l) := by
  classical
  let G : ℕ → ℝ → ℝ := fun n x => if h : min n p.nseg - 1 < p.nseg then
    (if p.dx ⟨_, h⟩ = 0 then 0 else
      legval ((x - p.xm ⟨_, h⟩) * p.invXs ⟨_, h⟩) (p.coef ⟨_, h⟩ l) * p.norm ⟨_, h⟩) else 0
  have hfn : fn p l = fun x => if p.xmin ≤ x ∧ x ≤ p.xmax then G (p.searchsortedRight x) x else 0 := by
    funext x
    by_cases h1 : x ≥ p.xmin
    · by_cases h2 : x ≤ p.xmax
      · by_cases h3 : min (p.searchsortedRight x) p.nseg - 1 < p.nseg
        · by_cases h4 : p.dx ⟨_, h3⟩ = 0 <;> simp [fn, PPoly.call, PPoly.split, G, h1, h2, h3, h4]
        · simp [fn, PPoly.call, PPoly.split, G, h1, h2, h3]
      · simp [fn, PPoly.call, PPoly.split, h1, h2]
    · have h1' : ¬ p.xmin ≤ x := h1
      simp [fn, PPoly.call, PPoly.split, h1']
  have hG : ∀ n, Measurable (G n) := by
    intro n
    show Measurable fun x => G n x
    by_cases h : min n p.nseg - 1 < p.nseg
    · by_cases h4 : p.dx ⟨_, h⟩ = 0
      · simp only [G, h, dif_pos, h4, if_true]
        exact measurable_const
      · simp only [G, h, dif_pos, h4, if_false, Verif.Legendre.legval_eq]
        exact (Continuous.mul ((Polynomial.continuous (Verif.Legendre.series _)).comp (f := fun x : ℝ => (x - p.xm ⟨_, h⟩) * p.invXs ⟨_, h⟩) (by fun_prop)) continuous_const).measurable
    · simp only [G, h, dif_neg, not_false_eq_true]
      exact measurable_const
  have hN : Measurable fun x => p.searchsortedRight x := by
    unfold PPoly.searchsortedRight
    simp only [Finset.card_filter]
    exact Finset.measurable_sum _ fun j _ => Measurable.ite measurableSet_Ici measurable_const measurable_const
  have hGN : Measurable fun x => G (p.searchsortedRight x) x :=
    (measurable_from_prod_countable_right (f := fun z : ℕ × ℝ => G z.1 z.2) hG).comp (hN.prodMk measurable_id)
  rw [hfn]
  exact Measurable.ite (measurableSet_Icc (a := p.xmin) (b := p.xmax)) hGN measurable_const

theorem real_independent {n : ℕ} {p : PPoly (Fin n)} {a b : ℝ} (hab : a ≤ b) (h : Orthonormal p a b) {g : Fin n → ℝ}
    (hz : ∀ t, a ≤ t → t ≤ b → ∑ l, g l * fn p l t = 0) : g = 0 := by
  have hL : ∀ l, MemLp (fn p l) 2 (volume.restrict (Set.Ioc a b)) := by
    intro l
    rw [memLp_two_iff_integrable_sq (fn_measurable p l).aestronglyMeasurable]
    by_contra hn
    have h1 := h l l
    rw [if_pos rfl, intervalIntegral.integral_undef] at h1
    · exact zero_ne_one h1
    · rw [intervalIntegrable_iff_integrableOn_Ioc_of_le hab]
      simp only [← sq]
      exact hn
  have hI : ∀ l m, IntervalIntegrable (fun t => fn p l t * fn p m t) volume a b := fun l m => by
    rw [intervalIntegrable_iff_integrableOn_Ioc_of_le hab]
    exact (hL l).integrable_mul (hL m)
  funext m
  have h1 : ∫ t in a..b, ∑ l, g l * (fn p l t * fn p m t) = g m := by
    rw [intervalIntegral.integral_finsetSum fun l _ => (hI l m).const_mul (g l)]
    simp only [intervalIntegral.integral_const_mul, h _ m]
    simp
  rw [← h1]
  show _ = (0 : ℝ)
  rw [intervalIntegral.integral_of_le hab]
  refine setIntegral_eq_zero_of_forall_eq_zero fun t ht => ?_
  have := hz t ht.1.le ht.2
  simp only [← mul_assoc, ← Finset.sum_mul, this, zero_mul]

theorem independent {n : ℕ} {p : PPoly (Fin n)} {a b : ℝ} (hab : a ≤ b) (h : Orthonormal p a b) {g : Fin n → ℂ}
    (hz : ∀ t, a ≤ t → t ≤ b → ∑ l, g l * (fn p l t : ℂ) = 0) : g = 0 := by
  have h1 := real_independent hab h (g := fun l => (g l).re) fun t q1 q2 => by
    have := congrArg Complex.re (hz t q1 q2)
    simpa using this
  have h2 := real_independent hab h (g := fun l => (g l).im) fun t q1 q2 => by
    have := congrArg Complex.im (hz t q1 q2)
    simpa using this
  funext l
  exact Complex.ext (congrFun h1 l) (congrFun h2 l)

/-- The coefficients of the functions that vanish at all points. -/
def vanishing {n : ℕ} (U : ℝ → Fin n → ℂ) (p : List ℝ) : Submodule ℂ (Fin n → ℂ) where
  carrier := {g | ∀ t ∈ p, ∑ l, g l * U t l = 0}
  zero_mem' := fun t _ => by simp
  add_mem' := fun {g g'} h h' t ht => by
    have := h t ht
    have := h' t ht
    simp only [Pi.add_apply, add_mul, Finset.sum_add_distrib]
    simp_all
  smul_mem' := fun c g h t ht => by
    have := h t ht
    simp only [Pi.smul_apply, smul_eq_mul, mul_assoc, ← Finset.mul_sum, this, mul_zero]

/-- Independent functions on a set are determined by their values at finitely many points of it. -/
theorem exists_points {n : ℕ} (U : ℝ → Fin n → ℂ) (S : Set ℝ)
    (hind : ∀ g : Fin n → ℂ, (∀ t ∈ S, ∑ l, g l * U t l = 0) → g = 0) :
    ∃ p : List ℝ, (∀ t ∈ p, t ∈ S) ∧ ∀ g : Fin n → ℂ, (∀ t ∈ p, ∑ l, g l * U t l = 0) → g = 0 := by
  classical
  have hex : ∃ k, ∃ p : List ℝ, (∀ t ∈ p, t ∈ S) ∧ Module.finrank ℂ (vanishing U p) = k := ⟨_, [], by simp, rfl⟩
  obtain ⟨p, hp, hk⟩ := Nat.find_spec hex
  refine ⟨p, hp, fun g hg => hind g fun t ht => ?_⟩
  by_contra hne
  have hlt : vanishing U (t :: p) < vanishing U p := by
    refine lt_of_le_of_ne (fun g' h' s hs => h' s (List.mem_cons_of_mem _ hs)) fun he => hne ?_
    have : g ∈ vanishing U (t :: p) := by rw [he]; exact hg
    exact this t List.mem_cons_self
  have h1 := Submodule.finrank_lt_finrank_of_lt hlt
  have h2 := Nat.find_min' hex ⟨t :: p, fun s hs => by
    rcases List.mem_cons.1 hs with rfl | hs
    · exact ht
    · exact hp s hs, rfl⟩
  omega

/-- If no combination other than zero vanishes at all points, the sampling matrix has a positive lower bound. -/
theorem exists_lower {n : ℕ} (U : ℝ → Fin n → ℂ) (p : List ℝ)
    (h : ∀ g : Fin n → ℂ, (∀ t ∈ p, ∑ l, g l * U t l = 0) → g = 0) :
    ∃ σ : ℝ, 0 < σ ∧ ∀ g : Fin n → ℂ, σ ^ 2 * ∑ l, ‖g l‖ ^ 2 ≤ ∑ i, ‖∑ l, g l * U (p.get i) l‖ ^ 2 := by
  let L : EuclideanSpace ℂ (Fin n) →ₗ[ℂ] EuclideanSpace ℂ (Fin p.length) :=
    (WithLp.linearEquiv 2 ℂ (Fin p.length → ℂ)).symm.toLinearMap ∘ₗ
      (Matrix.mulVecLin (Matrix.of fun i l => U (p.get i) l)) ∘ₗ (WithLp.linearEquiv 2 ℂ (Fin n → ℂ)).toLinearMap
  have hval : ∀ g i, L g i = ∑ l, g l * U (p.get i) l := fun g i => by
    show ∑ l, U (p.get i) l * g l = _
    exact Finset.sum_congr rfl fun l _ => mul_comm _ _
  have hker : LinearMap.ker L = ⊥ := by
    rw [LinearMap.ker_eq_bot']
    intro g hg
    have h0 := h (fun l => g l) fun t ht => by
      obtain ⟨i, rfl⟩ := List.mem_iff_get.1 ht
      rw [← hval, hg]
      rfl
    ext l
    exact congrFun h0 l
  obtain ⟨K, hK, hanti⟩ := L.exists_antilipschitzWith hker
  have hK' : (0 : ℝ) < K := hK
  refine ⟨1 / K, by positivity, fun g => ?_⟩
  have h1 := hanti.le_mul_dist (WithLp.toLp 2 g) 0
  rw [map_zero, dist_zero_right, dist_zero_right] at h1
  have h2 := pow_le_pow_left₀ (norm_nonneg _) h1 2
  rw [mul_pow, EuclideanSpace.norm_sq_eq, EuclideanSpace.norm_sq_eq] at h2
  simp only [hval] at h2
  rw [div_pow, one_pow, div_mul_eq_mul_div, one_mul, div_le_iff₀ (by positivity), mul_comm]
  exact h2

/-- For every basis there are sampling times at which the sampling matrix has a positive lower bound, so that C93 applies. -/
theorem C93_points {b : Basis} {stat : String} {beta wmax e : ℝ} (hbeta : 0 < beta) (hb : IsBasis b stat beta wmax e) :
    ∃ p : List ℝ, (∀ t ∈ p, 0 ≤ t ∧ t ≤ beta) ∧ ∃ σ : ℝ, 0 < σ ∧
      ∀ g : Fin b.size → ℂ, σ ^ 2 * ∑ l, ‖g l‖ ^ 2 ≤ ∑ i, ‖timeValue b g (p.get i)‖ ^ 2 := by
  obtain ⟨p, h1, h2⟩ := exists_points (fun t l => (fn b.u l t : ℂ)) (Set.Icc 0 beta)
    fun g hg => independent hbeta.le hb.uorth fun t q1 q2 => hg t ⟨q1, q2⟩
  obtain ⟨σ, hσ, h3⟩ := exists_lower (fun t l => (fn b.u l t : ℂ)) p h2
  refine ⟨p, fun t ht => ⟨(h1 t ht).1, (h1 t ht).2⟩, σ, hσ, fun g => ?_⟩
  unfold timeValue
  exact h3 g

/-- The hypotheses are met, for example by `beta = 20`, `wmax = 5`, `eps = 10⁻⁶`, the Bose kernel and the points of `C93_points`. -/
example (svds : Svds) (hs : svds.Ok) (q : Search) : ∃ env c,
    safeEps env.platform (some (.real 1e-6)) none none = .ok c ∧
    (make Fp.exact (computeOf env) "B" 20 5 (some 1e-6) none (some (boseInfo (20 * 5))) none = .error .nanResult ∨
    ∃ b omitted σ, ∃ p : List ℝ, (∀ t ∈ p, 0 ≤ t ∧ t ≤ 20) ∧ ∃ (o : Obj (b.sampled q) ℝ) (fit : (Fin o.points.length → ℂ) → Fin b.size → ℂ),
      make Fp.exact (computeOf env) "B" 20 5 (some 1e-6) none (some (boseInfo (20 * 5))) none = .ok b ∧
      (∀ r ∈ omitted, ∀ l, r ≤ b.s l) ∧ 0 < σ ∧ tauInit svds (b.sampled q) (some (1, p)) = .ok o ∧
      ∀ x : Fin o.points.length → ℂ, (∀ i, ‖x i - (greens (bosePhys 20 5) 5 (fun _ => 1) (o.points.get i) : ℂ)‖ ≤ 1e-3) →
        σ ^ 2 * ∑ l, ‖fit x l - (coefs b 5 (fun _ => 1) l : ℂ)‖ ^ 2 ≤
          p.length * (bosePointError 20 5 (2 * (1 + 1 / (20 * 5) + 1e-200 * (1 + 1 / (20 * 5))) * |1e-12| +
            2 * (1e-200 * (1 + 1 / (20 * 5)))) (if 1e-8 ≤ c.safeEps then 10 else 16)
            (if 1e-8 ≤ c.safeEps then 5e-7 else 4.6e-12) omitted * 10 + 1e-3) ^ 2) := by
  obtain ⟨env, c, rule, h1, h2, h3, h4, h5, h6, h7, h8⟩ :=
    inexact_env (show (0 : ℝ) ≤ 1e-12 by norm_num) (by norm_num) true
  obtain ⟨k, -, h9⟩ := C92_basis env Fp.exact "B" (Or.inr rfl) 20 5 (by norm_num) (by norm_num) rfl (by norm_num)
    (some 1e-6) none (by simp) c h1 (by norm_num) _ h2 (by positivity) (by norm_num) h3 _ h4 h5 rule h6 h7 h8
  refine ⟨env, c, h1, ?_⟩
  rcases C93_tau (by norm_num) h9 with h | ⟨b, omitted, b1, b2, -, b4, -, b6⟩
  · exact Or.inl h
  obtain ⟨p, hp, σ, hσ, hA⟩ := C93_points (by norm_num) b2
  obtain ⟨o, fit, o1, o2, -, o4⟩ := b6 svds hs q p hp σ hσ hA
  refine Or.inr ⟨b, omitted, σ, p, hp, o, fit, b1, b4, hσ, o1, fun x hx => ?_⟩
  have := (o4 (fun _ => 1) (memLp_const 1) 1e-3 x (by norm_num) hx).1
  have e : ∫ _ in (-5 : ℝ)..5, |(1 : ℝ)| = 10 := by rw [abs_one, intervalIntegral.integral_const]; norm_num
  rw [e] at this
  exact this

end Verif.Props
