import Verif.Props.C93_SampledGreens
/-!
# C94: completeness of the discrete Lehmann representation

C51 shows that `from_IR` is a least-squares inverse of `to_IR`.  Here: if the poles determine the functions `v`, nothing is
lost, so that every Green's function has a discrete Lehmann representation as accurate as the basis; such poles exist.
-/

namespace Verif.Props
open Verif Verif.Np Verif.Sve Verif.Gauss Verif.Kernel Verif.Spec Verif.Poly Verif.Svd Verif.FiniteTemp Verif.SveCompute
open Verif.Dlr Verif.Sampling Verif.Np.NdArray Matrix
open MeasureTheory

/-- No combination of the functions `v` other than zero vanishes at all poles. -/
def PolesDetermine (b : Basis) (poles : List ℝ) : Prop :=
  ∀ g : Fin b.size → ℂ, (∀ w ∈ poles, ∑ l, g l * (fn b.v l w : ℂ) = 0) → g = 0

theorem ne_nil_of_determine {b : Basis} (hsz : 0 < b.size) {poles : List ℝ} (h : PolesDetermine b poles) : poles ≠ [] := by
  rintro rfl
  have := congrFun (h (fun _ => 1) (by simp)) ⟨0, hsz⟩
  simp at this

theorem irMatrix_surjective {b : Basis} (hs : ∀ l, 0 < b.s l) {poles : List ℝ} (h : PolesDetermine b poles) (x : Fin b.size → ℂ) :
    ∃ c, irMatrix b poles *ᵥ c = x := by
  have hinj : Function.Injective (irMatrix b poles)ᵀ.mulVecLin := by
    rw [← LinearMap.ker_eq_bot, LinearMap.ker_eq_bot']
    intro g hg
    have h0 := h (fun l => g l * (b.s l : ℂ)) fun w hw => by
      obtain ⟨i, rfl⟩ := List.mem_iff_get.1 hw
      have h1 : ∑ l, irMatrix b poles l i * g l = 0 := congrFun hg i
      rw [← neg_eq_zero, ← Finset.sum_neg_distrib, ← h1]
      refine Finset.sum_congr rfl fun l _ => ?_
      unfold irMatrix
      push_cast
      ring
    funext l
    have h2 : g l * (b.s l : ℂ) = 0 := congrFun h0 l
    exact (mul_eq_zero.1 h2).resolve_right (by exact_mod_cast (hs l).ne')
  have hr : Module.finrank ℂ (LinearMap.range (irMatrix b poles).mulVecLin) = Module.finrank ℂ (Fin b.size → ℂ) := by
    have h1 := LinearMap.finrank_range_of_inj hinj
    have h2 := Matrix.rank_transpose (irMatrix b poles)
    unfold Matrix.rank at h2
    rw [← h2, h1]
  have htop := Submodule.eq_top_of_finrank_eq hr
  have hx : x ∈ LinearMap.range (irMatrix b poles).mulVecLin := by rw [htop]; trivial
  exact hx

/-- The solution of minimal norm is bounded by a lower bound of the adjoint. -/
theorem minimal_le {m n : ℕ} {A : Matrix (Fin m) (Fin n) ℂ} {x : Fin m → ℂ} {c : Fin n → ℂ} (hc : IsLeastSquares A x c)
    (hx : A *ᵥ c = x) {σ : ℝ} (hσ : 0 < σ) (hA : ∀ g, σ ^ 2 * sqNorm g ≤ sqNorm (Aᴴ *ᵥ g)) :
    σ ^ 2 * sqNorm c ≤ sqNorm x := by
  have hdot : ∀ g, star (Aᴴ *ᵥ g) ⬝ᵥ (Aᴴ *ᵥ g) = star g ⬝ᵥ (A *ᵥ (Aᴴ *ᵥ g)) := fun g => by
    rw [Matrix.star_mulVec, Matrix.conjTranspose_conjTranspose, ← Matrix.dotProduct_mulVec]
  have hinj : Function.Injective (A * Aᴴ).mulVecLin := by
    rw [← LinearMap.ker_eq_bot, LinearMap.ker_eq_bot']
    intro g hg
    have h1 : A *ᵥ (Aᴴ *ᵥ g) = 0 := by rw [Matrix.mulVec_mulVec]; exact hg
    have h2 : ((sqNorm (Aᴴ *ᵥ g) : ℝ) : ℂ) = 0 := by
      have := sqNorm_cast (𝕜 := ℂ) (Aᴴ *ᵥ g)
      rw [hdot, h1, dotProduct_zero] at this
      exact this
    have h3 : sqNorm (Aᴴ *ᵥ g) = 0 := by exact_mod_cast h2
    have h4 := hA g
    rw [h3] at h4
    have h5 : 0 ≤ sqNorm g := sq_nonneg' _
    exact sq_eq_zero.1 (le_antisymm (by by_contra hn; nlinarith [mul_pos (pow_pos hσ 2) (not_le.1 hn)]) h5)
  obtain ⟨g, hg⟩ := (LinearMap.injective_iff_surjective.1 hinj) x
  have hg' : A *ᵥ (Aᴴ *ᵥ g) = x := by rw [Matrix.mulVec_mulVec]; exact hg
  refine (mul_le_mul_of_nonneg_left (hc.2 (Aᴴ *ᵥ g) (by rw [hg', hx])) (sq_nonneg σ)).trans ?_
  have h1 : ((sqNorm (Aᴴ *ᵥ g) : ℝ) : ℂ) = star g ⬝ᵥ x := by
    have := sqNorm_cast (𝕜 := ℂ) (Aᴴ *ᵥ g)
    rw [hdot, hg'] at this
    exact this
  have hN : 0 ≤ sqNorm (Aᴴ *ᵥ g) := sq_nonneg' _
  have h2 : sqNorm (Aᴴ *ᵥ g) ≤ ∑ l, ‖g l‖ * ‖x l‖ := by
    have h3 := congrArg norm h1
    rw [Complex.norm_real, Real.norm_eq_abs, abs_of_nonneg hN] at h3
    rw [h3]
    refine (norm_sum_le _ _).trans (le_of_eq (Finset.sum_congr rfl fun l _ => ?_))
    rw [norm_mul, Pi.star_apply, norm_star]
  have h3 : (∑ l, ‖g l‖ * ‖x l‖) ^ 2 ≤ sqNorm g * sqNorm x := Finset.sum_mul_sq_le_sq_mul_sq _ _ _
  have h4 := (pow_le_pow_left₀ hN h2 2).trans h3
  have h5 := hA g
  have hX : 0 ≤ sqNorm x := sq_nonneg' _
  rcases hN.eq_or_lt with h0 | h0
  · rw [← h0, mul_zero]
    exact hX
  · refine le_of_mul_le_mul_left ?_ h0
    have h6 := mul_le_mul_of_nonneg_right h5 hX
    have h7 := mul_le_mul_of_nonneg_left h4 (sq_nonneg σ)
    calc _ = σ ^ 2 * sqNorm (Aᴴ *ᵥ g) ^ 2 := by ring
      _ ≤ _ := h7
      _ = σ ^ 2 * sqNorm g * sqNorm x := by ring
      _ ≤ _ := h6

/-- If the poles determine the functions `v`, `to_IR(from_IR(gl)) == gl` for arrays of every shape, and the norm of the
result of `from_IR` is at most that of its argument divided by a lower bound `σ` of the matrix of `s[l] * v[l](pole)`. -/
theorem C94_roundtrip {libs : Svd.Libs ℝ} (hl : LibsOk libs) {isLogistic : KernelInfo → Bool} {dflt : PyM (List ℝ)}
    {b : Basis} (hsz : 0 < b.size) (hs : ∀ l, 0 < b.s l) (hk : isLogistic b.kernel = true) {points : Option (List ℝ)}
    {poles : List ℝ} (hpt : points = some poles ∨ points = none ∧ dflt = .ok poles)
    (hv : ∀ w ∈ poles, ∃ v, b.v.call w = .ok v) (hdet : PolesDetermine b poles) :
    ∃ d w, Dlr.init libs isLogistic dflt b points = .ok (d, w) ∧
      ∃ fit : (Fin b.size → ℂ) → Fin poles.length → ℂ,
      (∀ x l, ∑ i, fit x i * ((-b.s l * fn b.v l (poles.get i) : ℝ) : ℂ) = x l) ∧
      (∀ σ : ℝ, 0 < σ → (∀ g : Fin b.size → ℂ, σ ^ 2 * ∑ l, ‖g l‖ ^ 2 ≤
          ∑ i, ‖∑ l, g l * ((b.s l * fn b.v l (poles.get i) : ℝ) : ℂ)‖ ^ 2) →
        ∀ x, σ ^ 2 * ∑ i, ‖fit x i‖ ^ 2 ≤ ∑ l, ‖x l‖ ^ 2) ∧
      ∀ (gl : NdArray ℂ) (axis : ℤ) (k : ℕ), ValidAxis axis gl.ndim k → gl.shape[k]? = some b.size →
        ∃ g, d.fromIR gl (some axis) = .ok g ∧ AppliedAlong fit k gl g ∧ d.toIR g (some axis) = .ok gl := by
  obtain ⟨u, M, w, hi, -, ha, hpos, hls⟩ := init_ok hl (dflt := dflt) hsz hk hpt (ne_nil_of_determine hsz hdet) hv
  have hfit : ∀ x, irMatrix b poles *ᵥ M.pinv x = x := by
    intro x
    obtain ⟨c, hc⟩ := irMatrix_surjective hs hdet x
    have := (hls x).1 c
    rw [hc, sub_self, sq_eq_zero.2 rfl] at this
    exact sub_eq_zero.1 (sq_eq_zero.1 (le_antisymm this (sq_nonneg' _)))
  refine ⟨_, w, hi, M.pinv, fun x l => ?_, fun σ hσ hA x => minimal_le (hls x) (hfit x) hσ fun g => (hA g).trans (le_of_eq ?_),
    fun gl axis k hax hsh => ?_⟩
  · have : ∑ i, irMatrix b poles l i * M.pinv x i = x l := congrFun (hfit x) l
    rw [← this]
    exact Finset.sum_congr rfl fun i _ => mul_comm _ _
  · unfold sqNorm
    refine Finset.sum_congr rfl fun i _ => ?_
    have : ((irMatrix b poles)ᴴ *ᵥ g) i = -∑ l, g l * ((b.s l * fn b.v l (poles.get i) : ℝ) : ℂ) := by
      rw [← Finset.sum_neg_distrib]
      show ∑ l, star (irMatrix b poles l i) * g l = _
      refine Finset.sum_congr rfl fun l _ => ?_
      unfold irMatrix
      rw [Complex.star_def, Complex.conj_ofReal]
      push_cast
      ring
    rw [this, norm_neg]
  · obtain ⟨g, h1, a1⟩ := matop_spec M.pinv M.lstsqOp (fun y h0 hy => M.lstsqOp_ok (fun i => (hpos i).ne') y h0 hy) gl
      (normalizeAxis_iff.2 hax) hsh
    have h2 := evaluate_full M g axis k (validAxis_applied a1 hax) a1.axis'
    rw [ha] at h2
    obtain ⟨r, h3, a3⟩ := h2
    refine ⟨g, h1, a1, ?_⟩
    have h4 : AppliedAlong (fun (v : Fin b.size → ℂ) i => v i) k gl r := applied_congr (a1.comp a3) fun x => hfit x
    have h5 := h4.unique (applied_id (p := b.size) (fun a : ℂ => a) hsh)
    rw [mapArr_id] at h5
    rw [← h5]
    exact h3

/-- Every basis has poles within the bandwidth that determine the functions `v`. -/
theorem C94_poles {b : Basis} {stat : String} {beta wmax e : ℝ} (hw : 0 < wmax) (hb : IsBasis b stat beta wmax e) :
    ∃ poles : List ℝ, (∀ w ∈ poles, -wmax ≤ w ∧ w ≤ wmax) ∧ PolesDetermine b poles := by
  obtain ⟨p, h1, h2⟩ := exists_points (fun t l => (fn b.v l t : ℂ)) (Set.Icc (-wmax) wmax)
    fun g hg => independent (by linarith) hb.vorth fun t q1 q2 => hg t ⟨q1, q2⟩
  exact ⟨p, fun t ht => ⟨(h1 t ht).1, (h1 t ht).2⟩, h2⟩

/-- With a basis as in C87 or C91, if the poles determine the functions `v`, the coefficients that `from_IR` returns for those of
a Green's function are bounded as in `C94_roundtrip`, with a suitable `σ`, and represent it at every imaginary time up to the error of the basis times the sum of the integral of `|ρ|` and
of the absolute values of these coefficients. -/
theorem C94_greens {k : ℝ → ℝ → ℝ} {δ : ℝ} {n : ℕ} {ki : KernelInfo} {stat : String} {beta wmax fac e t : ℝ} (hb0 : 0 ≤ beta)
    (hw : 0 < wmax) {E : List ℝ → ℝ} {maxSize : Option ℕ} {res : PyM Basis} (hres : AccurateWithin k
      (fun tau omega => Real.exp (-tau * omega) / (1 + Real.exp (-beta * omega))) δ n ki stat beta wmax fac e t E maxSize res)
    {libs : Svd.Libs ℝ} (hl : LibsOk libs) {isLogistic : KernelInfo → Bool} (hk : isLogistic ki = true) (dflt : PyM (List ℝ)) :
    res = .error .nanResult ∨ ∃ (b : Basis) (omitted : List ℝ), res = .ok b ∧ IsBasis b stat beta wmax e ∧
      (∀ q ∈ omitted, ∀ l, q ≤ b.s l) ∧
      (maxSize = none → ∀ q ∈ omitted, ∀ l0 : Fin b.size, l0.1 = 0 → q ≤ max e t * b.s l0) ∧
      (∃ poles : List ℝ, (∀ w ∈ poles, -wmax ≤ w ∧ w ≤ wmax) ∧ PolesDetermine b poles) ∧
      ∀ poles : List ℝ, (∀ w ∈ poles, -wmax ≤ w ∧ w ≤ wmax) → PolesDetermine b poles →
      ∃ d w, Dlr.init libs isLogistic dflt b (some poles) = .ok (d, w) ∧
      ∃ fit : (Fin b.size → ℂ) → Fin poles.length → ℂ,
        (∀ (gl : NdArray ℂ) (axis : ℤ) (k : ℕ), ValidAxis axis gl.ndim k → gl.shape[k]? = some b.size →
          ∃ g, d.fromIR gl (some axis) = .ok g ∧ AppliedAlong fit k gl g ∧ d.toIR g (some axis) = .ok gl) ∧
        (∃ σ : ℝ, 0 < σ ∧ ∀ g : Fin b.size → ℂ, σ ^ 2 * ∑ l, ‖g l‖ ^ 2 ≤
          ∑ i, ‖∑ l, g l * ((b.s l * fn b.v l (poles.get i) : ℝ) : ℂ)‖ ^ 2) ∧
        (∀ σ : ℝ, 0 < σ → (∀ g : Fin b.size → ℂ, σ ^ 2 * ∑ l, ‖g l‖ ^ 2 ≤
            ∑ i, ‖∑ l, g l * ((b.s l * fn b.v l (poles.get i) : ℝ) : ℂ)‖ ^ 2) →
          ∀ x, σ ^ 2 * ∑ i, ‖fit x i‖ ^ 2 ≤ ∑ l, ‖x l‖ ^ 2) ∧
        ∀ ρ, SquareIntegrable wmax ρ → ∀ tau, 0 ≤ tau → tau ≤ beta →
          ‖(greens (fun tau omega => Real.exp (-tau * omega) / (1 + Real.exp (-beta * omega))) wmax ρ tau : ℂ) -
            ∑ i, fit (fun l => (coefs b wmax ρ l : ℂ)) i * (poleTau beta (poles.get i) tau : ℂ)‖ ≤
          E omitted * ((∫ omega in (-wmax)..wmax, |ρ omega|) + ∑ i, ‖fit (fun l => (coefs b wmax ρ l : ℂ)) i‖) := by
  obtain ⟨mx, my, x, wx, y, wy, fe, fo, -, -, -, -, h | ⟨b, omitted, h1, h2, h3, -, -, h5, h6, h7, h8⟩⟩ := hres
  · exact Or.inl h
  refine Or.inr ⟨b, omitted, h1, h2, h5, h6, C94_poles hw h2, fun poles hin hdet => ?_⟩
  obtain ⟨d, w, i1, fit, i2, i4, i3⟩ := C94_roundtrip hl (isLogistic := isLogistic) (dflt := dflt) h2.size_pos h2.spos (by rw [h3]; exact hk) (Or.inl rfl)
    (fun w hw => by
      obtain ⟨-, vw, -, h, -⟩ := h7 0 w le_rfl hb0 (hin w hw).1 (hin w hw).2
      exact ⟨vw, h⟩) hdet
  have hspos := h2.spos
  have hlow := exists_lower (fun w l => ((b.s l * fn b.v l w : ℝ) : ℂ)) poles fun g hg => by
    have h0 := hdet (fun l => g l * (b.s l : ℂ)) fun w hw => by
      rw [← hg w hw]
      refine Finset.sum_congr rfl fun l _ => ?_
      push_cast
      ring
    funext l
    have h2 : g l * (b.s l : ℂ) = 0 := congrFun h0 l
    exact (mul_eq_zero.1 h2).resolve_right (by exact_mod_cast (hspos l).ne')
  refine ⟨d, w, i1, fit, i3, hlow, i4, fun ρ hρ tau q1 q2 => ?_⟩
  set κ : ℝ → ℝ → ℝ := fun tau omega => Real.exp (-tau * omega) / (1 + Real.exp (-beta * omega)) with hκ
  obtain ⟨ut, u1, hG⟩ := (h8 ρ hρ).1 tau q1 q2
  rw [← Real.norm_eq_abs, ← Complex.norm_real] at hG
  push_cast at hG
  set c := fit fun l => (coefs b wmax ρ l : ℂ) with hc
  have hi : ∀ i, ‖c i * (poleTau beta (poles.get i) tau : ℂ) -
      ∑ l, c i * ((-b.s l * fn b.v l (poles.get i) : ℝ) : ℂ) * (ut l : ℂ)‖ ≤ E omitted * ‖c i‖ := by
    intro i
    have hw' := hin _ (List.get_mem poles i)
    obtain ⟨ut', vw, u2, v2, hE⟩ := h7 tau _ q1 q2 hw'.1 hw'.2
    obtain rfl : ut' = ut := Except.ok.inj (u2.symm.trans u1)
    have e1 : c i * (poleTau beta (poles.get i) tau : ℂ) -
        ∑ l, c i * ((-b.s l * fn b.v l (poles.get i) : ℝ) : ℂ) * (ut' l : ℂ) =
        c i * ((∑ l, b.s l * ut' l * vw l - κ tau (poles.get i) : ℝ) : ℂ) := by
      have e2 : ∀ l, c i * ((-b.s l * fn b.v l (poles.get i) : ℝ) : ℂ) * (ut' l : ℂ) = -(c i * ((b.s l * ut' l * vw l : ℝ) : ℂ)) := by
        intro l
        rw [fn_of_call v2]
        push_cast
        ring
      rw [Finset.sum_congr rfl fun l _ => e2 l, Finset.sum_neg_distrib, ← Finset.mul_sum, ← Complex.ofReal_sum,
        show poleTau beta (poles.get i) tau = -κ tau (poles.get i) from rfl]
      push_cast
      ring
    rw [e1, norm_mul, Complex.norm_real, Real.norm_eq_abs, mul_comm]
    exact mul_le_mul_of_nonneg_right hE (norm_nonneg _)
  have hsum : ∑ i, ∑ l, c i * ((-b.s l * fn b.v l (poles.get i) : ℝ) : ℂ) * (ut l : ℂ) = ∑ l, (coefs b wmax ρ l : ℂ) * (ut l : ℂ) := by
    rw [Finset.sum_comm]
    refine Finset.sum_congr rfl fun l _ => ?_
    rw [← Finset.sum_mul, hc, i2]
  have hP : ‖∑ l, (coefs b wmax ρ l : ℂ) * (ut l : ℂ) - ∑ i, c i * (poleTau beta (poles.get i) tau : ℂ)‖ ≤
      E omitted * ∑ i, ‖c i‖ := by
    rw [← hsum, norm_sub_rev, ← Finset.sum_sub_distrib, Finset.mul_sum]
    exact (norm_sum_le _ _).trans (Finset.sum_le_sum fun i _ => hi i)
  rw [← sub_add_sub_cancel _ (∑ l, (coefs b wmax ρ l : ℂ) * (ut l : ℂ)), mul_add]
  exact (norm_add_le _ _).trans (add_le_add hG hP)

/-! ## On the Matsubara axis -/

theorem logistic_le_one {beta tau omega : ℝ} (h0 : 0 ≤ tau) (h1 : tau ≤ beta) :
    |Real.exp (-tau * omega) / (1 + Real.exp (-beta * omega))| ≤ 1 := by
  rw [abs_of_pos (by positivity), div_le_one (by positivity)]
  rcases le_total 0 omega with h | h
  · have : Real.exp (-tau * omega) ≤ 1 := Real.exp_le_one_iff.2 (by nlinarith)
    linarith [Real.exp_pos (-beta * omega)]
  · have : Real.exp (-tau * omega) ≤ Real.exp (-beta * omega) := Real.exp_le_exp.2 (by nlinarith)
    linarith

theorem greens_continuousOn {beta wmax : ℝ} (hw : 0 < wmax) {ρ : ℝ → ℝ} (hρ : SquareIntegrable wmax ρ) :
    ContinuousOn (greens (fun tau omega => Real.exp (-tau * omega) / (1 + Real.exp (-beta * omega))) wmax ρ) (Set.Icc 0 beta) := by
  have hint : Integrable ρ (volume.restrict (Set.Ioc (-wmax) wmax)) := MemLp.integrable (by norm_num) hρ
  have hpos : ∀ omega : ℝ, 1 + Real.exp (-beta * omega) ≠ 0 := fun omega => by positivity
  unfold greens
  simp only [intervalIntegral.integral_of_le (show -wmax ≤ wmax by linarith)]
  refine ContinuousOn.neg (continuousOn_of_dominated (bound := fun omega => |ρ omega|) (fun tau _ => ?_) (fun tau ht => ?_)
    hint.abs (Filter.Eventually.of_forall fun omega => ?_))
  · exact (Continuous.aestronglyMeasurable (by fun_prop (disch := exact hpos _))).mul hint.aestronglyMeasurable
  · refine Filter.Eventually.of_forall fun omega => ?_
    rw [Real.norm_eq_abs, abs_mul]
    exact mul_le_of_le_one_left (abs_nonneg _) (logistic_le_one ht.1 ht.2)
  · exact Continuous.continuousOn (by fun_prop)

/-- Coefficients which represent a Green's function at every imaginary time up to `B` represent its Fourier transform up to
`beta B` at every Matsubara frequency, with the functions `uhat` of the DLR (C50), for fermions and for bosons. -/
theorem C94_matsubara {beta wmax B : ℝ} (hb : 0 < beta) (hw : 0 < wmax) {ρ : ℝ → ℝ} (hρ : SquareIntegrable wmax ρ)
    {poles : List ℝ} {c : Fin poles.length → ℂ} (h : ∀ tau, 0 ≤ tau → tau ≤ beta →
      ‖(greens (fun tau omega => Real.exp (-tau * omega) / (1 + Real.exp (-beta * omega))) wmax ρ tau : ℂ) -
        ∑ i, c i * (poleTau beta (poles.get i) tau : ℂ)‖ ≤ B) (m : ℤ) :
    (Odd m → ‖matsubara beta (fun tau => (greens (fun tau omega => Real.exp (-tau * omega) / (1 + Real.exp (-beta * omega)))
        wmax ρ tau : ℂ)) m - ∑ i, c i * (1 / (Complex.I * Real.pi * m / beta - poles.get i))‖ ≤ beta * B) ∧
    (Even m → m ≠ 0 ∨ (∀ w ∈ poles, w ≠ 0) →
      ‖matsubara beta (fun tau => (greens (fun tau omega => Real.exp (-tau * omega) / (1 + Real.exp (-beta * omega)))
        wmax ρ tau : ℂ)) m -
        ∑ i, c i * (Real.tanh (beta * poles.get i / 2) / (Complex.I * Real.pi * m / beta - poles.get i))‖ ≤ beta * B) := by
  set G := greens (fun tau omega => Real.exp (-tau * omega) / (1 + Real.exp (-beta * omega))) wmax ρ with hG
  have hGi : IntervalIntegrable (fun tau : ℝ => Complex.exp (Complex.I * Real.pi * m * tau / beta) * (G tau : ℂ)) volume 0 beta := by
    refine ContinuousOn.intervalIntegrable ?_
    rw [Set.uIcc_of_le hb.le]
    exact ContinuousOn.mul (by fun_prop) (Complex.continuous_ofReal.comp_continuousOn (greens_continuousOn hw hρ))
  have hpole : ∀ w : ℝ, Continuous fun tau : ℝ => Complex.exp (Complex.I * Real.pi * m * tau / beta) * poleTime beta w tau := by
    intro w
    have : 1 + Real.exp (-beta * w) ≠ 0 := by positivity
    unfold poleTime
    fun_prop
  have hneg : ∀ i : Fin poles.length, Continuous fun tau : ℝ =>
      c i * -(Complex.exp (Complex.I * Real.pi * m * tau / beta) * poleTime beta (poles.get i) tau) :=
    fun i => continuous_const.mul (hpole _).neg
  have hsum : ∑ i, c i * -matsubara beta (poleTime beta (poles.get i)) m =
      ∫ tau in (0 : ℝ)..beta, ∑ i, c i * -(Complex.exp (Complex.I * Real.pi * m * tau / beta) * poleTime beta (poles.get i) tau) := by
    rw [intervalIntegral.integral_finsetSum fun i _ => (hneg i).intervalIntegrable _ _]
    refine Finset.sum_congr rfl fun i _ => ?_
    rw [intervalIntegral.integral_const_mul, intervalIntegral.integral_neg]
    rfl
  have key : ‖matsubara beta (fun tau => (G tau : ℂ)) m - ∑ i, c i * -matsubara beta (poleTime beta (poles.get i)) m‖ ≤ beta * B := by
    rw [hsum]
    unfold matsubara
    have hS : IntervalIntegrable (fun tau : ℝ =>
        ∑ i, c i * -(Complex.exp (Complex.I * Real.pi * m * tau / beta) * poleTime beta (poles.get i) tau)) volume 0 beta :=
      (continuous_finsetSum _ fun i _ => hneg i).intervalIntegrable _ _
    rw [← intervalIntegral.integral_sub hGi hS]
    refine (intervalIntegral.norm_integral_le_of_norm_le_const (C := B) fun tau ht => ?_).trans_eq
      (by rw [sub_zero, abs_of_pos hb, mul_comm])
    rw [Set.uIoc_of_le hb.le] at ht
    have e : Complex.exp (Complex.I * Real.pi * m * tau / beta) * (G tau : ℂ) -
        ∑ i, c i * -(Complex.exp (Complex.I * Real.pi * m * tau / beta) * poleTime beta (poles.get i) tau) =
        Complex.exp (Complex.I * Real.pi * m * tau / beta) * ((G tau : ℂ) - ∑ i, c i * (poleTau beta (poles.get i) tau : ℂ)) := by
      rw [mul_sub, Finset.mul_sum]
      congr 1
      refine Finset.sum_congr rfl fun i _ => ?_
      unfold poleTime poleTau
      push_cast
      ring
    rw [e, norm_mul, show Complex.I * Real.pi * m * tau / beta = ((Real.pi * m * tau / beta : ℝ) : ℂ) * Complex.I by push_cast; ring,
      Complex.norm_exp_ofReal_mul_I, one_mul]
    exact h tau ht.1.le ht.2
  refine ⟨fun hm => ?_, fun hm h0 => ?_⟩
  · refine (le_of_eq ?_).trans key
    congr 2
    refine Finset.sum_congr rfl fun i _ => ?_
    rw [(C69_pole_value hb (poles.get i) m).1 hm, ← div_neg, neg_sub]
  · refine (le_of_eq ?_).trans key
    congr 2
    refine Finset.sum_congr rfl fun i _ => ?_
    rw [(C69_pole_value hb (poles.get i) m).2.1 hm (h0.imp_right fun h => h _ (List.get_mem _ i)), ← div_neg, neg_sub]

/-- The bound of `C94_greens` is of the form needed; a crude case is one pole at 1 for the function zero. -/
example : ‖matsubara 20 (fun tau => (greens (fun tau omega => Real.exp (-tau * omega) / (1 + Real.exp (-20 * omega))) 5
    (fun _ => 0) tau : ℂ)) 3 - ∑ i : Fin [(1 : ℝ)].length, 1 * (1 / (Complex.I * Real.pi * (3 : ℤ) / (20 : ℝ) - ([(1 : ℝ)].get i : ℂ)))‖ ≤
    20 * 1 := by
  refine (C94_matsubara (by norm_num) (by norm_num) MemLp.zero' (poles := [1]) (c := fun _ => 1) (fun tau h0 h1 => ?_) 3).1 (by decide)
  have e : ∑ i : Fin [(1 : ℝ)].length, (1 : ℂ) * (poleTau 20 ([(1 : ℝ)].get i) tau : ℂ) = 1 * (poleTau 20 1 tau : ℂ) :=
    Fin.sum_univ_one _
  rw [e, one_mul, greens]
  simp only [mul_zero, intervalIntegral.integral_zero, neg_zero, Complex.ofReal_zero, zero_sub, norm_neg, Complex.norm_real]
  rw [poleTau, norm_neg, Real.norm_eq_abs]
  exact logistic_le_one h0 h1

/-- The hypotheses are met, for example by `beta = 20`, `wmax = 5`, `eps = 10⁻⁶` and a backward error of `10⁻¹²`. -/
example {libs : Svd.Libs ℝ} (hl : LibsOk libs) (isLogistic : KernelInfo → Bool) (hk : isLogistic (logisticInfo (20 * 5)) = true) :
    ∃ env, make Fp.exact (computeOf env) "F" 20 5 (some 1e-6) none none none = .error .nanResult ∨
    ∃ b poles d w, make Fp.exact (computeOf env) "F" 20 5 (some 1e-6) none none none = .ok b ∧
      (∀ w ∈ poles, -5 ≤ w ∧ w ≤ (5 : ℝ)) ∧ Dlr.init libs isLogistic (.error .valueError) b (some poles) = .ok (d, w) ∧
      ∀ gl : NdArray ℂ, gl.shape = [3, b.size] → ∃ g, d.fromIR gl (some 1) = .ok g ∧ d.toIR g (some 1) = .ok gl := by
  obtain ⟨env, c, rule, h1, h2, h3, h4, h5, h6, h7, h8⟩ :=
    inexact_env (show (0 : ℝ) ≤ 1e-12 by norm_num) (by norm_num) true
  have hacc := C87_basis env Fp.exact "F" (Or.inl rfl) 20 5 (by norm_num) (by norm_num) rfl (by norm_num)
    (by norm_num) (some 1e-6) none (by simp) c h1 (by norm_num) _ h2 (by positivity) (by norm_num) h3 _ h4 h5 rule h6 h7 h8
  refine ⟨env, ?_⟩
  rcases C94_greens (by norm_num) (by norm_num) hacc.within hl hk (.error .valueError) with h | ⟨b, omitted, b1, -, -, -, ⟨poles, p1, p2⟩, b3⟩
  · exact Or.inl h
  obtain ⟨d, w, d1, fit, d2, -, -, -⟩ := b3 poles p1 p2
  refine Or.inr ⟨b, poles, d, w, b1, p1, d1, fun gl hgl => ?_⟩
  obtain ⟨g, g1, -, g3⟩ := d2 gl 1 1 (by
    have : gl.ndim = 2 := by simp [NdArray.ndim, hgl]
    rw [this]
    simp [ValidAxis]) (by rw [hgl]; rfl)
  exact ⟨g, g1, g3⟩

end Verif.Props
