import Verif.Props.C50_DlrFunctions
import Verif.Props.C43_LeastSquares
import Verif.Props.C52_SvdStrategies
import Verif.Props.C39_PhysicalUnits
import Verif.Props.C17_SelectOrder
/-!
# C51 — conversion between DLR and IR coefficients
-/

namespace Verif.Props
open Verif Verif.Np Verif.Np.NdArray Verif.Poly Verif.Dlr Verif.Spec Verif.FiniteTemp Verif.Sampling
open scoped Matrix

/-- The basis functions on the real axis can be evaluated at all poles. -/
theorem evalV_ok (b : Basis) : ∀ poles : List ℝ, (∀ w ∈ poles, ∃ v, b.v.call w = .ok v) →
    evalV b poles = .ok fun l i => fn b.v l (poles.get i)
  | [], _ => by
    unfold evalV
    exact congrArg Except.ok (funext fun _ => funext fun i => i.elim0)
  | w :: ws, h => by
    obtain ⟨v, hv⟩ := h w List.mem_cons_self
    have ih := evalV_ok b ws fun w hw => h w (List.mem_cons_of_mem _ hw)
    unfold evalV
    rw [hv, ih]
    refine congrArg Except.ok (funext fun l => funext fun i => ?_)
    refine Fin.cases ?_ (fun i => ?_) i
    · show v l = fn b.v l w
      unfold fn; rw [hv]
    · rfl

/-- A real SVD is a complex one. -/
theorem svdOk_of_factors {m n : ℕ} {A : Matrix (Fin m) (Fin n) ℝ} {f : Svd.Factors ℝ m n} (h : IsSvdFactors A f) :
    SvdOk (A.map Complex.ofReal) (tripleOf f) := by
  have hc : ∀ {p q : ℕ} (M : Matrix (Fin p) (Fin q) ℝ), (M.map Complex.ofReal)ᴴ = Mᵀ.map Complex.ofReal := by
    intro p q M; ext i j; simp [Matrix.conjTranspose_apply]
  have hmul : ∀ {p q r : ℕ} (M : Matrix (Fin p) (Fin q) ℝ) (N : Matrix (Fin q) (Fin r) ℝ),
      M.map Complex.ofReal * N.map Complex.ofReal = (M * N).map Complex.ofReal := fun M N =>
    (Matrix.map_mul (f := Complex.ofRealHom)).symm
  have hone : ∀ p : ℕ, (1 : Matrix (Fin p) (Fin p) ℝ).map Complex.ofReal = 1 := fun p =>
    Matrix.map_one _ Complex.ofReal_zero Complex.ofReal_one
  refine ⟨f.k, _, f.s, _, rfl, ?_, ?_, h.nonneg, h.anti, ?_⟩
  · rw [hc, hmul, h.u_orth, hone]
  · rw [hc, hmul, Matrix.transpose_transpose, h.v_orth, hone]
  · have hd : Matrix.diagonal (fun i => ((f.s i : ℝ) : ℂ)) = (Matrix.diagonal f.s).map Complex.ofReal := by
      rw [Matrix.diagonal_map Complex.ofReal_zero]
    show A.map Complex.ofReal = f.u.map Complex.ofReal * Matrix.diagonal (fun i => ((f.s i : ℝ) : ℂ)) * f.vᵀ.map Complex.ofReal
    rw [hd, hmul, hmul, ← h.eq]

/-- The fitting matrix, as it should be. -/
noncomputable def irMatrix (b : Basis) (poles : List ℝ) : Matrix (Fin b.size) (Fin poles.length) ℂ :=
  fun l i => ((-b.s l * fn b.v l (poles.get i) : ℝ) : ℂ)

theorem init_ok {libs : Svd.Libs ℝ} (hl : LibsOk libs) {isLogistic : KernelInfo → Bool} {dflt : PyM (List ℝ)} {b : Basis}
    (hsz : 0 < b.size) (hk : isLogistic b.kernel = true) {points : Option (List ℝ)} {poles : List ℝ}
    (hpt : points = some poles ∨ points = none ∧ dflt = .ok poles) (hne : poles ≠ [])
    (hv : ∀ w ∈ poles, ∃ v, b.v.call w = .ok v) :
    ∃ u M w, Dlr.init libs isLogistic dflt b points = .ok (⟨b, poles, u, ⟨b.statistics, b.beta, poles⟩, M⟩, w) ∧
      tauPoles b.statistics b.beta poles = .ok u ∧ M.a = irMatrix b poles ∧ (∀ i, 0 < M.s i) ∧
      ∀ x, IsLeastSquares (irMatrix b poles) x (M.pinv x) := by
  obtain ⟨u, hu, -⟩ := tauPoles_ok b.statistics b.beta poles hne
  set F : Matrix (Fin b.size) (Fin poles.length) ℝ := fun l i => -b.s l * fn b.v l (poles.get i) with hF
  have hfit : fittingMatrix b poles = .ok F := by unfold fittingMatrix; rw [evalV_ok b poles hv]
  obtain ⟨f, w, hf, hok, -⟩ := C52_strategies hl false F hsz (List.length_pos_iff.2 hne) none (by simp) "accurate"
    (by simp)
  obtain ⟨M, hM, ha, hpos, -, hls, -⟩ := decompose_ok (svdOk_of_factors hok)
  refine ⟨u, M, w, ?_, hu, ha, hpos, hls⟩
  unfold Dlr.init
  rcases hpt with rfl | ⟨rfl, rfl⟩ <;>
  · simp only [hk, hu, hfit, hf, hM, bind, Except.bind, Bool.not_true]
    rfl

/-- `u` of the DLR, wherever it can be evaluated, is the pole function. -/
theorem tauPoles_val {stat : String} {beta : ℝ} (hb : 0 < beta) {poles : List ℝ} {u : TauPoles}
    (hu : tauPoles stat beta poles = .ok u) {t : ℕ} {tau : Fin t → ℝ} {val} (hval : u.call tau = .ok val) :
    ∃ h : u.poles = poles, ∀ i j, val i j = poleTau beta (poles.get (Fin.cast (congrArg List.length h) i)) (tau j) := by
  have hne : poles ≠ [] := by rintro rfl; cases hu
  obtain ⟨p, hp, hpb, hpp, -⟩ := tauPoles_ok stat beta poles hne
  obtain rfl : p = u := Except.ok.inj (hp.symm.trans hu)
  have ht : ∀ i, 0 ≤ tau i ∧ tau i ≤ beta := by
    intro i
    by_contra hc
    rw [C50_tau_range p tau ⟨i, by rw [hpb]; by_contra h; push Not at h; exact hc h⟩] at hval
    cases hval
  by_cases hz : ∃ w ∈ poles, w ≠ 0
  · obtain ⟨q, h, hq, hc⟩ := C50_tau_partial stat beta hb poles hz tau ht
    obtain rfl : q = p := Except.ok.inj (hq.symm.trans hu)
    refine ⟨h, fun i j => ?_⟩
    rw [Except.ok.inj (hval.symm.trans hc)]
  · push Not at hz
    obtain ⟨⟨q, hq, hc⟩, -⟩ := C50_tau_negation stat beta hb poles hne hz tau ht
    obtain rfl : q = p := Except.ok.inj (hq.symm.trans hu)
    rw [hc] at hval
    cases hval

/-- Specification: the IR expands the kernel up to `δ` on the whole domain. -/
def Expands (b : Basis) (δ : ℝ) : Prop :=
  ∀ tau omega, 0 ≤ tau → tau ≤ b.beta → -b.wmax ≤ omega → omega ≤ b.wmax →
    ∃ ut vw, b.u.call tau = .ok ut ∧ b.v.call omega = .ok vw ∧
      |∑ l, b.s l * ut l * vw l - Real.exp (-tau * omega) / (1 + Real.exp (-b.beta * omega))| ≤ δ

/-- If the IR expands the kernel up to `δ`, `to_IR` maps, for arrays of every shape and along every axis, the
coefficients of `∑ g_i u_i(τ)` in the DLR to coefficients in the IR of the same function of `τ`, up to `δ ∑ |g_i|`. -/
theorem C51_to_IR {libs : Svd.Libs ℝ} (hl : LibsOk libs) {isLogistic : KernelInfo → Bool} {dflt : PyM (List ℝ)}
    {b : Basis} (hsz : 0 < b.size) (hb : 0 < b.beta) (hk : isLogistic b.kernel = true) {points : Option (List ℝ)}
    {poles : List ℝ} (hpt : points = some poles ∨ points = none ∧ dflt = .ok poles) (hne : poles ≠ [])
    (hin : ∀ w ∈ poles, -b.wmax ≤ w ∧ w ≤ b.wmax) {δ : ℝ} (hex : Expands b δ) :
    ∃ d w, Dlr.init libs isLogistic dflt b points = .ok (d, w) ∧ ∃ (h : d.poles = poles) (hd : d.basis = b)
      (T : (Fin poles.length → ℂ) → Fin b.size → ℂ),
      (∀ (g : NdArray ℂ) (axis : ℤ) (k : ℕ), ValidAxis axis g.ndim k → g.shape[k]? = some poles.length →
        ∃ r, d.toIR g (some axis) = .ok r ∧ AppliedAlong T k g r) ∧
      ∀ (g : Fin poles.length → ℂ) (tau : ℝ) (ut : Fin b.size → ℝ), 0 ≤ tau → tau ≤ b.beta → b.u.call tau = .ok ut →
        ‖∑ i, g i * (poleTau b.beta (poles.get i) tau : ℝ) - ∑ l, T g l * (ut l : ℝ)‖ ≤ δ * ∑ i, ‖g i‖ := by
  have hv : ∀ w ∈ poles, ∃ v, b.v.call w = .ok v := fun w hw => by
    obtain ⟨_, vw, _, h, _⟩ := hex 0 w le_rfl hb.le (hin w hw).1 (hin w hw).2
    exact ⟨vw, h⟩
  obtain ⟨u, M, w, hi, -, ha, -⟩ := init_ok hl (dflt := dflt) hsz hk hpt hne hv
  refine ⟨_, w, hi, rfl, rfl, (irMatrix b poles).mulVec, fun g axis k hax hs => ?_, fun g tau ut h0 h1 hut => ?_⟩
  · have := evaluate_full M g axis k hax hs
    rw [ha] at this
    exact this
  · have key : ∑ i, g i * (poleTau b.beta (poles.get i) tau : ℝ) - ∑ l, ((irMatrix b poles).mulVec g) l * (ut l : ℝ) =
        ∑ i, g i * ((poleTau b.beta (poles.get i) tau + ∑ l, b.s l * ut l * fn b.v l (poles.get i) : ℝ) : ℂ) := by
      simp only [Matrix.mulVec, dotProduct, irMatrix, Finset.sum_mul]
      rw [Finset.sum_comm, ← Finset.sum_sub_distrib]
      refine Finset.sum_congr rfl fun i _ => ?_
      push_cast
      rw [mul_add, Finset.mul_sum, sub_eq_add_neg, ← Finset.sum_neg_distrib]
      congr 1
      exact Finset.sum_congr rfl fun l _ => by ring
    rw [key, Finset.mul_sum]
    refine (norm_sum_le _ _).trans (Finset.sum_le_sum fun i _ => ?_)
    rw [norm_mul, Complex.norm_real, Real.norm_eq_abs, mul_comm]
    refine mul_le_mul_of_nonneg_right ?_ (norm_nonneg _)
    obtain ⟨hw1, hw2⟩ := hin _ (List.get_mem poles i)
    obtain ⟨ut', vw, hu', hv', hle⟩ := hex tau (poles.get i) h0 h1 hw1 hw2
    obtain rfl : ut' = ut := Except.ok.inj (hu'.symm.trans hut)
    have hfn : ∀ l, fn b.v l (poles.get i) = vw l := fun l => by unfold fn; rw [hv']
    simp only [hfn]
    refine le_trans (le_of_eq ?_) hle
    unfold poleTau
    congr 1
    ring

/-- `from_IR` applies, along every axis, one map which gives the least-squares solution of minimal norm of
`to_IR(g) = gl`; and `to_IR(from_IR(to_IR(g))) == to_IR(g)` for arrays of every shape. -/
theorem C51_from_IR {libs : Svd.Libs ℝ} (hl : LibsOk libs) {isLogistic : KernelInfo → Bool} {dflt : PyM (List ℝ)}
    {b : Basis} (hsz : 0 < b.size) (hk : isLogistic b.kernel = true) {points : Option (List ℝ)} {poles : List ℝ}
    (hpt : points = some poles ∨ points = none ∧ dflt = .ok poles) (hne : poles ≠ [])
    (hv : ∀ w ∈ poles, ∃ v, b.v.call w = .ok v) :
    ∃ d w, Dlr.init libs isLogistic dflt b points = .ok (d, w) ∧
      ∃ (A : Matrix (Fin b.size) (Fin poles.length) ℂ) (fit : (Fin b.size → ℂ) → Fin poles.length → ℂ),
      (∀ x, IsLeastSquares A x (fit x)) ∧
      (∀ (g : NdArray ℂ) (axis : ℤ) (k : ℕ), ValidAxis axis g.ndim k → g.shape[k]? = some poles.length →
        ∃ r, d.toIR g (some axis) = .ok r ∧ AppliedAlong A.mulVec k g r) ∧
      (∀ (gl : NdArray ℂ) (axis : ℤ) (k : ℕ), ValidAxis axis gl.ndim k → gl.shape[k]? = some b.size →
        ∃ r, d.fromIR gl (some axis) = .ok r ∧ AppliedAlong fit k gl r) ∧
      (∀ (g : NdArray ℂ) (axis : ℤ) (k : ℕ), ValidAxis axis g.ndim k → g.shape[k]? = some poles.length →
        ∃ gl g', d.toIR g (some axis) = .ok gl ∧ d.fromIR gl (some axis) = .ok g' ∧ d.toIR g' (some axis) = .ok gl) ∧
      ((∀ c, A *ᵥ c = 0 → c = 0) → ∀ c, fit (A *ᵥ c) = c) := by
  obtain ⟨u, M, w, hi, -, ha, hpos, hls⟩ := init_ok hl (dflt := dflt) hsz hk hpt hne hv
  have hto : ∀ (g : NdArray ℂ) (axis : ℤ) (k : ℕ), ValidAxis axis g.ndim k → g.shape[k]? = some poles.length →
      ∃ r, M.matmulAxis g (some axis) = .ok r ∧ AppliedAlong (irMatrix b poles).mulVec k g r := by
    intro g axis k hax hs
    have := evaluate_full M g axis k hax hs
    rwa [ha] at this
  have hfrom : ∀ (gl : NdArray ℂ) (axis : ℤ) (k : ℕ), ValidAxis axis gl.ndim k → gl.shape[k]? = some b.size →
      ∃ r, M.lstsq gl (some axis) = .ok r ∧ AppliedAlong M.pinv k gl r := fun gl axis k hax hs =>
    matop_spec M.pinv M.lstsqOp (fun y h0 hy => M.lstsqOp_ok (fun i => (hpos i).ne') y h0 hy) gl
      (normalizeAxis_iff.2 hax) hs
  refine ⟨_, w, hi, irMatrix b poles, M.pinv, hls, hto, hfrom, fun g axis k hax hs => ?_,
    fun hinj c => (hls _).recover hinj⟩
  obtain ⟨gl, h1, a1⟩ := hto g axis k hax hs
  obtain ⟨g', h2, a2⟩ := hfrom gl axis k (validAxis_applied a1 hax) a1.axis'
  obtain ⟨gl', h3, a3⟩ := hto g' axis k (validAxis_applied a2 (validAxis_applied a1 hax)) a2.axis'
  refine ⟨gl, g', h1, h2, ?_⟩
  have h4 : AppliedAlong (irMatrix b poles).mulVec k g gl' := by
    refine applied_congr ((a1.comp a2).comp a3) fun c => ?_
    have := (hls (irMatrix b poles *ᵥ c)).1 c
    rw [sub_self, sq_eq_zero.2 rfl] at this
    exact sub_eq_zero.1 (sq_eq_zero.1 (le_antisymm this (sq_nonneg' _)))
  rw [a1.unique h4]
  exact h3

/-- Only the logistic kernel is accepted. -/
theorem C51_kernel (libs : Svd.Libs ℝ) (isLogistic : KernelInfo → Bool) (dflt : PyM (List ℝ)) (b : Basis)
    (poles : List ℝ) (hk : isLogistic b.kernel = false) :
    Dlr.init libs isLogistic dflt b (some poles) = .error .valueError := by
  unfold Dlr.init
  simp only [hk, bind, Except.bind, Bool.not_false]
  rfl

/-- A basis made from an expansion of the logistic kernel expands the kernel in physical units. -/
theorem expands_of_sve {fp : Fp} {compute : KernelInfo → Option ℝ → PyM SveResult} {stat : String} {beta wmax : ℝ}
    {eps : Option ℝ} {maxSize : Option ℕ} {kernel : Option KernelInfo} {sve : Option SveResult} {k : KernelInfo}
    {lam : ℝ} {r : SveResult} {h : Good r} {e : ℝ} {m : ℕ}
    (v : Valid fp compute stat beta wmax eps maxSize kernel sve k lam r h e m) (hy : k.ypower = 0)
    (hlam : lam = beta * wmax) (δ : ℝ)
    (hK : ∀ x y, -1 ≤ x → x ≤ 1 → -1 ≤ y → y ≤ 1 →
      |partialSum r (min m (maxSize.getD m)) x y - logisticK lam x y| ≤ δ) :
    ∃ b, make fp compute stat beta wmax eps maxSize kernel sve = .ok b ∧ Expands b δ ∧ b.kernel = k ∧
      b.beta = beta ∧ b.wmax = wmax ∧ b.size = min m (maxSize.getD m) := by
  obtain ⟨b, hb, d⟩ := v.ok
  obtain ⟨b', hb', hex⟩ := C39_logistic v hy hlam δ hK
  obtain rfl : b' = b := Except.ok.inj (hb'.symm.trans hb)
  refine ⟨b', hb, ?_, d.kernel_eq, d.beta_eq, d.wmax_eq, d.size_eq⟩
  unfold Expands
  rw [d.beta_eq, d.wmax_eq]
  exact hex

/-! Non-vacuity: the two-function basis of C39 with poles at -2, 0 and 1. -/

theorem exPair_bound (l : Fin 2) (x : ℝ) (h1 : -1 ≤ x) (h2 : x ≤ 1) : |fn exPair l x| ≤ 1 := by
  obtain ⟨i, hi⟩ := exPair_WF.exists_inSeg (x := x) (by simpa [PPoly.xmin, exPair] using h1)
    (by simpa [PPoly.xmax, exPair] using h2)
  have hfn : fn exPair l x = (exPair.seg l i).eval x := by
    unfold fn
    rw [PPoly.call_eq exPair_WF hi]
    exact (segPoly_eval _ _ _ _).symm
  rw [hfn, exPair_seg]
  split
  · simp
  · rw [Polynomial.eval_X]; exact abs_le.2 ⟨h1, h2⟩

theorem exSve_expands (x y : ℝ) (hx : -1 ≤ x) (hx' : x ≤ 1) (hy : -1 ≤ y) (hy' : y ≤ 1) :
    |partialSum (exSve 0.01) 2 x y - logisticK 40 x y| ≤ 3 := by
  have hp : |partialSum (exSve 0.01) 2 x y| ≤ 2 := by
    have e : partialSum (exSve 0.01) 2 x y =
        1 * fn exPair 0 x * fn exPair 0 y + 1 / 10 * fn exPair 1 x * fn exPair 1 y := by
      show (∑ l : Fin 2, if l.1 < 2 then (![1, 1 / 10] : Fin 2 → ℝ) l * fn exPair l x * fn exPair l y else 0) = _
      rw [Fin.sum_univ_two]; simp
    have h0 := mul_le_one₀ (exPair_bound 0 x hx hx') (abs_nonneg _) (exPair_bound 0 y hy hy')
    have h1 := mul_le_one₀ (exPair_bound 1 x hx hx') (abs_nonneg _) (exPair_bound 1 y hy hy')
    rw [← abs_mul] at h0 h1
    rw [e, abs_le]
    constructor <;> nlinarith [abs_le.1 h0, abs_le.1 h1]
  have hk : |logisticK 40 x y| ≤ 1 := by
    unfold logisticK
    rw [abs_of_nonneg (by positivity), div_le_one (by positivity)]
    rcases le_or_gt 0 y with h | h
    · have : Real.exp (-40 * y * (x + 1) / 2) ≤ 1 := Real.exp_le_one_iff.2 (by nlinarith)
      have := Real.exp_pos (-40 * y)
      linarith
    · have : Real.exp (-40 * y * (x + 1) / 2) ≤ Real.exp (-40 * y) := Real.exp_le_exp.2 (by nlinarith)
      linarith
  have := abs_sub (partialSum (exSve 0.01) 2 x y) (logisticK 40 x y)
  linarith

example (lapack : Bool) : ∃ b, make Fp.exact (fun _ _ => .error .valueError) "F" 10 4 (some 0.01) none none
    (some (exSve 0.01)) = .ok b ∧ ∃ d w, Dlr.init (idealLibs false lapack) (fun k => k.ypower = 0) (.error .valueError) b
      (some [-2, 0, 1]) = .ok (d, w) ∧ d.size = 3 := by
  obtain ⟨b, hb, hex, hk, h1, h2, h3⟩ := expands_of_sve (exValid 0.01 0.01 (by norm_num) fun _ _ => .error .valueError)
    rfl (by norm_num) 3 exSve_expands
  obtain ⟨d, w, hd, hp, -⟩ := C51_to_IR (idealLibs_ok false lapack) (isLogistic := fun k => k.ypower = 0)
    (dflt := .error .valueError) (points := some [-2, 0, 1]) (by rw [h3]; decide) (by rw [h1]; norm_num)
    (by rw [hk]; rfl) (Or.inl rfl) (by simp) (by rw [h2]; intro w hw; fin_cases hw <;> norm_num) hex
  exact ⟨b, hb, d, w, hd, by unfold DLR.size; rw [hp]; rfl⟩

end Verif.Props
