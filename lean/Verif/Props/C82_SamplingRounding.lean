import Verif.Props.C79_EvalRounding
import Verif.Props.C80_FitRounding
import Verif.Props.C63_SamplingInit
/-!
# C82 — accuracy of sparse sampling in floating-point arithmetic

From points to the sampling object to evaluating and fitting, with all errors: those of the basis functions as they are
computed, of the singular value decomposition, of products and quotients, and noise in the data.
-/

namespace Verif.Props
open Verif Verif.Np Verif.Spec Verif.Sampling Verif.Np.NdArray Verif.Util Matrix

/-- In arrays along any axis, the object evaluates and fits every fibre alike, by the maps `ev` and `fit`, and warns if
`w`. -/
structure Computes (F : FlMat ℂ) (G : FlMat ℝ) {b : SBasis} {P : Type} (o : Obj b P) (m : ℕ)
    (ev : (Fin b.size → ℂ) → Fin m → ℂ) (fit : (Fin m → ℂ) → Fin b.size → ℂ) (w : Prop) : Prop where
  evaluate : ∀ (al : NdArray ℂ) (axis : ℤ) (k : ℕ), ValidAxis axis al.ndim k → al.shape[k]? = some b.size →
    ∃ v, o.evaluateHereFl F al (some axis) = .ok v ∧ AppliedAlong ev k al v
  fit : ∀ (ax : NdArray ℂ) (axis : ℤ) (k : ℕ), ValidAxis axis ax.ndim k → ax.shape[k]? = some m →
    ∃ y f, o.fitHereFl F G ax (some axis) = .ok (y, f) ∧ AppliedAlong fit k ax y ∧ (f = true ↔ w)

/-- Without rounding, these are `evaluate` and `fit` of `Model/Sampling.lean`. -/
theorem C82_exact {b : SBasis} {P : Type} (o : Obj b P) (x : NdArray ℂ) (axis : Option ℤ) :
    o.evaluateHereFl (FlMat.exact Complex.ofReal) x axis = o.evaluateHere x axis ∧
    o.fitHereFl (FlMat.exact Complex.ofReal) (FlMat.exact id) x axis = o.fitHere x axis := by
  obtain ⟨h1, h2⟩ := C80_exact.2.2 o.matrix x axis
  unfold Obj.evaluateHereFl Obj.evaluateHere Obj.fitHereFl Obj.fitHere
  rw [h1, h2]
  exact ⟨rfl, rfl⟩

/-- Bound on the error of values, for coefficients of norm `c`: rounding `γ` relative to the largest singular value,
error `D` of the matrix, underflow `H`. -/
noncomputable def valueBound (γ smax D H c : ℝ) : ℝ := (61 / 50 * (γ * smax) + D) * c + H

/-- Bound on the error of coefficients of norm `c`: `K` times condition number times the sum `r` of relative errors,
error `D` of the matrix and deviation `noise` of the data over the smallest singular value, underflow `H`. -/
noncomputable def coefBound (K smin smax r D H noise c : ℝ) : ℝ :=
  (K * (smax / smin * r) + 2 * (D / smin)) * c + 2 * (noise / smin) + 3 * (H * (1 + 1 / smin))

theorem opLe_of_entries {𝕜 : Type} [RCLike 𝕜] {m n : ℕ} {B : Matrix (Fin m) (Fin n) 𝕜} {E : ℝ} (hE : 0 ≤ E)
    (h : ∀ i j, ‖B i j‖ ≤ E) : OpLe B (Real.sqrt m * Real.sqrt n * E) := fun x => by
  have hcol : ∀ j, norm2 (B *ᵥ Pi.single j 1) ≤ Real.sqrt m * E := fun j => by
    have := norm2_le_of_entries (x := B *ᵥ Pi.single j 1) (y := (0 : Fin m → 𝕜)) (c := 0) (h := E) le_rfl hE
      (by rw [Fintype.card_fin]) (fun i => by
        rw [zero_mul, zero_add]
        simpa using h i j)
    rwa [zero_mul, zero_add] at this
  have h1 := norm2_abs_mulVec_le_of_cols (by positivity) hcol x
  have h2 := norm2_le_of_entries (x := B *ᵥ x) (y := (fun i => ∑ j, ‖B i j‖ * ‖x j‖ : Fin m → ℝ)) (c := 1) (h := 0)
    (H := 0) zero_le_one le_rfl (by simp) (fun i => by
      rw [one_mul, add_zero, Real.norm_of_nonneg (Finset.sum_nonneg fun j _ => by positivity)]
      refine (norm_sum_le Finset.univ fun j => B i j * x j).trans (le_of_eq (Finset.sum_congr rfl fun j _ => ?_))
      exact norm_mul _ _)
  rw [one_mul, add_zero] at h2
  refine (h2.trans h1).trans (le_of_eq ?_)
  ring

theorem norm2_ofReal {n : ℕ} (c : Fin n → ℝ) : norm2 (fun l => (c l : ℂ)) = norm2 c := by
  unfold norm2 sqNorm
  simp

section
variable {m n : ℕ} {A A' : Matrix (Fin m) (Fin n) ℂ} {D : ℝ}

theorem value_error (hD : OpLe (A' - A) D) {y : Fin m → ℂ} {c : Fin n → ℂ} {γ smax H : ℝ}
    (h : norm2 (y - A' *ᵥ c) ≤ 61 / 50 * (γ * smax) * norm2 c + H) :
    norm2 (y - A *ᵥ c) ≤ valueBound γ smax D H (norm2 c) := by
  have h1 := norm2_sub_le y (A' *ᵥ c) (A *ᵥ c)
  have h2 := hD c
  rw [Matrix.sub_mulVec] at h2
  unfold valueBound
  linarith

theorem coef_error (hD : OpLe (A' - A) D) {x : Fin m → ℂ} {c : Fin n → ℂ} {v K smin smax r H : ℝ} (hs : 0 < smin)
    (h : v ≤ K * (smax / smin * r) * norm2 c + 2 * (norm2 (x - A' *ᵥ c) / smin) + 3 * (H * (1 + 1 / smin))) :
    v ≤ coefBound K smin smax r D H (norm2 (x - A *ᵥ c)) (norm2 c) := by
  have h1 := norm2_sub_le x (A *ᵥ c) (A' *ᵥ c)
  have h2 := hD c
  rw [Matrix.sub_mulVec, norm2_sub_comm] at h2
  have h3 : norm2 (x - A' *ᵥ c) / smin ≤ (norm2 (x - A *ᵥ c) + D * norm2 c) / smin :=
    div_le_div_of_nonneg_right (by linarith) hs.le
  rw [add_div] at h3
  have h4 : D * norm2 c / smin = D / smin * norm2 c := by ring
  rw [h4] at h3
  unfold coefBound
  linarith

theorem computes_of {F : FlMat ℂ} {G : FlMat ℝ} {b : SBasis} {P : Type} (o : Obj b P) {κ : ℝ}
    {ev : (Fin b.size → ℂ) → Fin o.points.length → ℂ} {fit : (Fin o.points.length → ℂ) → Fin b.size → ℂ}
    (hc : o.matrix.cond = .ok κ)
    (h1 : ∀ (al : NdArray ℂ) (axis : ℤ) (k : ℕ), ValidAxis axis al.ndim k → al.shape[k]? = some b.size →
        ∃ v, o.matrix.matmulAxisFl F al (some axis) = .ok v ∧ AppliedAlong ev k al v)
    (h2 : ∀ (ax : NdArray ℂ) (axis : ℤ) (k : ℕ), ValidAxis axis ax.ndim k → ax.shape[k]? = some o.points.length →
        ∃ y, o.matrix.lstsqFl F G ax (some axis) = .ok y ∧ AppliedAlong fit k ax y) :
    Computes F G o o.points.length ev fit (b.wellConditioned = true ∧ 10 ^ 8 < κ) := by
  refine ⟨h1, fun ax axis k hk hx => ?_⟩
  obtain ⟨y, hy, ha⟩ := h2 ax axis k hk hx
  unfold Obj.fitHereFl
  cases hw : b.wellConditioned
  · refine ⟨y, false, ?_, ha, by simp⟩
    simp only [Bool.false_eq_true, if_false, hy]
    rfl
  · refine ⟨y, decide (¬ κ ≤ 10 ^ 8), ?_, ha, by simp⟩
    simp only [if_true, hc, hy]
    rfl

end

section
variable {svds : Svds} {b : SBasis} {δ e smin smax ε cap γ H E : ℝ} {F : FlMat ℂ} {G : FlMat ℝ} {g h : ℕ → ℝ}

/-- Imaginary time.  `V` are the basis functions as computed, `U` the exact ones.  The sampling object exists; values
at the points are accurate up to the bound, coefficients fitted to data `x` are those of any `c` up to the bound with
the deviation of the data from the exact values; and coefficients fitted to values just evaluated do not feel the
error of the basis functions at all. -/
theorem C82_tau (hn : 0 < b.size) {p : List ℝ} {V U : ℝ → Fin b.size → ℝ} (hV : ∀ t ∈ p, b.u t = .ok (V t))
    (hE0 : 0 ≤ E) (hE : ∀ t ∈ p, ∀ l, |V t l - U t l| ≤ E) {t : Triple ℂ}
    (ht : svds.complex _ _ (valuesAt (fun t l => (V t l : ℂ)) p) = .ok t)
    (hsvd : NearSvdOk (valuesAt (fun t l => (V t l : ℂ)) p) t δ e smin smax)
    (hF : F.Ok g ε h cap) (hcap : smax ≤ cap) (hz : SizesOk g h ε p.length b.size γ H) :
    ∃ (o : Obj b ℝ) (ev : (Fin b.size → ℂ) → Fin p.length → ℂ) (fit : (Fin p.length → ℂ) → Fin b.size → ℂ),
      tauInit svds b (some (1, p)) = .ok o ∧ o.points = p ∧
      Computes F G o p.length ev fit (b.wellConditioned = true ∧ 10 ^ 8 < smax / smin) ∧
      (∀ c, norm2 (ev c - fun i => ∑ l, (U (p.get i) l : ℂ) * c l) ≤
        valueBound γ smax (Real.sqrt p.length * Real.sqrt b.size * E) H (norm2 c)) ∧
      (∀ c x, norm2 (fit x - c) ≤ coefBound 5 smin smax (δ + e + γ + ε) (Real.sqrt p.length * Real.sqrt b.size * E) H
        (norm2 (x - fun i => ∑ l, (U (p.get i) l : ℂ) * c l)) (norm2 c)) ∧
      ∀ c, norm2 (fit (ev c) - c) ≤ 8 * (smax / smin * (δ + e + γ + ε)) * norm2 c + 4 * (H * (1 + 1 / smin)) := by
  have hev := evalMatrix_ok (f := fun t => (b.u t).map fun f l => (f l : ℂ)) (F := fun t l => (V t l : ℂ))
    (p := p) (fun t ht => by simp only [hV t ht]; rfl)
  have hs : 0 < smin := by obtain ⟨_, _, _, _, hc⟩ := hsvd; exact hc.pos
  obtain ⟨M, ev, fit, hM, hcond, h1, h2, h3, h4, h5⟩ := C80_full (G := G) hn ht hsvd hF hcap hz
  have hD : OpLe (valuesAt (fun t l => (V t l : ℂ)) p - valuesAt (fun t l => (U t l : ℂ)) p)
      (Real.sqrt p.length * Real.sqrt b.size * E) := opLe_of_entries hE0 fun i l => by
    have := hE (p.get i) (List.get_mem _ _) l
    rw [← Real.norm_eq_abs, ← Complex.norm_real, Complex.ofReal_sub] at this
    exact this
  refine ⟨⟨p, false, M⟩, ev, fit, ?_, rfl, computes_of (o := ⟨p, false, M⟩) hcond h4 h5,
    fun c => value_error hD (h1 c), fun c x => coef_error hD hs (h2 c x), h3⟩
  unfold tauInit
  simp only [ne_eq, not_true_eq_false, if_false]
  unfold tauFrom
  simp only [hev, hM]
  rfl

theorem matsInit_eq {p : NumArr} {q q' : List ℤ} (hq : IntegersOf p q') (hperm : q.Perm q') (hsort : q.Pairwise (· ≤ ·))
    {po : Bool} (hpo : po = true → q ≠ [] ∧ ∀ t ∈ q, 0 ≤ t) :
    matsInit svds b (some (1, p)) po = matsFrom svds b q po := by
  have h1 := (integersOf_iff p q').2 hq
  have hs : npSort q' = q := List.Perm.eq_of_pairwise (le := (· ≤ ·)) (fun a b _ _ h1 h2 => le_antisymm h1 h2)
    (npSort_sorted q') hsort ((npSort_perm q').trans hperm.symm)
  unfold matsInit matsPoints
  simp only [h1, ne_eq, not_true_eq_false, if_false, hs]
  cases po
  · rfl
  · obtain ⟨h2, h3⟩ := hpo rfl
    cases q with
    | nil => exact absurd rfl h2
    | cons a l =>
      have : a ≥ 0 := h3 a (by simp)
      simp only [if_true, List.head?_cons, this, not_true_eq_false, if_false]

/-- Matsubara frequencies.  The frequencies are given in any order; `q` are the same in ascending order. -/
theorem C82_matsubara (hn : 0 < b.size) {p : NumArr} {q q' : List ℤ} (hq : IntegersOf p q') (hperm : q.Perm q')
    (hsort : q.Pairwise (· ≤ ·)) {V U : ℤ → Fin b.size → ℂ} (hV : ∀ t ∈ q, b.uhat t = .ok (V t))
    (hE0 : 0 ≤ E) (hE : ∀ t ∈ q, ∀ l, ‖V t l - U t l‖ ≤ E) {t : Triple ℂ}
    (ht : svds.complex _ _ (valuesAt V q) = .ok t) (hsvd : NearSvdOk (valuesAt V q) t δ e smin smax)
    (hF : F.Ok g ε h cap) (hcap : smax ≤ cap) (hz : SizesOk g h ε q.length b.size γ H) :
    ∃ (o : Obj b ℤ) (ev : (Fin b.size → ℂ) → Fin q.length → ℂ) (fit : (Fin q.length → ℂ) → Fin b.size → ℂ),
      matsInit svds b (some (1, p)) false = .ok o ∧ o.points = q ∧
      Computes F G o q.length ev fit (b.wellConditioned = true ∧ 10 ^ 8 < smax / smin) ∧
      (∀ c, norm2 (ev c - fun i => ∑ l, U (q.get i) l * c l) ≤
        valueBound γ smax (Real.sqrt q.length * Real.sqrt b.size * E) H (norm2 c)) ∧
      (∀ c x, norm2 (fit x - c) ≤ coefBound 5 smin smax (δ + e + γ + ε) (Real.sqrt q.length * Real.sqrt b.size * E) H
        (norm2 (x - fun i => ∑ l, U (q.get i) l * c l)) (norm2 c)) ∧
      ∀ c, norm2 (fit (ev c) - c) ≤ 8 * (smax / smin * (δ + e + γ + ε)) * norm2 c + 4 * (H * (1 + 1 / smin)) := by
  have hev := evalMatrix_ok (f := b.uhat) (F := V) (p := q) hV
  have hs : 0 < smin := by obtain ⟨_, _, _, _, hc⟩ := hsvd; exact hc.pos
  obtain ⟨M, ev, fit, hM, hcond, h1, h2, h3, h4, h5⟩ := C80_full (G := G) hn ht hsvd hF hcap hz
  have hD : OpLe (valuesAt V q - valuesAt U q) (Real.sqrt q.length * Real.sqrt b.size * E) :=
    opLe_of_entries hE0 fun i l => hE (q.get i) (List.get_mem _ _) l
  refine ⟨⟨q, false, M⟩, ev, fit, ?_, rfl, computes_of (o := ⟨q, false, M⟩) hcond h4 h5,
    fun c => value_error hD (h1 c), fun c x => coef_error hD hs (h2 c x), h3⟩
  rw [matsInit_eq hq hperm hsort (by simp)]
  unfold matsFrom
  simp only [hev, hM, Bool.false_eq_true, if_false]
  rfl

/-- Non-negative Matsubara frequencies and real coefficients.  At frequency zero the computed basis functions must be
real. -/
theorem C82_positive (hn : 0 < b.size) {p : NumArr} {q q' : List ℤ} (hq : IntegersOf p q') (hperm : q.Perm q')
    (hsort : q.Pairwise (· ≤ ·)) (hne : q ≠ []) (hpos : ∀ t ∈ q, 0 ≤ t) {V U : ℤ → Fin b.size → ℂ}
    (hV : ∀ t ∈ q, b.uhat t = .ok (V t)) (hreal : ∀ l, (V 0 l).im = 0)
    (hE0 : 0 ≤ E) (hE : ∀ t ∈ q, ∀ l, ‖V t l - U t l‖ ≤ E) {t : Triple ℝ}
    (ht : svds.real _ _ (stacked (offsetImag (decide (0 ∈ q))) (valuesAt V q)) = .ok t)
    (hsvd : NearSvdOk (stacked (offsetImag (decide (0 ∈ q))) (valuesAt V q)) t δ e smin smax)
    (hF : F.Ok g ε h cap) (hG : G.Ok g ε h cap) (hcap : smax ≤ cap) (hz : SizesOk g h ε q.length b.size γ H) :
    ∃ (o : Obj b ℤ) (ev : (Fin b.size → ℂ) → Fin q.length → ℂ) (fit : (Fin q.length → ℂ) → Fin b.size → ℝ),
      matsInit svds b (some (1, p)) true = .ok o ∧ o.points = q ∧
      Computes F G o q.length ev (fun x l => (fit x l : ℂ)) (b.wellConditioned = true ∧ 10 ^ 8 < smax / smin) ∧
      (∀ c : Fin b.size → ℝ, norm2 (ev (fun l => c l) - fun i => ∑ l, U (q.get i) l * c l) ≤
        valueBound γ smax (Real.sqrt q.length * Real.sqrt b.size * E) H (norm2 c)) ∧
      (∀ (c : Fin b.size → ℝ) x, norm2 (fit x - c) ≤
        coefBound 8 smin smax (δ + e + γ + ε) (Real.sqrt q.length * Real.sqrt b.size * E) H
          (norm2 (x - fun i => ∑ l, U (q.get i) l * c l)) (norm2 c)) ∧
      ∀ c : Fin b.size → ℝ, norm2 (fit (ev fun l => c l) - c) ≤
        10 * (smax / smin * (δ + e + γ + ε)) * norm2 c + 5 * (H * (1 + 1 / smin)) := by
  have hev := evalMatrix_ok (f := b.uhat) (F := V) (p := q) hV
  have hs : 0 < smin := by obtain ⟨_, _, _, _, hc⟩ := hsvd; exact hc.pos
  obtain ⟨q0, ql, rfl⟩ := List.exists_cons_of_ne_nil hne
  have hzero : decide (0 ∈ q0 :: ql) = decide (q0 = 0) := by
    rw [decide_eq_decide]
    constructor
    · intro h0
      rcases List.mem_cons.1 h0 with h0 | h0
      · exact h0.symm
      · have := (List.pairwise_cons.1 hsort).1 0 h0
        exact le_antisymm this (hpos q0 (by simp))
    · rintro rfl
      simp
  have hrow : ZeroRowReal (valuesAt V (q0 :: ql)) (decide (0 ∈ q0 :: ql)) := by
    intro h0 i l hi
    rw [hzero, decide_eq_true_eq] at h0
    obtain ⟨i, hi'⟩ := i
    simp only at hi
    subst hi
    show (V q0 l).im = 0
    rw [h0]
    exact hreal l
  obtain ⟨M, ev, fit, hM, hcond, h1, h2, h3, h4, h5⟩ := C80_split hn hrow ht hsvd hF hG hcap hz
  have hD : OpLe (valuesAt V (q0 :: ql) - valuesAt U (q0 :: ql)) (Real.sqrt (q0 :: ql).length * Real.sqrt b.size * E) :=
    opLe_of_entries hE0 fun i l => hE ((q0 :: ql).get i) (List.get_mem _ _) l
  refine ⟨⟨q0 :: ql, true, M⟩, ev, fit, ?_, rfl, computes_of (o := ⟨q0 :: ql, true, M⟩) hcond h4 h5,
    fun c => ?_, fun c x => ?_, h3⟩
  · rw [matsInit_eq hq hperm hsort (fun _ => ⟨hne, hpos⟩)]
    unfold matsFrom
    rw [hzero] at hM
    simp only [hev, if_true, List.head?_cons, hM]
    rfl
  · have := h1 c
    rw [← norm2_ofReal c] at this ⊢
    exact value_error hD this
  · have := h2 c x
    rw [← norm2_ofReal c] at this ⊢
    exact coef_error hD hs this

end

/-- Change of representation: data at the points of one object are fitted and evaluated at the points of another one,
along any axis.  With `A` the exact values at the points of the second object, stretching no vector by more than `S`,
the result is off by the error `φ` of the coefficients times `S` and by the bound for values. -/
theorem C82_transform {F : FlMat ℂ} {G : FlMat ℝ} {b : SBasis} {P Q : Type} {o : Obj b P} {o' : Obj b Q} {m m' : ℕ}
    {ev : (Fin b.size → ℂ) → Fin m → ℂ} {fit : (Fin m → ℂ) → Fin b.size → ℂ} {w : Prop}
    {ev' : (Fin b.size → ℂ) → Fin m' → ℂ} {fit' : (Fin m' → ℂ) → Fin b.size → ℂ} {w' : Prop}
    (ho : Computes F G o m ev fit w) (ho' : Computes F G o' m' ev' fit' w')
    {A : Matrix (Fin m') (Fin b.size) ℂ} {S γ smax D H : ℝ} (hS : OpLe A S) (hS0 : 0 ≤ S) (hγ : 0 ≤ γ * smax) (hD : 0 ≤ D)
    (hev : ∀ c, norm2 (ev' c - A *ᵥ c) ≤ valueBound γ smax D H (norm2 c)) :
    ∃ tr : (Fin m → ℂ) → Fin m' → ℂ,
      (∀ (x : NdArray ℂ) (axis : ℤ) (k : ℕ), ValidAxis axis x.ndim k → x.shape[k]? = some m →
        ∃ y f z, o.fitHereFl F G x (some axis) = .ok (y, f) ∧ o'.evaluateHereFl F y (some axis) = .ok z ∧
          AppliedAlong tr k x z) ∧
      ∀ c x φ, norm2 (fit x - c) ≤ φ →
        norm2 (tr x - A *ᵥ c) ≤ valueBound γ smax D H (norm2 c + φ) + S * φ := by
  refine ⟨fun x => ev' (fit x), fun x axis k hk hx => ?_, fun c x φ hφ => ?_⟩
  · obtain ⟨y, f, hy, ha, -⟩ := ho.fit x axis k hk hx
    have hdim : y.ndim = x.ndim := by
      unfold NdArray.ndim
      rw [ha.shape, List.length_set]
    obtain ⟨z, hz, ha'⟩ := ho'.evaluate y axis k (by rw [hdim]; exact hk) ha.axis'
    exact ⟨y, f, z, hy, hz, ha.comp ha'⟩
  · have h1 := norm2_sub_le (ev' (fit x)) (A *ᵥ fit x) (A *ᵥ c)
    have h2 := hS (fit x - c)
    rw [Matrix.mulVec_sub] at h2
    have h3 := hev (fit x)
    have h4 : norm2 (fit x) ≤ norm2 c + φ := (norm2_le_add _ c).trans (by linarith)
    have h5 : valueBound γ smax D H (norm2 (fit x)) ≤ valueBound γ smax D H (norm2 c + φ) := by
      unfold valueBound
      have := mul_le_mul_of_nonneg_left h4 (by linarith : 0 ≤ 61 / 50 * (γ * smax) + D)
      linarith
    have h6 := mul_le_mul_of_nonneg_left hφ hS0
    linarith

/-- The piecewise polynomial with the exact lengths of its segments. -/
def exactDx {ι : Type} (p : Poly.PPoly ι) : Poly.PPoly ι := { p with dx := fun i => p.knots i.succ - p.knots i.castSucc }

/-- For basis functions given as piecewise polynomials, `E` is explicit: the rounding unit times the sum of absolute
coefficients, the square of their number, and position over length of the segment, with the normalisation. -/
theorem C82_poly {ι : Type} [Nonempty ι] {A : Kernel.Arith} {rt : ℝ → ℝ} {u eta : ℝ} (hA : A.Ok u eta)
    (hrt : ∀ a, 0 ≤ a → |rt a - Real.sqrt a| ≤ u * Real.sqrt a) (hu0 : 0 < u) (hu : u ≤ 1 / 1000) (he : eta ≤ u)
    {p : Poly.PPoly ι} (hp : KnotsOk p u eta) (hc : ∀ i l, p.coef i l ≠ [])
    (hn : ∀ i l, 400 * ((p.coef i l).length : ℝ) ^ 2 * relSize (p.knots i.castSucc) (p.knots i.succ) * u ≤ 1) {E : ℝ}
    (hE : ∀ i l, 75 * ((p.coef i l).length : ℝ) ^ 2 * relSize (p.knots i.castSucc) (p.knots i.succ) *
      (u * ((p.coef i l).map fun a => |a|).sum + eta) * Real.sqrt (2 / (p.knots i.succ - p.knots i.castSucc)) + eta ≤ E)
    {x : ℝ} (h1 : p.knots 0 ≤ x) (h2 : x ≤ p.knots (Fin.last p.nseg)) :
    ∃ V U : ι → ℝ, p.callFl A rt x = .ok V ∧ (exactDx p).call x = .ok U ∧ ∀ l, |V l - U l| ≤ E := by
  obtain ⟨i, hi, V, hV, -, hb⟩ := C79_call hA hrt hu0 hu he hp hc hn h1 h2
  have hq : (exactDx p).WF := ⟨hp.pos, Fin.strictMono_iff_lt_succ.2 hp.asc, fun _ => rfl⟩
  exact ⟨V, _, hV, Poly.PPoly.call_eq (p := exactDx p) hq (i := i) hi, fun l => (hb l).trans (hE i l)⟩

/-- Values computed in the example. -/
noncomputable def exV (t : ℝ) : Fin 2 → ℝ := if t = 0 then ![2.02, 0] else ![0, 1]

/-- Exact values in the example. -/
noncomputable def exU (t : ℝ) : Fin 2 → ℝ := if t = 0 then ![2.021, 0] else ![0, 1]

/-- The basis of the example: two functions, computed at the points 0 and 1. -/
noncomputable def exBasis : SBasis where
  size := 2
  u := fun t => .ok (exV t)
  uhat := fun _ => .error .valueError
  wellConditioned := true
  defaultTau := .ok [0, 1]
  defaultMatsubara := fun _ => .ok []

/-- A concrete case: the exact functions are 2.021 and 0, and 0 and 1, the computed ones are off by a thousandth, the
singular value decomposition by a percent; the fit to exact values is within 13 percent. -/
example : ∃ (o : Obj exBasis ℝ) (ev : (Fin 2 → ℂ) → Fin 2 → ℂ) (fit : (Fin 2 → ℂ) → Fin 2 → ℂ),
    tauInit exSvds exBasis (some (1, [0, 1])) = .ok o ∧ o.points = [0, 1] ∧
    ∀ c, norm2 (fit (fun i => ∑ l, (exU ([0, 1].get i) l : ℂ) * c l) - c) ≤ 0.13 * norm2 c := by
  set u : ℝ := 1 / 2 ^ 53 with hu
  have hu0 : 0 ≤ u := by positivity
  obtain ⟨hF, -, hg⟩ := C80_dot (tooLarge_ok hu0) (by rw [hu]; norm_num) loop_good (cap := 2) (by rw [zero_mul]; exact hu0)
  have hg2 := hg 2 (by rw [hu]; norm_num)
  have hsq : Real.sqrt ((2:ℕ):ℝ) ≤ 2 := by
    rw [Real.sqrt_le_left (by norm_num)]
    norm_num
  have hgg : Real.sqrt ((2:ℕ):ℝ) * dotG u id 2 ≤ 1 / 1000 := by
    refine (mul_le_mul hsq hg2 (dotG_nonneg hu0 _ _) (by norm_num)).trans ?_
    rw [hu]
    norm_num
  have hz : SizesOk (dotG u id) (dotH u 0 id) (5 * u) 2 2 (1 / 1000) 0 := by
    refine ⟨hgg, hgg, by norm_num, by rw [hu]; norm_num, ?_, ?_, ?_, ?_⟩ <;> simp [dotH]
  have hmat : (Matrix.diagonal ![2.02, 1] : Matrix (Fin 2) (Fin 2) ℂ) =
      valuesAt (fun t l => ((exV t l : ℝ) : ℂ)) [(0:ℝ), 1] := by
    ext i j
    fin_cases i <;> fin_cases j <;> simp [valuesAt, exV]
  have hE : ∀ t l, |exV t l - exU t l| ≤ 1 / 1000 := by
    intro t l
    unfold exV exU
    by_cases h : t = 0
    · rw [if_pos h, if_pos h]
      fin_cases l
      · show |(2.02:ℝ) - 2.021| ≤ _
        rw [abs_le]; norm_num
      · show |(0:ℝ) - 0| ≤ _
        norm_num
    · rw [if_neg h, if_neg h, sub_self, abs_zero]
      norm_num
  obtain ⟨o, ev, fit, ho, hp, -, -, h5, -⟩ := C82_tau (svds := exSvds) (b := exBasis) (G := FlMat.exact id) (E := 1 / 1000)
    (p := [0, 1]) (V := exV) (U := exU) (by decide) (fun _ _ => rfl) (by norm_num) (fun t _ l => hE t l)
    (t := ⟨2, 2, 2, 2, 2, 1, ![2, 1], 1⟩) rfl (hmat ▸ exNear) hF le_rfl hz
  refine ⟨o, ev, fit, ho, hp, fun c => ?_⟩
  have h7 : norm2 ((fun i => ∑ l, (exU ([0, 1].get i) l : ℂ) * c l : Fin 2 → ℂ) -
      fun i : Fin 2 => ∑ l, (exU ([0, 1].get i) l : ℂ) * c l) = 0 := by rw [sub_self, norm2_zero]
  have h6 := h5 c (fun i => ∑ l, (exU ([0, 1].get i) l : ℂ) * c l)
  have h8 : Real.sqrt (([(0:ℝ), 1].length : ℕ) : ℝ) * Real.sqrt ((exBasis.size : ℕ) : ℝ) = 2 :=
    Real.mul_self_sqrt (by norm_num)
  unfold coefBound at h6
  rw [h8] at h6
  erw [h7] at h6
  refine h6.trans ?_
  have h9 := norm2_nonneg c
  have h10 : 5 * ((2:ℝ) / 1 * (0 + 0.01 + 1 / 1000 + 5 * u)) + 2 * (2 * (1 / 1000) / 1) ≤ 0.13 := by
    rw [hu]
    norm_num
  have h11 := mul_le_mul_of_nonneg_right h10 h9
  refine le_trans (le_of_eq ?_) h11
  simp only [zero_div, mul_zero, zero_mul, add_zero]
  rfl

end Verif.Props
