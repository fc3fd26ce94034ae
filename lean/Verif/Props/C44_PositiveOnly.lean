import Verif.Props.C43_LeastSquares
import Verif.Props.C39_PhysicalUnits
/-!
# C44 — positive_only fitting is the least-squares fit over real coefficients
-/

namespace Verif.Props
open Verif Verif.Np Verif.Spec Verif.Sampling Verif.Np.NdArray Matrix

/-- Specification: `y` is real, minimises `‖A y - x‖` over real vectors, and has the smallest norm of these. -/
def IsRealLeastSquares {m n : ℕ} (A : Matrix (Fin m) (Fin n) ℂ) (x : Fin m → ℂ) (y : Fin n → ℝ) : Prop :=
  (∀ y' : Fin n → ℝ, sqNorm (A *ᵥ (fun l => (y l : ℂ)) - x) ≤ sqNorm (A *ᵥ (fun l => (y' l : ℂ)) - x)) ∧
  ∀ y' : Fin n → ℝ, sqNorm (A *ᵥ (fun l => (y' l : ℂ)) - x) = sqNorm (A *ᵥ (fun l => (y l : ℂ)) - x) →
    sqNorm y ≤ sqNorm y'

/-- The row whose imaginary part is left out must be real. -/
def ZeroRowReal {m n : ℕ} (A : Matrix (Fin m) (Fin n) ℂ) (hasZero : Bool) : Prop :=
  hasZero = true → ∀ (i : Fin m) (l : Fin n), i.1 = 0 → (A i l).im = 0

theorem sqNorm_real {m n : ℕ} {A : Matrix (Fin m) (Fin n) ℂ} {hasZero : Bool} (hrow : ZeroRowReal A hasZero)
    (x : Fin m → ℂ) : ∃ c : ℝ, ∀ y : Fin n → ℝ, sqNorm (A *ᵥ (fun l => (y l : ℂ)) - x) =
      sqNorm (stacked (offsetImag hasZero) A *ᵥ y - stackVec (offsetImag hasZero) x) + c := by
  refine ⟨∑ j : Fin m, if j.1 < offsetImag hasZero then (x j).im ^ 2 else 0, fun y => ?_⟩
  rw [sq_stack (offsetImag hasZero), stack_mulVec]
  congr 1
  refine Finset.sum_congr rfl fun j _ => ?_
  by_cases hj : j.1 < offsetImag hasZero
  · rw [if_pos hj, if_pos hj]
    have hz : hasZero = true := by
      cases hasZero
      · simp [offsetImag] at hj
      · rfl
    have h0 : j.1 = 0 := by
      subst hz
      simp [offsetImag] at hj
      omega
    have : ((A *ᵥ fun l => (y l : ℂ)) j).im = 0 := by
      simp only [Matrix.mulVec, dotProduct, Complex.im_sum]
      refine Finset.sum_eq_zero fun l _ => ?_
      simp [hrow hz j l h0]
    rw [Pi.sub_apply, Complex.sub_im, this]
    ring
  · rw [if_neg hj, if_neg hj]

theorem real_of_stacked {m n : ℕ} {A : Matrix (Fin m) (Fin n) ℂ} {hasZero : Bool} (hrow : ZeroRowReal A hasZero)
    {x : Fin m → ℂ} {y : Fin n → ℝ}
    (h : IsLeastSquares (stacked (offsetImag hasZero) A) (stackVec (offsetImag hasZero) x) y) :
    IsRealLeastSquares A x y := by
  obtain ⟨c, hc⟩ := sqNorm_real hrow x
  refine ⟨fun y' => ?_, fun y' he => h.2 y' ?_⟩
  · rw [hc, hc]
    have := h.1 y'
    linarith
  · rw [hc, hc] at he
    linarith

theorem splitMatrix_ok {svds : Svds} (hs : svds.Ok) {m n : ℕ} {A : Matrix (Fin m) (Fin n) ℂ} {hasZero : Bool}
    (hrow : ZeroRowReal A hasZero) :
    ∃ d, splitMatrix svds A hasZero = .ok (.split d) ∧ d.a = A ∧ (∀ i, 0 < d.s i) ∧
      ∀ x, IsRealLeastSquares A x (d.pinv x) := by
  obtain ⟨t, ht, hok⟩ := hs.real (stacked (offsetImag hasZero) A)
  obtain ⟨st, d, h1, h2, h3, h4, -, h5⟩ := split_ok ht hok
  refine ⟨d, ?_, h3, h4, fun x => real_of_stacked hrow (h5 x)⟩
  unfold splitMatrix splitComplex
  rw [h1]
  simp only [h2]
  rfl

/-- For every complex matrix whose zero-frequency row (if any) is real, every data array (real, complex, of any
shape) and every axis: `lstsq` of the split form is the least-squares fit over real coefficients, by a real-linear
map. -/
theorem C44_fit {svds : Svds} (hs : svds.Ok) {m n : ℕ} (A : Matrix (Fin m) (Fin n) ℂ) (hasZero : Bool)
    (hrow : ZeroRowReal A hasZero) :
    ∃ (M : Mat m n) (fit : (Fin m → ℂ) →ₗ[ℝ] (Fin n → ℝ)), splitMatrix svds A hasZero = .ok M ∧
      (∀ x, IsRealLeastSquares A x (fit x)) ∧
      ∀ (x : NdArray ℂ) (axis : ℤ) (k : ℕ), ValidAxis axis x.ndim k → x.shape[k]? = some m →
        ∃ r, M.lstsq x (some axis) = .ok r ∧ AppliedAlong (fun v l => (fit v l : ℂ)) k x r := by
  obtain ⟨d, hd, -, hpos, hls⟩ := splitMatrix_ok hs hrow
  refine ⟨.split d, ⟨⟨d.pinv, fun x y => ?_⟩, fun c x => ?_⟩, hd, hls, fun x axis k hk hx => ?_⟩
  · unfold SplitMat.pinv
    rw [← Matrix.mulVec_add]
    congr 1
    funext i
    have e1 : (fun j => ((x + y) j).re) = (fun j => (x j).re) + fun j => (y j).re := by funext j; simp
    have e2 : (fun j => ((x + y) j).im) = (fun j => (x j).im) + fun j => (y j).im := by funext j; simp
    rw [e1, e2]
    simp only [Matrix.mulVec_add, Pi.add_apply]
    ring
  · unfold SplitMat.pinv
    show d.v *ᵥ _ = c • (d.v *ᵥ _)
    rw [← Matrix.mulVec_smul]
    congr 1
    funext i
    have e1 : (fun j => ((c • x) j).re) = c • fun j => (x j).re := by funext j; simp
    have e2 : (fun j => ((c • x) j).im) = c • fun j => (x j).im := by funext j; simp
    rw [e1, e2]
    simp only [Matrix.mulVec_smul, Pi.smul_apply, smul_eq_mul]
    ring
  · obtain ⟨r, hr, ar⟩ := matop_spec d.pinv d.lstsqOp (fun y h0 hy => d.lstsqOp_ok (fun i => (hpos i).ne') y h0 hy) x
      (normalizeAxis_iff.2 hk) hx
    refine ⟨mapArr Complex.ofReal r, ?_, applied_post Complex.ofReal ar⟩
    show Except.map _ (d.lstsq x (some axis)) = _
    rw [show d.lstsq x (some axis) = .ok r from hr]
    rfl

/-- With independent columns over the reals, real coefficients are recovered exactly. -/
theorem C44_roundtrip {svds : Svds} (hs : svds.Ok) {m n : ℕ} (A : Matrix (Fin m) (Fin n) ℂ) (hasZero : Bool)
    (hrow : ZeroRowReal A hasZero) (hinj : ∀ w : Fin n → ℝ, A *ᵥ (fun l => (w l : ℂ)) = 0 → w = 0) :
    ∃ M, splitMatrix svds A hasZero = .ok M ∧ ∀ (al : NdArray ℝ) (axis : ℤ) (k : ℕ), ValidAxis axis al.ndim k →
      al.shape[k]? = some n → ∃ v, M.matmulAxis (mapArr Complex.ofReal al) (some axis) = .ok v ∧
        M.lstsq v (some axis) = .ok (mapArr Complex.ofReal al) := by
  obtain ⟨d, hd, ha, hpos, hls⟩ := splitMatrix_ok hs hrow
  refine ⟨.split d, hd, fun al axis k hk hal => ?_⟩
  obtain ⟨v, hv, av⟩ := matop_spec d.a.mulVec (matmul d.a) (fun y h0 hy => matmul_ok d.a y h0 hy)
    (mapArr Complex.ofReal al) (axis := axis) (k := k) (normalizeAxis_iff.2 hk) hal
  have av' := applied_map _ av
  have hkv : ValidAxis axis v.ndim k := by rw [ndim_of_applied av']; exact hk
  obtain ⟨y, hy, ay⟩ := matop_spec d.pinv d.lstsqOp (fun y h0 hy => d.lstsqOp_ok (fun i => (hpos i).ne') y h0 hy) v
      (normalizeAxis_iff.2 hkv) av'.axis'
  refine ⟨v, hv, ?_⟩
  have h2 : AppliedAlong (fun (v : Fin n → ℝ) i => v i) k al y := by
    refine applied_congr (av'.comp ay) fun w => ?_
    rw [ha]
    have h := (hls (A *ᵥ fun l => (w l : ℂ))).1 w
    rw [sub_self, sq_eq_zero.2 rfl] at h
    have h0 := sq_eq_zero.1 (le_antisymm h (sq_nonneg' _))
    rw [← Matrix.mulVec_sub] at h0
    have h1 := hinj (d.pinv (A *ᵥ fun l => (w l : ℂ)) - w) (by
      rw [← h0]
      congr 1
      funext l
      simp)
    exact sub_eq_zero.1 h1
  have h3 := applied_id (p := n) (fun a : ℝ => a) hal
  have := h2.unique h3
  rw [mapArr_id] at this
  subst this
  show Except.map _ (d.lstsq v (some axis)) = _
  rw [show d.lstsq v (some axis) = .ok y from hy]
  rfl

section
open Verif.FiniteTemp Verif.Poly
variable {fp : Fp} {compute : KernelInfo → Option ℝ → PyM SveResult} {beta wmax : ℝ} {eps : Option ℝ}
  {maxSize : Option ℕ} {kernel : Option KernelInfo} {sve : Option SveResult} {k : KernelInfo} {lam : ℝ} {r : SveResult}
  {h : Good r} {e : ℝ} {m : ℕ}

/-- The zero-frequency value of the basis functions of a bosonic IR basis is real, so the condition of the theorems
above is met. -/
theorem C44_zero_row (v : Valid fp compute "B" beta wmax eps maxSize kernel sve k lam r h e m) (hlam : 0 < lam) :
    ∃ b f, make fp compute "B" beta wmax eps maxSize kernel sve = .ok b ∧ b.uhat.call 0 = .ok f ∧ ∀ l, (f l).im = 0 := by
  obtain ⟨b, hb, h1, -⟩ := C59_uhat v 0 (by simpa using hlam)
  refine ⟨b, _, hb, h1 (by simp), fun l => ?_⟩
  have : (fun t : ℝ => Complex.exp (Complex.I * Real.pi * ((0 : ℤ) : ℂ) * t / beta) * (fn b.u l t : ℂ)) =
      fun t : ℝ => ((fn b.u l t : ℝ) : ℂ) := by
    funext t
    simp
  rw [this, intervalIntegral.integral_ofReal]
  exact Complex.ofReal_im _

end

/-- Two frequencies including zero, one coefficient each for a real and an imaginary function. -/
example : ∃ M, splitMatrix idealSvds (!![1, 0; 2, Complex.I] : Matrix (Fin 2) (Fin 2) ℂ) true = .ok M ∧
    ∀ (al : NdArray ℝ) (axis : ℤ) (k : ℕ), ValidAxis axis al.ndim k → al.shape[k]? = some 2 →
      ∃ v, M.matmulAxis (mapArr Complex.ofReal al) (some axis) = .ok v ∧
        M.lstsq v (some axis) = .ok (mapArr Complex.ofReal al) := by
  refine C44_roundtrip idealSvds_ok _ true (fun _ i l hi => ?_) fun w hw => ?_
  · have : i = 0 := Fin.ext hi
    subst this
    fin_cases l <;> simp
  · have h0 := congrFun hw 0
    have h1 := congrFun hw 1
    simp [Matrix.mulVec, dotProduct, Fin.sum_univ_two] at h0 h1
    rw [h0] at h1
    funext i
    fin_cases i
    · exact h0
    · simpa using h1

end Verif.Props
