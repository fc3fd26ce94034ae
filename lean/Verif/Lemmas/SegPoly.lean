import Verif.Lemmas.Piecewise
import Verif.Lemmas.Fourier
import Mathlib.Algebra.Polynomial.Roots
/-! The segments of a piecewise polynomial as polynomials. -/

namespace Verif.Poly
open Polynomial Verif.Spec Verif.Np
open Verif.Legendre hiding I

/-- `segFun` as a polynomial. -/
noncomputable def segPoly (a b : ℝ) (c : List ℝ) : ℝ[X] :=
  C (Real.sqrt (2 / (b - a))) * (series c).comp (C (2 / (b - a)) * X + C (-(a + b) / (b - a)))

theorem segPoly_eval (a b : ℝ) (c : List ℝ) (x : ℝ) : (segPoly a b c).eval x = segFun a b c x := by
  rw [segFun_affine]; simp [segPoly]

theorem series_map_mul (c : List ℝ) (r : ℝ) : series (c.map (· * r)) = C r * series c := by
  unfold series
  rw [List.length_map, Finset.mul_sum]
  apply Finset.sum_congr rfl
  intro k hk
  have hk := Finset.mem_range.1 hk
  simp only [List.getD_eq_getElem?_getD, List.getElem?_map, List.getElem?_eq_getElem hk,
    Option.map_some, Option.getD_some, C_mul]
  ring

theorem derivative_segPoly (a b : ℝ) (c : List ℝ) :
    derivative (segPoly a b c) = segPoly a b ((legder c 1).map (· * (2 / (b - a)) ^ 1)) := by
  unfold segPoly
  rw [series_map_mul, legder_spec, Function.iterate_one, derivative_C_mul, derivative_comp]
  simp only [derivative_add, derivative_mul, derivative_C, zero_mul, derivative_X, mul_one, zero_add,
    add_zero, mul_comp, C_comp, pow_one]

theorem segPoly_natDegree (a b : ℝ) (c : List ℝ) : (segPoly a b c).natDegree ≤ c.length - 1 := by
  have h1 : (series c).natDegree ≤ c.length - 1 := by
    unfold series
    apply natDegree_sum_le_of_forall_le
    intro k hk
    refine (natDegree_C_mul_le _ _).trans ((Legendre.natDegree_le k).trans ?_)
    have := Finset.mem_range.1 hk
    omega
  unfold segPoly
  refine (natDegree_C_mul_le _ _).trans (natDegree_comp_le.trans ?_)
  have h3 : (C (2 / (b - a)) * X + C (-(a + b) / (b - a)) : ℝ[X]).natDegree ≤ 1 :=
    natDegree_linear_le
  calc _ ≤ (series c).natDegree * 1 := Nat.mul_le_mul_left _ h3
    _ ≤ _ := by omega

theorem iterate_derivative_segPoly_eq_zero (a b : ℝ) (c : List ℝ) (m : ℕ) (h : c.length ≤ m) :
    derivative^[m] (segPoly a b c) = 0 := by
  by_cases hm : m = 0
  · subst hm
    have : c = [] := List.length_eq_zero_iff.1 (by omega)
    subst this
    simp [segPoly, series]
  apply iterate_derivative_eq_zero
  have h2 := segPoly_natDegree a b c
  omega

variable {ι : Type _}

/-- The polynomial of segment `i`, function `l`. -/
noncomputable def PPoly.seg (p : PPoly ι) (l : ι) (i : Fin p.nseg) : ℝ[X] :=
  segPoly (p.knots i.castSucc) (p.knots i.succ) (p.coef i l)

theorem call_seg {p : PPoly ι} (h : p.WF) {i : Fin p.nseg} {x : ℝ} (hx : p.InSeg i x) :
    p.call x = .ok fun l => (p.seg l i).eval x := by
  rw [PPoly.call_eq h hx]
  congr 1; funext l
  rw [PPoly.seg, segPoly_eval]

theorem fn_seg {p : PPoly ι} (h : p.WF) {i : Fin p.nseg} {x : ℝ} (hx : p.InSeg i x) (l : ι) :
    fn p l x = (p.seg l i).eval x := by
  rw [fn, call_seg h hx]

theorem seg_deriv {p : PPoly ι} (h : p.WF) (l : ι) (i : Fin p.nseg) :
    (p.deriv 1).seg l i = derivative (p.seg l i) := by
  unfold PPoly.seg
  rw [derivative_segPoly]
  simp only [PPoly.deriv, PPoly.invXs, h.dx_eq]

theorem derivsLoop_spec {p : PPoly ι} (h : p.WF) {i : Fin p.nseg} {x : ℝ} (hx : p.InSeg i x) (k : ℕ) :
    p.derivsLoop x k = .ok ((List.range (k + 1)).map fun m l => (derivative^[m] (p.seg l i)).eval x) := by
  induction k generalizing p with
  | zero => rw [PPoly.derivsLoop, call_seg h hx]; rfl
  | succ k ih =>
    rw [PPoly.derivsLoop, call_seg h hx]
    simp only
    have hx' : (p.deriv 1).InSeg i x := hx
    rw [ih (deriv_WF h 1) hx', List.range_succ_eq_map (n := k + 1)]
    simp only [List.map_cons, Function.iterate_zero, id_eq, List.map_map, Except.ok.injEq,
      List.cons.injEq, true_and]
    apply List.map_congr_left
    intro m _
    funext l
    rw [Function.comp_apply, Function.iterate_succ_apply, seg_deriv h]

/-! Repeated integration by parts. -/
open Complex

/-- `∫_a^b e^{iw(x+1)} q(x) dx` by parts, once. -/
theorem parts_once (w a b : ℝ) (q : ℝ[X]) :
    I * w * (∫ x in a..b, exp (I * w * (x + 1)) * ((q.eval x : ℝ) : ℂ)) +
      (∫ x in a..b, exp (I * w * (x + 1)) * (((derivative q).eval x : ℝ) : ℂ)) =
    exp (I * w * (b + 1)) * ((q.eval b : ℝ) : ℂ) - exp (I * w * (a + 1)) * ((q.eval a : ℝ) : ℂ) := by
  have hc : ∀ q : ℝ[X], Continuous fun x : ℝ => exp (I * w * (x + 1)) * ((q.eval x : ℝ) : ℂ) := by
    intro q
    have : Continuous fun x : ℝ => q.eval x := q.continuous
    fun_prop
  have hd : ∀ x : ℝ, HasDerivAt (fun x : ℝ => exp (I * w * (x + 1)) * ((q.eval x : ℝ) : ℂ))
      (I * w * (exp (I * w * (x + 1)) * ((q.eval x : ℝ) : ℂ)) +
        exp (I * w * (x + 1)) * (((derivative q).eval x : ℝ) : ℂ)) x := by
    intro x
    have h1 : HasDerivAt (fun x : ℝ => I * w * ((x : ℂ) + 1)) (I * w) x := by
      simpa using ((ofRealCLM.hasDerivAt (x := x)).add_const 1).const_mul (I * (w : ℂ))
    have h2 := h1.cexp
    have h3 : HasDerivAt (fun x : ℝ => ((q.eval x : ℝ) : ℂ)) (((derivative q).eval x : ℝ) : ℂ) x :=
      (q.hasDerivAt x).ofReal_comp
    exact (h2.mul h3).congr_deriv (by ring)
  have h := intervalIntegral.integral_eq_sub_of_hasDerivAt (a := a) (b := b)
    (f := fun x : ℝ => exp (I * w * (x + 1)) * ((q.eval x : ℝ) : ℂ)) (fun x _ => hd x)
    (((hc q).const_mul _).add (hc (derivative q)) |>.intervalIntegrable _ _)
  rw [intervalIntegral.integral_add (((hc q).const_mul _).intervalIntegrable _ _)
    ((hc (derivative q)).intervalIntegrable _ _), intervalIntegral.integral_const_mul] at h
  exact h

/-- The boundary term of order `m` at `x`. -/
noncomputable def bterm (w : ℝ) (q : ℝ[X]) (x : ℝ) (m : ℕ) : ℂ :=
  (-1) ^ m / (I * w) ^ (m + 1) * (exp (I * w * (x + 1)) * (((derivative^[m] q).eval x : ℝ) : ℂ))

theorem parts_all {w : ℝ} (hw : w ≠ 0) (a b : ℝ) (q : ℝ[X]) (M : ℕ) (hM : derivative^[M] q = 0) :
    ∫ x in a..b, exp (I * w * (x + 1)) * ((q.eval x : ℝ) : ℂ) =
      ∑ m ∈ Finset.range M, (bterm w q b m - bterm w q a m) := by
  have hwc : (w : ℂ) ≠ 0 := by exact_mod_cast hw
  have hIw : I * (w : ℂ) ≠ 0 := mul_ne_zero I_ne_zero hwc
  induction M generalizing q with
  | zero =>
    simp only [Function.iterate_zero, id_eq] at hM
    subst hM; simp
  | succ M ih =>
    have h1 := ih (derivative q) (by rwa [Function.iterate_succ_apply] at hM)
    have h2 := parts_once w a b q
    rw [h1] at h2
    rw [Finset.sum_range_succ']
    apply mul_left_cancel₀ hIw
    rw [mul_add, Finset.mul_sum]
    have e : ∀ m ∈ Finset.range M, I * (w : ℂ) * (bterm w q b (m + 1) - bterm w q a (m + 1)) =
        - (bterm w (derivative q) b m - bterm w (derivative q) a m) := by
      intro m _
      unfold bterm
      rw [Function.iterate_succ_apply, pow_succ (n := m), pow_succ (n := m + 1)]
      field_simp
      ring
    rw [Finset.sum_congr rfl e, Finset.sum_neg_distrib]
    have e0 : I * (w : ℂ) * (bterm w q b 0 - bterm w q a 0) =
        exp (I * w * (b + 1)) * ((q.eval b : ℝ) : ℂ) - exp (I * w * (a + 1)) * ((q.eval a : ℝ) : ℂ) := by
      unfold bterm
      simp only [pow_zero, zero_add, pow_one, Function.iterate_zero, id_eq]
      field_simp
    rw [e0, ← h2]
    ring

end Verif.Poly
