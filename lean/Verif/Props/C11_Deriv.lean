import Verif.Lemmas.SegPoly
import Mathlib.Analysis.Calculus.IteratedDeriv.Lemmas
import Mathlib.Analysis.Calculus.Deriv.Polynomial
import Mathlib.Tactic.NormNum
/-!
# C11 — `deriv(n)` is the n-th derivative
-/

namespace Verif.Props
open Verif Verif.Np Verif.Spec Verif.Poly Verif.Legendre Polynomial

variable {ι : Type _}

theorem iteratedDeriv_affine (q : ℝ[X]) (s u w : ℝ) (n : ℕ) :
    iteratedDeriv n (fun x => s * q.eval (w * x + u)) =
      fun x => s * w ^ n * (derivative^[n] q).eval (w * x + u) := by
  induction n with
  | zero => simp
  | succ n ih =>
    rw [iteratedDeriv_succ, ih]
    funext x
    have h1 : HasDerivAt (fun x => w * x + u) w x := by
      simpa using ((hasDerivAt_id x).const_mul w).add_const u
    have h2 := ((derivative^[n] q).hasDerivAt (w * x + u)).comp x h1
    have h3 := h2.const_mul (s * w ^ n)
    rw [show (fun x => s * w ^ n * eval (w * x + u) (derivative^[n] q)) =
      fun y => s * w ^ n * ((fun x => eval x (derivative^[n] q)) ∘ fun x => w * x + u) y from rfl,
      h3.deriv, Function.iterate_succ_apply']
    ring

/-- In the interior of every segment, for every order `n` and every function `l`, evaluating
`p.deriv(n)` gives the `n`-th derivative of `p`. -/
theorem C11_deriv (p : PPoly ι) (h : p.WF) (i : Fin p.nseg) (x : ℝ)
    (hx : p.knots i.castSucc < x ∧ x < p.knots i.succ) (n : ℕ) :
    (p.deriv n).call x = .ok fun l => iteratedDeriv n (fn p l) x := by
  have hin : p.InSeg i x := ⟨hx.1.le, Or.inl hx.2⟩
  have hin' : (p.deriv n).InSeg i x := ⟨hx.1.le, Or.inl hx.2⟩
  rw [PPoly.call_eq (deriv_WF h n) hin']
  congr 1
  funext l
  have hloc : fn p l =ᶠ[nhds x] segFun (p.knots i.castSucc) (p.knots i.succ) (p.coef i l) := by
    filter_upwards [Ioo_mem_nhds hx.1 hx.2] with y hy
    have hy' : p.InSeg i y := ⟨hy.1.le, Or.inl hy.2⟩
    rw [fn, PPoly.call_eq h hy']
  rw [Filter.EventuallyEq.iteratedDeriv_eq n hloc, segFun_affine, segFun_affine,
    iteratedDeriv_affine]
  simp only [PPoly.deriv, PPoly.invXs, h.dx_eq]
  rw [series_map_mul, legder_spec, eval_mul, eval_C]
  ring

/-- Also at a knot: there `p.deriv(1)` gives the derivative from the right. -/
theorem C11_deriv_right (p : PPoly ι) (h : p.WF) (i : Fin p.nseg) (x : ℝ)
    (hx : p.knots i.castSucc ≤ x ∧ x < p.knots i.succ) :
    ∃ d, (p.deriv 1).call x = .ok d ∧ ∀ l, HasDerivWithinAt (fn p l) (d l) (Set.Ici x) x := by
  have hin : p.InSeg i x := ⟨hx.1, Or.inl hx.2⟩
  have hin' : (p.deriv 1).InSeg i x := ⟨hx.1, Or.inl hx.2⟩
  refine ⟨_, PPoly.call_eq (deriv_WF h 1) hin', fun l => ?_⟩
  have hloc : fn p l =ᶠ[nhdsWithin x (Set.Ici x)] segFun (p.knots i.castSucc) (p.knots i.succ) (p.coef i l) := by
    filter_upwards [Ico_mem_nhdsGE hx.2] with y hy
    have hy' : p.InSeg i y := ⟨hx.1.trans hy.1, Or.inl hy.2⟩
    rw [fn, PPoly.call_eq h hy']
  refine HasDerivWithinAt.congr_of_eventuallyEq ?_ hloc (by rw [fn, PPoly.call_eq h hin])
  apply HasDerivAt.hasDerivWithinAt
  rw [segFun_affine, segFun_affine]
  simp only [PPoly.deriv, PPoly.invXs, h.dx_eq]
  rw [series_map_mul, legder_spec, eval_mul, eval_C]
  set w := 2 / (p.knots i.succ - p.knots i.castSucc)
  set u := -(p.knots i.castSucc + p.knots i.succ) / (p.knots i.succ - p.knots i.castSucc)
  have h1 : HasDerivAt (fun x => w * x + u) w x := by
    simpa using ((hasDerivAt_id x).const_mul w).add_const u
  have h2 := (((series (p.coef i l)).hasDerivAt (w * x + u)).comp x h1).const_mul
    (Real.sqrt (2 / (p.knots i.succ - p.knots i.castSucc)))
  refine h2.congr_deriv ?_
  rw [Function.iterate_one, pow_one]
  ring

/-- The reported parity. -/
theorem C11_parity (p : PPoly ι) (n : ℕ) (l : ι) : (p.deriv n).symm l = (-1) ^ n * p.symm l := rfl

/-- `deriv` keeps the knots and segments. -/
theorem C11_knots (p : PPoly ι) (n : ℕ) : (p.deriv n).knotList = p.knotList ∧
    (p.deriv n).xmin = p.xmin ∧ (p.deriv n).xmax = p.xmax := ⟨rfl, rfl, rfl⟩

/-- The reported parity is the parity of the function: if `p` is a function of parity `symm` about
the origin then `p.deriv(n)` has parity `(-1)^n * symm` wherever both are differentiable
(segment interiors of symmetric knots). -/
theorem C11_parity_true (p : PPoly ι) (h : p.WF) (l : ι) (n : ℕ)
    (hsym : ∀ x, fn p l (-x) = p.symm l * fn p l x)
    (i j : Fin p.nseg) (x : ℝ) (hx : p.knots i.castSucc < x ∧ x < p.knots i.succ)
    (hx' : p.knots j.castSucc < -x ∧ -x < p.knots j.succ) :
    fn (p.deriv n) l (-x) = (p.deriv n).symm l * fn (p.deriv n) l x := by
  have e1 : fn (p.deriv n) l x = iteratedDeriv n (fn p l) x := by
    rw [fn, C11_deriv p h i x hx]
  have e2 : fn (p.deriv n) l (-x) = iteratedDeriv n (fn p l) (-x) := by
    rw [fn, C11_deriv p h j (-x) hx']
  have h1 := iteratedDeriv_comp_neg n (fn p l) x
  have h2 : (fun y => fn p l (-y)) = fun y => p.symm l * fn p l y := funext hsym
  rw [h2] at h1
  rw [e1, e2, C11_parity]
  have hd : iteratedDeriv n (fun y => p.symm l * fn p l y) x =
      p.symm l * iteratedDeriv n (fn p l) x := iteratedDeriv_const_mul_field _ _
  rw [hd, smul_eq_mul] at h1
  have : ((-1 : ℝ) ^ n) * (-1) ^ n = 1 := by rw [← mul_pow]; simp
  calc iteratedDeriv n (fn p l) (-x)
      = ((-1 : ℝ) ^ n * (-1) ^ n) * iteratedDeriv n (fn p l) (-x) := by rw [this, one_mul]
    _ = (-1) ^ n * ((-1) ^ n * iteratedDeriv n (fn p l) (-x)) := by ring
    _ = _ := by rw [← h1]; ring

/- Non-vacuity: the derivative of `x` is 1 at 0. -/
example : exPoly.call 0 = .ok (fun _ => 0) ∧ (exPoly.deriv 1).call 0 = .ok (fun _ => 1) := by
  have hin : exPoly.InSeg (0 : Fin 1) 0 :=
    ⟨by show (-1 : ℝ) ≤ 0; norm_num, Or.inl (by show (0 : ℝ) < 1; norm_num)⟩
  have hk0 : exPoly.knots (Fin.castSucc (0 : Fin 1)) = -1 := rfl
  have hk1 : exPoly.knots (Fin.succ (0 : Fin 1)) = 1 := rfl
  constructor
  · rw [PPoly.call_eq exPoly_WF hin, hk0, hk1]
    simp [segFun_affine, exPoly, series, Finset.sum_range_succ]
  · rw [PPoly.call_eq (deriv_WF exPoly_WF 1) (i := (0 : Fin 1)) hin]
    show Except.ok (fun l => segFun (-1) 1 _ 0) = _
    simp [segFun_affine, exPoly, series, Finset.sum_range_succ, PPoly.deriv, legder, legderPass,
      legderLoop, List.range_succ, PPoly.invXs]
    norm_num

end Verif.Props
