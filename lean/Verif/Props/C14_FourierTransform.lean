import Verif.Spec.Fourier
import Verif.Lemmas.Piecewise
import Verif.Props.C15_Phase
import Verif.Props.C01_Matsubara
/-!
# C14 — `uhat` is the Fourier transform of `u`
-/

namespace Verif.Props
open Verif Verif.Np Verif.Poly Verif.Spec Complex

variable {ι : Type _}

/-- One segment. -/
theorem segment_ft (a b : ℝ) (hab : a < b) (c : List ℝ) (w : ℝ) :
    ∫ x in a..b, exp (I * w * (x + 1)) * (segFun a b c x : ℂ) =
      exp (I * w * ((a + b) / 2 + 1)) * (Real.sqrt ((b - a) / 2) : ℂ) *
        ∑ k ∈ Finset.range c.length, (c.getD k 0 : ℂ) *
          Fourier.E (w * ((b - a) / 2)) (legendre k) := by
  have hd : 0 < (b - a) / 2 := by linarith
  have hsub := intervalIntegral.smul_integral_comp_mul_add (a := -1) (b := 1)
    (fun x : ℝ => exp (I * w * (x + 1)) * (segFun a b c x : ℂ)) ((b - a) / 2) ((a + b) / 2)
  rw [show (b - a) / 2 * -1 + (a + b) / 2 = a by ring,
    show (b - a) / 2 * 1 + (a + b) / 2 = b by ring] at hsub
  rw [← hsub]
  have hE : ∑ k ∈ Finset.range c.length, (c.getD k 0 : ℂ) *
      Fourier.E (w * ((b - a) / 2)) (legendre k) =
      Fourier.E (w * ((b - a) / 2)) (Legendre.series c) := by
    unfold Legendre.series
    rw [Fourier.E_sum]
    apply Finset.sum_congr rfl
    intro k _
    rw [Fourier.E_C_mul]
  rw [hE, Fourier.E, ← intervalIntegral.integral_const_mul, real_smul,
    ← intervalIntegral.integral_const_mul]
  congr 1
  funext t
  rw [segFun, legendreSum_eq_series,
    show (2 * ((b - a) / 2 * t + (a + b) / 2) - (a + b)) / (b - a) = t by
      field_simp [sub_ne_zero.2 hab.ne']; ring]
  have hs : ((b - a) / 2) * Real.sqrt (2 / (b - a)) = Real.sqrt ((b - a) / 2) := by
    have h1 : 2 / (b - a) = ((b - a) / 2)⁻¹ := by rw [inv_div]
    rw [h1, Real.sqrt_inv]
    have h2 := Real.mul_self_sqrt hd.le
    have h3 : Real.sqrt ((b - a) / 2) ≠ 0 := (Real.sqrt_pos.2 hd).ne'
    field_simp
    rw [pow_two, h2]
    ring
  rw [← hs]
  have he : exp (I * w * ((((b - a) / 2 * t + (a + b) / 2 : ℝ) : ℂ) + 1)) =
      exp (I * w * ((a + b) / 2 + 1)) * exp (I * ((w * ((b - a) / 2) : ℝ) : ℂ) * t) := by
    rw [← exp_add]; congr 1; push_cast; ring
  rw [he]
  push_cast
  ring

/-- Below the asymptotic threshold (and for objects without one) the returned value is the Fourier
integral of the piecewise polynomial. -/
theorem C14_inner (p : PPoly ι) (h : p.WF) (hmin : p.xmin = -1) (hmax : p.xmax = 1)
    (hlen : ∀ i l, (p.coef i l).length = p.polyorder) (n : ℤ) :
    p.computeUnl n = .ok fun l => ft (fn p l) n := by
  unfold PPoly.computeUnl
  have hph : ∀ i, ∃ z, p.phaseStable n i = .ok z := fun i => ⟨_, C15_phase p h hmin hmax n i⟩
  rw [if_pos hlen, dif_pos hph]
  congr 1
  funext l
  have hch : ∀ i, (hph i).choose = exp (I * Real.pi / 2 * n * (segMid p i + 1)) := by
    intro i
    have h1 := (hph i).choose_spec
    exact Except.ok.inj (h1.symm.trans (C15_phase p h hmin hmax n i))
  unfold ft
  have hpw := integral_piecewise p.knots h.mono.monotone
    (fun x : ℝ => exp (I * Real.pi * n * (x + 1) / 2) * (fn p l x : ℂ))
    (fun i x => exp (I * ((Real.pi / 2 * n : ℝ) : ℂ) * (x + 1)) *
      (segFun (p.knots i.castSucc) (p.knots i.succ) (p.coef i l) x : ℂ))
    (fun i => by
      have := segFun_continuous (p.knots i.castSucc) (p.knots i.succ) (p.coef i l)
      fun_prop)
    (fun i x h1 h2 => by
      rw [fn_eq h l h1 h2]
      congr 2
      push_cast; ring)
  have h2 := hpw.2
  rw [show p.knots 0 = -1 from hmin, show p.knots (Fin.last p.nseg) = 1 from hmax] at h2
  rw [h2, Finset.mul_sum, Finset.sum_comm]
  apply Finset.sum_congr rfl
  intro i _
  have hd := h.dx_pos i
  rw [segment_ft _ _ (by have := hd; rw [h.dx_eq] at this; linarith), hlen i l, hch i,
    Finset.mul_sum, Finset.mul_sum]
  apply Finset.sum_congr rfl
  intro k _
  rw [Fourier.getTnl_eq, h.dx_eq]
  have hs : Real.sqrt ((p.knots i.succ - p.knots i.castSucc) / 2 / 2) =
      Real.sqrt ((p.knots i.succ - p.knots i.castSucc) / 2) / Real.sqrt 2 := by
    rw [Real.sqrt_div]
    rw [← h.dx_eq]; linarith
  rw [hs]
  have he : exp (I * Real.pi / 2 * n * (segMid p i + 1)) =
      exp (I * ((Real.pi / 2 * n : ℝ) : ℂ) * (((p.knots i.castSucc : ℂ) + p.knots i.succ) / 2 + 1)) := by
    congr 1; unfold segMid; push_cast; ring
  rw [he]
  push_cast
  ring

theorem call_of_parity (f : PFT ι) (h : f.poly.WF) (hmin : f.poly.xmin = -1) (hmax : f.poly.xmax = 1)
    (hlen : ∀ i l, (f.poly.coef i l).length = f.poly.polyorder) (n : ℤ)
    (hn : ∀ na, f.nAsymp = some na → |(n : ℝ)| < na) :
    (HasParity f.freq.zeta n → f.call n = .ok fun l => ft (fn f.poly l) n) ∧
    (¬ HasParity f.freq.zeta n → f.call n = .error .valueError) := by
  constructor
  · intro hp
    have hchk : Util.checkReducedMatsubara (.ints [n]) f.freq.zeta = .ok [n] :=
      (C01_ints [n] [n] _).2 ⟨rfl, by simpa using hp⟩
    unfold PFT.call
    rw [hchk]
    simp only
    rw [C14_inner f.poly h hmin hmax hlen n]
    cases hna : f.nAsymp with
    | none => rfl
    | some na =>
      simp only
      rw [if_neg (not_le.2 (hn na hna))]
  · intro hp
    have hchk : Util.checkReducedMatsubara (.ints [n]) f.freq.zeta = .error .valueError := by
      rcases C01_rejects_with_ValueError (.ints [n]) f.freq.zeta with ⟨ns, h1⟩ | h1
      · have := ((C01_ints [n] ns _).1 h1).2 n (by simp)
        exact absurd this hp
      · exact h1
    unfold PFT.call
    rw [hchk]

/-- Specification: the frequencies each kind of transform is defined for. -/
def Admits : Freq → ℤ → Prop
  | .any, _ => True
  | .even, n => Even n
  | .odd, n => Odd n

theorem hasParity_iff (freq : Freq) (n : ℤ) : HasParity freq.zeta n ↔ Admits freq n := by
  cases freq
  · exact Iff.rfl
  · exact Int.even_iff.symm
  · exact Int.odd_iff.symm

/-- `PiecewiseLegendreFT(p, freq, n_asymp)(n)` for an integer `n` of the right parity below the
asymptotic threshold is the Fourier integral; every other parity is refused. -/
theorem C14_call (f : PFT ι) (h : f.poly.WF) (hmin : f.poly.xmin = -1) (hmax : f.poly.xmax = 1)
    (hlen : ∀ i l, (f.poly.coef i l).length = f.poly.polyorder) (n : ℤ)
    (hn : ∀ na, f.nAsymp = some na → |(n : ℝ)| < na) :
    (Admits f.freq n → f.call n = .ok fun l => ft (fn f.poly l) n) ∧
    (¬ Admits f.freq n → f.call n = .error .valueError) := by
  have := call_of_parity f h hmin hmax hlen n hn
  rwa [hasParity_iff] at this

/-- Scaling to imaginary time: for `u(τ) = sqrt(2/β) f(2τ/β - 1)` the transform over `[0, β]` is
`sqrt(β)` times the dimensionless one (this is the factor which the basis applies to `uhat`). -/
theorem C14_tau (beta : ℝ) (hb : 0 < beta) (f : ℝ → ℝ) (n : ℤ) :
    ftTau beta (fun t => Real.sqrt (2 / beta) * f (2 / beta * t - 1)) n =
      (Real.sqrt beta : ℂ) * ft f n := by
  unfold ftTau ft
  have hsub := intervalIntegral.smul_integral_comp_mul_add (a := -1) (b := 1)
    (fun t : ℝ => exp (I * Real.pi * n * t / beta) *
      ((Real.sqrt (2 / beta) * f (2 / beta * t - 1) : ℝ) : ℂ)) (beta / 2) (beta / 2)
  rw [show beta / 2 * -1 + beta / 2 = 0 by ring, show beta / 2 * 1 + beta / 2 = beta by ring] at hsub
  rw [← hsub, real_smul, ← mul_assoc, ← intervalIntegral.integral_const_mul,
    ← intervalIntegral.integral_const_mul]
  congr 1
  funext x
  have hbc : (beta : ℂ) ≠ 0 := by exact_mod_cast hb.ne'
  rw [show 2 / beta * (beta / 2 * x + beta / 2) - 1 = x by field_simp; ring]
  have he : exp (I * Real.pi * n * ((beta / 2 * x + beta / 2 : ℝ) : ℂ) / beta) =
      exp (I * Real.pi * n * (x + 1) / 2) := by
    congr 1; push_cast; field_simp
  rw [he]
  have hs : beta / 2 * Real.sqrt (2 / beta) = Real.sqrt beta / Real.sqrt 2 := by
    rw [Real.sqrt_div (by norm_num)]
    have h1 := Real.mul_self_sqrt hb.le
    have h2 := Real.mul_self_sqrt (show (0 : ℝ) ≤ 2 by norm_num)
    have h3 : Real.sqrt beta ≠ 0 := (Real.sqrt_pos.2 hb).ne'
    have h4 : Real.sqrt 2 ≠ 0 := (Real.sqrt_pos.2 (by norm_num)).ne'
    field_simp
    nlinarith
  have hs' : (beta : ℂ) / 2 * (Real.sqrt (2 / beta) : ℂ) = (Real.sqrt beta : ℂ) / (Real.sqrt 2 : ℂ) := by
    exact_mod_cast hs
  push_cast
  linear_combination exp (I * Real.pi * n * (x + 1) / 2) * (f x : ℂ) * hs'

/- Non-vacuity: the odd function `x` on `[-1, 1]` at `n = 2`. -/
example : (⟨exPoly, .even, none, none⟩ : PFT Unit).call 2 =
    .ok fun l => ft (fn exPoly l) 2 :=
  (C14_call ⟨exPoly, .even, none, none⟩ exPoly_WF rfl rfl (fun _ _ => rfl) 2
    (by intro na h; cases h)).1 ⟨1, rfl⟩

end Verif.Props
