import Verif.Props.C10_Selection
import Mathlib.Tactic.NormNum
/-!
# C17 — transform of a selected polynomial versus selected transform (false in the code)

The asymptotic model gets the parity of a function from its *position on the last axis*.  A single
polynomial is at position 0, so `PiecewiseLegendreFT(p[l], freq, n_asymp)` uses the moments of an
even function whatever `l` is.
-/

namespace Verif.Props
open Verif Verif.Np Verif.Poly Verif.Spec Polynomial

variable {ι : Type _}

/-- The full claim: for a set of functions enumerated by `Fin L`. -/
def SelectThenTransform : Prop :=
  ∀ (L : ℕ) (p : PPoly (Fin L)) (freq : Freq) (na : ℝ) (l : Fin L) (f g : PFT _) (h : PFT Unit),
    p.WF → Rectangular p →
    PFT.ctor (fun k : Fin L => (k : ℕ)) p freq (some na) none = .ok f →
    f.select (fun _ => 0) (fun _ : Unit => l) = .ok g →
    PFT.ctor (fun _ => 0) (p.select fun _ : Unit => l) freq (some na) none = .ok h →
    ∀ n, h.call n = g.call n

/-- What holds: both orders agree at every frequency if the position `l` is even, and for every `l`
below `n_asymp`. -/
theorem C17_even_or_below_partial (L : ℕ) (p : PPoly (Fin L)) (hw : p.WF) (hr : Rectangular p)
    (freq : Freq) (na : ℝ) (l : Fin L) (f : PFT (Fin L)) (g h : PFT Unit)
    (hf : PFT.ctor (fun k : Fin L => (k : ℕ)) p freq (some na) none = .ok f)
    (hg : f.select (fun _ => 0) (fun _ : Unit => l) = .ok g)
    (hh : PFT.ctor (fun _ => 0) (p.select fun _ : Unit => l) freq (some na) none = .ok h)
    (n : ℤ) (hl : Even (l : ℕ) ∨ |(n : ℝ)| < na) : h.call n = g.call n := by
  obtain ⟨g', hg', hcall⟩ := C10_ft_select (κ := Unit) _ (fun _ => 0) p hr freq na none f hf
    (fun _ => l)
  obtain rfl : g' = g := Except.ok.inj (hg'.symm.trans hg)
  -- unfold both constructions
  unfold PFT.ctor at hf hh
  split at hf
  · cases hf
  rename_i hx
  push Not at hx
  rw [if_neg (show ¬ ((p.select fun _ : Unit => l).xmin ≠ -1 ∨ (p.select fun _ : Unit => l).xmax ≠ 1)
    by push Not; exact hx)] at hh
  simp only at hf hh
  unfold powerModel at hf hh
  have hw' : (p.select fun _ : Unit => l).WF := ⟨hw.pos, hw.mono, hw.dx_eq⟩
  rw [derivsLoop_spec hw (last_inSeg hw hx.2)] at hf
  rw [derivsLoop_spec hw' (last_inSeg hw' hx.2)] at hh
  obtain ⟨s, hs⟩ : ∃ s, freq.statsign = .ok s := by
    cases hs : freq.statsign with
    | error e => rw [hs] at hf; cases hf
    | ok s => exact ⟨s, rfl⟩
  rw [hs] at hf hh
  simp only [Except.ok.injEq] at hf hh
  rw [hcall n, ← hf, ← hh]
  unfold PFT.call
  simp only
  rw [unl_select p hr (fun _ : Unit => l) n]
  cases Util.checkReducedMatsubara (.ints [n]) freq.zeta with
  | error e => rfl
  | ok _ =>
    simp only
    cases p.computeUnl n with
    | error e => rfl
    | ok v =>
      simp only [Except.map]
      split
      · rename_i hc
        have hev : Even (l : ℕ) := hl.resolve_right (not_lt.2 hc)
        simp only [Except.ok.injEq]
        funext k
        unfold giw powerMoments
        simp only [List.zipIdx_map, List.map_map, ← List.map_reverse, List.foldl_map]
        congr 1
        funext r q
        congr 2
        simp only [powerMoment, Function.comp, Prod.map, id]
        rw [hev.neg_one_pow, pow_zero]
        rfl
      · rfl

theorem exPair_seg (l : Fin 2) (i : Fin exPair.nseg) :
    exPair.seg l i = if l = 0 then 1 else X := by
  have hi : i = (0 : Fin 1) := Subsingleton.elim (α := Fin 1) _ _
  apply Polynomial.funext
  intro x
  show (segPoly (exPair.knots i.castSucc) (exPair.knots i.succ) (exPair.coef i l)).eval x = _
  rw [segPoly_eval]
  rw [hi]
  show segFun (-1) 1 (if l = 0 then [1, 0] else [0, 1]) x = _
  rw [segFun_affine]
  split <;> norm_num [Legendre.series, Finset.sum_range_succ]

theorem exPair_sel_WF : (exPair.select fun _ : Unit => (1 : Fin 2)).WF :=
  ⟨exPair_WF.pos, exPair_WF.mono, exPair_WF.dx_eq⟩

/-- Negation: functions `1, x` on `[-1, 1]`, `freq='even'`, `n_asymp=1`, `l = 1`, `n = 2`. -/
theorem C17_negation : ¬ SelectThenTransform := by
  intro H
  have hm1 := powerModel_eq exPair exPair_WF rfl (by decide) (fun k : Fin 2 => (k : ℕ)) .even 1 rfl
  have hm2 := powerModel_eq (exPair.select fun _ : Unit => (1 : Fin 2)) exPair_sel_WF rfl (by decide)
    (fun _ => 0) .even 1 rfl
  have hf : ∃ f, PFT.ctor (fun k : Fin 2 => (k : ℕ)) exPair .even (some 1) none = .ok f := by
    unfold PFT.ctor
    rw [if_neg (by simp [PPoly.xmin, PPoly.xmax, exPair])]
    simp only
    rw [hm1]
    exact ⟨_, rfl⟩
  obtain ⟨f, hf⟩ := hf
  obtain ⟨g, hg, hcall⟩ := C10_ft_select (κ := Unit) _ (fun _ => 0) exPair exPair_rect .even 1 none f hf
    (fun _ => 1)
  have hh : ∃ h, PFT.ctor (fun _ => 0) (exPair.select fun _ : Unit => (1 : Fin 2)) .even (some 1) none
      = .ok h := by
    unfold PFT.ctor
    rw [if_neg (by simp [PPoly.xmin, PPoly.xmax, exPair, PPoly.select])]
    simp only
    rw [hm2]
    exact ⟨_, rfl⟩
  obtain ⟨h, hh⟩ := hh
  have key := H 2 exPair .even 1 1 f g h exPair_WF exPair_rect hf hg hh 2
  rw [hcall 2] at key
  unfold PFT.ctor at hf hh
  rw [if_neg (by simp [PPoly.xmin, PPoly.xmax, exPair])] at hf
  rw [if_neg (by simp [PPoly.xmin, PPoly.xmax, exPair, PPoly.select])] at hh
  simp only at hf hh
  rw [hm1] at hf
  rw [hm2] at hh
  have hf := Except.ok.inj hf
  have hh := Except.ok.inj hh
  have hchk : Util.checkReducedMatsubara (.ints [2]) (Freq.even).zeta = .ok [2] :=
    (C01_ints [2] [2] _).2 ⟨rfl, by simp [HasParity, Freq.zeta]⟩
  have hun := C14_inner exPair exPair_WF rfl rfl (fun i l => exPair_len i l) 2
  rw [← hf, ← hh] at key
  unfold PFT.call at key
  simp only [hchk] at key
  rw [unl_select exPair exPair_rect (fun _ : Unit => (1 : Fin 2)) 2, hun] at key
  simp only [Except.map] at key
  have h21 : |((2 : ℤ) : ℝ)| ≥ 1 := by norm_num
  rw [if_pos h21, if_pos h21] at key
  simp only at key
  have key2 := congrFun (Except.ok.inj key) ()
  have seg1 : ∀ i, (exPair.select fun _ : Unit => (1 : Fin 2)).seg () i = X := fun i =>
    (exPair_seg 1 i).trans (by simp)
  rw [giw_eq _ _ _ (by decide), giw_eq _ _ _ (by decide)] at key2
  have hs : ((Real.sqrt 2 : ℝ) : ℂ) ≠ 0 := by
    exact_mod_cast (Real.sqrt_pos.2 (by norm_num : (0 : ℝ) < 2)).ne'
  have hpi : ((Real.pi : ℝ) : ℂ) ≠ 0 := by exact_mod_cast Real.pi_ne_zero
  simp only [List.length_map, List.length_range] at key2
  change ∑ m ∈ Finset.range 2, _ = ∑ m ∈ Finset.range 2, _ at key2
  simp only [Finset.sum_range_succ, Finset.sum_range_zero, List.map_map] at key2
  have r2 : List.range exPair.polyorder = [0, 1] := rfl
  have r3 : List.range (exPair.select fun _ : Unit => (1 : Fin 2)).polyorder = [0, 1] := rfl
  rw [r2, r3] at key2
  simp only [List.map_cons, List.map_nil, Function.comp, seg1, exPair_seg, List.getD_cons_zero,
    List.getD_cons_succ, powerMoment, Function.iterate_zero, Function.iterate_succ, id, derivative_X,
    eval_X, eval_one] at key2
  norm_num at key2
  rw [mul_pow, Complex.I_sq, ← Complex.ofReal_inv, ← Complex.ofReal_pow] at key2
  have h3 := congrArg Complex.re key2
  simp [Real.pi_ne_zero, -Complex.ofReal_inv, -Complex.ofReal_pow] at h3

end Verif.Props
