import Verif.Lemmas.RoundingPoly
/-!
# C79: The evaluation of piecewise Legendre polynomials in floating-point arithmetic

The arithmetic satisfies `Arith.Ok u eta` (see C75), `rt` is `np.sqrt`.
-/

namespace Verif.Props
open Verif Verif.Np Verif.Kernel Verif.Spec Verif.Poly Verif.Legendre

variable {ι : Type _}

/-- The stored `dx` of each segment fits the stored knots up to rounding errors of the knots, and lengths do not
underflow or overflow. -/
structure KnotsOk (p : PPoly ι) (u eta : ℝ) : Prop where
  pos : 0 < p.nseg
  asc : ∀ i : Fin p.nseg, p.knots i.castSucc < p.knots i.succ
  dx : ∀ i : Fin p.nseg, |p.dx i - (p.knots i.succ - p.knots i.castSucc)| ≤
    5 * u * (|p.knots i.castSucc| + |p.knots i.succ|)
  small : ∀ i : Fin p.nseg, eta ≤ u * (p.knots i.succ - p.knots i.castSucc)
  large : ∀ i : Fin p.nseg, eta * (p.knots i.succ - p.knots i.castSucc) ≤ u

/-- The size of the ends of an interval relative to its length. -/
noncomputable def relSize (a b : ℝ) : ℝ := (|a| + |b|) / (b - a)

/-- In real arithmetic, these are the functions of `Model/Poly.lean`. -/
theorem C79_exact (p : PPoly ι) (x : ℝ) : p.callFl Arith.exact Real.sqrt x = p.call x ∧
    ∀ l, p.valueFl Arith.exact Real.sqrt l x = p.value l x := by
  have hc : ∀ (x : ℝ) (rest : List ℝ) (n : ℕ) (c0 c1 : ℝ), clenshawFl Arith.exact x rest n c0 c1 = clenshaw x rest n c0 c1 := by
    intro x rest
    induction rest with
    | nil => intros; rfl
    | cons c rest ih =>
      intro n c0 c1
      rw [clenshawFl, clenshaw, ih]
      rfl
  have hl : ∀ (x : ℝ) (c : List ℝ), legvalFl Arith.exact x c = legval x c := by
    intro x c
    unfold legvalFl legval
    match c.reverse with
    | [] => rfl
    | [c0] => rfl
    | c1 :: c0 :: rest => exact hc _ _ _ _ _
  have hs : p.splitFl Arith.exact x = p.split x := rfl
  unfold PPoly.callFl PPoly.call PPoly.valueFl PPoly.value
  rw [hs]
  simp only [hl]
  exact ⟨rfl, fun _ => rfl⟩

private theorem strictMono_of_asc {p : PPoly ι} (h : ∀ i : Fin p.nseg, p.knots i.castSucc < p.knots i.succ) :
    StrictMono p.knots := Fin.strictMono_iff_lt_succ.2 h

private theorem splitFl_eq {A : Arith} {p : PPoly ι} (hp : 0 < p.nseg)
    (h : ∀ i : Fin p.nseg, p.knots i.castSucc < p.knots i.succ) {i : Fin p.nseg} {x : ℝ} (hx : p.InSeg i x)
    (hdx : p.dx i ≠ 0) :
    p.splitFl A x = .ok (i, A.mul (A.sub x (p.xmFl A i)) (p.invXsFl A i)) := by
  set q : PPoly ι := ⟨p.nseg, p.polyorder, p.knots, fun i => p.knots i.succ - p.knots i.castSucc, p.coef, p.symm⟩
  have hq : q.WF := ⟨hp, strictMono_of_asc h, fun _ => rfl⟩
  have hx' : q.InSeg i x := hx
  obtain ⟨h1, h2⟩ := PPoly.InSeg.mem hq hx'
  have hss : min (p.searchsortedRight x) p.nseg - 1 = i := PPoly.searchsortedRight_eq hq hx'
  unfold PPoly.splitFl
  have h1' : p.xmin ≤ x := h1
  have h2' : x ≤ p.xmax := h2
  rw [if_neg (not_not.2 h1'), if_neg (not_not.2 h2')]
  simp only [hss, Fin.is_lt, dite_true]
  rw [if_neg hdx]

/-- On `[xmin, xmax]`, `p(x)` and `p.value(l, x)` return, for every function `l`, the value of the polynomial of the
segment which contains `x`, up to
`75 n² κ (u ∑ |c_k| + eta) sqrt(2/(b - a)) + eta`,
where `n` is the number of coefficients `c_k` and `κ` is the size of the knots `a`, `b` relative to `b - a`. -/
theorem C79_call {A : Arith} {rt : ℝ → ℝ} {u eta : ℝ} (hA : A.Ok u eta)
    (hrt : ∀ a, 0 ≤ a → |rt a - Real.sqrt a| ≤ u * Real.sqrt a) (hu0 : 0 < u) (hu : u ≤ 1 / 1000) (he : eta ≤ u)
    {p : PPoly ι} (hp : KnotsOk p u eta) (hc : ∀ i l, p.coef i l ≠ [])
    (hn : ∀ i l, 400 * ((p.coef i l).length : ℝ) ^ 2 * relSize (p.knots i.castSucc) (p.knots i.succ) * u ≤ 1)
    [Nonempty ι] {x : ℝ} (h1 : p.knots 0 ≤ x) (h2 : x ≤ p.knots (Fin.last p.nseg)) :
    ∃ i : Fin p.nseg, (p.knots i.castSucc ≤ x ∧
        (x < p.knots i.succ ∨ ((i : ℕ) + 1 = p.nseg ∧ x = p.knots (Fin.last p.nseg)))) ∧
      ∃ f : ι → ℝ, p.callFl A rt x = .ok f ∧ (∀ l, p.valueFl A rt l x = .ok (f l)) ∧
        ∀ l, |f l - segFun (p.knots i.castSucc) (p.knots i.succ) (p.coef i l) x| ≤
          75 * ((p.coef i l).length : ℝ) ^ 2 * relSize (p.knots i.castSucc) (p.knots i.succ) *
            (u * ((p.coef i l).map fun a => |a|).sum + eta) * Real.sqrt (2 / (p.knots i.succ - p.knots i.castSucc)) + eta := by
  have hq : (⟨p.nseg, p.polyorder, p.knots, fun i => p.knots i.succ - p.knots i.castSucc, p.coef, p.symm⟩ : PPoly ι).WF :=
    ⟨hp.pos, strictMono_of_asc hp.asc, fun _ => rfl⟩
  obtain ⟨i, hi⟩ := hq.exists_inSeg h1 h2
  have hi' : p.InSeg i x := hi
  refine ⟨i, hi', ?_⟩
  have key := fun l => value_error (rt := rt) hA hrt hu0 hu (x := x) (dx := p.dx i) (hc i l) (hp.asc i) rfl (hn i l) hi'.1
    (PPoly.InSeg.le hi) (hp.small i) he (hp.large i) (hp.dx i)
  obtain ⟨l0⟩ := ‹Nonempty ι›
  have hs := splitFl_eq (A := A) hp.pos hp.asc hi' (key l0).1
  refine ⟨fun l => A.mul (legvalFl A (A.mul (A.sub x (p.xmFl A i)) (p.invXsFl A i)) (p.coef i l)) (p.normFl A rt i),
    ?_, fun l => ?_, fun l => (key l).2⟩
  · unfold PPoly.callFl
    rw [hs]
  · unfold PPoly.valueFl
    rw [hs]

/-- Outside of the interval the same exception is raised as in real arithmetic. -/
theorem C79_outside (A : Arith) (rt : ℝ → ℝ) (p : PPoly ι) {x : ℝ}
    (hx : x < p.knots 0 ∨ p.knots (Fin.last p.nseg) < x) :
    p.callFl A rt x = .error .valueError ∧ ∀ l, p.valueFl A rt l x = .error .valueError := by
  have hs : p.splitFl A x = .error .valueError := by
    unfold PPoly.splitFl
    rcases hx with h | h
    · rw [if_pos (by unfold PPoly.xmin; exact not_le.2 h)]
    · by_cases h0 : x ≥ p.xmin
      · rw [if_neg (not_not.2 h0), if_pos (by unfold PPoly.xmax; exact not_le.2 h)]
      · rw [if_pos h0]
  unfold PPoly.callFl PPoly.valueFl
  rw [hs]
  exact ⟨rfl, fun _ => rfl⟩

/-- The `dx` which the constructor computes from the knots (`poly.py:47`) is accurate enough. -/
theorem C79_default_dx {A : Arith} {u eta a b : ℝ} (hA : A.Ok u eta) : |A.sub b a - (b - a)| ≤ 5 * u * (|a| + |b|) := by
  have h1 := hA.sub b a
  have h2 := mul_le_mul_of_nonneg_left (abs_sub b a) hA.hu
  have h3 : 0 ≤ u * (|a| + |b|) := mul_nonneg hA.hu (by positivity)
  linarith

/-- So is the `dx` of `basis.u` (`basis.py:74`): the knots are `beta/2 * (x + 1)` and `dx` is scaled separately. -/
theorem C79_basis_u {A : Arith} {u eta a b dx beta : ℝ} (hA : A.Ok u eta) (hu : u ≤ 1 / 1000) (ha : -1 ≤ a)
    (hab : a < b) (hdx : |dx - (b - a)| ≤ u * (b - a)) (hb : 0 ≤ A.div beta 2)
    (he : 100 * eta ≤ u * (A.div beta 2 * (b - a))) :
    |A.mul (A.div beta 2) dx - (A.mul (A.div beta 2) (A.add b 1) - A.mul (A.div beta 2) (A.add a 1))| ≤
      5 * u * (|A.mul (A.div beta 2) (A.add a 1)| + |A.mul (A.div beta 2) (A.add b 1)|) := by
  have hu0 := hA.hu
  have he0 := hA.heta
  set h := A.div beta 2
  have point : ∀ c : ℝ, -1 ≤ c → |A.mul h (A.add c 1) - h * (c + 1)| ≤ 2001 / 1000 * (u * (h * (c + 1))) + eta := by
    intro c hc
    have hc0 : 0 ≤ c + 1 := by linarith
    have e1 := hA.add c 1
    rw [abs_of_nonneg hc0] at e1
    have e2 := hA.mul h (A.add c 1)
    have e3 := abs_sub_le (A.mul h (A.add c 1)) (h * A.add c 1) (h * (c + 1))
    rw [← mul_sub h, abs_mul h (A.add c 1 - (c + 1)), abs_of_nonneg hb] at e3
    have e4 := mul_le_mul_of_nonneg_left e1 hb
    have e5 : |h * A.add c 1| ≤ h * ((c + 1) + u * (c + 1)) := by
      rw [abs_mul, abs_of_nonneg hb]
      apply mul_le_mul_of_nonneg_left _ hb
      have := abs_add_le (A.add c 1 - (c + 1)) (c + 1)
      rw [sub_add_cancel, abs_of_nonneg hc0] at this
      linarith
    have e6 := mul_le_mul_of_nonneg_left e5 hu0
    have e7 : u * (u * (h * (c + 1))) ≤ 1 / 1000 * (u * (h * (c + 1))) :=
      mul_le_mul_of_nonneg_right hu (by positivity)
    linarith
  have hw : 0 < b - a := by linarith
  have hd : |A.mul h dx - h * (b - a)| ≤ 2001 / 1000 * (u * (h * (b - a))) + eta := by
    have e2 := hA.mul h dx
    have e3 := abs_sub_le (A.mul h dx) (h * dx) (h * (b - a))
    rw [← mul_sub h dx, abs_mul h (dx - _), abs_of_nonneg hb] at e3
    have e4 := mul_le_mul_of_nonneg_left hdx hb
    have e5 : |h * dx| ≤ h * ((b - a) + u * (b - a)) := by
      rw [abs_mul, abs_of_nonneg hb]
      apply mul_le_mul_of_nonneg_left _ hb
      have := abs_add_le (dx - (b - a)) (b - a)
      rw [sub_add_cancel, abs_of_pos hw] at this
      linarith
    have e6 := mul_le_mul_of_nonneg_left e5 hu0
    have e7 : u * (u * (h * (b - a))) ≤ 1 / 1000 * (u * (h * (b - a))) :=
      mul_le_mul_of_nonneg_right hu (by positivity)
    linarith
  have pa := point a ha
  have pb := point b (by linarith)
  have hB : 0 ≤ u * (h * (b + 1)) := mul_nonneg hu0 (mul_nonneg hb (by linarith))
  have hAa : 0 ≤ u * (h * (a + 1)) := mul_nonneg hu0 (mul_nonneg hb (by linarith))
  have hb1 : 0 ≤ h * (b + 1) := mul_nonneg hb (by linarith)
  have lower : h * (b + 1) - (2001 / 1000 * (u * (h * (b + 1))) + eta) ≤ |A.mul h (A.add b 1)| := by
    have := abs_sub_abs_le_abs_sub (h * (b + 1)) (A.mul h (A.add b 1))
    rw [abs_of_nonneg hb1, abs_sub_comm] at this
    linarith
  have l2 := mul_le_mul_of_nonneg_left lower hu0
  have l3 := mul_le_mul_of_nonneg_right hu hB
  have l4 := mul_le_mul_of_nonneg_right hu he0
  have l5 : 0 ≤ u * |A.mul h (A.add a 1)| := by positivity
  have tri : |A.mul h dx - (A.mul h (A.add b 1) - A.mul h (A.add a 1))| ≤
      |A.mul h dx - h * (b - a)| + (|A.mul h (A.add b 1) - h * (b + 1)| + |A.mul h (A.add a 1) - h * (a + 1)|) := by
    have e : A.mul h dx - (A.mul h (A.add b 1) - A.mul h (A.add a 1)) = (A.mul h dx - h * (b - a)) -
      ((A.mul h (A.add b 1) - h * (b + 1)) - (A.mul h (A.add a 1) - h * (a + 1))) := by ring
    rw [e]
    refine (abs_sub _ _).trans (add_le_add le_rfl ((abs_sub _ _)))
  have l6 : u * (h * (b - a)) = u * (h * (b + 1)) - u * (h * (a + 1)) := by ring
  linarith

/-- And the `dx` of `basis.v` (`basis.py:75`): the knots are `wmax * y`. -/
theorem C79_basis_v {A : Arith} {u eta a b dx wmax : ℝ} (hA : A.Ok u eta) (hu : u ≤ 1 / 1000)
    (hab : a < b) (hdx : |dx - (b - a)| ≤ u * (b - a)) (hb : 0 ≤ wmax) (he : 100 * eta ≤ u * (wmax * (b - a))) :
    |A.mul wmax dx - (A.mul wmax b - A.mul wmax a)| ≤ 5 * u * (|A.mul wmax a| + |A.mul wmax b|) := by
  have hu0 := hA.hu
  have he0 := hA.heta
  have point : ∀ c : ℝ, |A.mul wmax c - wmax * c| ≤ u * (wmax * |c|) + eta := by
    intro c
    have e2 := hA.mul wmax c
    rwa [abs_mul, abs_of_nonneg hb] at e2
  have hw : 0 < b - a := by linarith
  have hd : |A.mul wmax dx - wmax * (b - a)| ≤ 2001 / 1000 * (u * (wmax * (b - a))) + eta := by
    have e2 := hA.mul wmax dx
    have e3 := abs_sub_le (A.mul wmax dx) (wmax * dx) (wmax * (b - a))
    rw [← mul_sub wmax dx, abs_mul wmax (dx - _), abs_of_nonneg hb] at e3
    have e4 := mul_le_mul_of_nonneg_left hdx hb
    have e5 : |wmax * dx| ≤ wmax * ((b - a) + u * (b - a)) := by
      rw [abs_mul, abs_of_nonneg hb]
      apply mul_le_mul_of_nonneg_left _ hb
      have := abs_add_le (dx - (b - a)) (b - a)
      rw [sub_add_cancel, abs_of_pos hw] at this
      linarith
    have e6 := mul_le_mul_of_nonneg_left e5 hu0
    have e7 : u * (u * (wmax * (b - a))) ≤ 1 / 1000 * (u * (wmax * (b - a))) :=
      mul_le_mul_of_nonneg_right hu (by positivity)
    linarith
  have lower : ∀ c : ℝ, wmax * |c| - (u * (wmax * |c|) + eta) ≤ |A.mul wmax c| := by
    intro c
    have := abs_sub_abs_le_abs_sub (wmax * c) (A.mul wmax c)
    rw [abs_mul, abs_of_nonneg hb, abs_sub_comm] at this
    linarith [point c]
  have pa := point a
  have pb := point b
  have la := mul_le_mul_of_nonneg_left (lower a) hu0
  have lb := mul_le_mul_of_nonneg_left (lower b) hu0
  have qa : 0 ≤ u * (wmax * |a|) := by positivity
  have qb : 0 ≤ u * (wmax * |b|) := by positivity
  have ra := mul_le_mul_of_nonneg_right hu qa
  have rb := mul_le_mul_of_nonneg_right hu qb
  have l4 := mul_le_mul_of_nonneg_right hu he0
  have tri : |A.mul wmax dx - (A.mul wmax b - A.mul wmax a)| ≤
      |A.mul wmax dx - wmax * (b - a)| + (|A.mul wmax b - wmax * b| + |A.mul wmax a - wmax * a|) := by
    have e : A.mul wmax dx - (A.mul wmax b - A.mul wmax a) = (A.mul wmax dx - wmax * (b - a)) -
      ((A.mul wmax b - wmax * b) - (A.mul wmax a - wmax * a)) := by ring
    rw [e]
    refine (abs_sub _ _).trans (add_le_add le_rfl ((abs_sub _ _)))
  have l6 : u * (wmax * (b - a)) ≤ u * (wmax * |a|) + u * (wmax * |b|) := by
    have h1 := abs_sub b a
    rw [abs_of_pos hw] at h1
    have := mul_le_mul_of_nonneg_left (mul_le_mul_of_nonneg_left h1 hb) hu0
    linarith
  linarith

/-- An arithmetic which rounds sums up by the relative error `u` and is exact otherwise. -/
noncomputable def sumUp (u : ℝ) : Arith := { Arith.exact with add := fun a b => (1 + u) * (a + b) }

theorem sumUp_ok {u : ℝ} (hu : 0 ≤ u) : (sumUp u).Ok u 0 := by
  have h := exact_ok u 0 hu le_rfl
  exact ⟨h.hu, h.heta, fun a b => by
    have : (sumUp u).add a b - (a + b) = u * (a + b) := by simp only [sumUp]; ring
    rw [this, abs_mul, abs_of_nonneg hu], h.sub, h.mul, h.div, h.exp, h.expm1, h.sinh, h.cosh⟩

/-- The error really is amplified by the size of the knots relative to the length of the segment: the polynomial `P₁` on
`[a, b]` with `0 ≤ a < b`, evaluated at the middle, where it vanishes. -/
theorem C79_short_segment {u a b : ℝ} (hu : 0 < u) (ha : 0 ≤ a) (hab : a < b) :
    ∃ p : PPoly Unit, KnotsOk p u 0 ∧ p.nseg = 1 ∧ p.knots 0 = a ∧ p.knots (Fin.last p.nseg) = b ∧
      (∀ i l, p.coef i l = [0, 1]) ∧ segFun a b [0, 1] ((a + b) / 2) = 0 ∧
      ∃ f, p.callFl (sumUp u) Real.sqrt ((a + b) / 2) = .ok f ∧
        u * relSize a b * Real.sqrt (2 / (b - a)) ≤ |f () - segFun a b [0, 1] ((a + b) / 2)| := by
  have hw : 0 < b - a := by linarith
  set p : PPoly Unit := ⟨1, 2, ![a, b], fun _ => b - a, fun _ _ => [0, 1], fun _ => 0⟩ with hp
  have hk0 : p.knots (Fin.castSucc (0 : Fin 1)) = a := rfl
  have hk1 : p.knots (Fin.succ (0 : Fin 1)) = b := rfl
  have hasc : ∀ i : Fin p.nseg, p.knots i.castSucc < p.knots i.succ := by
    intro i
    have hi : i = (0 : Fin 1) := Subsingleton.elim _ _
    rw [hi, hk0, hk1]
    exact hab
  have hseg : segFun a b [0, 1] ((a + b) / 2) = 0 := by
    rw [segFun, legendreSum_eq_series, series_eval]
    rw [show (2 * ((a + b) / 2) - (a + b)) / (b - a) = 0 by rw [show 2 * ((a + b) / 2) - (a + b) = 0 by ring, zero_div]]
    simp [Finset.sum_range_succ]
  have hin : p.InSeg (0 : Fin 1) ((a + b) / 2) := by
    refine ⟨?_, Or.inl ?_⟩
    · rw [hk0]; linarith
    · rw [hk1]; linarith
  refine ⟨p, ⟨one_pos, hasc, ?_, ?_, ?_⟩, rfl, rfl, rfl, fun _ _ => rfl, hseg, ?_⟩
  · intro i
    have hi : i = (0 : Fin 1) := Subsingleton.elim _ _
    rw [hi, hk0, hk1]
    have hd : p.dx (0 : Fin 1) = b - a := rfl
    rw [hd, sub_self, abs_zero]
    positivity
  · intro i
    exact mul_nonneg hu.le (sub_nonneg.2 (hasc i).le)
  · intro i
    rw [zero_mul]
    exact hu.le
  · have hs := splitFl_eq (A := sumUp u) one_pos hasc hin hw.ne'
    refine ⟨fun l => (sumUp u).mul (legvalFl (sumUp u) ((sumUp u).mul ((sumUp u).sub ((a + b) / 2)
      (p.xmFl (sumUp u) (0 : Fin 1))) (p.invXsFl (sumUp u) (0 : Fin 1))) (p.coef (0 : Fin 1) l))
      (p.normFl (sumUp u) Real.sqrt (0 : Fin 1)), by unfold PPoly.callFl; rw [hs], ?_⟩
    rw [hseg, sub_zero]
    have hval : (sumUp u).mul (legvalFl (sumUp u) ((sumUp u).mul ((sumUp u).sub ((a + b) / 2) (p.xmFl (sumUp u) (0 : Fin 1)))
        (p.invXsFl (sumUp u) (0 : Fin 1))) (p.coef (0 : Fin 1) ())) (p.normFl (sumUp u) Real.sqrt (0 : Fin 1)) =
        -((1 + u) * (u * ((a + b) / (b - a)))) * Real.sqrt (2 / (b - a)) := by
      have e : (a + b) / 2 - 0.5 * ((1 + u) * (b + a)) = -(u * (a + b) / 2) := by ring
      change (1 + u) * (0 + 1 * (((a + b) / 2 - 0.5 * ((1 + u) * (b + a))) * (2 / (b - a)))) * Real.sqrt (2 / (b - a)) = _
      rw [e]
      field_simp
      ring
    simp only
    rw [hval, abs_mul, abs_neg, abs_of_nonneg (Real.sqrt_nonneg _)]
    apply mul_le_mul_of_nonneg_right _ (Real.sqrt_nonneg _)
    have hr : relSize a b = (a + b) / (b - a) := by
      rw [relSize, abs_of_nonneg ha, abs_of_nonneg (by linarith)]
    rw [hr]
    have h0 : 0 ≤ u * ((a + b) / (b - a)) := by
      apply mul_nonneg hu.le
      apply div_nonneg <;> linarith
    rw [abs_of_nonneg (by positivity)]
    nlinarith

/-- The hypotheses of `C79_call` can be met: ten coefficients on each of two segments, double precision. -/
example : ∃ p : PPoly Unit, KnotsOk p (1 / 10 ^ 16) (1 / 10 ^ 60) ∧ (∀ i l, p.coef i l ≠ []) ∧
    ∀ i l, 400 * ((p.coef i l).length : ℝ) ^ 2 * relSize (p.knots i.castSucc) (p.knots i.succ) * (1 / 10 ^ 16) ≤ 1 := by
  have k2 : (![-1, 0, 1] : Fin 3 → ℝ) 2 = 1 := rfl
  refine ⟨⟨2, 10, ![-1, 0, 1], fun _ => 1, fun _ _ => List.replicate 10 1, fun _ => 0⟩, ⟨by norm_num, ?_, ?_, ?_, ?_⟩, ?_, ?_⟩
  · intro i
    fin_cases i <;> simp
  · intro i
    fin_cases i <;> simp
  · intro i
    fin_cases i <;> norm_num [k2]
  · intro i
    fin_cases i <;> norm_num [k2]
  · intro i l
    simp
  · intro i l
    fin_cases i <;> simp only [relSize, List.length_replicate] <;> norm_num [k2]

end Verif.Props
