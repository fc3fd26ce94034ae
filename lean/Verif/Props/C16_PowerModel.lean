import Verif.Props.C14_FourierTransform
import Verif.Lemmas.SegPoly
/-!
# C16 — the high-frequency model is the exact moment expansion
-/

namespace Verif.Props
open Verif Verif.Np Verif.Poly Verif.Spec Complex Polynomial

variable {ι : Type _}

theorem horner (ms : List ℝ) (z : ℂ) :
    ms.reverse.foldl (fun (r : ℂ) (a : ℝ) => (r + (a : ℂ)) * z) 0 =
      ∑ m ∈ Finset.range ms.length, (ms.getD m 0 : ℂ) * z ^ (m + 1) := by
  induction ms with
  | nil => simp
  | cons a ms ih =>
    rw [List.reverse_cons, List.foldl_append, ih, List.length_cons, Finset.sum_range_succ']
    simp only [List.foldl_cons, List.foldl_nil, List.getD_cons_succ, List.getD_cons_zero]
    rw [add_mul, Finset.sum_mul]
    congr 1
    · apply Finset.sum_congr rfl
      intro m _; ring
    · ring

theorem giw_eq (moments : List (ι → ℝ)) (n : ℤ) (l : ι) (hn : n ≠ 0) :
    giw moments n l = ∑ m ∈ Finset.range moments.length,
      (((moments.map fun v => v l).getD m 0 : ℝ) : ℂ) * ((I * Real.pi / 2 * n)⁻¹) ^ (m + 1) := by
  have h := horner (moments.map fun v => v l) ((I * Real.pi / 2 * n)⁻¹)
  rw [List.length_map] at h
  rw [← h, giw, ← List.map_reverse, List.foldl_map]
  simp only [ne_eq, hn, not_false_eq_true, if_true]

/-- `giw(n)` is the moment series for `n ≠ 0`. -/
theorem C16_series (moments : List (ι → ℝ)) (n : ℤ) (l : ι) (hn : n ≠ 0) :
    giw moments n l = ∑ m : Fin moments.length,
      (moments.get m l : ℂ) / (I * Real.pi * n / 2) ^ ((m : ℕ) + 1) := by
  rw [giw_eq _ _ _ hn, Finset.sum_range]
  apply Finset.sum_congr rfl
  intro m _
  have : I * (Real.pi : ℂ) / 2 * n = I * Real.pi * n / 2 := by ring
  rw [this, inv_pow, div_eq_mul_inv]
  congr 2
  simp [List.getD_eq_getElem?_getD]

/-- `giw(0)` is zero. -/
theorem C16_zero (moments : List (ι → ℝ)) (l : ι) : giw moments 0 l = 0 := by
  unfold giw
  simp only [Int.cast_zero, mul_zero, ne_eq, not_true_eq_false, if_false]
  generalize moments.reverse = ms
  have : ∀ (ms : List (ι → ℝ)), ms.foldl (fun (_ : ℂ) (_ : ι → ℝ) => (0 : ℂ)) 0 = 0 := by
    intro ms; induction ms with
    | nil => rfl
    | cons a ms ih => simpa using ih
  exact this ms

/-! ### Exactness -/

/-- Regroup the boundary terms of all segments: outer boundary minus the jumps at interior knots. -/
theorem telescope (n : ℕ) (L R : ℕ → ℂ) :
    ∑ i ∈ Finset.range (n + 1), (R i - L i) =
      R n - L 0 - ∑ j ∈ Finset.range n, (L (j + 1) - R j) := by
  induction n with
  | zero => simp
  | succ n ih => rw [Finset.sum_range_succ, ih, Finset.sum_range_succ]; ring

/-- The jump of the `m`-th derivative of function `l` at the knot between segments `j` and `j+1`. -/
noncomputable def jump (p : PPoly ι) (l : ι) (m : ℕ) (j : ℕ) (hj : j + 1 < p.nseg) : ℝ :=
  (derivative^[m] (p.seg l ⟨j + 1, hj⟩)).eval (p.knots ⟨j + 1, by omega⟩) -
    (derivative^[m] (p.seg l ⟨j, by omega⟩)).eval (p.knots ⟨j + 1, by omega⟩)

/-- The contribution of the interior knots to the Fourier transform. -/
noncomputable def jumpTerm (p : PPoly ι) (l : ι) (w : ℝ) (m j : ℕ) : ℂ :=
  if hj : j + 1 < p.nseg then
    (-1) ^ m / (I * w) ^ (m + 1) * (exp (I * w * (p.knots ⟨j + 1, by omega⟩ + 1)) * (jump p l m j hj : ℂ))
  else 0

theorem last_inSeg {p : PPoly ι} (h : p.WF) (hmax : p.xmax = 1) :
    p.InSeg ⟨p.nseg - 1, by have := h.pos; omega⟩ 1 := by
  have hp := h.pos
  refine ⟨?_, Or.inr ⟨by simp; omega, hmax.symm⟩⟩
  rw [← hmax]; exact h.mono.monotone (Fin.le_last _)

/-- The Fourier transform as a sum over boundary terms. -/
theorem ft_boundary (p : PPoly ι) (h : p.WF) (hmin : p.xmin = -1) (hmax : p.xmax = 1) (l : ι)
    (hlen : ∀ i, (p.coef i l).length = p.polyorder) (n : ℤ) (hn : n ≠ 0) :
    ft (fn p l) n = 1 / (Real.sqrt 2 : ℂ) * ∑ m ∈ Finset.range p.polyorder,
      (bterm (Real.pi / 2 * n) (p.seg l ⟨p.nseg - 1, by have := h.pos; omega⟩) 1 m -
        bterm (Real.pi / 2 * n) (p.seg l ⟨0, h.pos⟩) (-1) m -
        ∑ j ∈ Finset.range (p.nseg - 1), jumpTerm p l (Real.pi / 2 * n) m j) := by
  have hw : Real.pi / 2 * (n : ℝ) ≠ 0 :=
    mul_ne_zero (by positivity) (by exact_mod_cast hn)
  unfold ft
  congr 1
  have hpw := (integral_piecewise p.knots h.mono.monotone
    (fun x : ℝ => exp (I * Real.pi * n * (x + 1) / 2) * (fn p l x : ℂ))
    (fun i x => exp (I * ((Real.pi / 2 * n : ℝ) : ℂ) * (x + 1)) * (((p.seg l i).eval x : ℝ) : ℂ))
    (fun i => by
      have := (p.seg l i).continuous
      fun_prop)
    (fun i x h1 h2 => by
      rw [fn_seg h (i := i) ⟨h1.le, Or.inl h2⟩]
      congr 2
      push_cast; ring)).2
  rw [show p.knots 0 = -1 from hmin, show p.knots (Fin.last p.nseg) = 1 from hmax] at hpw
  rw [hpw]
  have hseg : ∀ i : Fin p.nseg, ∫ x in (p.knots i.castSucc)..(p.knots i.succ),
      exp (I * ((Real.pi / 2 * n : ℝ) : ℂ) * (x + 1)) * (((p.seg l i).eval x : ℝ) : ℂ) =
      ∑ m ∈ Finset.range p.polyorder, (bterm (Real.pi / 2 * n) (p.seg l i) (p.knots i.succ) m -
        bterm (Real.pi / 2 * n) (p.seg l i) (p.knots i.castSucc) m) := fun i =>
    parts_all hw _ _ _ _ (iterate_derivative_segPoly_eq_zero _ _ _ _ (hlen i).le)
  rw [Finset.sum_congr rfl (fun i _ => hseg i), Finset.sum_comm]
  apply Finset.sum_congr rfl
  intro m _
  -- telescoping over segments
  set w := Real.pi / 2 * (n : ℝ)
  let R : ℕ → ℂ := fun j => if hj : j < p.nseg then bterm w (p.seg l ⟨j, hj⟩) (p.knots ⟨j + 1, by omega⟩) m else 0
  let L : ℕ → ℂ := fun j => if hj : j < p.nseg then bterm w (p.seg l ⟨j, hj⟩) (p.knots ⟨j, by omega⟩) m else 0
  have hpos := h.pos
  have e1 : ∑ i : Fin p.nseg, (bterm w (p.seg l i) (p.knots i.succ) m -
      bterm w (p.seg l i) (p.knots i.castSucc) m) = ∑ j ∈ Finset.range p.nseg, (R j - L j) := by
    rw [Finset.sum_range]
    apply Finset.sum_congr rfl
    intro i _
    simp only [R, L, i.2, dif_pos]
    rfl
  rw [e1]
  obtain ⟨N, hN⟩ : ∃ N, p.nseg = N + 1 := ⟨p.nseg - 1, by omega⟩
  have e2 := telescope N L R
  rw [show Finset.range p.nseg = Finset.range (N + 1) by rw [hN], e2,
    show Finset.range (p.nseg - 1) = Finset.range N by rw [hN]; rfl]
  have eR : R N = bterm w (p.seg l ⟨N, by omega⟩) 1 m := by
    simp only [R]
    rw [dif_pos (by omega)]
    congr 1
    rw [← hmax]; unfold PPoly.xmax
    congr 1; ext; simp [hN]
  have eL : L 0 = bterm w (p.seg l ⟨0, h.pos⟩) (-1) m := by
    simp only [L]
    rw [dif_pos h.pos, ← hmin]
    rfl
  have eI : (⟨p.nseg - 1, by omega⟩ : Fin p.nseg) = ⟨N, by omega⟩ := by ext; simp [hN]
  rw [eR, eL, eI]
  congr 1
  apply Finset.sum_congr rfl
  intro j hj
  have hj := Finset.mem_range.1 hj
  simp only [R, L]
  rw [dif_pos (show j + 1 < p.nseg by omega), dif_pos (show j < p.nseg by omega), jumpTerm,
    dif_pos (show j + 1 < p.nseg by omega)]
  unfold bterm jump
  push_cast
  ring

/-- A statistics and a frequency that go together. -/
theorem statsign_exp (n : ℤ) : exp (I * Real.pi * n) = (-1) ^ n := by
  rw [show I * (Real.pi : ℂ) * n = n * (Real.pi * I) by ring, exp_int_mul, exp_pi_mul_I]

theorem parity_poly {q r : ℝ[X]} {s a b : ℝ} (hab : a < b)
    (h : ∀ x, a < x → x < b → q.eval (-x) = s * r.eval x) : q.comp (-X) = C s * r := by
  apply eq_of_infinite_eval_eq
  apply Set.Infinite.mono (s := Set.Ioo a b) _ (Set.Ioo_infinite hab)
  intro x hx
  simp only [Set.mem_setOf_eq, eval_comp, eval_neg, eval_X, eval_mul, eval_C]
  exact h x hx.1 hx.2

theorem iterate_derivative_comp_neg (q : ℝ[X]) (m : ℕ) :
    derivative^[m] (q.comp (-X)) = C ((-1) ^ m) * (derivative^[m] q).comp (-X) := by
  induction m with
  | zero => simp
  | succ m ih =>
    rw [Function.iterate_succ_apply', ih, Function.iterate_succ_apply', derivative_C_mul,
      derivative_comp]
    simp only [derivative_neg, derivative_X, pow_succ, C_mul, C_neg, C_1]
    ring

/-- If function `l` has parity `s` about the origin, the outer derivatives are related. -/
theorem outer_derivs (p : PPoly ι) (h : p.WF) (hmin : p.xmin = -1) (hmax : p.xmax = 1) (l : ι) (s : ℝ)
    (hsym : ∀ x, -1 < x → x < 1 → fn p l (-x) = s * fn p l x) (m : ℕ) :
    (derivative^[m] (p.seg l ⟨0, h.pos⟩)).eval (-1) =
      (-1) ^ m * s * (derivative^[m] (p.seg l ⟨p.nseg - 1, by have := h.pos; omega⟩)).eval 1 := by
  have hpos := h.pos
  set iL : Fin p.nseg := ⟨p.nseg - 1, by omega⟩ with hiL
  set i0 : Fin p.nseg := ⟨0, h.pos⟩ with hi0
  have k0 : p.knots i0.castSucc = -1 := by rw [← hmin]; rfl
  have kL : p.knots iL.succ = 1 := by
    rw [← hmax]; unfold PPoly.xmax; congr 1; ext; simp [hiL]; omega
  have d0 := h.dx_pos i0
  have dL := h.dx_pos iL
  rw [h.dx_eq] at d0 dL
  have hq : (p.seg l i0).comp (-X) = C s * p.seg l iL := by
    apply parity_poly (a := max (p.knots iL.castSucc) (-(p.knots i0.succ))) (b := 1)
    · apply max_lt <;> linarith
    · intro x hx1 hx2
      have hx3 := (max_lt_iff.1 hx1)
      have hm : -1 ≤ p.knots iL.castSucc := by rw [← hmin]; exact h.mono.monotone (Fin.zero_le _)
      have e1 : fn p l (-x) = (p.seg l i0).eval (-x) :=
        fn_seg h (i := i0) ⟨by rw [k0]; linarith, Or.inl (by linarith [hx3.2])⟩ l
      have e2 : fn p l x = (p.seg l iL).eval x :=
        fn_seg h (i := iL) ⟨hx3.1.le, Or.inl (by rw [kL]; exact hx2)⟩ l
      rw [← e1, ← e2]
      exact hsym x (by linarith [hx3.1]) hx2
  have hd := congrArg (fun q => (derivative^[m] q).eval 1) hq
  simp only [iterate_derivative_comp_neg, iterate_derivative_C_mul, eval_mul, eval_C, eval_comp,
    eval_neg, eval_X] at hd
  have : ((-1 : ℝ) ^ m) * (-1) ^ m = 1 := by rw [← mul_pow]; simp
  calc _ = ((-1 : ℝ) ^ m * (-1) ^ m) * (derivative^[m] (p.seg l i0)).eval (-1) := by
        rw [this, one_mul]
    _ = (-1) ^ m * ((-1) ^ m * (derivative^[m] (p.seg l i0)).eval (-1)) := by ring
    _ = _ := by rw [hd]; ring

theorem powerModel_eq (p : PPoly ι) (h : p.WF) (hmax : p.xmax = 1) (hpo : 1 ≤ p.polyorder)
    (pos : ι → ℕ) (freq : Freq) (s : ℝ) (hs : freq.statsign = .ok s) :
    powerModel pos freq p = .ok ((List.range p.polyorder).map fun m l => powerMoment s m (pos l)
      ((derivative^[m] (p.seg l ⟨p.nseg - 1, by have := h.pos; omega⟩)).eval 1)) := by
  unfold powerModel
  rw [derivsLoop_spec h (last_inSeg h hmax), hs]
  simp only [Except.ok.injEq]
  rw [show p.polyorder - 1 + 1 = p.polyorder by omega]
  unfold powerMoments
  apply List.ext_getElem
  · simp
  · intro m h1 h2
    simp

/-- Model versus exact transform, for any number of segments: the difference is exactly the
contribution of the jumps of the derivatives at the interior knots. -/
theorem C16_error (p : PPoly ι) (h : p.WF) (hmin : p.xmin = -1) (hmax : p.xmax = 1)
    (hpo : 1 ≤ p.polyorder) (hlen : ∀ i l, (p.coef i l).length = p.polyorder)
    (pos : ι → ℕ) (freq : Freq) (na : ℝ) (hfreq : freq ≠ .any)
    (hsym : ∀ l x, -1 < x → x < 1 → fn p l (-x) = (-1) ^ pos l * fn p l x) :
    ∃ f moments, PFT.ctor pos p freq (some na) none = .ok f ∧ f.model = some moments ∧
      ∀ n : ℤ, n ≠ 0 → HasParity freq.zeta n → ∀ l, ft (fn p l) n = giw moments n l -
        1 / (Real.sqrt 2 : ℂ) * ∑ m ∈ Finset.range p.polyorder,
          ∑ j ∈ Finset.range (p.nseg - 1), jumpTerm p l (Real.pi / 2 * n) m j := by
  obtain ⟨s, hs⟩ : ∃ s, freq.statsign = .ok s := by
    cases freq with
    | any => exact absurd rfl hfreq
    | even => exact ⟨1, rfl⟩
    | odd => exact ⟨-1, rfl⟩
  have hpm := powerModel_eq p h hmax hpo pos freq s hs
  refine ⟨⟨p, freq, some na, some _⟩, (List.range p.polyorder).map fun m l =>
    powerMoment s m (pos l)
      ((derivative^[m] (p.seg l ⟨p.nseg - 1, by have := h.pos; omega⟩)).eval 1), ?_, rfl, ?_⟩
  · unfold PFT.ctor
    rw [if_neg (by rw [hmin, hmax]; simp)]
    simp only
    rw [hpm]
  · intro n hn hpar l
    have hsn : ((-1 : ℂ) ^ n) = (s : ℂ) := by
      cases freq with
      | any => exact absurd rfl hfreq
      | even =>
        cases hs
        simp only [HasParity, Freq.zeta] at hpar
        rw [Even.neg_one_zpow (Int.even_iff.2 hpar)]; simp
      | odd =>
        cases hs
        simp only [HasParity, Freq.zeta] at hpar
        rw [Odd.neg_one_zpow (Int.odd_iff.2 hpar)]; simp
    have hs2 : (s : ℂ) * s = 1 := by
      rw [← hsn, ← mul_zpow]; simp
    rw [ft_boundary p h hmin hmax l (fun i => hlen i l) n hn, giw_eq _ _ _ hn, List.length_map,
      List.length_range, Finset.sum_sub_distrib, mul_sub]
    congr 1
    rw [Finset.mul_sum]
    apply Finset.sum_congr rfl
    intro m hm
    have hm := Finset.mem_range.1 hm
    have e1 : (List.map (fun v => v l) (List.map (fun m l => powerMoment s m (pos l)
        (eval 1 (derivative^[m] (p.seg l ⟨p.nseg - 1, by have := h.pos; omega⟩))))
        (List.range p.polyorder))).getD m 0 = powerMoment s m (pos l)
        (eval 1 (derivative^[m] (p.seg l ⟨p.nseg - 1, by have := h.pos; omega⟩))) := by
      simp [List.getD_eq_getElem?_getD, hm]
    rw [e1]
    unfold bterm powerMoment
    rw [outer_derivs p h hmin hmax l _ (hsym l) m]
    have x1 : exp (I * ((Real.pi / 2 * n : ℝ) : ℂ) * (((1 : ℝ) : ℂ) + 1)) = s := by
      rw [← hsn, ← statsign_exp]; congr 1; push_cast; ring
    have x2 : exp (I * ((Real.pi / 2 * n : ℝ) : ℂ) * (((-1 : ℝ) : ℂ) + 1)) = 1 := by
      push_cast; simp
    rw [x1, x2]
    have x3 : I * ((Real.pi / 2 * n : ℝ) : ℂ) = I * Real.pi / 2 * n := by push_cast; ring
    rw [x3, inv_pow]
    generalize eval 1 (derivative^[m] (p.seg l ⟨p.nseg - 1, by have := h.pos; omega⟩)) = d
    generalize (I * (Real.pi : ℂ) / 2 * n) ^ (m + 1) = z
    have hm2 : ((-1 : ℂ) ^ m) * (-1) ^ m = 1 := by rw [← mul_pow]; simp
    push_cast
    rw [pow_succ]
    linear_combination (1 / (Real.sqrt 2 : ℂ)) * z⁻¹ * d * (-1) ^ pos l * (hs2 - hm2)

/-- Without interior knots the model is exact for every non-zero `n` of the matching parity. -/
theorem C16_exact (p : PPoly ι) (h : p.WF) (hmin : p.xmin = -1) (hmax : p.xmax = 1) (hseg : p.nseg = 1)
    (hpo : 1 ≤ p.polyorder) (hlen : ∀ i l, (p.coef i l).length = p.polyorder)
    (pos : ι → ℕ) (freq : Freq) (na : ℝ) (hfreq : freq ≠ .any)
    (hsym : ∀ l x, -1 < x → x < 1 → fn p l (-x) = (-1) ^ pos l * fn p l x) :
    ∃ f moments, PFT.ctor pos p freq (some na) none = .ok f ∧ f.model = some moments ∧
      ∀ n : ℤ, n ≠ 0 → HasParity freq.zeta n → ∀ l, giw moments n l = ft (fn p l) n := by
  obtain ⟨f, ms, h1, h2, h3⟩ := C16_error p h hmin hmax hpo hlen pos freq na hfreq hsym
  refine ⟨f, ms, h1, h2, ?_⟩
  intro n hn hpar l
  rw [h3 n hn hpar l, hseg]
  simp

/-- More generally the model is exact if all derivatives are continuous at the interior knots. -/
theorem C16_exact_smooth (p : PPoly ι) (h : p.WF) (hmin : p.xmin = -1) (hmax : p.xmax = 1)
    (hpo : 1 ≤ p.polyorder) (hlen : ∀ i l, (p.coef i l).length = p.polyorder)
    (pos : ι → ℕ) (freq : Freq) (na : ℝ) (hfreq : freq ≠ .any)
    (hsym : ∀ l x, -1 < x → x < 1 → fn p l (-x) = (-1) ^ pos l * fn p l x)
    (hjump : ∀ l m j hj, jump p l m j hj = 0) :
    ∃ f moments, PFT.ctor pos p freq (some na) none = .ok f ∧ f.model = some moments ∧
      ∀ n : ℤ, n ≠ 0 → HasParity freq.zeta n → ∀ l, giw moments n l = ft (fn p l) n := by
  obtain ⟨f, ms, h1, h2, h3⟩ := C16_error p h hmin hmax hpo hlen pos freq na hfreq hsym
  refine ⟨f, ms, h1, h2, ?_⟩
  intro n hn hpar l
  have : ∀ m j, jumpTerm p l (Real.pi / 2 * n) m j = 0 := by
    intro m j
    unfold jumpTerm
    split
    · rw [hjump]; simp
    · rfl
  rw [h3 n hn hpar l]
  simp [this]

theorem exPoly_fn {x : ℝ} (h1 : -1 < x) (h2 : x < 1) (l : Unit) : fn exPoly l x = x := by
  have hx : exPoly.InSeg (0 : Fin 1) x := ⟨h1.le, Or.inl h2⟩
  rw [fn, PPoly.call_eq exPoly_WF hx]
  show segFun (-1) 1 [0, 1] x = x
  rw [segFun_affine]
  norm_num [Legendre.series, Finset.sum_range_succ]

/- Non-vacuity: the odd function `x`, taken at position 1 of a set of functions. -/
example : ∃ f moments, PFT.ctor (fun _ => 1) exPoly .even (some 2) none = .ok f ∧
    f.model = some moments ∧ giw moments 4 () = ft (fn exPoly ()) 4 := by
  obtain ⟨f, ms, h1, h2, h3⟩ := C16_exact exPoly exPoly_WF rfl rfl rfl (by decide)
    (fun _ _ => rfl) (fun _ => 1) .even 2 (by decide)
    (by intro l x h1 h2; rw [exPoly_fn h1 h2, exPoly_fn (by linarith) (by linarith)]; ring)
  exact ⟨f, ms, h1, h2, h3 4 (by decide) (by simp [HasParity, Freq.zeta]) ()⟩

end Verif.Props
