import Verif.Props.C36_Sampling
import Verif.Props.C33_Grids
import Mathlib.Data.Fin.Tuple.Sort
import Mathlib.MeasureTheory.Integral.IntervalIntegral.IntegrationByParts
/-!
# C37: recombining the even and odd expansions
-/

namespace Verif.Props
open Verif Verif.Sve Verif.Spec Verif.Poly Polynomial MeasureTheory

/-- A strictly increasing grid with `2n + 1` points, symmetric about zero, that ends at `b`. -/
structure FullGrid (segs : List ℝ) (n : ℕ) (b : ℝ) : Prop where
  pos : 0 < n
  len : segs.length = 2 * n + 1
  sorted : segs.Pairwise (· < ·)
  symm : segs.map (- ·) = segs.reverse
  last : segs.getLast? = some b

/-- Legendre coefficients with alternating signs belong to the mirrored function. -/
theorem legendreSum_flip (c : List ℝ) (s t : ℝ) :
    legendreSum (c.mapIdx fun p x => x * (-1) ^ p * s) t = s * legendreSum c (-t) := by
  unfold legendreSum
  rw [Finset.mul_sum]
  apply Fintype.sum_equiv (finCongr (by simp))
  intro k
  simp only [List.get_eq_getElem, List.getElem_mapIdx, finCongr_apply, Fin.val_cast]
  rw [Legendre.eval_neg]
  ring

theorem segFun_flip (a b : ℝ) (c : List ℝ) (s x : ℝ) :
    segFun (-b) (-a) (c.mapIdx fun p x => x * (-1) ^ p * s) x = s * segFun a b c (-x) := by
  unfold segFun
  rw [legendreSum_flip]
  rw [show -a - -b = b - a by ring]
  rw [show -((2 * x - (-b + -a)) / (b - a)) = (2 * -x - (a + b)) / (b - a) by ring]
  ring

theorem segFun_map_mul (a b : ℝ) (c : List ℝ) (g x : ℝ) :
    segFun a b (c.map (· * g)) x = segFun a b c x * g := by
  unfold segFun
  rw [legendreSum_map_mul]
  ring

theorem FullGrid.get {segs : List ℝ} {n : ℕ} {b : ℝ} (h : FullGrid segs n b) (i : ℕ) (hi : i < segs.length) :
    segs[i] = - segs[2 * n - i]'(by have := h.len; omega) := by
  have hl := h.len
  have := congrArg (·[2 * n - i]?) h.symm
  simp only [List.getElem?_map, List.getElem?_reverse (show 2 * n - i < segs.length by omega)] at this
  rw [List.getElem?_eq_getElem (by omega), List.getElem?_eq_getElem (by omega), Option.map_some,
    Option.some.injEq] at this
  rw [this]
  congr 1
  omega

theorem coefAt_eq {κ : Type} (p : PPoly κ) {i : ℕ} (h : i < p.nseg) (l : κ) :
    coefAt p i l = p.coef ⟨i, h⟩ l := dif_pos h

/-- The half polynomials: `n` segments, knots the upper half of the grid. -/
structure HalfOf {κ : Type} (p : PPoly κ) (segs : List ℝ) (n : ℕ) : Prop where
  wf : p.WF
  nseg : p.nseg = n
  knots : ∀ (i : ℕ) (hi : i < p.nseg + 1), some (p.knots ⟨i, hi⟩) = segs[n + i]?

theorem HalfOf.fn {κ : Type} {p : PPoly κ} {segs : List ℝ} {n : ℕ} (h : HalfOf p segs n) (l : κ) (i : ℕ)
    (hi : i < n) (hlen : n + i + 1 < segs.length) {x : ℝ} (h1 : segs[n + i] < x) (h2 : x < segs[n + i + 1]) :
    fn p l x = segFun segs[n + i] segs[n + i + 1] (coefAt p i l) x := by
  have hi' : i < p.nseg := by rw [h.nseg]; exact hi
  have k1 := h.knots i (by omega)
  have k2 := h.knots (i + 1) (by omega)
  rw [List.getElem?_eq_getElem (by omega), Option.some.injEq] at k1
  rw [List.getElem?_eq_getElem (by omega), Option.some.injEq] at k2
  have k2' : p.knots ⟨i + 1, by omega⟩ = segs[n + i + 1] := k2
  rw [fn_eq h.wf l (i := ⟨i, hi'⟩) (by show p.knots ⟨i, _⟩ < x; rw [k1]; exact h1)
    (by show x < p.knots ⟨i + 1, _⟩; rw [k2']; exact h2), coefAt_eq p hi']
  show segFun (p.knots ⟨i, _⟩) (p.knots ⟨i + 1, _⟩) _ x = _
  rw [k1, k2']

/-- The merged polynomial on the full interval: on the positive side the half functions divided by
`sqrt(2)`, on the negative side their mirror images times the sign. -/
theorem C37_extend {ke ko : ℕ} (even : PPoly (Fin ke)) (odd : PPoly (Fin ko)) (segs : List ℝ) (n : ℕ) (b : ℝ)
    (hg : FullGrid segs n b) (he : HalfOf even segs n) (ho : HalfOf odd segs n)
    (hord : even.polyorder = odd.polyorder) (sort : Fin (ke + ko) → Fin (ke + ko))
    (signs : Fin (ke + ko) → ℝ) :
    ∃ p, extendParity even odd sort signs segs = .ok p ∧ p.WF ∧ p.xmin = -b ∧ p.xmax = b ∧ p.symm = signs ∧
      p.polyorder = even.polyorder ∧
      (∀ (i : ℕ) (hi : i < p.nseg + 1), some (p.knots ⟨i, hi⟩) = segs[i]?) ∧ p.nseg = 2 * n ∧
      ∀ l x, 0 < x → x < b → x ∉ segs →
        fn p l x = Fin.append (fn even) (fn odd) (sort l) x / Real.sqrt 2 ∧
        fn p l (-x) = signs l * fn p l x := by
  have hlen := hg.len
  have hpos := hg.pos
  have hne : even.nseg = n := he.nseg
  have hno : odd.nseg = n := ho.nseg
  have hmid : segs[n]'(by omega) = 0 := by
    have := hg.get n (by omega)
    simp only [show 2 * n - n = n by omega] at this
    linarith
  have hlast : segs[2 * n]'(by omega) = b := by
    have := hg.last
    rw [List.getLast?_eq_getElem?, show segs.length - 1 = 2 * n by omega,
      List.getElem?_eq_getElem (by omega), Option.some.injEq] at this
    exact this
  obtain ⟨p, hp, hWF, hns, hpo, hsy, hkn, hco⟩ := ctor_WF (n := even.nseg + even.nseg)
    (ncoef := even.polyorder)
    (fun i (l : Fin (ke + ko)) =>
        if i.1 < even.nseg then ((merged (coefAt even (even.nseg - 1 - i.1)) (coefAt odd (even.nseg - 1 - i.1))
          sort l).map (· * (1 / Real.sqrt 2))).mapIdx fun p c => c * (-1) ^ p * signs l
        else (merged (coefAt even (i.1 - even.nseg)) (coefAt odd (i.1 - even.nseg)) sort l).map
          (· * (1 / Real.sqrt 2)))
    segs (by omega) (by omega) hg.sorted (some signs)
  have hns' : p.nseg = 2 * n := by omega
  have hkn' : ∀ i (hi : i < 2 * n + 1), p.knots ⟨i, by omega⟩ = segs[i]'(by omega) := by
    intro i hi
    have := hkn i (by omega)
    rw [List.getElem?_eq_getElem (by omega), Option.some.injEq] at this
    exact this
  refine ⟨p, ?_, hWF, ?_, ?_, hsy, hpo, hkn, hns', ?_⟩
  · unfold extendParity
    rw [if_neg (by rw [hne, hno]; simp [hord])]
    exact hp
  · show p.knots ⟨0, _⟩ = _
    rw [hkn' 0 (by omega), hg.get 0 (by omega)]
    simp only [Nat.sub_zero]
    rw [hlast]
  · have h1 : p.xmax = p.knots ⟨p.nseg, by omega⟩ := rfl
    have h2 := hkn p.nseg (by omega)
    have h3 : segs[p.nseg]? = some b := by
      rw [hns', List.getElem?_eq_getElem (by omega), hlast]
    rw [h1]
    exact Option.some.inj (h2.trans h3)
  · intro l x h0 hb hx
    -- the segment of x
    obtain ⟨i, hi, h1, h2⟩ : ∃ i, ∃ hi : i < n, segs[n + i]'(by omega) < x ∧
        x < segs[n + i + 1]'(by omega) := by
      have key : ∀ m : ℕ, (hm : m ≤ n) → x < segs[n + m]'(by omega) → ∃ i, ∃ hi : i < n,
          segs[n + i]'(by omega) < x ∧ x < segs[n + i + 1]'(by omega) := by
        intro m
        induction m with
        | zero =>
          intro hm h
          simp only [Nat.add_zero] at h
          rw [hmid] at h
          linarith
        | succ m ih =>
          intro hm h
          rcases lt_trichotomy x (segs[n + m]'(by omega)) with h' | h' | h'
          · exact ih (by omega) h'
          · exact absurd (h' ▸ List.getElem_mem _) hx
          · exact ⟨m, by omega, h', h⟩
      exact key n le_rfl (by simp only [show n + n = 2 * n by omega]; rw [hlast]; exact hb)
    -- half function on it
    have hhalf : ∀ m : Fin (ke + ko), Fin.append (fn even) (fn odd) m x =
        segFun (segs[n + i]'(by omega)) (segs[n + i + 1]'(by omega))
          (Fin.append (coefAt even i) (coefAt odd i) m) x := by
      intro m
      refine Fin.addCases (fun a => ?_) (fun a => ?_) m
      · rw [Fin.append_left, Fin.append_left]
        exact he.fn a i hi (by omega) h1 h2
      · rw [Fin.append_right, Fin.append_right]
        exact ho.fn a i hi (by omega) h1 h2
    have hposv : fn p l x = Fin.append (fn even) (fn odd) (sort l) x / Real.sqrt 2 := by
      have hi' : n + i < p.nseg := by omega
      rw [fn_eq hWF l (i := ⟨n + i, hi'⟩)
        (by show p.knots ⟨n + i, _⟩ < x; rw [hkn' (n + i) (by omega)]; exact h1)
        (by show x < p.knots ⟨n + i + 1, _⟩; rw [hkn' (n + i + 1) (by omega)]; exact h2), hco (n + i) hi']
      show segFun (p.knots ⟨n + i, _⟩) (p.knots ⟨n + i + 1, _⟩) _ x = _
      rw [hkn' (n + i) (by omega), hkn' (n + i + 1) (by omega), hhalf]
      simp only
      rw [if_neg (by omega), show n + i - even.nseg = i by omega, segFun_map_mul]
      simp only [merged]
      ring
    refine ⟨hposv, ?_⟩
    set j := n - 1 - i with hj
    have hj' : j < p.nseg := by omega
    have e1 : segs[j]'(by omega) = - segs[n + i + 1]'(by omega) := by
      rw [hg.get j (by omega)]
      congr 2
      omega
    have e2 : segs[j + 1]'(by omega) = - segs[n + i]'(by omega) := by
      rw [hg.get (j + 1) (by omega)]
      congr 2
      omega
    rw [fn_eq hWF l (i := ⟨j, hj'⟩)
        (by show p.knots ⟨j, _⟩ < -x; rw [hkn' j (by omega), e1]; linarith)
        (by show -x < p.knots ⟨j + 1, _⟩; rw [hkn' (j + 1) (by omega), e2]; linarith), hco j hj']
    show segFun (p.knots ⟨j, _⟩) (p.knots ⟨j + 1, _⟩) _ (-x) = _
    rw [hkn' j (by omega), hkn' (j + 1) (by omega), e1, e2, hposv, hhalf]
    simp only
    rw [if_pos (by omega), segFun_flip, neg_neg, segFun_map_mul, show even.nseg - 1 - j = i by omega]
    simp only [merged]
    ring

theorem integral_fold {b : ℝ} (hb : 0 ≤ b) {F : ℝ → ℝ} (hF : IntervalIntegrable F volume (-b) b) :
    ∫ y in (-b)..b, F y = ∫ y in (0 : ℝ)..b, (F y + F (-y)) := by
  have h1 : IntervalIntegrable F volume (-b) 0 := hF.mono_set (by
    rw [Set.uIcc_of_le (by linarith), Set.uIcc_of_le (by linarith)]
    exact Set.Icc_subset_Icc le_rfl hb)
  have h2 : IntervalIntegrable F volume 0 b := hF.mono_set (by
    rw [Set.uIcc_of_le (by linarith), Set.uIcc_of_le (by linarith)]
    exact Set.Icc_subset_Icc (by linarith) le_rfl)
  have h3 : IntervalIntegrable (fun y => F (-y)) volume 0 b := by
    have := (IntervalIntegrable.iff_comp_neg (f := F)).1 h1
    simpa using this.symm
  rw [← intervalIntegral.integral_add_adjacent_intervals h1 h2, intervalIntegral.integral_add h2 h3,
    intervalIntegral.integral_comp_neg, neg_zero, add_comm]

/-- The functions are integrable, also multiplied with a continuous function or with each other. -/
theorem fn_integrable {κ : Type} {p : PPoly κ} (h : p.WF) (l : κ) (g : ℝ → ℝ) (hg : Continuous g) :
    IntervalIntegrable (fun y => g y * fn p l y) volume p.xmin p.xmax :=
  (integral_piecewise p.knots h.mono.monotone _
    (fun i y => g y * segFun (p.knots i.castSucc) (p.knots i.succ) (p.coef i l) y)
    (fun i => hg.mul (segFun_continuous _ _ _)) (fun i x h1 h2 => by rw [fn_eq h l h1 h2])).1

theorem fn_mul_integrable {κ : Type} {p : PPoly κ} (h : p.WF) (l m : κ) :
    IntervalIntegrable (fun y => fn p l y * fn p m y) volume p.xmin p.xmax :=
  (integral_piecewise p.knots h.mono.monotone _
    (fun i y => segFun (p.knots i.castSucc) (p.knots i.succ) (p.coef i l) y *
      segFun (p.knots i.castSucc) (p.knots i.succ) (p.coef i m) y)
    (fun i => (segFun_continuous _ _ _).mul (segFun_continuous _ _ _))
    (fun i x h1 h2 => by rw [fn_eq h l h1 h2, fn_eq h m h1 h2])).1

/-- Integrals over `[0, b]` do not see the grid points. -/
theorem integral_congr_off {segs : List ℝ} {b : ℝ} (hb : 0 ≤ b) (hbs : b ∈ segs) {F G : ℝ → ℝ}
    (h : ∀ y, 0 < y → y < b → y ∉ segs → F y = G y) :
    ∫ y in (0 : ℝ)..b, F y = ∫ y in (0 : ℝ)..b, G y := by
  apply intervalIntegral.integral_congr_ae
  have hfin : (volume : Measure ℝ) {y | y ∈ segs} = 0 := (List.finite_toSet segs).measure_zero _
  have hae : ∀ᵐ y : ℝ, y ∉ segs := measure_eq_zero_iff_ae_notMem.1 hfin
  filter_upwards [hae] with y hy hmem
  rw [Set.uIoc_of_le hb] at hmem
  refine h y hmem.1 (lt_of_le_of_ne hmem.2 ?_) hy
  rintro rfl
  exact hy hbs

/-- `argsort` sorts. -/
def ArgsortOk {k : ℕ} (argsort : (Fin k → ℝ) → Fin k → Fin k) : Prop :=
  ∀ s, Function.Bijective (argsort s) ∧ Monotone (s ∘ argsort s)

/-- A pair of half expansions of the kernel `H` on `[0, bx] × [0, by]`: `H` maps `v[l]` to `s[l] u[l]` and its
transpose maps `u[l]` to `s[l] v[l]` (away from the grid points). -/
structure HalfSVE {κ : Type} (H : ℝ → ℝ → ℝ) (r : Result κ) (bx by' : ℝ) (segX segY : List ℝ) : Prop where
  left : ∀ l x, 0 < x → x < bx → x ∉ segX → ∫ y in (0 : ℝ)..by', H x y * fn r.v l y = r.s l * fn r.u l x
  right : ∀ l y, 0 < y → y < by' → y ∉ segY → ∫ x in (0 : ℝ)..bx, H x y * fn r.u l x = r.s l * fn r.v l y

/-- Folding the integral of the full kernel with a function of definite parity. -/
theorem fold_kernel {κ : Type} {p : PPoly κ} (hWF : p.WF) {b : ℝ} (hb : 0 < b) (h1 : p.xmin = -b)
    (h2 : p.xmax = b) {segs : List ℝ} (hbs : b ∈ segs) (l : κ) (sg : ℝ) (G : ℝ → ℝ)
    (hG : ∀ x, 0 < x → x < b → x ∉ segs → fn p l x = G x / Real.sqrt 2 ∧ fn p l (-x) = sg * fn p l x)
    (g : ℝ → ℝ) (hg : Continuous g) :
    ∫ y in (-b)..b, g y * fn p l y = (∫ y in (0 : ℝ)..b, (g y + sg * g (-y)) * G y) / Real.sqrt 2 := by
  have hint := fn_integrable hWF l g hg
  rw [h1, h2] at hint
  rw [integral_fold hb.le hint, ← intervalIntegral.integral_div]
  apply integral_congr_off hb.le hbs
  intro y h3 h4 h5
  obtain ⟨e1, e2⟩ := hG y h3 h4 h5
  rw [e2, e1]
  ring

theorem append_cases {α : Type} {ke ko : ℕ} (P : α → ℝ → Prop) {f : Fin ke → α} {g : Fin ko → α}
    (hf : ∀ i, P (f i) 1) (hg : ∀ i, P (g i) (-1)) (m : Fin (ke + ko)) :
    P (Fin.append f g m) (Fin.append (fun _ => (1 : ℝ)) (fun _ => (-1 : ℝ)) m) := by
  refine Fin.addCases (fun a => ?_) (fun a => ?_) m
  · simpa using hf a
  · simpa using hg a

/-- Recombination of the even and odd expansions of a centrosymmetric kernel.  The merged result is a
permutation `σ` of the two given ones with non-increasing singular values; functions with `σ l` in the first
block are even, the others odd; orthonormality on `[0, b]` gives orthonormality on `[-b, b]`; and the merged
functions are singular functions of the full kernel with the same singular values. -/
theorem C37_recombine {ke ko : ℕ} (argsort : (Fin (ke + ko) → ℝ) → Fin (ke + ko) → Fin (ke + ko))
    (hsort : ArgsortOk argsort) (even : Result (Fin ke)) (odd : Result (Fin ko)) (segX segY : List ℝ)
    (nx ny : ℕ) (bx by' : ℝ) (hgx : FullGrid segX nx bx) (hgy : FullGrid segY ny by')
    (hbx : 0 < bx) (hby : 0 < by')
    (heu : HalfOf even.u segX nx) (hou : HalfOf odd.u segX nx) (hev : HalfOf even.v segY ny)
    (hov : HalfOf odd.v segY ny) (hpu : even.u.polyorder = odd.u.polyorder)
    (hpv : even.v.polyorder = odd.v.polyorder) :
    ∃ res, mergeParity argsort even odd segX segY = .ok res ∧
      ∃ (σ : Fin (ke + ko) → Fin (ke + ko)) (sign : Fin (ke + ko) → ℝ), Function.Bijective σ ∧
      (∀ l, sign l = if (σ l).1 < ke then 1 else -1) ∧
      (∀ l, res.s l = Fin.append even.s odd.s (σ l)) ∧ Antitone res.s ∧
      res.u.symm = sign ∧ res.v.symm = sign ∧ res.u.WF ∧ res.v.WF ∧
      res.u.xmin = -bx ∧ res.u.xmax = bx ∧ res.v.xmin = -by' ∧ res.v.xmax = by' ∧
      (∀ l x, 0 < x → x < bx → x ∉ segX →
        fn res.u l x = Fin.append (fn even.u) (fn odd.u) (σ l) x / Real.sqrt 2) ∧
      (∀ l y, 0 < y → y < by' → y ∉ segY →
        fn res.v l y = Fin.append (fn even.v) (fn odd.v) (σ l) y / Real.sqrt 2) ∧
      (∀ l x, |x| < bx → x ∉ segX → fn res.u l (-x) = sign l * fn res.u l x) ∧
      (∀ l y, |y| < by' → y ∉ segY → fn res.v l (-y) = sign l * fn res.v l y) ∧
      (Orthonormal even.u 0 bx → Orthonormal odd.u 0 bx → Orthonormal res.u (-bx) bx) ∧
      (Orthonormal even.v 0 by' → Orthonormal odd.v 0 by' → Orthonormal res.v (-by') by') ∧
      ∀ K : ℝ → ℝ → ℝ, (∀ x, Continuous (K x)) → (∀ y, Continuous fun x => K x y) →
        (∀ x y, K (-x) (-y) = K x y) →
        HalfSVE (fun x y => K x y + K x (-y)) even bx by' segX segY →
        HalfSVE (fun x y => K x y - K x (-y)) odd bx by' segX segY →
        (∀ l x, |x| < bx → x ∉ segX → ∫ y in (-by')..by', K x y * fn res.v l y = res.s l * fn res.u l x) ∧
        ∀ l y, |y| < by' → y ∉ segY → ∫ x in (-bx)..bx, K x y * fn res.u l x = res.s l * fn res.v l y := by
  set s := Fin.append even.s odd.s with hs
  set σ := fun l => argsort s (Fin.rev l) with hσ
  set sign := merged (fun _ : Fin ke => (1 : ℝ)) (fun _ : Fin ko => (-1 : ℝ)) σ with hsign
  obtain ⟨u, hu, hWu, u1, u2, u3, -, -, -, hur⟩ := C37_extend even.u odd.u segX nx bx hgx heu hou hpu σ sign
  obtain ⟨v, hv, hWv, v1, v2, v3, -, -, -, hvr⟩ := C37_extend even.v odd.v segY ny by' hgy hev hov hpv σ sign
  have hbij : Function.Bijective σ := (hsort s).1.comp Fin.rev_bijective
  have hbxs : bx ∈ segX := List.mem_of_getLast? hgx.last
  have hbys : by' ∈ segY := List.mem_of_getLast? hgy.last
  have hsg : ∀ l, sign l = if (σ l).1 < ke then 1 else -1 := by
    intro l
    rw [hsign]
    unfold merged
    generalize σ l = m
    refine Fin.addCases (fun a => ?_) (fun a => ?_) m <;> simp
  have hsq : ∀ l, sign l * sign l = 1 := by
    intro l; rw [hsg]; split <;> norm_num
  -- parity also for negative arguments
  have hneg : ∀ (segs : List ℝ) (b : ℝ) (n : ℕ) (p : PPoly (Fin (ke + ko))), FullGrid segs n b → 0 < b →
      (∀ l x, 0 < x → x < b → x ∉ segs → fn p l (-x) = sign l * fn p l x) →
      ∀ l x, |x| < b → x ∉ segs → fn p l (-x) = sign l * fn p l x := by
    intro segs b n p hg hb h l x hx hxs
    have hzero : (0 : ℝ) ∈ segs := by
      have h3 := hg.get n (by have := hg.len; omega)
      simp only [show 2 * n - n = n by omega] at h3
      have h4 : segs[n]'(by have := hg.len; omega) = 0 := by linarith
      rw [← h4]; exact List.getElem_mem _
    have hmem : ∀ t, t ∈ segs ↔ -t ∈ segs := by
      have : ∀ t, t ∈ segs → -t ∈ segs := by
        intro t ht
        have : -t ∈ segs.map (- ·) := List.mem_map.2 ⟨t, ht, rfl⟩
        rw [hg.symm] at this
        exact List.mem_reverse.1 this
      exact fun t => ⟨this t, fun h => by simpa using this _ h⟩
    rw [abs_lt] at hx
    rcases lt_trichotomy x 0 with h0 | h0 | h0
    · have := h l (-x) (by linarith) (by linarith) (by rw [← hmem]; exact hxs)
      rw [neg_neg] at this
      rw [this, ← mul_assoc, hsq, one_mul]
    · rw [h0] at hxs; exact absurd hzero hxs
    · exact h l x h0 hx.2 hxs
  have hparu := hneg segX bx nx u hgx hbx fun l x h1 h2 h3 => (hur l x h1 h2 h3).2
  have hparv := hneg segY by' ny v hgy hby fun l x h1 h2 h3 => (hvr l x h1 h2 h3).2
  have hs2 : Real.sqrt 2 ≠ 0 := (Real.sqrt_pos.2 (by norm_num)).ne'
  have hs2' : Real.sqrt 2 * Real.sqrt 2 = 2 := Real.mul_self_sqrt (by norm_num)
  -- orthonormality
  have horth : ∀ (segs : List ℝ) (b : ℝ) (p : PPoly (Fin (ke + ko))) (pe : PPoly (Fin ke))
      (po : PPoly (Fin ko)), 0 < b → b ∈ segs → p.WF → p.xmin = -b → p.xmax = b →
      (∀ l x, 0 < x → x < b → x ∉ segs → fn p l x = Fin.append (fn pe) (fn po) (σ l) x / Real.sqrt 2 ∧
        fn p l (-x) = sign l * fn p l x) →
      Orthonormal pe 0 b → Orthonormal po 0 b → Orthonormal p (-b) b := by
    intro segs b p pe po hb hbs hW h1 h2 hr oe oo l m
    have hint := fn_mul_integrable hW l m
    rw [h1, h2] at hint
    rw [integral_fold hb.le hint]
    have e : ∫ y in (0 : ℝ)..b, (fn p l y * fn p m y + fn p l (-y) * fn p m (-y)) =
        ∫ y in (0 : ℝ)..b, (1 + sign l * sign m) / 2 *
          (Fin.append (fn pe) (fn po) (σ l) y * Fin.append (fn pe) (fn po) (σ m) y) := by
      apply integral_congr_off hb.le hbs
      intro y h3 h4 h5
      obtain ⟨a1, a2⟩ := hr l y h3 h4 h5
      obtain ⟨b1, b2⟩ := hr m y h3 h4 h5
      rw [a2, b2, a1, b1]
      field_simp
      rw [show Real.sqrt 2 ^ 2 = 2 by rw [pow_two, hs2']]
      ring
    rw [e, intervalIntegral.integral_const_mul]
    have hinj : (σ l = σ m) ↔ l = m := hbij.1.eq_iff
    rw [hsg l, hsg m, ← if_congr hinj rfl rfl]
    generalize σ l = a
    generalize σ m = c
    refine Fin.addCases (fun a => ?_) (fun a => ?_) a <;> refine Fin.addCases (fun c => ?_) (fun c => ?_) c
    · have := oe a c
      simp only [Fin.append_left, this, Fin.val_castAdd, Fin.is_lt, if_true, Fin.castAdd_inj]
      norm_num
    · have hne : Fin.castAdd ko a ≠ Fin.natAdd ke c := by
        intro h
        have := congrArg Fin.val h
        simp only [Fin.val_castAdd, Fin.val_natAdd] at this
        omega
      simp [hne]
    · have hne : Fin.natAdd ke a ≠ Fin.castAdd ko c := by
        intro h
        have := congrArg Fin.val h
        simp only [Fin.val_castAdd, Fin.val_natAdd] at this
        omega
      simp [hne]
    · have := oo a c
      simp only [Fin.append_right, this, Fin.val_natAdd, Fin.natAdd_inj]
      norm_num
  refine ⟨⟨u, fun l => s (σ l), v⟩, ?_, σ, sign, hbij, hsg, fun l => rfl, ?_, u3, v3, hWu, hWv, u1, u2, v1, v2,
    fun l x h1 h2 h3 => (hur l x h1 h2 h3).1, fun l x h1 h2 h3 => (hvr l x h1 h2 h3).1, hparu, hparv,
    horth segX bx u even.u odd.u hbx hbxs hWu u1 u2 hur, horth segY by' v even.v odd.v hby hbys hWv v1 v2 hvr,
    ?_⟩
  · unfold mergeParity
    simp only
    rw [hu, hv]
  · intro l m hlm
    exact (hsort s).2 (Fin.rev_le_rev.2 hlm)
  · intro K hK1 hK2 hcs hE hO
    have hleft : ∀ l x, 0 < x → x < bx → x ∉ segX →
        ∫ y in (-by')..by', K x y * fn v l y = s (σ l) * fn u l x := by
      intro l x h1 h2 h3
      rw [fold_kernel hWv hby v1 v2 hbys l (sign l) _ (hvr l) (K x) (hK1 x), (hur l x h1 h2 h3).1]
      rw [hsg l, hs]
      generalize σ l = a
      refine Fin.addCases (fun a => ?_) (fun a => ?_) a
      · have := hE.left a x h1 h2 h3
        simp only [Fin.append_left, Fin.val_castAdd, Fin.is_lt, if_true, one_mul, this]
        ring
      · have := hO.left a x h1 h2 h3
        simp only [Fin.append_right, Fin.val_natAdd, not_lt.2 (Nat.le_add_right ke a), if_false, neg_one_mul,
          ← sub_eq_add_neg, this]
        ring
    have hright : ∀ l y, 0 < y → y < by' → y ∉ segY →
        ∫ x in (-bx)..bx, K x y * fn u l x = s (σ l) * fn v l y := by
      intro l y h1 h2 h3
      rw [fold_kernel hWu hbx u1 u2 hbxs l (sign l) _ (hur l) (fun x => K x y) (hK2 y), (hvr l y h1 h2 h3).1]
      have hK' : ∀ x, K (-x) y = K x (-y) := fun x => by rw [← hcs x (-y), neg_neg]
      simp only [hK']
      rw [hsg l, hs]
      generalize σ l = a
      refine Fin.addCases (fun a => ?_) (fun a => ?_) a
      · have := hE.right a y h1 h2 h3
        simp only [Fin.append_left, Fin.val_castAdd, Fin.is_lt, if_true, one_mul, this]
        ring
      · have := hO.right a y h1 h2 h3
        simp only [Fin.append_right, Fin.val_natAdd, not_lt.2 (Nat.le_add_right ke a), if_false, neg_one_mul,
          ← sub_eq_add_neg, this]
        ring
    have hzeroX : ∀ (segs : List ℝ) (b : ℝ) (n : ℕ), FullGrid segs n b → (0 : ℝ) ∈ segs ∧
        ∀ t, t ∉ segs → -t ∉ segs := by
      intro segs b n hg
      constructor
      · have h3 := hg.get n (by have := hg.len; omega)
        simp only [show 2 * n - n = n by omega] at h3
        have h4 : segs[n]'(by have := hg.len; omega) = 0 := by linarith
        rw [← h4]; exact List.getElem_mem _
      · intro t ht hc
        have : -(-t) ∈ segs.map (- ·) := List.mem_map.2 ⟨-t, hc, rfl⟩
        rw [hg.symm, List.mem_reverse, neg_neg] at this
        exact ht this
    constructor
    · intro l x hx hxs
      rw [abs_lt] at hx
      rcases lt_trichotomy x 0 with h0 | h0 | h0
      · have hx' := (hzeroX segX bx nx hgx).2 x hxs
        have h := hleft l (-x) (by linarith) (by linarith) hx'
        have e : ∫ y in (-by')..by', K x y * fn v l y = sign l * ∫ y in (-by')..by', K (-x) y * fn v l y := by
          rw [fold_kernel hWv hby v1 v2 hbys l (sign l) _ (hvr l) (K x) (hK1 x),
            fold_kernel hWv hby v1 v2 hbys l (sign l) _ (hvr l) (K (-x)) (hK1 (-x)), ← mul_div_assoc,
            ← intervalIntegral.integral_const_mul]
          congr 1
          congr 1
          funext y
          rw [hcs x y, show K (-x) y = K x (-y) by rw [← hcs x (-y), neg_neg]]
          linear_combination (K x y * (Fin.append (fn even.v) (fn odd.v) (σ l) y)) * (hsq l).symm
        rw [e, h]
        have h5 := hparu l x (by rw [abs_lt]; exact hx) hxs
        rw [h5]
        linear_combination (s (σ l) * fn u l x) * hsq l
      · rw [h0] at hxs; exact absurd (hzeroX segX bx nx hgx).1 hxs
      · exact hleft l x h0 hx.2 hxs
    · intro l y hy hys
      rw [abs_lt] at hy
      rcases lt_trichotomy y 0 with h0 | h0 | h0
      · have hy' := (hzeroX segY by' ny hgy).2 y hys
        have h := hright l (-y) (by linarith) (by linarith) hy'
        have e : ∫ x in (-bx)..bx, K x y * fn u l x = sign l * ∫ x in (-bx)..bx, K x (-y) * fn u l x := by
          rw [fold_kernel hWu hbx u1 u2 hbxs l (sign l) _ (hur l) (fun x => K x y) (hK2 y),
            fold_kernel hWu hbx u1 u2 hbxs l (sign l) _ (hur l) (fun x => K x (-y)) (hK2 (-y)), ← mul_div_assoc,
            ← intervalIntegral.integral_const_mul]
          congr 1
          congr 1
          funext x
          rw [hcs x y, show K (-x) y = K x (-y) by rw [← hcs x (-y), neg_neg]]
          linear_combination (K x y * (Fin.append (fn even.u) (fn odd.u) (σ l) x)) * (hsq l).symm
        rw [e, h]
        have h5 := hparv l y (by rw [abs_lt]; exact hy) hys
        rw [h5]
        linear_combination (s (σ l) * fn v l y) * hsq l
      · rw [h0] at hys; exact absurd (hzeroX segY by' ny hgy).1 hys
      · exact hright l y h0 hy.2 hys

/-- Where the two half expansions add up to the even and odd parts of the kernel (for the sampling SVE: at all
pairs of Gauss nodes, `C36_sampling`), the merged expansion adds up to the kernel, for all signs of the
arguments. -/
theorem C37_values {ke ko : ℕ} (argsort : (Fin (ke + ko) → ℝ) → Fin (ke + ko) → Fin (ke + ko))
    (hsort : ArgsortOk argsort) (even : Result (Fin ke)) (odd : Result (Fin ko)) (segX segY : List ℝ)
    (nx ny : ℕ) (bx by' : ℝ) (hgx : FullGrid segX nx bx) (hgy : FullGrid segY ny by')
    (hbx : 0 < bx) (hby : 0 < by')
    (heu : HalfOf even.u segX nx) (hou : HalfOf odd.u segX nx) (hev : HalfOf even.v segY ny)
    (hov : HalfOf odd.v segY ny) (hpu : even.u.polyorder = odd.u.polyorder)
    (hpv : even.v.polyorder = odd.v.polyorder) (K : ℝ → ℝ → ℝ) (hK : ∀ x y, K (-x) (-y) = K x y) (x y : ℝ)
    (hx : 0 < x ∧ x < bx ∧ x ∉ segX) (hy : 0 < y ∧ y < by' ∧ y ∉ segY)
    (hE : ∑ l, even.s l * fn even.u l x * fn even.v l y = K x y + K x (-y))
    (hO : ∑ l, odd.s l * fn odd.u l x * fn odd.v l y = K x y - K x (-y)) :
    ∃ res, mergeParity argsort even odd segX segY = .ok res ∧ ∀ x' y', x' = x ∨ x' = -x → y' = y ∨ y' = -y →
      ∑ l, res.s l * fn res.u l x' * fn res.v l y' = K x' y' := by
  obtain ⟨res, hres, σ, sign, hbij, hsg, hs, -, -, -, -, -, -, -, -, -, hu, hv, hpu', hpv', -⟩ :=
    C37_recombine argsort hsort even odd segX segY nx ny bx by' hgx hgy hbx hby heu hou hev hov hpu hpv
  refine ⟨res, hres, ?_⟩
  have hs2' : Real.sqrt 2 * Real.sqrt 2 = 2 := Real.mul_self_sqrt (by norm_num)
  have hs2 : Real.sqrt 2 ≠ 0 := (Real.sqrt_pos.2 (by norm_num)).ne'
  have hux := fun l => hu l x hx.1 hx.2.1 hx.2.2
  have hvy := fun l => hv l y hy.1 hy.2.1 hy.2.2
  have hunx := fun l => hpu' l x (by rw [abs_of_pos hx.1]; exact hx.2.1) hx.2.2
  have hvny := fun l => hpv' l y (by rw [abs_of_pos hy.1]; exact hy.2.1) hy.2.2
  have key : ∀ g : Fin (ke + ko) → ℝ,
      ∑ l, g (σ l) * (res.s l * fn res.u l x * fn res.v l y) =
      (∑ l, g (Fin.castAdd ko l) * (even.s l * fn even.u l x * fn even.v l y) +
        ∑ l, g (Fin.natAdd ke l) * (odd.s l * fn odd.u l x * fn odd.v l y)) / 2 := by
    intro g
    have e : ∀ l, g (σ l) * (res.s l * fn res.u l x * fn res.v l y) =
        (fun m => g m * (Fin.append even.s odd.s m * Fin.append (fn even.u) (fn odd.u) m x *
          Fin.append (fn even.v) (fn odd.v) m y) / 2) (σ l) := by
      intro l
      rw [hs, hux, hvy]
      field_simp
      rw [show Real.sqrt 2 ^ 2 = 2 by rw [pow_two, hs2']]
      ring
    rw [Finset.sum_congr rfl fun l _ => e l]
    rw [hbij.sum_comp (fun m => g m * (Fin.append even.s odd.s m *
      Fin.append (fn even.u) (fn odd.u) m x * Fin.append (fn even.v) (fn odd.v) m y) / 2), Fin.sum_univ_add,
      add_div, Finset.sum_div, Finset.sum_div]
    simp only [Fin.append_left, Fin.append_right]
  have k1 : ∑ l, res.s l * fn res.u l x * fn res.v l y = K x y := by
    have := key fun _ => 1
    simp only [one_mul] at this
    rw [this, hE, hO]
    ring
  have k2 : ∑ l, sign l * (res.s l * fn res.u l x * fn res.v l y) = K x (-y) := by
    have := key fun m => if m.1 < ke then 1 else -1
    simp only [Fin.val_castAdd, Fin.is_lt, if_true, one_mul, Fin.val_natAdd, Nat.not_lt.2 (Nat.le_add_right ke _),
      if_false, neg_one_mul, Finset.sum_neg_distrib] at this
    rw [Finset.sum_congr rfl fun l _ => by rw [hsg l], this, hE, hO]
    ring
  have hsq : ∀ l, sign l * sign l = 1 := by
    intro l; rw [hsg]; split <;> norm_num
  rintro x' y' (rfl | rfl) (rfl | rfl)
  · exact k1
  · rw [← k2]
    apply Finset.sum_congr rfl
    intro l _
    rw [hvny]; ring
  · rw [show K (-x) y' = K x (-y') by rw [← hK x (-y'), neg_neg], ← k2]
    apply Finset.sum_congr rfl
    intro l _
    rw [hunx]; ring
  · rw [hK, ← k1]
    apply Finset.sum_congr rfl
    intro l _
    rw [hunx, hvny]
    linear_combination (res.s l * fn res.u l x * fn res.v l y) * hsq l

/-- The grids hinted by the kernels are full grids, and the grid of the reduced kernel is the upper half. -/
theorem C37_grid (g : List ℝ) (h : SymGrid g) :
    ∃ n, FullGrid g n 1 ∧ Kernel.symmSegments g = .ok (g.drop n) := by
  obtain ⟨i, hi, h0⟩ := List.mem_iff_getElem.1 h.zero
  have hg : ∀ j (hj : j < g.length), g[j] = - g[g.length - 1 - j] := by
    intro j hj
    have := congrArg (·[g.length - 1 - j]?) h.symm
    simp only [List.getElem?_map, List.getElem?_reverse (show g.length - 1 - j < g.length by omega)] at this
    rw [List.getElem?_eq_getElem (by omega), List.getElem?_eq_getElem (by omega), Option.map_some,
      Option.some.injEq] at this
    rw [this]
    congr 1
    omega
  have hmid : i = g.length - 1 - i := by
    have h1 := hg i hi
    have h2 : g[g.length - 1 - i] = g[i] := by linarith
    have hnd : g.Nodup := h.sorted.imp fun h => ne_of_lt h
    exact ((List.Nodup.getElem_inj_iff hnd).1 h2).symm
  have hi0 : 0 < i := by
    rcases Nat.eq_zero_or_pos i with rfl | hp
    · have := h.first
      rw [List.head?_eq_getElem?, List.getElem?_eq_getElem hi, Option.some.injEq] at this
      rw [h0] at this
      norm_num at this
    · exact hp
  refine ⟨i, ⟨hi0, by omega, h.sorted, h.symm, h.last⟩, ?_⟩
  unfold Kernel.symmSegments
  rw [if_neg]
  · rw [show g.length / 2 = i by omega]
    simp only [List.head?_drop, List.getElem?_eq_getElem hi]
    rw [if_neg (by simpa using h0)]
  · rw [not_not, List.map_reverse, h.symm, List.reverse_reverse]
    intro p hp
    obtain ⟨j, hj, rfl⟩ := List.mem_iff_getElem.1 hp
    simp only [List.getElem_zip]
    unfold Np.isClose
    rw [sub_self, abs_zero]
    positivity

theorem ctor_shape {ι : Type} {n k : ℕ} {coef : Fin n → ι → List ℝ} {knots : List ℝ} {symm : Option (ι → ℝ)} {p : PPoly ι}
    (h : PPoly.ctor n k coef knots none symm = .ok p) : p.nseg = n ∧ p.polyorder = k ∧ knots.length = n + 1 := by
  unfold PPoly.ctor at h
  split at h
  · rename_i hl
    simp only at h
    split at h
    · cases h
      exact ⟨rfl, rfl, hl⟩
    · cases h
  · cases h

/-- Shape of what `SamplingSVE.postprocess` returns. -/
theorem postprocess_shape {κ : Type} {sv : Sampling} {u : κ → List ℝ} {s : κ → ℝ} {v : κ → List ℝ} {r : Result κ}
    (h : postprocess sv u s v = .ok r) :
    (r.u.nseg + 1 = sv.segX.length ∧ r.u.polyorder = sv.nGauss) ∧
      (r.v.nseg + 1 = sv.segY.length ∧ r.v.polyorder = sv.nGauss) := by
  have hf : ∀ {cmat : List (List ℝ)} {segs w : List ℝ} {u : κ → List ℝ} {p : PPoly κ},
      singularFunctions sv.nGauss cmat segs w u = .ok p → p.nseg + 1 = segs.length ∧ p.polyorder = sv.nGauss := by
    intro cmat segs w u p hp
    unfold singularFunctions at hp
    split at hp
    · cases hp
    split at hp
    · cases hp
    obtain ⟨h1, h2, h3⟩ := ctor_shape hp
    exact ⟨by omega, h2⟩
  unfold postprocess at h
  split at h
  · cases h
  split at h
  · cases h
  rename_i ulx hu
  split at h
  · cases h
  rename_i vly hv
  unfold canonicalize at h
  split at h
  · cases h
  rename_i u' v' hc
  cases h
  split at hc
  · cases hc
  split at hc
  · cases hc
  cases hc
  have := hf hu
  have := hf hv
  exact ⟨‹ulx.nseg + 1 = _ ∧ _›, ‹vly.nseg + 1 = _ ∧ _›⟩

/-- `CentrosymmSVE.postprocess` returns a result only if the even and the odd part were discretised on equally many
segments to the same order and the grid hinted by the full kernel has twice as many segments; otherwise it raises. -/
theorem C37_shapes {ke ko : ℕ} {argsort : (Fin (ke + ko) → ℝ) → Fin (ke + ko) → Fin (ke + ko)} {even odd : Sampling}
    {ue : Fin ke → List ℝ} {se : Fin ke → ℝ} {ve : Fin ke → List ℝ} {uo : Fin ko → List ℝ} {so : Fin ko → ℝ}
    {vo : Fin ko → List ℝ} {full : Hints} {r : Result (Fin (ke + ko))}
    (h : centrosymmPostprocess argsort even odd ue se ve uo so vo full = .ok r) :
    even.nGauss = odd.nGauss ∧ even.segX.length = odd.segX.length ∧ even.segY.length = odd.segY.length ∧
      ∃ sx sy, full.segX = .ok sx ∧ full.segY = .ok sy ∧ sx.length + 1 = 2 * even.segX.length ∧
        sy.length + 1 = 2 * even.segY.length ∧ r.u.nseg + 1 = sx.length ∧ r.v.nseg + 1 = sy.length ∧
        r.u.polyorder = even.nGauss ∧ r.v.polyorder = even.nGauss := by
  have hx : ∀ {e : PPoly (Fin ke)} {o : PPoly (Fin ko)} {sort : Fin (ke + ko) → Fin (ke + ko)}
      {signs : Fin (ke + ko) → ℝ} {segs : List ℝ} {p : PPoly (Fin (ke + ko))}, extendParity e o sort signs segs = .ok p →
      e.nseg = o.nseg ∧ e.polyorder = o.polyorder ∧ p.nseg = e.nseg + e.nseg ∧ p.polyorder = e.polyorder ∧
        segs.length = e.nseg + e.nseg + 1 := by
    intro e o sort signs segs p hp
    unfold extendParity at hp
    split at hp
    · cases hp
    rename_i hn
    rw [not_or, not_not, not_not] at hn
    obtain ⟨h1, h2, h3⟩ := ctor_shape hp
    exact ⟨hn.1, hn.2, h1, h2, h3⟩
  unfold centrosymmPostprocess at h
  split at h
  · cases h
  rename_i re hre
  split at h
  · cases h
  rename_i ro hro
  split at h
  · cases h
  rename_i sx hsx
  split at h
  · cases h
  rename_i sy hsy
  unfold mergeParity at h
  simp only at h
  split at h
  · cases h
  rename_i u hu
  split at h
  · cases h
  rename_i v hv
  cases h
  obtain ⟨⟨a1, a2⟩, a3, a4⟩ := postprocess_shape hre
  obtain ⟨⟨b1, b2⟩, b3, b4⟩ := postprocess_shape hro
  obtain ⟨c1, c2, c3, c4, c5⟩ := hx hu
  obtain ⟨d1, d2, d3, d4, d5⟩ := hx hv
  exact ⟨by omega, by omega, by omega, sx, sy, hsx, hsy, by omega, by omega, by show u.nseg + 1 = _; omega,
    by show v.nseg + 1 = _; omega, by show u.polyorder = _; omega, by show v.polyorder = _; omega⟩

/-- Sorting is possible. -/
example (k : ℕ) : ArgsortOk (k := k) fun s => Tuple.sort s :=
  fun s => ⟨(Tuple.sort s).bijective, Tuple.monotone_sort s⟩

/-- `P_1` on one segment is half of a grid with two segments. -/
example : FullGrid [-1, 0, 1] 1 1 := ⟨by norm_num, rfl, by simp, by simp, rfl⟩

example : HalfOf (⟨1, 2, ![0, 1], fun _ => 1, fun _ _ => [0, 1], fun _ => 0⟩ : PPoly (Fin 1)) [-1, 0, 1] 1 := by
  refine ⟨⟨Nat.one_pos, ?_, ?_⟩, rfl, ?_⟩
  · intro i j hij
    change Fin 2 at i j
    fin_cases i <;> fin_cases j
    · exact absurd hij (lt_irrefl _)
    · show (0 : ℝ) < 1
      norm_num
    · exact absurd hij (by decide)
    · exact absurd hij (lt_irrefl _)
  · intro i
    change Fin 1 at i
    fin_cases i
    show (1 : ℝ) = 1 - 0
    norm_num
  · intro i hi
    change i < 2 at hi
    rcases (show i = 0 ∨ i = 1 by omega) with rfl | rfl <;> rfl

end Verif.Props
