import Verif.Props.C66_FromScratch
import Verif.Props.C17_SelectOrder
import Verif.Props.C18_Conjugation
import Verif.Props.C57_AdapterMatsubara
import Verif.Model.AdapterBasis
/-!
# C67: the replacement of `irbasis`

`adapter.load` and the methods of `adapter.Basis`, for the conventions of the `irbasis` package.
-/

namespace Verif.Props
open Verif Verif.Np Verif.Sve Verif.Gauss Verif.Kernel Verif.Spec Verif.Poly Verif.Svd Verif.FiniteTemp Verif.SveCompute
open Verif.Adapter (IrBasis axisIndex startGuesses load)

/-! ## Specification -/

/-- A basis in the sense of `irbasis`: functions on `[-1, 1]`, orthonormal, positive at 1, each even or odd (away from
finitely many points), with positive singular values that do not increase and are at least `e` times the first one. -/
structure IsIrBasis (b : IrBasis) (stat : String) (Lambda e : ℝ) : Prop where
  statistics : b.statistics = stat
  Lambda_eq : b.Lambda = Lambda
  dim_pos : 0 < b.dim
  spos : ∀ l, 0 < b.s l
  anti : Antitone b.s
  relevant : ∀ l l0, l0.1 = 0 → e * b.s l0 ≤ b.s l
  udom : b.u.xmin = -1 ∧ b.u.xmax = 1
  vdom : b.v.xmin = -1 ∧ b.v.xmax = 1
  uorth : Orthonormal b.u (-1) 1
  vorth : Orthonormal b.v (-1) 1
  gauge : ∀ l, 0 < fn b.u l 1
  parity : ∃ g : List ℝ, ∀ l, ∃ p : ℝ, (p = 1 ∨ p = -1) ∧
    ∀ x, |x| < 1 → x ∉ g → fn b.u l (-x) = p * fn b.u l x ∧ fn b.v l (-x) = p * fn b.v l x

/-- `0` for bosons, `1` for fermions. -/
def zetaOf (stat : String) : ℤ := if stat = "F" then 1 else 0

/-- The integer `i` refers to entry `l` of `n`, from the front or from the back. -/
def RefersTo {n : ℕ} (i : ℤ) (l : Fin n) : Prop := i = l.1 ∨ i = (l.1 : ℤ) - n

/-! ## Lemmas -/

theorem axisIndex_ok {n : ℕ} {i : ℤ} {l : Fin n} (h : RefersTo i l) : axisIndex n i = .ok l := by
  have := l.2
  unfold axisIndex
  rcases h with rfl | rfl
  · rw [dif_pos ⟨by omega, by omega⟩]
    congr 1
  · rw [dif_neg (by omega), dif_pos ⟨by omega, by omega⟩]
    congr 1
    apply Fin.ext
    simp only
    omega

theorem axisIndex_error {n : ℕ} {i : ℤ} (h : (n : ℤ) ≤ i ∨ i < -n) : axisIndex n i = .error .indexError := by
  unfold axisIndex
  rw [dif_neg (by omega), dif_neg (by omega)]

theorem ft_reflect_off (f : ℝ → ℝ) (s : ℝ) (g : List ℝ) (hs : ∀ x, |x| < 1 → x ∉ g → f (-x) = s * f x) (n : ℤ) :
    (starRingEnd ℂ) (ft f n) = (-1) ^ n * s * ft f n := by
  classical
  -- change the function at finitely many points
  set f' : ℝ → ℝ := fun x => if x ∈ g ∨ -x ∈ g then 0 else f x with hf'
  have h1 : ft f n = ft f' n := by
    unfold ft
    congr 1
    apply intervalIntegral.integral_congr_ae
    have hfin : ({x | x ∈ g ∨ -x ∈ g} : Set ℝ).Finite := by
      refine ((g.finite_toSet).union ((g.map fun x => -x).finite_toSet)).subset ?_
      rintro x (hx | hx)
      · exact Or.inl hx
      · exact Or.inr (List.mem_map.2 ⟨-x, hx, neg_neg x⟩)
    have hnull : ∀ᵐ x ∂(MeasureTheory.volume : MeasureTheory.Measure ℝ), x ∉ ({x | x ∈ g ∨ -x ∈ g} : Set ℝ) :=
      MeasureTheory.measure_eq_zero_iff_ae_notMem.1 (hfin.measure_zero _)
    filter_upwards [hnull] with x hx _
    have hx' : ¬ (x ∈ g ∨ -x ∈ g) := hx
    simp only [hf', if_neg hx']
  rw [h1]
  refine ft_reflect f' s (fun x h2 h3 => ?_) n
  simp only [hf', neg_neg]
  by_cases hx : x ∈ g ∨ -x ∈ g
  · rw [if_pos hx, if_pos hx.symm, mul_zero]
  · rw [if_neg hx, if_neg (fun h => hx h.symm)]
    exact hs x (abs_lt.2 ⟨h2, h3⟩) fun h => hx (Or.inl h)

theorem fn_select {m n : ℕ} (p : PPoly (Fin n)) (σ : Fin m → Fin n) (l : Fin m) (x : ℝ) :
    fn (p.select σ) l x = fn p (σ l) x := by
  unfold fn
  rw [C10_poly_select]
  cases p.call x <;> rfl

/-- What the constructor stores. -/
structure Stored (b : IrBasis) (r : SveResult) (stat : String) (Lambda : ℝ) (m : ℕ) : Prop where
  statistics : b.statistics = stat
  Lambda_eq : b.Lambda = Lambda
  dim_eq : b.dim = m
  s_eq : ∀ (l : Fin b.dim) (l' : Fin r.n), l'.1 = l.1 → b.s l = r.s l'
  u_eq : ∀ (l : Fin b.dim) (l' : Fin r.n), l'.1 = l.1 → fn b.u l = fn r.u l'
  v_eq : ∀ (l : Fin b.dim) (l' : Fin r.n), l'.1 = l.1 → fn b.v l = fn r.v l'
  uwf : b.u.WF
  vwf : b.v.WF
  udom : b.u.xmin = -1 ∧ b.u.xmax = 1
  vdom : b.v.xmin = -1 ∧ b.v.xmax = 1
  upo : 1 ≤ b.u.polyorder
  ulen : ∀ i l, (b.u.coef i l).length = b.u.polyorder
  uhat : ∃ freq, freqOf stat = .ok freq ∧
    PFT.ctor (fun l : Fin b.dim => l.1) b.u freq (some (40 * Lambda)) none = .ok b.uhat

theorem stored {r : SveResult} (h : Good r) {stat : String} (hst : stat = "F" ∨ stat = "B") {e : ℝ} (he : r.eps = some e)
    (Lambda : ℝ) : ∃ m b, Cut r h.pos e m ∧ IrBasis.init stat Lambda r = .ok b ∧ Stored b r stat Lambda m := by
  obtain ⟨m, hm, hpart⟩ := part_idx r h none e (by rw [he]; rfl) none
  simp only [Option.map_none, Option.getD_none, min_self] at hpart
  obtain ⟨freq, hfreq, ⟨sg, hsg⟩, -⟩ := freq_parity hst
  have hget : ∀ l : Fin ((List.finRange r.n).take m).length, (((List.finRange r.n).take m).get l).1 = l.1 := fun l => take_get l
  have hlen : ((List.finRange r.n).take m).length = m := by simp [hm.1]
  revert hpart hget hlen
  generalize (List.finRange r.n).take m = idx
  intro hpart hget hlen
  have hwf : (r.u.select idx.get).WF := ⟨h.uwf.pos, h.uwf.mono, h.uwf.dx_eq⟩
  obtain ⟨f, hf⟩ : ∃ f, PFT.ctor (fun l : Fin idx.length => l.1) (r.u.select idx.get) freq (some (40 * Lambda)) none = .ok f := by
    unfold PFT.ctor
    rw [if_neg (by
      show ¬ (r.u.xmin ≠ -1 ∨ r.u.xmax ≠ 1)
      rw [h.umin, h.umax]; simp)]
    simp only [powerModel_eq _ hwf (show r.u.xmax = 1 from h.umax) h.upo _ _ _ hsg]
    exact ⟨_, rfl⟩
  refine ⟨m, ⟨stat, Lambda, idx.length, r.u.select idx.get, fun l => r.s (idx.get l), r.v.select idx.get, f⟩, hm, ?_, ?_⟩
  · unfold IrBasis.init
    rw [hpart, okBind, hfreq, okBind, hf, okBind]
  · have hsel : ∀ (l : Fin idx.length) (l' : Fin r.n), l'.1 = l.1 → idx.get l = l' := fun l l' hl =>
      Fin.ext ((hget l).trans hl.symm)
    exact {
      statistics := rfl
      Lambda_eq := rfl
      dim_eq := hlen
      s_eq := fun l l' hl => by show r.s (idx.get l) = _; rw [hsel l l' hl]
      u_eq := fun l l' hl => by funext x; show fn (r.u.select idx.get) l x = _; rw [fn_select, hsel l l' hl]
      v_eq := fun l l' hl => by funext x; show fn (r.v.select idx.get) l x = _; rw [fn_select, hsel l l' hl]
      uwf := hwf
      vwf := ⟨h.vwf.pos, h.vwf.mono, h.vwf.dx_eq⟩
      udom := ⟨h.umin, h.umax⟩
      vdom := ⟨h.vmin, h.vmax⟩
      upo := h.upo
      ulen := fun i l => h.ulen i _
      uhat := ⟨freq, hfreq, hf⟩ }

theorem init_other (stat : String) (h : stat ≠ "F" ∧ stat ≠ "B") (Lambda : ℝ) {r : SveResult} (hg : Good r) {e : ℝ}
    (he : r.eps = some e) : IrBasis.init stat Lambda r = .error .keyError := by
  obtain ⟨m, -, hpart⟩ := part_idx r hg none e (by rw [he]; rfl) none
  simp only [Option.map_none] at hpart
  unfold IrBasis.init
  rw [hpart, okBind]
  unfold freqOf
  rw [if_neg h.1, if_neg h.2]
  rfl

theorem made {r : SveResult} (h : Good r) {e : ℝ} (he : r.eps = some e) {stat : String} {Lambda : ℝ} {b : IrBasis}
    (hb : IrBasis.init stat Lambda r = .ok b) :
    (stat = "F" ∨ stat = "B") ∧ ∃ m, Cut r h.pos e m ∧ Stored b r stat Lambda m := by
  by_cases hst : stat = "F" ∨ stat = "B"
  · obtain ⟨m, b', h1, h2, h3⟩ := stored h hst he Lambda
    rw [hb] at h2
    cases h2
    exact ⟨hst, m, h1, h3⟩
  · push Not at hst
    rw [init_other stat hst Lambda h he] at hb
    cases hb

theorem isIr_of {r : SveResult} (hr : IsSve r) (hn : 0 < r.n) (hp : SveParity r) {stat : String} {Lambda e : ℝ} {m : ℕ}
    {b : IrBasis} (hm : Cut r hn e m) (he : e ≤ 1) (d : Stored b r stat Lambda m) : IsIrBasis b stat Lambda e := by
  have hlt : ∀ l : Fin b.dim, l.1 < r.n := fun l => by have := d.dim_eq; have := hm.1; omega
  have hm0 : 0 < m := (hm.2 ⟨0, hn⟩).2 (by have := hr.spos ⟨0, hn⟩; nlinarith)
  have hu : ∀ l : Fin b.dim, fn b.u l = fn r.u ⟨l.1, hlt l⟩ := fun l => d.u_eq l ⟨l.1, hlt l⟩ rfl
  have hv : ∀ l : Fin b.dim, fn b.v l = fn r.v ⟨l.1, hlt l⟩ := fun l => d.v_eq l ⟨l.1, hlt l⟩ rfl
  have hs : ∀ l : Fin b.dim, b.s l = r.s ⟨l.1, hlt l⟩ := fun l => d.s_eq l ⟨l.1, hlt l⟩ rfl
  have hinj : ∀ l l' : Fin b.dim, ((⟨l.1, hlt l⟩ : Fin r.n) = ⟨l'.1, hlt l'⟩) = (l = l') := fun l l' => by
    simp [Fin.ext_iff]
  obtain ⟨g, hg⟩ := hp
  refine ⟨d.statistics, d.Lambda_eq, by rw [d.dim_eq]; exact hm0, fun l => ?_, fun l l' hl => ?_, fun l l0 hl0 => ?_, d.udom,
    d.vdom, fun l l' => ?_, fun l l' => ?_, fun l => ?_, g, fun l => ?_⟩
  · rw [hs]; exact hr.spos _
  · rw [hs, hs]; exact hr.anti hl
  · rw [hs, hs]
    have h0 : (⟨l0.1, hlt l0⟩ : Fin r.n) = ⟨0, hn⟩ := Fin.ext hl0
    rw [h0]
    exact (hm.2 _).1 (by rw [← d.dim_eq]; exact l.2)
  · have := hr.uorth ⟨l.1, hlt l⟩ ⟨l'.1, hlt l'⟩
    simpa only [hu, hinj] using this
  · have := hr.vorth ⟨l.1, hlt l⟩ ⟨l'.1, hlt l'⟩
    simpa only [hv, hinj] using this
  · rw [hu]; exact hr.gauge _
  · obtain ⟨h1, -, h3⟩ := hg ⟨l.1, hlt l⟩
    exact ⟨_, h1, fun x hx hxg => by rw [hu, hv]; exact h3 x hx hxg⟩

theorem selectvals_ok {n : ℕ} {p : PPoly (Fin n)} (h : p.WF) {i : ℤ} {l : Fin n} (hi : RefersTo i l) {x : ℝ}
    (h1 : p.xmin ≤ x) (h2 : x ≤ p.xmax) : IrBasis.selectvals p i x = .ok (fn p l x) := by
  obtain ⟨j, hj⟩ := h.exists_inSeg h1 h2
  unfold IrBasis.selectvals
  rw [PPoly.split_eq h hj, axisIndex_ok hi]
  simp only
  rw [C10_poly_value]
  unfold fn
  rw [PPoly.call_eq h hj]
  rfl

theorem selectvals_deriv {n : ℕ} {p : PPoly (Fin n)} (h : p.WF) {i : ℤ} {l : Fin n} (hi : RefersTo i l) (k : Fin p.nseg)
    {x : ℝ} (h1 : p.knots k.castSucc < x) (h2 : x < p.knots k.succ) (order : ℕ) :
    IrBasis.selectvals (p.deriv order) i x = .ok (iteratedDeriv order (fn p l) x) := by
  have hwf : (p.deriv order).WF := ⟨h.pos, h.mono, h.dx_eq⟩
  have h3 := C11_deriv p h k x ⟨h1, h2⟩ order
  have h4 : p.InSeg k x := ⟨h1.le, Or.inl h2⟩
  have h5 := (h4.mem h)
  rw [selectvals_ok hwf hi (show p.xmin ≤ x from h5.1) (show x ≤ p.xmax from h5.2)]
  unfold fn at *
  rw [h3]

/-! ## Theorems -/

/-- Only "F" and "B" are known; in particular not "barB", although `sampling_points_matsubara` allows it. -/
theorem C67_statistics (env : Env) (stat : String) (h : stat ≠ "F" ∧ stat ≠ "B") (Lambda : ℝ) :
    load env stat Lambda = .error .keyError ∧
    ∀ r e, Good r → r.eps = some e → IrBasis.init stat Lambda r = .error .keyError := by
  refine ⟨?_, fun r e hg he => init_other stat h Lambda hg he⟩
  unfold load Adapter.kernelFor
  rw [if_neg h.1, if_neg h.2]

section
variable {r : SveResult} {e Lambda : ℝ} {stat : String} {b : IrBasis}

/-- Singular values, basis functions and their derivatives (inside the sections), by index from the front or the back. -/
theorem C67_values (hg : Good r) (he : r.eps = some e) (hb : IrBasis.init stat Lambda r = .ok b)
    (l : Fin b.dim) (i : ℤ) (hi : RefersTo i l) :
    b.sl i = .ok (b.s l) ∧
    (∀ x, |x| ≤ 1 → b.ulx i x = .ok (fn b.u l x) ∧ b.vly i x = .ok (fn b.v l x)) ∧
    (∀ (k : Fin b.u.nseg) x, b.u.knots k.castSucc < x → x < b.u.knots k.succ → ∀ order,
      b.dUlx i x order = .ok (iteratedDeriv order (fn b.u l) x)) ∧
    ∀ (k : Fin b.v.nseg) y, b.v.knots k.castSucc < y → y < b.v.knots k.succ → ∀ order,
      b.dVly i y order = .ok (iteratedDeriv order (fn b.v l) y) := by
  obtain ⟨-, m, -, d⟩ := made hg he hb
  refine ⟨?_, fun x hx => ?_, fun k x h1 h2 order => selectvals_deriv d.uwf hi k h1 h2 order,
    fun k x h1 h2 order => selectvals_deriv d.vwf hi k h1 h2 order⟩
  · unfold IrBasis.sl
    rw [axisIndex_ok hi]
  · rw [abs_le] at hx
    exact ⟨selectvals_ok d.uwf hi (by rw [d.udom.1]; exact hx.1) (by rw [d.udom.2]; exact hx.2),
      selectvals_ok d.vwf hi (by rw [d.vdom.1]; exact hx.1) (by rw [d.vdom.2]; exact hx.2)⟩

/-- IndexError for an index out of range, ValueError for a point outside `[-1, 1]`. -/
theorem C67_errors (hg : Good r) (he : r.eps = some e) (hb : IrBasis.init stat Lambda r = .ok b) (i : ℤ) :
    ((b.dim : ℤ) ≤ i ∨ i < -b.dim → b.sl i = .error .indexError ∧
      (∀ x, |x| ≤ 1 → b.ulx i x = .error .indexError ∧ b.vly i x = .error .indexError) ∧
      ∀ n, b.computeUnl n i = .error .indexError) ∧
    ∀ x, 1 < |x| → ∀ order, b.ulx i x = .error .valueError ∧ b.vly i x = .error .valueError ∧
      b.dUlx i x order = .error .valueError ∧ b.dVly i x order = .error .valueError := by
  obtain ⟨hst, m, -, d⟩ := made hg he hb
  constructor
  · intro hi
    refine ⟨?_, fun x hx => ?_, fun n => ?_⟩
    · unfold IrBasis.sl; rw [axisIndex_error hi]
    · rw [abs_le] at hx
      constructor
      · obtain ⟨j, hj⟩ := d.uwf.exists_inSeg (x := x) (by rw [d.udom.1]; exact hx.1) (by rw [d.udom.2]; exact hx.2)
        unfold IrBasis.ulx IrBasis.selectvals
        rw [PPoly.split_eq d.uwf hj, axisIndex_error hi]
      · obtain ⟨j, hj⟩ := d.vwf.exists_inSeg (x := x) (by rw [d.vdom.1]; exact hx.1) (by rw [d.vdom.2]; exact hx.2)
        unfold IrBasis.vly IrBasis.selectvals
        rw [PPoly.split_eq d.vwf hj, axisIndex_error hi]
    · obtain ⟨freq, hfreq, hct⟩ := d.uhat
      have hf : b.uhat.freq = freq := by
        unfold PFT.ctor at hct
        split at hct
        · cases hct
        · simp only at hct
          split at hct
          · cases hct
          · rw [← Except.ok.inj hct]
      have hz : ∃ z, freq.zeta = some z := by
        rcases hst with rfl | rfl
        · cases hfreq; exact ⟨_, rfl⟩
        · cases hfreq; exact ⟨_, rfl⟩
      obtain ⟨z, hz⟩ := hz
      unfold IrBasis.computeUnl IrBasis.hat
      rw [hf, hz, axisIndex_error hi]
  · intro x hx order
    have hsplit : ∀ {n : ℕ} (p : PPoly (Fin n)), p.xmin = -1 → p.xmax = 1 →
        IrBasis.selectvals p i x = .error .valueError := by
      intro n p h1 h2
      unfold IrBasis.selectvals PPoly.split
      rw [h1, h2]
      rcases lt_abs.1 hx with h3 | h3
      · rw [if_neg (not_not.2 (by linarith)), if_pos (by linarith)]
      · rw [if_pos (by linarith)]
    exact ⟨hsplit _ d.udom.1 d.udom.2, hsplit _ d.vdom.1 d.vdom.2, hsplit _ d.udom.1 d.udom.2, hsplit _ d.vdom.1 d.vdom.2⟩

theorem hat_eq (hg : Good r) (he : r.eps = some e) (hb : IrBasis.init stat Lambda r = .ok b) :
    ∃ (freq : Freq) (ms : List (Fin b.dim → ℝ)), b.uhat.freq = freq ∧ freq.zeta = some (zetaOf stat) ∧
      powerModel (fun l : Fin b.dim => l.1) freq b.u = .ok ms ∧ ∀ (l : Fin b.dim) i, RefersTo i l → ∀ nn : ℤ,
        nn % 2 = zetaOf stat → b.hat i nn = .ok (if |(nn : ℝ)| ≥ 40 * Lambda then giw ms nn l else ft (fn b.u l) nn) := by
  obtain ⟨hst, m, -, d⟩ := made hg he hb
  obtain ⟨freq, hfreq, hct⟩ := d.uhat
  have hz : freq.zeta = some (zetaOf stat) := by
    rcases hst with rfl | rfl
    · cases hfreq; rfl
    · cases hfreq; rfl
  have hct' := hct
  unfold PFT.ctor at hct'
  split at hct'
  · cases hct'
  simp only at hct'
  split at hct'
  · cases hct'
  rename_i ms hms
  have hu : b.uhat = ⟨b.u, freq, some (40 * Lambda), some ms⟩ := (Except.ok.inj hct').symm
  refine ⟨freq, ms, by rw [hu], hz, hms, fun l i hi nn hnn => ?_⟩
  have hrect : Rectangular b.u := fun i l i' l' => by rw [d.ulen, d.ulen]
  obtain ⟨g, hg, hcall⟩ := C10_ft_select (fun l : Fin b.dim => l.1) (fun _ : Unit => 0) b.u hrect freq (40 * Lambda) none
    b.uhat hct (fun _ : Unit => l)
  have hval := call_value b.uhat (by rw [hu]; exact d.uwf) (by rw [hu]; exact d.udom.1) (by rw [hu]; exact d.udom.2)
    (by rw [hu]; exact d.ulen) nn (by rw [hu]; simp only [hz, HasParity]; exact hnn)
  unfold IrBasis.hat
  rw [axisIndex_ok hi]
  simp only [hg, hcall, hval]
  rw [hu]
  simp only
  by_cases hc : |(nn : ℝ)| ≥ 40 * Lambda
  · rw [if_pos hc, if_pos hc]; rfl
  · rw [if_neg hc, if_neg hc]; rfl

/-- `compute_unl(n, l)` is the Fourier transform in the convention of irbasis, below the asymptotic region. -/
theorem C67_unl (hg : Good r) (he : r.eps = some e) (hb : IrBasis.init stat Lambda r = .ok b)
    (l : Fin b.dim) (i : ℤ) (hi : RefersTo i l) (n : ℤ) (hlt : |((2 * n + zetaOf stat : ℤ) : ℝ)| < 40 * Lambda) :
    b.computeUnl n i = .ok (1 / (Real.sqrt 2 : ℂ) * ∫ x in (-1 : ℝ)..1,
      Complex.exp (Complex.I * Real.pi * (n + (zetaOf stat : ℂ) / 2) * (x + 1)) * (fn b.u l x : ℂ)) := by
  obtain ⟨freq, ms, h1, h2, -, h4⟩ := hat_eq hg he hb
  have hz : zetaOf stat = 0 ∨ zetaOf stat = 1 := by unfold zetaOf; split <;> simp
  unfold IrBasis.computeUnl
  rw [h1, h2]
  simp only
  rw [h4 l i hi _ (by omega), if_neg (not_le.2 hlt)]
  unfold ft
  congr 2
  apply intervalIntegral.integral_congr
  intro x _
  simp only
  congr 2
  push_cast
  ring

/-- Purely real or imaginary, as `_get_unl_real` expects, if the function has the parity of its index. -/
theorem hat_other (hg : Good r) (he : r.eps = some e) (hb : IrBasis.init stat Lambda r = .ok b)
    (l : Fin b.dim) (g : List ℝ) (hp : ∀ x, |x| < 1 → x ∉ g → fn b.u l (-x) = (-1) ^ l.1 * fn b.u l x) (n : ℤ) (i : ℤ)
    (hi : RefersTo i l) :
    ∃ z, b.hat i (2 * n + zetaOf stat) = .ok z ∧ other stat l.1 z = 0 := by
  obtain ⟨freq, ms, h1, h2, h3, h4⟩ := hat_eq hg he hb
  obtain ⟨hst, m, -, d⟩ := made hg he hb
  have hz : zetaOf stat = 0 ∨ zetaOf stat = 1 := by unfold zetaOf; split <;> simp
  have hpar : (2 * n + zetaOf stat) % 2 = zetaOf stat := by omega
  refine ⟨_, h4 l i hi _ hpar, ?_⟩
  set nn := 2 * n + zetaOf stat with hnn
  set z := if |(nn : ℝ)| ≥ 40 * Lambda then giw ms nn l else ft (fn b.u l) nn with hzd
  have hconj : (starRingEnd ℂ) z = (-1) ^ nn * (-1) ^ l.1 * z := by
    rw [hzd]
    split
    · exact giw_reflect b.u d.uwf d.udom.2 d.upo _ freq ms h3 nn (by rw [h2]; exact hpar) l
    · have := ft_reflect_off (fn b.u l) ((-1) ^ l.1) g hp nn
      push_cast at this
      exact this
  have hsign : ((-1 : ℂ)) ^ nn = if stat = "F" then -1 else 1 := by
    by_cases hF : stat = "F"
    · rw [if_pos hF, Odd.neg_one_zpow]
      rw [hnn]; unfold zetaOf; rw [if_pos hF]; exact ⟨n, rfl⟩
    · rw [if_neg hF, Even.neg_one_zpow]
      rw [hnn]; unfold zetaOf; rw [if_neg hF]; exact ⟨n, by ring⟩
  rw [hsign] at hconj
  unfold other
  have hre := congrArg Complex.re hconj
  have him := congrArg Complex.im hconj
  rcases Nat.even_or_odd l.1 with hl | hl
  · rw [hl.neg_one_pow, mul_one] at hre him
    have hl2 : ((l.1 : ℕ) : ℤ) % 2 = 0 := by obtain ⟨q, hq⟩ := hl; omega
    rw [hl2]
    by_cases hF : stat = "F"
    · simp only [hF, if_true] at hre ⊢
      rw [if_neg (by decide)]
      simp at hre; linarith
    · simp only [hF, if_false] at him ⊢
      rw [if_pos trivial]
      simp at him; linarith
  · rw [hl.neg_one_pow] at hre him
    have hl2 : ((l.1 : ℕ) : ℤ) % 2 = 1 := by obtain ⟨q, hq⟩ := hl; omega
    rw [hl2]
    by_cases hF : stat = "F"
    · simp only [hF, if_true] at him ⊢
      simp at him; linarith
    · simp only [hF, if_false] at hre ⊢
      rw [if_neg (by decide)]
      simp at hre; linarith

theorem other_zero {stat : String} {l : ℤ} {z : ℂ} (h : other stat l z = 0) :
    (l % 2 = (if stat = "F" then 1 else 0) ∧ z.im = 0 ∧ ‖z‖ = |z.re|) ∨
    (l % 2 ≠ (if stat = "F" then 1 else 0) ∧ z.re = 0 ∧ ‖z‖ = |z.im|) := by
  unfold other at h
  by_cases hc : l % 2 = if stat = "F" then 1 else 0
  · rw [if_pos hc] at h
    refine Or.inl ⟨hc, h, ?_⟩
    rw [← Complex.re_add_im z, h]
    simp
  · rw [if_neg hc] at h
    refine Or.inr ⟨hc, h, ?_⟩
    rw [← Complex.re_add_im z, h]
    simp

/-- If the parity of function `l` is that of `l`, `sampling_points_matsubara(l)` passes its assertions, and returns
ascending indices `n` that are symmetric about zero frequency, with zero for bosons: in each run of indices of one sign
the one where `compute_unl(n, l)` is largest (`C57_matsubara`). -/
theorem C67_sampling (hg : Good r) (he : r.eps = some e) (hb : IrBasis.init stat Lambda r = .ok b)
    (l : Fin b.dim) (g : List ℝ) (hp : ∀ x, |x| < 1 → x ∉ g → fn b.u l (-x) = (-1) ^ l.1 * fn b.u l x) :
    ∃ (z : ℤ → ℂ) (x : ℕ → ℤ) (m : ℕ) (pts : List ℕ) (res : List ℤ), b.samplingPointsMatsubara l.1 = .ok res ∧
      (∀ n : ℤ, b.computeUnl n l.1 = .ok (z n) ∧ ‖z n‖ = |component stat l.1 (z n)|) ∧
      StrictMonoOn x (Set.Iio m) ∧ (∀ i : ℕ, i < 1000 → ∃ j < m, x j = i) ∧ (∀ i < m, 0 ≤ x i) ∧ res.Pairwise (· < ·) ∧
      (∀ n, n ∈ res ↔ -n - zetaOf stat ∈ res) ∧ (stat = "B" → (0 : ℤ) ∈ res) ∧
      (∀ n, 0 ≤ n → (n ∈ res ↔ (∃ p ∈ pts, n = x p) ∨ (stat = "B" ∧ n = 0))) ∧
      (∀ p ∈ pts, ∃ c d, Run (fun i => component stat l.1 (z (x i))) m c d ∧
        FirstMax (fun i => |component stat l.1 (z (x i))|) c d p) ∧
      ∀ c d, Run (fun i => component stat l.1 (z (x i))) m c d → ∃! p, p ∈ pts ∧ c ≤ p ∧ p < d := by
  obtain ⟨freq, ms, h1, h2, -, -⟩ := hat_eq hg he hb
  obtain ⟨hst, m, -, d⟩ := made hg he hb
  have hall : ∀ n : ℤ, ∃ z, b.hat l.1 (2 * n + zetaOf stat) = .ok z ∧ other stat l.1 z = 0 := fun n =>
    hat_other hg he hb l g hp n l.1 (Or.inl rfl)
  choose z hz ho using hall
  have hB : ∀ {P : Prop}, (stat ≠ "F" → P) ↔ (stat = "B" → P) := by
    intro P
    rcases hst with rfl | rfl <;> simp
  have hB' : stat ≠ "F" ↔ stat = "B" := by rcases hst with rfl | rfl <;> simp
  have hmir : ∀ n, mirrorIndex stat n = -n - zetaOf stat := by
    intro n
    unfold mirrorIndex zetaOf
    split <;> ring
  obtain ⟨x, m', pts, res, e1, e2, e3, e4, e5, e6, e7, e8, e9⟩ := C57_matsubara b.sampled l.1 z
    (by show b.statistics = _ ∨ b.statistics = _ ∨ b.statistics = _
        rw [d.statistics]; rcases hst with h | h
        · exact Or.inl h
        · exact Or.inr (Or.inl h))
    (by have := l.2; show (l.1 : ℤ) ≤ (b.dim : ℤ) - 1; omega)
    (fun n _ => by
      show b.hat l.1 (2 * n + if b.statistics = "F" then 1 else 0) = _
      rw [d.statistics]; exact hz n)
    (fun n _ => by
      show |other b.statistics l.1 (z n)| ≤ _
      rw [d.statistics, ho n]; norm_num)
  obtain ⟨s1, s2, s3⟩ := startGuesses_spec 1000
  have hbs : b.sampled.statistics = stat := d.statistics
  rw [hbs] at e4 e5 e7 e8 e9
  refine ⟨z, x, m', pts, res, e2, fun n => ⟨?_, ?_⟩, ?_, ?_, ?_, e3, fun n => by rw [← hmir]; exact e4 n, hB.1 e5, ?_, e8, e9⟩
  · unfold IrBasis.computeUnl
    rw [h1, h2]
    exact hz n
  · unfold component
    rcases other_zero (ho n) with ⟨h3, -, h4⟩ | ⟨h3, -, h4⟩
    · rw [if_pos h3, h4]
    · rw [if_neg h3, h4]
  · intro i hi j hj hij
    rw [e1, List.pairwise_map] at s1
    have h9 := List.pairwise_iff_getElem.1 s1 i j (by simpa using hi) (by simpa using hj) hij
    simpa using h9
  · intro i hi
    have h9 := s3 i hi
    rw [e1, List.mem_map] at h9
    obtain ⟨j, h10, h11⟩ := h9
    exact ⟨j, List.mem_range.1 h10, h11⟩
  · intro i hi
    exact s2 _ (by rw [e1]; exact List.mem_map.2 ⟨i, List.mem_range.2 hi, rfl⟩)
  · intro n hn0
    rw [e7 n hn0, hB']

/-- A negative `whichl` is taken from the end, but its own parity is used: with an even number of functions the result is
the same as for the function it refers to; with an odd number the assertion fails. -/
theorem C67_negative (hg : Good r) (he : r.eps = some e) (hb : IrBasis.init stat Lambda r = .ok b)
    (l : Fin b.dim) (g : List ℝ) (hp : ∀ x, |x| < 1 → x ∉ g → fn b.u l (-x) = (-1) ^ l.1 * fn b.u l x) :
    (Even b.dim → b.samplingPointsMatsubara ((l.1 : ℤ) - b.dim) = b.samplingPointsMatsubara l.1) ∧
    (Odd b.dim → ∀ n : ℕ, n < 1000 → ∀ z, b.computeUnl n l.1 = .ok z → 1e-8 < ‖z‖ →
      b.samplingPointsMatsubara ((l.1 : ℤ) - b.dim) = .error .assertionError) := by
  obtain ⟨freq, ms, h1, h2, -, -⟩ := hat_eq hg he hb
  obtain ⟨hst, m, -, d⟩ := made hg he hb
  have hl := l.2
  have hhat : b.hat ((l.1 : ℤ) - b.dim) = b.hat l.1 := by
    funext nn
    unfold IrBasis.hat
    rw [axisIndex_ok (i := (l.1 : ℤ) - b.dim) (Or.inr rfl), axisIndex_ok (i := (l.1 : ℤ)) (l := l) (Or.inl rfl)]
  have hunl : ∀ X, b.sampled.computeUnl ((l.1 : ℤ) - b.dim) X = b.sampled.computeUnl l.1 X := by
    intro X
    induction X with
    | nil => rfl
    | cons n X ih =>
      unfold Adapter.Basis.computeUnl
      rw [ih]
      show (match b.hat ((l.1 : ℤ) - b.dim) _ with | .error e => _ | .ok z => _) = _
      rw [hhat]
      rfl
  have hstb : b.sampled.statistics = "F" ∨ b.sampled.statistics = "B" ∨ b.sampled.statistics = "barB" := by
    show b.statistics = _ ∨ b.statistics = _ ∨ b.statistics = _
    rw [d.statistics]
    rcases hst with h | h
    · exact Or.inl h
    · exact Or.inr (Or.inl h)
  have hstart : ∀ i : ℤ, i ≤ (b.dim : ℤ) - 1 → b.samplingPointsMatsubara i =
      Adapter.getMatsSampling b.sampled (startGuesses 1000) (some i) := by
    intro i hi
    unfold IrBasis.samplingPointsMatsubara Adapter.samplingPointsMatsubara
    rw [if_neg (not_not.2 hstb), if_neg (show ¬ i > (b.sampled.dim : ℤ) - 1 from not_lt.2 hi)]
  rw [hstart _ (by omega), hstart _ (by omega)]
  constructor
  · rintro ⟨q, hq⟩
    unfold Adapter.getMatsSampling
    simp only [Option.getD_some]
    rw [hunl]
    have hpar : ((l.1 : ℤ) - b.dim) % 2 = (l.1 : ℤ) % 2 := by omega
    have : Adapter.realPart b.sampled.statistics ((l.1 : ℤ) - b.dim) = Adapter.realPart b.sampled.statistics l.1 := by
      funext w
      unfold Adapter.realPart
      rw [hpar]
    rw [this]
  · rintro hodd n hn1 w hw hbig
    have hall : ∀ n : ℤ, ∃ z, b.hat l.1 (2 * n + zetaOf stat) = .ok z ∧ other stat l.1 z = 0 := fun n =>
      hat_other hg he hb l g hp n l.1 (Or.inl rfl)
    choose z hz ho using hall
    have hwz : w = z n := by
      unfold IrBasis.computeUnl at hw
      rw [h1, h2] at hw
      simp only at hw
      rw [hz n] at hw
      exact (Except.ok.inj hw).symm
    subst hwz
    have hmem : z n ∈ (startGuesses 1000).map z := List.mem_map.2 ⟨n, (startGuesses_spec 1000).2.2 n hn1, rfl⟩
    have hzl : b.sampled.computeUnl l.1 (startGuesses 1000) = .ok ((startGuesses 1000).map z) :=
      computeUnl_ok b.sampled l.1 z _ fun n _ => by
        show b.hat l.1 (2 * n + if b.statistics = "F" then 1 else 0) = _
        rw [d.statistics]; exact hz n
    unfold Adapter.getMatsSampling
    simp only [Option.getD_some]
    rw [hunl, hzl]
    simp only [bind, Except.bind]
    have hbs : b.sampled.statistics = stat := d.statistics
    have hreal : Adapter.realPart stat ((l.1 : ℤ) - b.dim) ((startGuesses 1000).map z) = .error .assertionError := by
      have hz2 : (if stat = "F" then (1 : ℤ) else 0) = 0 ∨ (if stat = "F" then (1 : ℤ) else 0) = 1 := by split <;> simp
      obtain ⟨q, hq⟩ := hodd
      unfold Adapter.realPart
      simp only
      rcases other_zero (ho n) with ⟨h3, -, h4⟩ | ⟨h3, -, h4⟩
      · rw [if_neg (by omega), if_neg fun h7 => ?_]
        have h8 := h7 _ hmem
        rw [h4] at hbig
        linarith
      · rw [if_pos (by omega), if_neg fun h7 => ?_]
        have h8 := h7 _ hmem
        rw [h4] at hbig
        linarith
    rw [hbs, hreal]

end

/-! ## `load` -/

/-- The outcome `res` of loading a basis for the kernel `k`: there are Gauss nodes in the upper right quarter, and
factorisations of the even and odd parts of `k` there, such that either one of the singular functions vanishes at 1 (then
the sign cannot be fixed), or `res` is a basis, made from a singular value expansion; its singular values and the `omitted`
ones are those of the factorisations, the latter at most `max e t` times the first one; and if the factorisations are
exact, the squared error of the expansion of `k`, summed over the nodes with both signs, is the sum of the squares of the
omitted ones. -/
def Loaded (env : Env) (c : Choice) (segs : PyM (List ℝ)) (k : ℝ → ℝ → ℝ) (n : ℕ) (stat : String) (Lambda t : ℝ)
    (res : PyM IrBasis) : Prop :=
  ∃ (mx my : ℕ) (x wx : Fin mx → ℝ) (y wy : Fin my → ℝ) (hint : ℕ) (fe : Factors ℝ mx my) (we : List Warning)
    (fo : Factors ℝ mx my) (wo : List Warning),
    NodesOn 0 n x wx ∧ NodesOn 0 n y wy ∧
    Svd.compute env.libs (decide (c.dtype = .ddouble)) (nodeMatrix (fun x y => k x y + k x (-y)) x wx y wy) (some hint)
      c.strategy = .ok (fe, we) ∧
    Svd.compute env.libs (decide (c.dtype = .ddouble)) (nodeMatrix (fun x y => k x y - k x (-y)) x wx y wy) (some hint)
      c.strategy = .ok (fo, wo) ∧
    ((res = .error .nanResult ∧ ∃ g, segs = .ok g ∧ (Vanishing fe x wx g n ∨ Vanishing fo x wx g n)) ∨
    ∃ b omitted r, res = .ok b ∧ IsIrBasis b stat Lambda c.safeEps ∧
      (IsSve r ∧ 0 < r.n ∧ r.eps = some c.safeEps ∧ IrBasis.init stat Lambda r = .ok b) ∧
      (List.ofFn b.s ++ omitted).Perm (List.ofFn fe.s ++ List.ofFn fo.s) ∧
      (∀ q ∈ omitted, ∀ l, q ≤ b.s l) ∧
      (∀ q ∈ omitted, ∀ l0, l0.1 = 0 → q ≤ max c.safeEps t * b.s l0) ∧
      (IsSvdFactors (nodeMatrix (fun x y => k x y + k x (-y)) x wx y wy) fe →
        IsSvdFactors (nodeMatrix (fun x y => k x y - k x (-y)) x wx y wy) fo →
        ∑ i, ∑ j, Sum.elim wx wx i * Sum.elim wy wy j *
          (k (Sum.elim x (fun i => -x i) i) (Sum.elim y (fun j => -y j) j) - ∑ l, b.s l *
            fn b.u l (Sum.elim x (fun i => -x i) i) * fn b.v l (Sum.elim y (fun j => -y j) j)) ^ 2 =
        (omitted.map (· ^ 2)).sum))

theorem sum_first {m n : ℕ} (h : m ≤ n) (f : Fin n → ℝ) :
    ∑ l : Fin m, f ⟨l.1, lt_of_lt_of_le l.2 h⟩ = ∑ l with l.1 < m, f l := by
  rw [Finset.sum_filter]
  obtain ⟨k, rfl⟩ := Nat.exists_eq_add_of_le h
  rw [Fin.sum_univ_add]
  have h1 : ∑ i : Fin k, (if (Fin.natAdd m i).1 < m then f (Fin.natAdd m i) else 0) = 0 :=
    Finset.sum_eq_zero fun i _ => if_neg (by simp)
  rw [h1, add_zero]
  refine Finset.sum_congr rfl fun i _ => ?_
  rw [if_pos (by simp)]
  rfl

theorem load_of (env : Env) (stat : String) (hstat : stat = "F" ∨ stat = "B") (Lambda : ℝ) (K : Kern)
    (hKs : Adapter.kernelFor stat Lambda = .ok K) (k : ℝ → ℝ → ℝ) (c : Choice)
    (hc : safeEps env.platform none none none = .ok c) (he : c.safeEps ≤ 1) (hK : Describes K k c.safeEps) (t : ℝ)
    (ht : CutoffIs env.platform c.dtype none t) (h0 : 0 ≤ t) (h1 : t < 1)
    (hsvd : SvdOk env.libs (decide (c.dtype = .ddouble)) c.strategy) (hsort : ∀ k, ArgsortOk (env.argsort k)) (n : ℕ)
    (hn : n = if 1e-8 ≤ c.safeEps then 10 else 16) (rule : Rule) (hleg : env.legendre n = .ok rule) (hr : GoodRule rule)
    (hrn : rule.x.length = n) :
    Loaded env c ((K.symmetrized 1).hints c.safeEps).segX k n stat Lambda t (load env stat Lambda) := by
  obtain ⟨mx, my, x, wx, y, wy, hint, fe, we, fo, wo, nx, ny, -, hfe, hfo, hres⟩ :=
    C65_centrosymm env K k none none none none none none (Or.inl rfl) none c hc hK t ht h0 h1.le hsvd hsort n
      (by simpa using hn) rule hleg hr hrn
  refine ⟨mx, my, x, wx, y, wy, hint, fe, we, fo, wo, nx, ny, hfe, hfo, ?_⟩
  simp only [Option.map_none] at hres
  have hload : ∀ q, SveCompute.compute env K none none none none none none none = q →
      load env stat Lambda = match q with
        | .error e => .error e
        | .ok r => IrBasis.init stat Lambda r := by
    rintro q rfl
    unfold load
    simp only [hKs]
    rfl
  rcases hres with ⟨h2, h3⟩ | ⟨r, d, h2, h3, h4, h5, h6, h7, h8⟩
  · exact Or.inl ⟨hload _ h2, h3⟩
  · right
    have hpos : 0 < r.n := h7 trivial h1
    have hg := good_of_sve h4 hpos
    obtain ⟨m, b, hm, hb, ds⟩ := stored hg hstat h3 Lambda
    have hsize : b.dim ≤ r.n := by rw [ds.dim_eq]; exact hm.1
    have hs : ∀ l : Fin b.dim, b.s l = r.s ⟨l.1, lt_of_lt_of_le l.2 hsize⟩ := fun l => ds.s_eq l ⟨l.1, _⟩ rfl
    have htake : List.ofFn b.s = (List.ofFn r.s).take b.dim := by
      apply List.ext_getElem
      · simp [hsize]
      · intro i h9 h10
        simp [hs]
    have hdrop : ∀ q ∈ (List.ofFn r.s).drop b.dim, ∃ l : Fin r.n, b.dim ≤ l.1 ∧ r.s l = q := by
      intro q hq
      obtain ⟨i, hi, rfl⟩ := List.mem_iff_getElem.1 hq
      simp only [List.length_drop, List.length_ofFn] at hi
      exact ⟨⟨b.dim + i, by omega⟩, by simp, by simp⟩
    refine ⟨b, (List.ofFn r.s).drop b.dim ++ d, r, (hload _ h2).trans hb, isIr_of h4 hpos h5 hm he ds,
      ⟨h4, hpos, h3, hb⟩, ?_, ?_, ?_, ?_⟩
    · rw [htake, ← List.append_assoc, List.take_append_drop]
      exact h6.perm
    · intro q hq l
      rw [hs]
      rcases List.mem_append.1 hq with h9 | h9
      · obtain ⟨l', hl', rfl⟩ := hdrop _ h9
        exact h4.anti (show l.1 ≤ l'.1 by omega)
      · exact (h6.order _ h9 _ (List.mem_ofFn.2 ⟨_, rfl⟩)).le
    · rintro q hq l0 hl0
      have hz : (⟨l0.1, lt_of_lt_of_le l0.2 hsize⟩ : Fin r.n) = ⟨0, hpos⟩ := Fin.ext hl0
      have hs0 := h4.spos ⟨0, hpos⟩
      rw [hs, hz]
      rcases List.mem_append.1 hq with h9 | h9
      · obtain ⟨l', hl', rfl⟩ := hdrop _ h9
        have h10 : ¬ l'.1 < m := by have := ds.dim_eq; omega
        rw [hm.2 l', not_le] at h10
        exact h10.le.trans (mul_le_mul_of_nonneg_right (le_max_left _ _) hs0.le)
      · rcases h6.below _ (top_of_selected h4 hpos h6) _ h9 with h10 | ⟨_, h10, -⟩
        · exact h10.trans (mul_le_mul_of_nonneg_right (le_max_right _ _) hs0.le)
        · cases h10
    · intro he' ho'
      have hN := (h8 he' ho').error b.dim
      have hres : ∀ a c : ℝ, k a c - ∑ l, b.s l * fn b.u l a * fn b.v l c = resid k r b.dim a c := by
        intro a c
        unfold resid
        congr 1
        rw [← sum_first hsize fun l => r.s l * fn r.u l a * fn r.v l c]
        refine Finset.sum_congr rfl fun l _ => ?_
        rw [hs, ds.u_eq l ⟨l.1, lt_of_lt_of_le l.2 hsize⟩ rfl, ds.v_eq l ⟨l.1, lt_of_lt_of_le l.2 hsize⟩ rfl]
      simp only [hres]
      rw [hN, List.map_append, List.sum_append, add_comm]
      congr 1
      rw [sum_drop hsize, Finset.sum_filter]
      refine Finset.sum_congr rfl fun l _ => ?_
      by_cases hl : l.1 < b.dim
      · rw [if_neg (by omega), if_pos hl]
      · rw [if_pos (by omega), if_neg hl]

/-- `load("F", Lambda)`: the basis of the kernel `exp(-Λ x y / 2) / (2 cosh(Λ y / 2))`. -/
theorem C67_fermion (env : Env) (Lambda : ℝ) (hL : 0 < Lambda) (c : Choice)
    (hc : safeEps env.platform none none none = .ok c) (he : c.safeEps ≤ 1) (t : ℝ)
    (ht : CutoffIs env.platform c.dtype none t) (h0 : 0 ≤ t) (h1 : t < 1)
    (hsvd : SvdOk env.libs (decide (c.dtype = .ddouble)) c.strategy) (hsort : ∀ k, ArgsortOk (env.argsort k)) (n : ℕ)
    (hn : n = if 1e-8 ≤ c.safeEps then 10 else 16) (rule : Rule) (hleg : env.legendre n = .ok rule) (hr : GoodRule rule)
    (hrn : rule.x.length = n) :
    Loaded env c (((logisticKern Lambda).symmetrized 1).hints c.safeEps).segX
      (fun x y => Real.exp (-Lambda * x * y / 2) / (2 * Real.cosh (Lambda * y / 2))) n "F" Lambda t
      (load env "F" Lambda) := by
  have h2 : (fun x y => Real.exp (-Lambda * x * y / 2) / (2 * Real.cosh (Lambda * y / 2))) = logisticK Lambda := by
    funext x y
    unfold logisticK
    rw [show -Lambda * y * (x + 1) / 2 = -Lambda * x * y / 2 + -(Lambda * y / 2) by ring, Real.exp_add, Real.cosh_eq,
      show -Lambda * y = -(Lambda * y / 2) + -(Lambda * y / 2) by ring, Real.exp_add]
    have h3 := Real.exp_pos (-(Lambda * y / 2))
    have h4 : Real.exp (Lambda * y / 2) = (Real.exp (-(Lambda * y / 2)))⁻¹ := by rw [← Real.exp_neg, neg_neg]
    rw [h4]
    field_simp
  rw [h2]
  exact load_of env "F" (Or.inl rfl) Lambda _ rfl _ c hc he (C65_logistic _ _ hL) t ht h0 h1 hsvd hsort n hn rule hleg hr hrn

/-- `load("B", Lambda)`: the basis of a kernel that agrees with `y exp(-Λ x y / 2) / (2 sinh(Λ y / 2))` to 200 digits. -/
theorem C67_boson (env : Env) (Lambda : ℝ) (hL : 0 < Lambda) (c : Choice)
    (hc : safeEps env.platform none none none = .ok c) (he : c.safeEps ≤ 1) (t : ℝ)
    (ht : CutoffIs env.platform c.dtype none t) (h0 : 0 ≤ t) (h1 : t < 1)
    (hsvd : SvdOk env.libs (decide (c.dtype = .ddouble)) c.strategy) (hsort : ∀ k, ArgsortOk (env.argsort k)) (n : ℕ)
    (hn : n = if 1e-8 ≤ c.safeEps then 10 else 16) (rule : Rule) (hleg : env.legendre n = .ok rule) (hr : GoodRule rule)
    (hrn : rule.x.length = n) :
    ∃ k : ℝ → ℝ → ℝ,
      (∀ x y, |x| ≤ 1 → |y| ≤ 1 → y ≠ 0 → |k x y - y * Real.exp (-Lambda * x * y / 2) / (2 * Real.sinh (Lambda * y / 2))| ≤
        1e-200 * (y * Real.exp (-Lambda * x * y / 2) / (2 * Real.sinh (Lambda * y / 2)))) ∧
      (∀ x, |x| ≤ 1 → k x 0 = 1 / Lambda) ∧
      Loaded env c (((boseKern Lambda).symmetrized 1).hints c.safeEps).segX k n "B" Lambda t (load env "B" Lambda) := by
  obtain ⟨k, hk, hd⟩ := C65_bose Lambda c.safeEps hL
  have h2 : ∀ x y, y ≠ 0 → y * Real.exp (-Lambda * x * y / 2) / (2 * Real.sinh (Lambda * y / 2)) = boseK Lambda x y := by
    intro x y hy
    unfold boseK
    rw [show -Lambda * y * (x + 1) / 2 = -Lambda * x * y / 2 + -(Lambda * y / 2) by ring, Real.exp_add, Real.sinh_eq,
      show -Lambda * y = -(Lambda * y / 2) + -(Lambda * y / 2) by ring, Real.exp_add]
    have h3 := Real.exp_pos (-(Lambda * y / 2))
    have h4 : Real.exp (Lambda * y / 2) = (Real.exp (-(Lambda * y / 2)))⁻¹ := by rw [← Real.exp_neg, neg_neg]
    have h5 : Real.exp (-(Lambda * y / 2)) ≠ 1 := by
      rw [Ne, Real.exp_eq_one_iff]
      have : Lambda * y ≠ 0 := mul_ne_zero hL.ne' hy
      intro h
      apply this
      linarith
    rw [h4]
    have h6 : (Real.exp (-(Lambda * y / 2)))⁻¹ - Real.exp (-(Lambda * y / 2)) =
        (1 - Real.exp (-(Lambda * y / 2)) * Real.exp (-(Lambda * y / 2))) / Real.exp (-(Lambda * y / 2)) := by
      field_simp
    rw [h6]
    field_simp
  refine ⟨k, fun x y hx hy hy0 => ?_, fun x hx => (hk x 0 hx (by simp)).2.1 rfl, ?_⟩
  · rw [h2 x y hy0]
    exact (hk x y hx hy).2.2 hy0
  · exact load_of env "B" (Or.inr rfl) Lambda _ rfl _ c hc he hd t ht h0 h1 hsvd hsort n hn rule hleg hr hrn

/-- Without `xprec`, the singular values reach down to `1e-8` times the first one; the module says `~1e-9`. -/
theorem C67_accuracy (env : Env) (hx : env.platform.maxDtype = .float64) :
    ∃ c, safeEps env.platform none none none = .ok c ∧ c.safeEps = 1e-8 ∧ c.dtype = .float64 ∧ c.strategy = "fast" := by
  refine ⟨⟨1e-8, .float64, "fast", false⟩, ?_, rfl, rfl, rfl⟩
  simp [safeEps, chooseDtype, safeEpsOf, hx]

/-- An environment with ideal libraries and without `xprec` meets the hypotheses of `C67_fermion` and `C67_boson`. -/
example : ∃ (env : Env) (c : Choice) (rule : Rule),
    safeEps env.platform none none none = .ok c ∧ c.safeEps ≤ 1 ∧ env.platform.maxDtype = .float64 ∧
    CutoffIs env.platform c.dtype none (2 * 2 ^ (-52 : ℤ)) ∧ SvdOk env.libs (decide (c.dtype = .ddouble)) c.strategy ∧
    (∀ k, ArgsortOk (env.argsort k)) ∧ env.legendre 10 = .ok rule ∧ GoodRule rule ∧ rule.x.length = 10 ∧
    (10 = if 1e-8 ≤ c.safeEps then 10 else 16) ∧
    ∀ m n (A : Matrix (Fin m) (Fin n) ℝ) hint f w,
      Svd.compute env.libs (decide (c.dtype = .ddouble)) A (some hint) c.strategy = .ok (f, w) → IsSvdFactors A f := by
  obtain ⟨eig, diff, sub, r, h1, h2, h3, h4⟩ := C25_exists 9
  have hg := C36_goodRule (Nat.succ_pos 9) h1 h2 h3 h4
  have hlib : ∀ m n (A : Matrix (Fin m) (Fin n) ℝ) hint,
      Svd.compute (idealLibs false true) false A (some hint) "fast" = .ok (idealFactors A, []) := by
    intro m n A hint
    unfold Svd.compute idealLibs
    rfl
  refine ⟨⟨fun _ => .ok r, idealLibs false true, exPlatform false, fun k s => Tuple.sort s⟩, ⟨1e-8, .float64, "fast", false⟩,
    r, ?_, ?_, rfl, Or.inr ⟨rfl, _, rfl, rfl⟩, fun m n A hint _ _ _ => ⟨_, [], hlib m n A hint, (idealFactors_ok A).thin⟩,
    fun k s => ⟨(Tuple.sort s).bijective, Tuple.monotone_sort s⟩, rfl, hg, h2, ?_, fun m n A hint f w h5 => ?_⟩
  · simp [safeEps, chooseDtype, safeEpsOf, Platform.maxDtype, exPlatform]
  · norm_num
  · simp
  · have h6 := (hlib m n A hint).symm.trans h5
    cases h6
    exact idealFactors_ok A

/-- The two functions `1` and `x`: the last one by the index -1, and its sampling points. -/
example : ∃ b, IrBasis.init "F" 10 (exSve 0.01) = .ok b ∧ b.sl (-1) = .ok (1 / 10) ∧
    ∃ pts, b.samplingPointsMatsubara 1 = .ok pts ∧ b.samplingPointsMatsubara (-1) = .ok pts := by
  have hg := exSve_good 0.01
  obtain ⟨m, b, hm, hb, d⟩ := stored hg (Or.inl rfl) rfl (10 : ℝ)
  have hm2 : m = 2 := by
    have h1 := hm.1
    have h2 := (hm.2 (1 : Fin 2)).2 (by
      show (0.01 : ℝ) * 1 ≤ (![1, 1 / 10] : Fin 2 → ℝ) 1
      norm_num)
    have h3 : (1 : ℕ) < m := h2
    have h4 : m ≤ 2 := h1
    omega
  have hd : b.dim = 2 := d.dim_eq.trans hm2
  have hl : 1 < b.dim := by omega
  have hfn : ∀ x, |x| < 1 → fn b.u ⟨1, hl⟩ x = x := by
    intro x hx
    rw [abs_lt] at hx
    rw [d.u_eq ⟨1, hl⟩ (1 : Fin 2) rfl]
    obtain ⟨i, hi⟩ := exPair_WF.exists_inSeg (x := x) (by simpa [PPoly.xmin, exPair] using hx.1.le)
      (by simpa [PPoly.xmax, exPair] using hx.2.le)
    show fn exPair 1 x = x
    have h1 : fn exPair 1 x = (exPair.seg 1 i).eval x := by
      unfold fn
      rw [PPoly.call_eq exPair_WF hi]
      exact (segPoly_eval _ _ _ _).symm
    rw [h1, exPair_seg, if_neg (by decide), Polynomial.eval_X]
  have hp : ∀ x, |x| < 1 → x ∉ ([] : List ℝ) → fn b.u ⟨1, hl⟩ (-x) = (-1) ^ (1 : ℕ) * fn b.u ⟨1, hl⟩ x := by
    intro x hx _
    rw [hfn _ (by rwa [abs_neg]), hfn x hx]
    ring
  refine ⟨b, hb, ?_, ?_⟩
  · rw [(C67_values hg rfl hb ⟨1, hl⟩ (-1) (Or.inr (by simp only; omega))).1, d.s_eq ⟨1, hl⟩ (1 : Fin 2) rfl]
    rfl
  · obtain ⟨-, -, -, -, pts, h1, -⟩ := C67_sampling hg rfl hb ⟨1, hl⟩ [] hp
    have h2 := (C67_negative hg rfl hb ⟨1, hl⟩ [] hp).1 (by rw [hd]; exact ⟨1, rfl⟩)
    refine ⟨pts, h1, ?_⟩
    rw [← h1, show (-1 : ℤ) = ((⟨1, hl⟩ : Fin b.dim).1 : ℤ) - b.dim by simp only; omega]
    exact h2

end Verif.Props
