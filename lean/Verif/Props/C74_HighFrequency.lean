import Verif.Props.C68_SparseSampling
import Mathlib.Analysis.Calculus.IteratedDeriv.Lemmas
/-!
# C74 — the transformed basis functions at high frequencies
-/

namespace Verif.Props
open Verif Verif.Np Verif.Poly Verif.Sve Verif.Spec Verif.FiniteTemp Verif.Sampling Complex Polynomial Filter Topology
open scoped Matrix

/-! ### Specification -/

/-- `J` is the jump of the `m`-th derivative of `f` at `t`: the limit from the right minus that from the left. -/
def IsJump (f : ℝ → ℝ) (m : ℕ) (t J : ℝ) : Prop :=
  ∃ a b, Tendsto (iteratedDeriv m f) (𝓝[>] t) (𝓝 a) ∧ Tendsto (iteratedDeriv m f) (𝓝[<] t) (𝓝 b) ∧ J = a - b

theorem isJump_unique {f : ℝ → ℝ} {m : ℕ} {t J J' : ℝ} (h : IsJump f m t J) (h' : IsJump f m t J') : J = J' := by
  obtain ⟨a, b, h1, h2, rfl⟩ := h
  obtain ⟨a', b', h1', h2', rfl⟩ := h'
  rw [tendsto_nhds_unique h1 h1', tendsto_nhds_unique h2 h2']

/-! ### Jumps of piecewise polynomials -/

theorem iteratedDeriv_eval (q : ℝ[X]) (m : ℕ) : iteratedDeriv m (fun x => q.eval x) = fun x => (derivative^[m] q).eval x := by
  induction m generalizing q with
  | zero => rfl
  | succ m ih =>
    rw [iteratedDeriv_succ', Function.iterate_succ_apply, ← ih]
    congr 1
    funext x
    exact q.deriv

theorem iteratedDeriv_seg {ι : Type _} {p : PPoly ι} (h : p.WF) (l : ι) (i : Fin p.nseg) (m : ℕ) {x : ℝ}
    (h1 : p.knots i.castSucc < x) (h2 : x < p.knots i.succ) :
    iteratedDeriv m (fn p l) x = (derivative^[m] (p.seg l i)).eval x := by
  have he : fn p l =ᶠ[𝓝 x] fun y => (p.seg l i).eval y := by
    filter_upwards [Ioo_mem_nhds h1 h2] with y hy
    exact fn_seg h ⟨hy.1.le, Or.inl hy.2⟩ l
  rw [he.iteratedDeriv_eq m, iteratedDeriv_eval]

theorem isJump_jump {ι : Type _} {p : PPoly ι} (h : p.WF) (l : ι) (m j : ℕ) (hj : j + 1 < p.nseg) :
    IsJump (fn p l) m (p.knots ⟨j + 1, by omega⟩) (jump p l m j hj) := by
  refine ⟨_, _, ?_, ?_, rfl⟩
  · have hc : Tendsto (fun x => (derivative^[m] (p.seg l ⟨j + 1, hj⟩)).eval x)
        (𝓝[>] (p.knots ⟨j + 1, by omega⟩)) (𝓝 _) :=
      ((derivative^[m] (p.seg l ⟨j + 1, hj⟩)).continuous.tendsto _).mono_left nhdsWithin_le_nhds
    refine hc.congr' ?_
    have hlt : p.knots ⟨j + 1, by omega⟩ < p.knots (Fin.succ ⟨j + 1, hj⟩) := h.mono (Fin.mk_lt_mk.2 (by simp))
    filter_upwards [Ioo_mem_nhdsGT hlt] with x hx
    exact (iteratedDeriv_seg h l ⟨j + 1, hj⟩ m hx.1 hx.2).symm
  · have hc : Tendsto (fun x => (derivative^[m] (p.seg l ⟨j, by omega⟩)).eval x)
        (𝓝[<] (p.knots ⟨j + 1, by omega⟩)) (𝓝 _) :=
      ((derivative^[m] (p.seg l ⟨j, by omega⟩)).continuous.tendsto _).mono_left nhdsWithin_le_nhds
    refine hc.congr' ?_
    have hlt : p.knots (Fin.castSucc ⟨j, by omega⟩) < p.knots ⟨j + 1, by omega⟩ := h.mono (Fin.mk_lt_mk.2 (by simp))
    filter_upwards [Ioo_mem_nhdsLT hlt] with x hx
    exact (iteratedDeriv_seg h l ⟨j, by omega⟩ m hx.1 hx.2).symm

/-! ### Rescaling -/

theorem iterate_derivative_comp_affine (q : ℝ[X]) (c d : ℝ) (m : ℕ) :
    derivative^[m] (q.comp (C c * X + C d)) = C (c ^ m) * (derivative^[m] q).comp (C c * X + C d) := by
  induction m with
  | zero => simp
  | succ m ih =>
    rw [Function.iterate_succ_apply', ih, Function.iterate_succ_apply', derivative_C_mul, derivative_comp]
    simp only [derivative_add, derivative_mul, derivative_C, zero_mul, derivative_X, mul_one, zero_add, add_zero,
      pow_succ, C_mul]
    ring

theorem segPoly_map (a b c d : ℝ) (hc : 0 < c) (l : List ℝ) :
    (segPoly (c * a + d) (c * b + d) l).comp (C c * X + C d) = C (1 / Real.sqrt c) * segPoly a b l := by
  apply Polynomial.funext
  intro x
  simp only [eval_comp, eval_add, eval_mul, eval_C, eval_X, segPoly_eval]
  rw [segFun_map _ _ _ _ hc]
  ring

theorem segPoly_map_deriv (a b c d : ℝ) (hc : 0 < c) (l : List ℝ) (m : ℕ) (x : ℝ) :
    c ^ m * (derivative^[m] (segPoly (c * a + d) (c * b + d) l)).eval (c * x + d) =
      1 / Real.sqrt c * (derivative^[m] (segPoly a b l)).eval x := by
  have h := congrArg (fun q => (derivative^[m] q).eval x) (segPoly_map a b c d hc l)
  simpa only [iterate_derivative_comp_affine, iterate_derivative_C_mul, eval_mul, eval_C, eval_comp, eval_add,
    eval_X] using h

/-- The polynomials with affinely mapped knots. -/
theorem rescaled_eq {κ : Type} (p : PPoly κ) (h : p.WF) (k : ℝ → ℝ) (c d : ℝ) (hc : 0 < c)
    (hk : ∀ t, k t = c * t + d) :
    rescaled p k c = .ok ⟨p.nseg, p.polyorder, fun j => k (p.knots j), fun i => c * p.dx i, p.coef, p.symm⟩ := by
  have hkm : StrictMono k := by
    intro a b hab
    rw [hk, hk]
    have := mul_lt_mul_of_pos_left hab hc
    linarith
  unfold rescaled PPoly.ctor
  have hl : ((List.ofFn p.knots).map k).length = p.nseg + 1 := by simp
  rw [dif_pos hl]
  have hkn : ∀ j : Fin (p.nseg + 1), ((List.ofFn p.knots).map k).get (j.cast hl.symm) = k (p.knots j) := by
    intro j
    rw [List.get_eq_getElem, List.getElem_map, List.getElem_ofFn]
    rfl
  simp only [hkn]
  rw [if_pos, if_pos]
  · rfl
  · intro i
    rw [isClose, h.dx_eq, hkn, hkn, hk, hk, show c * (p.knots i.succ - p.knots i.castSucc) -
      (c * p.knots i.succ + d - (c * p.knots i.castSucc + d)) = 0 by ring, abs_zero]
    positivity
  · intro i
    exact (hkm (h.mono Fin.castSucc_lt_succ)).le

section
variable {fp : Fp} {compute : KernelInfo → Option ℝ → PyM SveResult} {stat : String} {beta wmax : ℝ}
    {eps : Option ℝ} {maxSize : Option ℕ} {kernel : Option KernelInfo} {sve : Option SveResult} {k : KernelInfo}
    {lam : ℝ} {r : SveResult} {h : Good r} {e : ℝ} {m : ℕ} {b : FiniteTemp.Basis}

theorem bind_ok {α β : Type} {x : PyM α} {f : α → PyM β} {y : β} (hx : (x >>= f) = .ok y) :
    ∃ a, x = .ok a ∧ f a = .ok y := by
  cases x with
  | error e => cases hx
  | ok a => exact ⟨a, rfl, hx⟩

/-- The functions and their transforms, in terms of the expansion. -/
theorem make_parts (v : Valid fp compute stat beta wmax eps maxSize kernel sve k lam r h e m)
    (hb : make fp compute stat beta wmax eps maxSize kernel sve = .ok b) :
    ∃ σ : Fin b.size → Fin r.n, (∀ l, (σ l).1 = l.1) ∧
      b.u = ⟨r.u.nseg, r.u.polyorder, fun j => beta / 2 * (r.u.knots j + 1), fun i => beta / 2 * r.u.dx i,
        fun i l => r.u.coef i (σ l), fun l => r.u.symm (σ l)⟩ ∧
      ∃ freq f, freqOf stat = .ok freq ∧
        PFT.ctor (fun l : Fin r.n => l.1) (uhatBase beta r.u) freq (some (40 * lam)) none = .ok f ∧
        f.select (fun l => l.1) σ = .ok b.uhat := by
  obtain ⟨m', hm', hpart⟩ := part_idx r h eps e v.heps maxSize
  unfold make init at hb
  rw [if_neg (not_not.2 v.hbeta), if_neg (not_not.2 v.hwmax.le), v.hkernel, okBind, v.hsve, okBind, hpart, okBind] at hb
  obtain ⟨acc, -, hb⟩ := bind_ok hb
  obtain ⟨u, hu, hb⟩ := bind_ok hb
  obtain ⟨w, -, hb⟩ := bind_ok hb
  obtain ⟨sc, -, hb⟩ := bind_ok hb
  obtain ⟨la, hla, hb⟩ := bind_ok hb
  obtain ⟨freq, hfreq, hb⟩ := bind_ok hb
  obtain ⟨f, hf, hb⟩ := bind_ok hb
  obtain ⟨g, hg, hb⟩ := bind_ok hb
  obtain rfl := Except.ok.inj hb
  have hla' : la = lam := by
    unfold KernelInfo.getLambda at hla
    rw [v.hlam] at hla
    exact (Except.ok.inj hla).symm
  subst hla'
  refine ⟨_, fun l => take_get l, ?_, freq, f, hfreq, hf, hg⟩
  have hb2 := v.hbeta
  have hsel : (r.u.select ((List.finRange r.n).take (min m' (maxSize.getD m'))).get).WF :=
    ⟨h.uwf.pos, h.uwf.mono, h.uwf.dx_eq⟩
  rw [rescaled_eq _ hsel _ (beta / 2) (beta / 2) (by positivity) (fun t => by ring)] at hu
  exact (Except.ok.inj hu).symm

theorem jump_rescaled {N : ℕ} {κ : Type} (p : PPoly (Fin N)) (q : PPoly κ) (σ : κ → Fin N) (hbeta : 0 < beta)
    (hq : q = ⟨p.nseg, p.polyorder, fun j => beta / 2 * (p.knots j + 1), fun i => beta / 2 * p.dx i,
        fun i l => p.coef i (σ l), fun l => p.symm (σ l)⟩) (l : κ) (m j : ℕ) (hj : j + 1 < q.nseg)
    (hj' : j + 1 < p.nseg) :
    (beta / 2) ^ m * jump q l m j hj = 1 / Real.sqrt (beta / 2) * jump p (σ l) m j hj' := by
  subst hq
  have hk : ∀ x : ℝ, beta / 2 * (x + 1) = beta / 2 * x + beta / 2 := fun x => by ring
  unfold jump PPoly.seg
  simp only [hk]
  rw [mul_sub, mul_sub, segPoly_map_deriv _ _ _ _ (by positivity), segPoly_map_deriv _ _ _ _ (by positivity)]

theorem seg_base {N : ℕ} {κ : Type} (p : PPoly (Fin N)) (σ : κ → Fin N) (l : κ) (i : Fin p.nseg) :
    ((uhatBase beta p).select σ).seg l i = C (Real.sqrt beta) * p.seg (σ l) i := by
  show segPoly _ _ ((p.coef i (σ l)).map (Real.sqrt beta * ·)) = _
  unfold PPoly.seg segPoly
  rw [show (fun t => Real.sqrt beta * t) = (fun t => t * Real.sqrt beta) from funext fun t => mul_comm _ _,
    series_map_mul, mul_comp, C_comp]
  show C (Real.sqrt (2 / (p.knots i.succ - p.knots i.castSucc))) * (C (Real.sqrt beta) * (Legendre.series (p.coef i (σ l))).comp
    (C (2 / (p.knots i.succ - p.knots i.castSucc)) * X +
      C (-(p.knots i.castSucc + p.knots i.succ) / (p.knots i.succ - p.knots i.castSucc)))) = _
  ring

theorem fn_base {N : ℕ} {κ : Type} (p : PPoly (Fin N)) (σ : κ → Fin N) (l : κ) (x : ℝ) :
    fn ((uhatBase beta p).select σ) l x = fn p (σ l) x * Real.sqrt beta := by
  have h1 : fn ((uhatBase beta p).select σ) l x = fn (uhatBase beta p) (σ l) x := by
    unfold fn
    rw [C10_poly_select]
    cases (uhatBase beta p).call x <;> rfl
  rw [h1, ← fn_scaled p (fun _ => Real.sqrt beta) (σ l) x]
  congr 1
  unfold uhatBase
  congr 1
  funext i l
  congr 1
  funext t
  ring

theorem jump_base {N : ℕ} {κ : Type} (p : PPoly (Fin N)) (σ : κ → Fin N) (l : κ) (m j : ℕ) (hj : j + 1 < p.nseg) :
    jump ((uhatBase beta p).select σ) l m j hj = Real.sqrt beta * jump p (σ l) m j hj := by
  unfold jump
  have h1 := seg_base (beta := beta) p σ l ⟨j + 1, hj⟩
  have h2 := seg_base (beta := beta) p σ l ⟨j, Nat.lt_of_succ_lt hj⟩
  rw [show ((uhatBase beta p).select σ).seg l ⟨j + 1, hj⟩ = _ from h1,
    show ((uhatBase beta p).select σ).seg l ⟨j, Nat.lt_of_succ_lt hj⟩ = _ from h2, iterate_derivative_C_mul,
    iterate_derivative_C_mul, eval_mul, eval_mul, eval_C]
  show _ * eval (p.knots ⟨j + 1, by omega⟩) _ - _ * eval (p.knots ⟨j + 1, by omega⟩) _ = _
  ring

/-- The moments of selected functions. -/
theorem select_model {N : ℕ} {κ : Type} (P : PPoly (Fin N)) (hP : P.WF) (hmin : P.xmin = -1) (hmax : P.xmax = 1)
    (hpo : 1 ≤ P.polyorder) (σ : κ → Fin N) (pos : κ → ℕ) (hσ : ∀ l, (σ l).1 = pos l) (freq : Freq)
    (hfreq : freq ≠ .any) (na : ℝ) {f f' : PFT (Fin N)} {g g' : PFT κ}
    (hf : PFT.ctor (fun l : Fin N => l.1) P freq (some na) none = .ok f) (hg : f.select pos σ = .ok g)
    (hg' : PFT.ctor pos (P.select σ) freq (some na) none = .ok g') : g = g' := by
  obtain ⟨s, hs⟩ : ∃ s, freq.statsign = .ok s := by
    cases freq with
    | any => exact absurd rfl hfreq
    | even => exact ⟨1, rfl⟩
    | odd => exact ⟨-1, rfl⟩
  have hsel : (P.select σ).WF := ⟨hP.pos, hP.mono, hP.dx_eq⟩
  unfold PFT.ctor at hf hg'
  rw [if_neg (by rw [hmin, hmax]; simp)] at hf
  rw [if_neg (by
    show ¬ (P.xmin ≠ -1 ∨ P.xmax ≠ 1)
    rw [hmin, hmax]; simp)] at hg'
  simp only [powerModel_eq P hP hmax hpo _ _ _ hs] at hf
  simp only [powerModel_eq (P.select σ) hsel hmax hpo _ _ _ hs] at hg'
  obtain rfl := Except.ok.inj hf
  obtain rfl := Except.ok.inj hg'
  unfold PFT.select at hg
  simp only at hg
  rw [if_neg (by
    show ¬ (P.xmin ≠ -1 ∨ P.xmax ≠ 1)
    rw [hmin, hmax]; simp)] at hg
  obtain rfl := Except.ok.inj hg
  congr 2
  rw [List.map_map]
  apply List.map_congr_left
  intro m _
  funext l
  show powerMoment s m (σ l).1 _ = powerMoment s m (pos l) _
  rw [hσ]
  rfl

theorem jumps_to_tau (hbeta : 0 < beta) {w x J J' : ℝ} (m : ℕ) (hw : w ≠ 0)
    (hJ : J' = Real.sqrt beta * Real.sqrt (beta / 2) * (beta / 2) ^ m * J) :
    1 / (Real.sqrt 2 : ℂ) * ((-1) ^ m / (I * ((beta / 2 * w : ℝ) : ℂ)) ^ (m + 1) *
      (exp (I * ((beta / 2 * w : ℝ) : ℂ) * (x + 1)) * (J' : ℂ))) =
    (-1) ^ m / (I * (w : ℂ)) ^ (m + 1) * exp (I * (w : ℂ) * ((beta / 2 * (x + 1) : ℝ) : ℂ)) * (J : ℂ) := by
  have e1 : I * ((beta / 2 * w : ℝ) : ℂ) * (x + 1) = I * (w : ℂ) * ((beta / 2 * (x + 1) : ℝ) : ℂ) := by
    push_cast; ring
  have e2 : 1 / Real.sqrt 2 * J' = (beta / 2) ^ (m + 1) * J := by
    rw [hJ]
    have h3 : 1 / Real.sqrt 2 * Real.sqrt beta * Real.sqrt (beta / 2) = beta / 2 := by
      rw [sqrt_beta_fac hbeta, div_mul_cancel₀]
      exact (Real.sqrt_pos.2 (by positivity)).ne'
    calc _ = (1 / Real.sqrt 2 * Real.sqrt beta * Real.sqrt (beta / 2)) * (beta / 2) ^ m * J := by ring
      _ = _ := by rw [h3, pow_succ]; ring
  have e2' : 1 / (Real.sqrt 2 : ℂ) * (J' : ℂ) = ((beta : ℂ) / 2) ^ (m + 1) * J := by exact_mod_cast e2
  rw [e1]
  have hb0 : ((beta : ℂ) / 2) ^ (m + 1) ≠ 0 := by
    apply pow_ne_zero
    have : (beta : ℂ) ≠ 0 := by exact_mod_cast hbeta.ne'
    simpa using this
  have hw0 : (I * (w : ℂ)) ^ (m + 1) ≠ 0 :=
    pow_ne_zero _ (mul_ne_zero I_ne_zero (by exact_mod_cast hw))
  have e3 : (I * ((beta / 2 * w : ℝ) : ℂ)) ^ (m + 1) = (beta / 2 : ℂ) ^ (m + 1) * (I * (w : ℂ)) ^ (m + 1) := by
    rw [← mul_pow]; congr 1; push_cast; ring
  rw [e3]
  generalize exp (I * (w : ℂ) * ((beta / 2 * (x + 1) : ℝ) : ℂ)) = E
  calc _ = (-1) ^ m / ((beta / 2 : ℂ) ^ (m + 1) * (I * (w : ℂ)) ^ (m + 1)) * E *
        (1 / (Real.sqrt 2 : ℂ) * (J' : ℂ)) := by ring
    _ = _ := by
      rw [e2']
      field_simp

/-- The error of the model used for high frequencies, exactly.  If function number `l` of the basis is even or odd
about the middle of `[0, beta]` according to `l`, then for every non-zero frequency at or above the threshold
`40 * lambda` the value of `uhat[l]` differs from the Fourier integral of `u[l]` by the contributions of the jumps of
the derivatives of `u[l]` at the interior knots. -/
theorem C74_error (v : Valid fp compute stat beta wmax eps maxSize kernel sve k lam r h e m)
    (hb : make fp compute stat beta wmax eps maxSize kernel sve = .ok b)
    (hpar : ∀ l : Fin b.size, ∀ t, 0 < t → t < beta → fn b.u l (beta - t) = (-1) ^ (l : ℕ) * fn b.u l t)
    (n : ℤ) (hn0 : n ≠ 0) (hn : 40 * lam ≤ |(n : ℝ)|) (hst : stat = "F" ↔ Odd n)
    (J : Fin b.size → ℕ → Fin (b.u.nseg - 1) → ℝ)
    (hJ : ∀ l m (j : Fin (b.u.nseg - 1)), IsJump (fn b.u l) m (b.u.knots ⟨j + 1, by omega⟩) (J l m j)) :
    ∃ U, b.uhat.call n = .ok U ∧ ∀ l,
      U l - ∫ t in (0 : ℝ)..beta, exp (I * Real.pi * n * t / beta) * (fn b.u l t : ℂ) =
        ∑ m ∈ Finset.range b.u.polyorder, ∑ j : Fin (b.u.nseg - 1),
          (-1) ^ m / (I * (Real.pi * n / beta : ℝ)) ^ (m + 1) *
            exp (I * (Real.pi * n / beta : ℝ) * (b.u.knots ⟨j + 1, by omega⟩ : ℝ)) * (J l m j : ℂ) := by
  have hbeta := v.hbeta
  have d := v.describes hb
  obtain ⟨σ, hσ, hu, freq, f, hfreq, hf, hg⟩ := make_parts v hb
  have hany : freq ≠ .any := by
    rintro rfl
    unfold freqOf at hfreq
    split at hfreq
    · cases hfreq
    · split at hfreq <;> cases hfreq
  obtain ⟨freq', hfreq', -, hparity⟩ := freq_parity v.hstat
  obtain rfl := Except.ok.inj (hfreq.symm.trans hfreq')
  have hP : (uhatBase beta r.u).WF := ⟨h.uwf.pos, h.uwf.mono, h.uwf.dx_eq⟩
  have hPs : ((uhatBase beta r.u).select σ).WF := ⟨h.uwf.pos, h.uwf.mono, h.uwf.dx_eq⟩
  have hlen : ∀ i l, (((uhatBase beta r.u).select σ).coef i l).length = ((uhatBase beta r.u).select σ).polyorder := by
    intro i l
    show ((r.u.coef i (σ l)).map _).length = r.u.polyorder
    rw [List.length_map]
    exact h.ulen i _
  have hfnP : ∀ l x, fn ((uhatBase beta r.u).select σ) l x = fn r.u (σ l) x * Real.sqrt beta := fn_base r.u σ
  have hfnu : ∀ l x, -1 ≤ x → x ≤ 1 → fn b.u l (beta / 2 * (x + 1)) = fn r.u (σ l) x / Real.sqrt (beta / 2) :=
    fun l x => d.u_eq l (σ l) (hσ l) x
  have hsq : 0 < Real.sqrt (beta / 2) := Real.sqrt_pos.2 (by positivity)
  obtain ⟨g', moments, hg', hmod, herr⟩ := C16_error ((uhatBase beta r.u).select σ) hPs h.umin h.umax h.upo hlen
    (fun l : Fin b.size => l.1) freq (40 * lam) hany (fun l x h1 h2 => by
      rw [hfnP, hfnP]
      have h3 := hpar l (beta / 2 * (x + 1)) (by nlinarith) (by nlinarith)
      rw [show beta - beta / 2 * (x + 1) = beta / 2 * (-x + 1) by ring, hfnu l _ (by linarith) (by linarith),
        hfnu l _ h1.le h2.le] at h3
      field_simp at h3
      rw [h3]
      ring)
  have hgg : b.uhat = g' :=
    select_model (uhatBase beta r.u) hP h.umin h.umax h.upo σ _ hσ freq hany (40 * lam) (f' := f) hf hg hg'
  have hg'f : g'.freq = freq ∧ g'.nAsymp = some (40 * lam) ∧ g'.poly = (uhatBase beta r.u).select σ := by
    unfold PFT.ctor at hg'
    split at hg'
    · cases hg'
    · simp only at hg'
      split at hg'
      · cases hg'
      · obtain rfl := Except.ok.inj hg'
        exact ⟨rfl, rfl, rfl⟩
  have hnpar : HasParity freq.zeta n := (hparity n).2 hst
  have hcall : b.uhat.call n = .ok (giw moments n) := by
    rw [hgg]
    unfold PFT.call
    rw [hg'f.1, (C01_ints [n] [n] _).2 ⟨rfl, by simpa using hnpar⟩, hg'f.2.1, hg'f.2.2, hmod]
    simp only
    rw [C14_inner _ hPs h.umin h.umax hlen n]
    simp only
    rw [if_pos hn]
  refine ⟨_, hcall, fun l => ?_⟩
  have hft : (∫ t in (0 : ℝ)..beta, exp (I * Real.pi * n * t / beta) * (fn b.u l t : ℂ)) =
      ft (fn ((uhatBase beta r.u).select σ) l) n := by
    rw [show fn ((uhatBase beta r.u).select σ) l = fun x => fn r.u (σ l) x * Real.sqrt beta from funext (hfnP l)]
    exact ftTau_eq hbeta (fn b.u l) (fn r.u (σ l)) (hfnu l) n
  rw [hft, herr n hn0 hnpar l, sub_sub_cancel, Finset.mul_sum]
  have hpoly : b.u.polyorder = r.u.polyorder := by rw [hu]
  have hnseg : b.u.nseg = r.u.nseg := by rw [hu]
  rw [hpoly]
  refine Finset.sum_congr rfl fun m' _ => ?_
  rw [Finset.mul_sum, Finset.sum_range]
  refine Fintype.sum_equiv (finCongr (by rw [hnseg]; rfl)) _ _ fun j => ?_
  have hj1 : j.1 + 1 < r.u.nseg := by have := j.2; show j.1 + 1 < ((uhatBase beta r.u).select σ).nseg; omega
  have hj2 : j.1 + 1 < b.u.nseg := by omega
  unfold jumpTerm
  rw [dif_pos (show j.1 + 1 < ((uhatBase beta r.u).select σ).nseg from hj1)]
  have hJu : J l m' (finCongr (by rw [hnseg]; rfl) j) = jump b.u l m' j.1 hj2 :=
    isJump_unique (hJ l m' _) (isJump_jump d.uwf l m' j.1 hj2)
  have hj3 := jump_rescaled r.u b.u σ hbeta hu l m' j.1 hj2 hj1
  have hj4 := jump_base (beta := beta) r.u σ l m' j.1 hj1
  have hkn : (b.u.knots ⟨j.1 + 1, by omega⟩ : ℝ) = beta / 2 * (r.u.knots ⟨j.1 + 1, by omega⟩ + 1) := by
    have key : ∀ (q : PPoly (Fin b.size)), q = ⟨r.u.nseg, r.u.polyorder, fun j => beta / 2 * (r.u.knots j + 1),
        fun i => beta / 2 * r.u.dx i, fun i l => r.u.coef i (σ l), fun l => r.u.symm (σ l)⟩ → ∀ hq : j.1 + 1 < q.nseg + 1,
        q.knots ⟨j.1 + 1, hq⟩ = beta / 2 * (r.u.knots ⟨j.1 + 1, by omega⟩ + 1) := by
      rintro _ rfl hq
      rfl
    exact key b.u hu _
  have hwr : Real.pi / 2 * (n : ℝ) = beta / 2 * (Real.pi * n / beta) := by field_simp
  have hw0 : Real.pi * (n : ℝ) / beta ≠ 0 :=
    div_ne_zero (mul_ne_zero Real.pi_ne_zero (by exact_mod_cast hn0)) hbeta.ne'
  rw [hJu, hwr]
  have := jumps_to_tau hbeta (w := Real.pi * n / beta) (x := r.u.knots ⟨j.1 + 1, by omega⟩)
    (J := jump b.u l m' j.1 hj2) (J' := jump ((uhatBase beta r.u).select σ) l m' j.1 hj1) m' hw0 (by
      rw [hj4]
      have : Real.sqrt (beta / 2) * ((beta / 2) ^ m' * jump b.u l m' j.1 hj2) = jump r.u (σ l) m' j.1 hj1 := by
        rw [hj3]
        field_simp
      rw [← this]
      ring)
  refine Eq.trans this ?_
  rw [← hkn]
  rfl

/-- Bound on the difference between the model and the Fourier integral: each jump of the derivative of order `m` counts
with the power `m + 1` of the inverse frequency `beta / (pi |n|)`. -/
theorem C74_bound (v : Valid fp compute stat beta wmax eps maxSize kernel sve k lam r h e m)
    (hb : make fp compute stat beta wmax eps maxSize kernel sve = .ok b)
    (hpar : ∀ l : Fin b.size, ∀ t, 0 < t → t < beta → fn b.u l (beta - t) = (-1) ^ (l : ℕ) * fn b.u l t)
    (n : ℤ) (hn0 : n ≠ 0) (hn : 40 * lam ≤ |(n : ℝ)|) (hst : stat = "F" ↔ Odd n)
    (J : Fin b.size → ℕ → Fin (b.u.nseg - 1) → ℝ)
    (hJ : ∀ l m (j : Fin (b.u.nseg - 1)), IsJump (fn b.u l) m (b.u.knots ⟨j + 1, by omega⟩) (J l m j)) :
    ∃ U, b.uhat.call n = .ok U ∧ ∀ l,
      ‖U l - ∫ t in (0 : ℝ)..beta, exp (I * Real.pi * n * t / beta) * (fn b.u l t : ℂ)‖ ≤
        ∑ m ∈ Finset.range b.u.polyorder, (∑ j, |J l m j|) * (beta / (Real.pi * |(n : ℝ)|)) ^ (m + 1) := by
  obtain ⟨U, h1, h2⟩ := C74_error v hb hpar n hn0 hn hst J hJ
  refine ⟨U, h1, fun l => ?_⟩
  rw [h2 l]
  refine (norm_sum_le _ _).trans (Finset.sum_le_sum fun m' _ => ?_)
  rw [Finset.sum_mul]
  refine (norm_sum_le _ _).trans (Finset.sum_le_sum fun j _ => ?_)
  have hbeta := v.hbeta
  have e1 : ‖exp (I * ((Real.pi * n / beta : ℝ) : ℂ) * ((b.u.knots ⟨j + 1, by omega⟩ : ℝ) : ℂ))‖ = 1 := by
    rw [show I * ((Real.pi * n / beta : ℝ) : ℂ) * ((b.u.knots ⟨j + 1, by omega⟩ : ℝ) : ℂ) =
      ((Real.pi * n / beta * b.u.knots ⟨j + 1, by omega⟩ : ℝ) : ℂ) * I by push_cast; ring]
    exact norm_exp_ofReal_mul_I _
  rw [norm_mul, norm_mul, e1, mul_one, norm_div, norm_pow, norm_pow, norm_neg, norm_one, one_pow, norm_mul, norm_I,
    one_mul, norm_real, norm_real, Real.norm_eq_abs, Real.norm_eq_abs, abs_div, abs_mul, abs_of_pos Real.pi_pos,
    abs_of_pos hbeta, mul_comm, one_div, ← inv_pow, inv_div]

/-- With the values of all derivatives continuous at the interior knots, `uhat` is the Fourier integral of `u` at every
frequency, below and above the threshold. -/
theorem C74_exact (v : Valid fp compute stat beta wmax eps maxSize kernel sve k lam r h e m)
    (hb : make fp compute stat beta wmax eps maxSize kernel sve = .ok b)
    (hpar : ∀ l : Fin b.size, ∀ t, 0 < t → t < beta → fn b.u l (beta - t) = (-1) ^ (l : ℕ) * fn b.u l t)
    (hJ : ∀ l m (j : Fin (b.u.nseg - 1)), IsJump (fn b.u l) m (b.u.knots ⟨j + 1, by omega⟩) 0)
    (n : ℤ) (hn0 : n ≠ 0 ∨ 0 < lam) (hst : stat = "F" ↔ Odd n) :
    b.uhat.call n = .ok fun l => ∫ t in (0 : ℝ)..beta, exp (I * Real.pi * n * t / beta) * (fn b.u l t : ℂ) := by
  by_cases hn : 40 * lam ≤ |(n : ℝ)|
  · obtain ⟨U, h1, h2⟩ := C74_error v hb hpar n (by
      rintro rfl
      rcases hn0 with h0 | h0
      · exact h0 rfl
      · simp at hn; linarith) hn hst _ hJ
    rw [h1]
    congr 1
    funext l
    have := h2 l
    simp only [ofReal_zero, mul_zero, Finset.sum_const_zero] at this
    exact sub_eq_zero.1 this
  · obtain ⟨b', hb', h1, -⟩ := C59_uhat v n (not_le.1 hn)
    obtain rfl := Except.ok.inj (hb.symm.trans hb')
    exact h1 hst

/-- Sampling at any set of frequencies of the right parity: the points are the given ones in ascending order, and
`evaluate` gives the Fourier transform of the function with the given coefficients up to the errors of the basis
functions at high frequencies. -/
theorem C74_sampling {svds : Svds} (hs : svds.Ok)
    (v : Valid fp compute stat beta wmax eps maxSize kernel sve k lam r h e m)
    (hb : make fp compute stat beta wmax eps maxSize kernel sve = .ok b)
    (hpar : ∀ l : Fin b.size, ∀ t, 0 < t → t < beta → fn b.u l (beta - t) = (-1) ^ (l : ℕ) * fn b.u l t)
    (J : Fin b.size → ℕ → Fin (b.u.nseg - 1) → ℝ)
    (hJ : ∀ l m (j : Fin (b.u.nseg - 1)), IsJump (fn b.u l) m (b.u.knots ⟨j + 1, by omega⟩) (J l m j))
    (q : Search) (ns : List ℤ) (hns : ∀ n ∈ ns, (n ≠ 0 ∨ 0 < lam) ∧ (stat = "F" ↔ Odd n)) (po : Bool)
    (hpo : po = true → ns ≠ [] ∧ ∀ n ∈ ns, 0 ≤ n) :
    ∃ o, matsInit svds (b.sampled q) (some (1, .ints ns)) po = .ok o ∧ o.points.Perm ns ∧
      o.points.Pairwise (· ≤ ·) ∧
      ∀ (al : NdArray ℂ) (axis : ℤ) (j : ℕ), ValidAxis axis al.ndim j → al.shape[j]? = some b.size →
        ∃ x F, matsEvaluate svds o al (some axis) none = .ok x ∧ AppliedAlong F j al x ∧
          ∀ (g : Fin b.size → ℂ) i,
            (|(o.points.get i : ℝ)| < 40 * lam → F g i = matsubara beta (timeValue b g) (o.points.get i)) ∧
            ‖F g i - matsubara beta (timeValue b g) (o.points.get i)‖ ≤
              ∑ l, ‖g l‖ * ∑ m ∈ Finset.range b.u.polyorder,
                (∑ j, |J l m j|) * (beta / (Real.pi * |(o.points.get i : ℝ)|)) ^ (m + 1) := by
  have hbeta := v.hbeta
  have hu : (b.sampled q).uhat = b.uhat.call := rfl
  set W : ℤ → Fin b.size → ℂ := fun n l =>
    ∫ t in (0 : ℝ)..beta, exp (I * Real.pi * n * t / beta) * (fn b.u l t : ℂ) with hW
  set B : ℤ → Fin b.size → ℝ := fun n l => ∑ m ∈ Finset.range b.u.polyorder,
    (∑ j, |J l m j|) * (beta / (Real.pi * |(n : ℝ)|)) ^ (m + 1) with hB
  have hB0 : ∀ n l, 0 ≤ B n l := fun n l => by positivity
  have key : ∀ n : ℤ, ∃ U : Fin b.size → ℂ, n ∈ ns → b.uhat.call n = .ok U ∧ (|(n : ℝ)| < 40 * lam → U = W n) ∧
      ∀ l, ‖U l - W n l‖ ≤ B n l := by
    intro n
    by_cases hmem : n ∈ ns
    · obtain ⟨hn0, hst⟩ := hns n hmem
      by_cases hn : 40 * lam ≤ |(n : ℝ)|
      · obtain ⟨U, h1, h2⟩ := C74_bound v hb hpar n (by
          rintro rfl
          rcases hn0 with h0 | h0
          · exact h0 rfl
          · simp at hn; linarith) hn hst J hJ
        exact ⟨U, fun _ => ⟨h1, fun hc => absurd hc (not_lt.2 hn), h2⟩⟩
      · obtain ⟨b', hb', h1, -⟩ := C59_uhat v n (not_le.1 hn)
        obtain rfl := Except.ok.inj (hb.symm.trans hb')
        exact ⟨_, fun _ => ⟨h1 hst, fun _ => rfl, fun l => by
          rw [hW]
          simp only [sub_self, norm_zero]
          exact hB0 n l⟩⟩
    · exact ⟨0, fun hc => absurd hc hmem⟩
  choose V hV using key
  obtain ⟨M, hinit, -, hform⟩ := matsInit_ok hs (b := b.sampled q) ns V
    (fun n hn => by rw [hu]; exact (hV n hn).1) po hpo
  refine ⟨_, hinit, npSort_perm ns, npSort_sorted ns, fun al axis j hj hal => ?_⟩
  obtain ⟨x, hx, ax⟩ := C45_evaluate M _ hform al axis j hj hal
  refine ⟨x, _, hx, ax, fun g i => ?_⟩
  have hmem : (npSort ns).get i ∈ ns := (npSort_perm ns).mem_iff.1 (List.get_mem _ _)
  obtain ⟨-, h2, h3⟩ := hV _ hmem
  have hF : (valuesAt (n := (b.sampled q).size) V (npSort ns) *ᵥ g) i = ∑ l, V ((npSort ns).get i) l * g l := rfl
  have hG : matsubara beta (timeValue b g) ((npSort ns).get i) = ∑ l, W ((npSort ns).get i) l * g l :=
    matsubara_combo v hb g _
  constructor
  · intro hlt
    show (valuesAt (n := (b.sampled q).size) V (npSort ns) *ᵥ g) i = matsubara beta (timeValue b g) ((npSort ns).get i)
    rw [hF, hG, h2 hlt]
  · show ‖(valuesAt (n := (b.sampled q).size) V (npSort ns) *ᵥ g) i -
      matsubara beta (timeValue b g) ((npSort ns).get i)‖ ≤ ∑ l, ‖g l‖ * B ((npSort ns).get i) l
    rw [hF, hG, ← Finset.sum_sub_distrib]
    refine (norm_sum_le _ _).trans (Finset.sum_le_sum fun l _ => ?_)
    rw [← sub_mul, norm_mul, mul_comm]
    exact mul_le_mul_of_nonneg_left (h3 l) (norm_nonneg _)

end

/-! ### Two expansions given by the user -/

/-- One function, `2 sqrt(2) |x|`, on two segments. -/
noncomputable def exKink : PPoly (Fin 1) :=
  ⟨2, 2, ![-1, 0, 1], fun _ => 1, fun i _ => if i.1 = 0 then [1, -1] else [1, 1], fun _ => 1⟩

theorem exKink_WF : exKink.WF := by
  refine ⟨Nat.two_pos, ?_, ?_⟩
  · intro i j hij
    change Fin 3 at i j
    have hij : i < j := hij
    show (![-1, 0, 1] : Fin 3 → ℝ) i < (![-1, 0, 1] : Fin 3 → ℝ) j
    fin_cases i <;> fin_cases j <;> first | exact absurd hij (by decide) | norm_num
  · intro i
    change Fin 2 at i
    fin_cases i
    · show (1 : ℝ) = 0 - (-1)
      norm_num
    · show (1 : ℝ) = 1 - 0
      norm_num

/-- One function, `x`, which stands at the place of an even function. -/
noncomputable def exOdd : PPoly (Fin 1) := ⟨1, 2, ![-1, 1], fun _ => 2, fun _ _ => [0, 1], fun _ => -1⟩

theorem exOdd_WF : exOdd.WF := ⟨exPoly_WF.pos, exPoly_WF.mono, exPoly_WF.dx_eq⟩

/-- The expansion with one term. -/
noncomputable def exOne (p : PPoly (Fin 1)) : SveResult := ⟨1, p, fun _ => 1, p, some 0.01⟩

theorem exOne_good (p : PPoly (Fin 1)) (h : p.WF) (h1 : p.xmin = -1) (h2 : p.xmax = 1)
    (h3 : ∀ i l, (p.coef i l).length = p.polyorder) (h4 : 1 ≤ p.polyorder) : Good (exOne p) where
  pos := Nat.one_pos
  spos _ := one_pos
  anti _ _ _ := le_refl _
  uwf := h
  vwf := h
  umin := h1
  umax := h2
  vmin := h1
  vmax := h2
  ulen := h3
  upo := h4

theorem exKink_good : Good (exOne exKink) :=
  exOne_good exKink exKink_WF rfl rfl (fun i _ => by
    change Fin 2 at i
    fin_cases i <;> rfl) (Nat.le_succ 1)

theorem exOdd_good : Good (exOne exOdd) := exOne_good exOdd exOdd_WF rfl rfl (fun _ _ => rfl) (Nat.le_succ 1)

theorem exOne_valid (p : PPoly (Fin 1)) (hp : Good (exOne p)) (compute : KernelInfo → Option ℝ → PyM SveResult) :
    Valid Fp.exact compute "F" 10 4 (some 0.01) none none (some (exOne p)) (logisticInfo 40) 40 (exOne p) hp 0.01 1 where
  hstat := Or.inl rfl
  hbeta := by norm_num
  hwmax := by norm_num
  hkernel := (exValid 0.01 0.01 (by norm_num) compute).hkernel
  hlam := rfl
  hsve := rfl
  heps := rfl
  hcut := ⟨le_refl _, fun l => ⟨fun _ => by
    show (0.01 : ℝ) * 1 ≤ 1
    norm_num, fun _ => l.2⟩⟩
  hpos := by norm_num

theorem exKink_seg0 : exKink.seg 0 (0 : Fin 2) = C (-(2 * Real.sqrt 2)) * X := by
  apply Polynomial.funext
  intro x
  show (segPoly (-1) 0 [1, -1]).eval x = _
  rw [segPoly_eval, segFun_affine]
  simp [Legendre.series, Finset.sum_range_succ]
  ring

theorem exKink_seg1 : exKink.seg 0 (1 : Fin 2) = C (2 * Real.sqrt 2) * X := by
  apply Polynomial.funext
  intro x
  show (segPoly 0 1 [1, 1]).eval x = _
  rw [segPoly_eval, segFun_affine]
  simp [Legendre.series, Finset.sum_range_succ]
  ring

theorem exKink_fn {x : ℝ} (h1 : -1 < x) (h2 : x < 1) : fn exKink 0 x = 2 * Real.sqrt 2 * |x| := by
  rcases lt_or_ge x 0 with h | h
  · rw [fn_seg exKink_WF (i := (0 : Fin 2)) ⟨h1.le, Or.inl h⟩, exKink_seg0, abs_of_neg h]
    simp
  · rw [fn_seg exKink_WF (i := (1 : Fin 2)) ⟨h, Or.inl h2⟩, exKink_seg1, abs_of_nonneg h]
    simp

theorem exKink_jump0 (hj : 0 + 1 < exKink.nseg) : jump exKink 0 0 0 hj = 0 := by
  show (exKink.seg 0 (1 : Fin 2)).eval 0 - (exKink.seg 0 (0 : Fin 2)).eval 0 = 0
  rw [exKink_seg0, exKink_seg1]
  simp

theorem exKink_jump1 (hj : 0 + 1 < exKink.nseg) : jump exKink 0 1 0 hj = 4 * Real.sqrt 2 := by
  show (derivative (exKink.seg 0 (1 : Fin 2))).eval 0 - (derivative (exKink.seg 0 (0 : Fin 2))).eval 0 = 4 * Real.sqrt 2
  rw [exKink_seg0, exKink_seg1]
  simp
  ring

theorem fin_one_size {p : PPoly (Fin 1)} {hp : Good (exOne p)} {compute : KernelInfo → Option ℝ → PyM SveResult}
    {b : FiniteTemp.Basis} (hb : make Fp.exact compute "F" 10 4 (some 0.01) none none (some (exOne p)) = .ok b) :
    b.size = 1 :=
  ((exOne_valid p hp compute).describes hb).size_eq

/-- The functions of this basis have the parity that is required, and `uhat` is *not* the Fourier integral above the
threshold: the derivative of `u` jumps. -/
theorem C74_inexact (compute : KernelInfo → Option ℝ → PyM SveResult) : ∃ b U,
    make Fp.exact compute "F" 10 4 (some 0.01) none none (some (exOne exKink)) = .ok b ∧
      (∀ l : Fin b.size, ∀ t, 0 < t → t < 10 → fn b.u l (10 - t) = (-1) ^ (l : ℕ) * fn b.u l t) ∧
      b.uhat.call 1601 = .ok U ∧ ∀ l,
        U l ≠ ∫ t in (0 : ℝ)..10, exp (I * Real.pi * 1601 * t / 10) * (fn b.u l t : ℂ) := by
  have v := exOne_valid exKink exKink_good compute
  obtain ⟨b, hb, d⟩ := v.ok
  have hone : ∀ l : Fin b.size, l.1 = 0 := fun l => by
    have := fin_one_size (hp := exKink_good) hb
    omega
  have hpar : ∀ l : Fin b.size, ∀ t, 0 < t → t < 10 → fn b.u l (10 - t) = (-1) ^ (l : ℕ) * fn b.u l t := by
    intro l t h1 h2
    have e1 := d.u_eq l (0 : Fin 1) (hone l).symm (t / 5 - 1) (by linarith) (by linarith)
    have e2 := d.u_eq l (0 : Fin 1) (hone l).symm (1 - t / 5) (by linarith) (by linarith)
    rw [show (10 : ℝ) / 2 * (t / 5 - 1 + 1) = t by ring] at e1
    rw [show (10 : ℝ) / 2 * (1 - t / 5 + 1) = 10 - t by ring] at e2
    rw [e1, e2, hone l, pow_zero, one_mul]
    show fn exKink 0 _ / _ = fn exKink 0 _ / _
    rw [exKink_fn (by linarith) (by linarith), exKink_fn (by linarith) (by linarith), abs_sub_comm]
  obtain ⟨σ, hσ, hu, -⟩ := make_parts v hb
  have hns : b.u.nseg = 2 := by rw [hu]; rfl
  have hpo : b.u.polyorder = 2 := by rw [hu]; rfl
  obtain ⟨U, h1, h2⟩ := C74_error v hb hpar 1601 (by norm_num) (by norm_num) (by simp; decide)
    (fun l m j => jump b.u l m j.1 (by have := j.2; omega)) (fun l m j => isJump_jump d.uwf l m j.1 _)
  refine ⟨b, U, hb, hpar, h1, fun l hl => ?_⟩
  have h3 := h2 l
  have e0 : U l - ∫ t in (0 : ℝ)..10, exp (I * Real.pi * ((1601 : ℤ) : ℂ) * t / (10 : ℝ)) * (fn b.u l t : ℂ) = 0 := by
    rw [hl]
    push_cast
    exact sub_self _
  rw [e0, hpo] at h3
  have hl0 : σ l = (0 : Fin 1) := Fin.ext ((hσ l).trans (hone l))
  have j0 := jump_rescaled exKink b.u σ (by norm_num) hu l 0 0 (by omega) (by decide)
  have j1 := jump_rescaled exKink b.u σ (by norm_num) hu l 1 0 (by omega) (by decide)
  rw [hl0] at j0 j1
  rw [exKink_jump0, mul_zero, pow_zero, one_mul] at j0
  rw [exKink_jump1, pow_one] at j1
  have hJ1 : jump b.u l 1 0 (by omega) ≠ 0 := by
    intro hc
    rw [hc, mul_zero] at j1
    have h5 : (0 : ℝ) < 1 / Real.sqrt (10 / 2) * (4 * Real.sqrt 2) := by positivity
    linarith
  rw [Finset.sum_range_succ, Finset.sum_range_one] at h3
  have hu1 : Unique (Fin (b.u.nseg - 1)) := by
    rw [hns]
    exact inferInstanceAs (Unique (Fin 1))
  have hd : (default : Fin (b.u.nseg - 1)).1 = 0 := by
    have := (default : Fin (b.u.nseg - 1)).2
    omega
  rw [Fintype.sum_unique, Fintype.sum_unique] at h3
  have key : ∀ (i : Fin (b.u.nseg - 1)), i.1 = 0 → ∀ m, jump b.u l m i.1 (by have := i.2; omega) =
      jump b.u l m 0 (by omega) := by
    intro i hi m
    congr 1
  rw [key _ hd, key _ hd, j0, ofReal_zero, mul_zero, zero_add] at h3
  have hw : (Real.pi * ((1601 : ℤ) : ℝ) / 10 : ℝ) ≠ 0 := by positivity
  refine mul_ne_zero (mul_ne_zero (div_ne_zero (by norm_num) (pow_ne_zero _ (mul_ne_zero I_ne_zero
    (ofReal_ne_zero.2 hw)))) (exp_ne_zero _)) (ofReal_ne_zero.2 hJ1) h3.symm

theorem exOdd_seg (l : Fin 1) : exOdd.seg l (0 : Fin 1) = X := by
  apply Polynomial.funext
  intro x
  show (segPoly (-1) 1 [0, 1]).eval x = _
  rw [segPoly_eval, segFun_affine]
  norm_num [Legendre.series, Finset.sum_range_succ]

/-- The parities are needed: with an expansion whose first function is odd, `uhat` above the threshold is not the
Fourier integral, although there are no interior knots.  (The model takes the parity from the position of the function
and not from `symm`.) -/
theorem C74_parity_needed (compute : KernelInfo → Option ℝ → PyM SveResult) : ∃ b U,
    make Fp.exact compute "F" 10 4 (some 0.01) none none (some (exOne exOdd)) = .ok b ∧ b.u.nseg = 1 ∧
      (∀ l : Fin b.size, ∀ t, 0 < t → t < 10 → fn b.u l (10 - t) = -fn b.u l t) ∧ (∀ l, b.u.symm l = -1) ∧
      b.uhat.call 1601 = .ok U ∧ ∀ l,
        U l ≠ ∫ t in (0 : ℝ)..10, exp (I * Real.pi * 1601 * t / 10) * (fn b.u l t : ℂ) := by
  have v := exOne_valid exOdd exOdd_good compute
  obtain ⟨b, hb, d⟩ := v.ok
  have hone : ∀ l : Fin b.size, l.1 = 0 := fun l => by
    have := fin_one_size (hp := exOdd_good) hb
    omega
  obtain ⟨σ, hσ, hu, freq, f, hfreq, hf, hg⟩ := make_parts v hb
  have hodd : freq = .odd := (Except.ok.inj hfreq).symm
  subst hodd
  have hl0 : ∀ l, σ l = (0 : Fin 1) := fun l => Fin.ext ((hσ l).trans (hone l))
  set P := (uhatBase 10 exOdd).select σ with hP
  have hPW : P.WF := ⟨exOdd_WF.pos, exOdd_WF.mono, exOdd_WF.dx_eq⟩
  have hPb : (uhatBase 10 exOdd).WF := ⟨exOdd_WF.pos, exOdd_WF.mono, exOdd_WF.dx_eq⟩
  have hseg : ∀ l (i : Fin P.nseg), P.seg l i = C (Real.sqrt 10) * X := by
    intro l i
    have h1 : P.seg l i = C (Real.sqrt 10) * exOdd.seg (σ l) i := seg_base (beta := 10) exOdd σ l i
    have hi : i = (0 : Fin 1) := Subsingleton.elim (α := Fin 1) _ _
    have h2 : exOdd.seg (σ l) i = X := by
      rw [hi]
      exact exOdd_seg _
    rw [h1, h2]
  have hfn : ∀ l x, -1 < x → x < 1 → fn P l x = Real.sqrt 10 * x := by
    intro l x h1 h2
    rw [fn_seg hPW (i := (0 : Fin 1)) ⟨h1.le, Or.inl h2⟩ l,
      show P.seg l (0 : Fin 1) = C (Real.sqrt 10) * X from hseg l (0 : Fin 1)]
    simp
  have hlenP : ∀ i l, (P.coef i l).length = P.polyorder := fun _ _ => rfl
  have hmod : ∀ pos : Fin b.size → ℕ, ∃ g ms, PFT.ctor pos P .odd (some (40 * 40)) none = .ok g ∧
      g = ⟨P, .odd, some (40 * 40), some ms⟩ ∧ ∀ l, giw ms 1601 l =
        ((powerMoment (-1) 0 (pos l) (Real.sqrt 10) : ℝ) : ℂ) * (I * Real.pi / 2 * (1601 : ℤ))⁻¹ +
        ((powerMoment (-1) 1 (pos l) (Real.sqrt 10) : ℝ) : ℂ) * ((I * Real.pi / 2 * (1601 : ℤ))⁻¹) ^ 2 := by
    intro pos
    refine ⟨_, (List.range P.polyorder).map fun m l => powerMoment (-1) m (pos l)
      ((derivative^[m] (P.seg l ⟨P.nseg - 1, by have := hPW.pos; omega⟩)).eval 1), ?_, rfl, fun l => ?_⟩
    · unfold PFT.ctor
      rw [if_neg (by
        show ¬ ((-1 : ℝ) ≠ -1 ∨ (1 : ℝ) ≠ 1)
        simp)]
      simp only
      rw [powerModel_eq P hPW rfl (Nat.le_succ 1) pos .odd (-1) rfl]
    · rw [giw_eq _ _ _ (by norm_num), List.length_map, List.length_range, show P.polyorder = 2 from rfl,
        Finset.sum_range_succ, Finset.sum_range_one]
      simp only [List.range_succ, List.range_zero, List.nil_append, List.map_append, List.map_cons, List.map_nil,
        List.cons_append, List.getD_cons_zero, List.getD_cons_succ, hseg, zero_add, pow_one]
      congr 5
      · simp
      · simp
  obtain ⟨g0, ms0, hg0, rfl, hms0⟩ := hmod fun l => l.1
  obtain ⟨g1, ms1, hg1, rfl, hms1⟩ := hmod fun _ => 1
  have hgg : b.uhat = ⟨P, .odd, some (40 * 40), some ms0⟩ :=
    select_model (uhatBase 10 exOdd) hPb rfl rfl (Nat.le_succ 1) σ _ hσ .odd (by decide) (40 * 40) (f' := f) hf hg hg0
  have hparn : HasParity Freq.odd.zeta 1601 := by simp [HasParity, Freq.zeta]
  have hcall : b.uhat.call 1601 = .ok (giw ms0 1601) := by
    rw [hgg]
    unfold PFT.call
    simp only
    rw [(C01_ints [1601] [1601] _).2 ⟨rfl, by simpa using hparn⟩]
    simp only
    rw [C14_inner P hPW rfl rfl hlenP 1601]
    simp only
    rw [if_pos (by norm_num)]
  have hfnu : ∀ l x, -1 ≤ x → x ≤ 1 → fn b.u l (10 / 2 * (x + 1)) = fn exOdd 0 x / Real.sqrt (10 / 2) :=
    fun l x => d.u_eq l (0 : Fin 1) (hone l).symm x
  have hfnx : ∀ x, -1 < x → x < 1 → fn exOdd 0 x = x := by
    intro x h1 h2
    rw [fn_seg exOdd_WF (i := (0 : Fin 1)) ⟨h1.le, Or.inl h2⟩, exOdd_seg, eval_X]
  refine ⟨b, _, hb, by rw [hu]; rfl, fun l t h1 h2 => ?_, fun l => by
    have key : ∀ q : PPoly (Fin b.size), q = ⟨exOdd.nseg, exOdd.polyorder, fun j => 10 / 2 * (exOdd.knots j + 1),
        fun i => 10 / 2 * exOdd.dx i, fun i l => exOdd.coef i (σ l), fun l => exOdd.symm (σ l)⟩ → q.symm l = -1 := by
      rintro _ rfl
      rfl
    exact key b.u hu, hcall, fun l hl => ?_⟩
  · have e1 := hfnu l (t / 5 - 1) (by linarith) (by linarith)
    have e2 := hfnu l (1 - t / 5) (by linarith) (by linarith)
    rw [show (10 : ℝ) / 2 * (t / 5 - 1 + 1) = t by ring, hfnx _ (by linarith) (by linarith)] at e1
    rw [show (10 : ℝ) / 2 * (1 - t / 5 + 1) = 10 - t by ring, hfnx _ (by linarith) (by linarith)] at e2
    rw [e1, e2]
    ring
  · -- the true transform
    obtain ⟨f2, ms2, h1, h2, h3⟩ := C16_exact P hPW rfl rfl rfl (Nat.le_succ 1) hlenP (fun _ => 1) .odd (40 * 40)
      (by decide) (fun l x h1 h2 => by rw [hfn l _ (by linarith) (by linarith), hfn l _ h1 h2]; ring)
    obtain rfl := Except.ok.inj (h1.symm.trans hg1)
    obtain rfl := Option.some.inj h2
    have h4 := h3 1601 (by norm_num) hparn l
    have hint : (∫ t in (0 : ℝ)..10, exp (I * Real.pi * 1601 * t / 10) * (fn b.u l t : ℂ)) = ft (fn P l) 1601 := by
      have h5 := ftTau_eq (beta := 10) (by norm_num) (fn b.u l) (fn exOdd 0) (hfnu l) 1601
      have h6 : ft (fun x => fn exOdd 0 x * Real.sqrt 10) 1601 = ft (fn P l) 1601 := by
        congr 1
        funext x
        have e1 : fn P l x = fn exOdd (σ l) x * Real.sqrt 10 := fn_base exOdd σ l x
        rw [e1, hl0]
      rw [← h6, ← h5]
      unfold ftTau
      push_cast
      rfl
    rw [hint, ← h4, hms0, hms1, hone l] at hl
    have m00 : powerMoment (-1) 0 0 (Real.sqrt 10) = -(2 * Real.sqrt 10 / Real.sqrt 2) := by unfold powerMoment; ring
    have m01 : powerMoment (-1) 1 0 (Real.sqrt 10) = 0 := by unfold powerMoment; ring
    have m10 : powerMoment (-1) 0 1 (Real.sqrt 10) = 0 := by unfold powerMoment; ring
    have m11 : powerMoment (-1) 1 1 (Real.sqrt 10) = 2 * Real.sqrt 10 / Real.sqrt 2 := by unfold powerMoment; ring
    rw [m00, m01, m10, m11, ofReal_zero, zero_mul, zero_mul, add_zero, zero_add, ofReal_neg] at hl
    have hc : ((2 * Real.sqrt 10 / Real.sqrt 2 : ℝ) : ℂ) ≠ 0 := ofReal_ne_zero.2 (by positivity)
    generalize ((2 * Real.sqrt 10 / Real.sqrt 2 : ℝ) : ℂ) = c at hl hc
    have hz0 : I * (Real.pi : ℂ) / 2 * ((1601 : ℤ) : ℂ) ≠ 0 :=
      mul_ne_zero (div_ne_zero (mul_ne_zero I_ne_zero (ofReal_ne_zero.2 Real.pi_ne_zero)) two_ne_zero)
        (by norm_num)
    have hz : I * (Real.pi : ℂ) / 2 * ((1601 : ℤ) : ℂ) = -1 := by
      generalize I * (Real.pi : ℂ) / 2 * ((1601 : ℤ) : ℂ) = z at hl hz0
      field_simp at hl
      linear_combination -hl
    have hre := congrArg Complex.re hz
    rw [show I * (Real.pi : ℂ) / 2 * ((1601 : ℤ) : ℂ) = ((Real.pi / 2 * 1601 : ℝ) : ℂ) * I by push_cast; ring,
      re_ofReal_mul, I_re, mul_zero] at hre
    norm_num at hre

/- Non-vacuity: the two functions `1`, `x` have the right parities and no interior knots, so `uhat` is exact at all
odd frequencies. -/
example (compute : KernelInfo → Option ℝ → PyM SveResult) (n : ℤ) (hn : Odd n) : ∃ b : FiniteTemp.Basis,
    make Fp.exact compute "F" 10 4 (some 0.01) none none (some (exSve 0.01)) = .ok b ∧
      b.uhat.call n = .ok fun l => ∫ t in (0 : ℝ)..10, exp (I * Real.pi * n * t / (10 : ℝ)) * (fn b.u l t : ℂ) := by
  have v := exValid 0.01 0.01 (by norm_num) compute
  obtain ⟨b, hb, d⟩ := v.ok
  obtain ⟨σ, hσ, hu, -⟩ := make_parts v hb
  have hns : b.u.nseg = 1 := by rw [hu]; rfl
  refine ⟨b, hb, C74_exact v hb ?_ ?_ n (Or.inr (by norm_num)) (by simp [hn])⟩
  · intro l t h1 h2
    have hl : l.1 < 2 := by
      have := l.2
      have h3 : b.size = 2 := d.size_eq
      omega
    have e1 := d.u_eq l (⟨l.1, hl⟩ : Fin 2) rfl (t / 5 - 1) (by linarith) (by linarith)
    have e2 := d.u_eq l (⟨l.1, hl⟩ : Fin 2) rfl (1 - t / 5) (by linarith) (by linarith)
    rw [show (10 : ℝ) / 2 * (t / 5 - 1 + 1) = t by ring] at e1
    rw [show (10 : ℝ) / 2 * (1 - t / 5 + 1) = 10 - t by ring] at e2
    rw [e1, e2]
    have e4 : ∀ i : Fin 2, fn exPair i (1 - t / 5) = (-1) ^ i.1 * fn exPair i (t / 5 - 1) := by
      intro i
      rw [exPair_fn _ _ (by linarith) (by linarith), exPair_fn _ _ (by linarith) (by linarith)]
      fin_cases i
      · simp
      · simp
    have e3 : fn exPair (⟨l.1, hl⟩ : Fin 2) (1 - t / 5) = (-1) ^ l.1 * fn exPair (⟨l.1, hl⟩ : Fin 2) (t / 5 - 1) :=
      e4 _
    show fn exPair _ _ / _ = _ * (fn exPair _ _ / _)
    rw [e3, mul_div_assoc]
  · intro l m j
    exact absurd j.2 (by omega)

end Verif.Props
