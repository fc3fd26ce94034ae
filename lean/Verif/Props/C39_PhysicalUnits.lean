import Verif.Lemmas.FiniteTemp
import Verif.Spec.Kernel
import Verif.Props.C37_Parity
/-!
# C39, C40, C59 — the basis in physical units

`Valid …` collects the arguments of a successful constructor call; `r` is the (dimensionless) singular value
expansion used and `min m (maxSize.getD m)` the number of functions kept.
-/

namespace Verif.Props
open Verif Verif.Np Verif.Poly Verif.Sve Verif.Kernel Verif.Spec Verif.FiniteTemp

section
variable {fp : Fp} {compute : KernelInfo → Option ℝ → PyM SveResult} {stat : String} {beta wmax : ℝ}
    {eps : Option ℝ} {maxSize : Option ℕ} {kernel : Option KernelInfo} {sve : Option SveResult} {k : KernelInfo}
    {lam : ℝ} {r : SveResult} {h : Good r} {e : ℝ} {m : ℕ}

/-- The dimensionless expansion truncated to the first `n` terms. -/
noncomputable def partialSum (r : SveResult) (n : ℕ) (x y : ℝ) : ℝ :=
  ∑ l : Fin r.n, if l.1 < n then r.s l * fn r.u l x * fn r.v l y else 0

theorem sum_prefix {n N : ℕ} (hn : n ≤ N) (f : Fin n → ℝ) (g : Fin N → ℝ)
    (hfg : ∀ (l : Fin n) (l' : Fin N), l'.1 = l.1 → f l = g l') :
    ∑ l, f l = ∑ l : Fin N, if l.1 < n then g l else 0 := by
  rw [Finset.sum_ite, Finset.sum_const_zero, add_zero]
  refine Finset.sum_bij (fun l _ => ⟨l.1, lt_of_lt_of_le l.2 hn⟩) ?_ ?_ ?_ ?_
  · intro l _; simp
  · intro a _ b _ hab; exact Fin.ext (by simpa using hab)
  · intro b hb
    simp only [Finset.mem_filter, Finset.mem_univ, true_and] at hb
    exact ⟨⟨b.1, hb⟩, Finset.mem_univ _, rfl⟩
  · intro l _; exact hfg l _ rfl

/-- In physical units the expansion is the dimensionless one, divided by `wmax ** ypower`. -/
theorem expansion {b : Basis} (d : Describes b r h stat beta wmax k lam m) (hb : 0 < beta) (hw : 0 < wmax)
    {tau omega : ℝ} (ht : 0 ≤ tau) (ht' : tau ≤ beta) (ho : -wmax ≤ omega) (ho' : omega ≤ wmax) :
    ∑ l, b.s l * fn b.u l tau * fn b.v l omega =
      wmax ^ (-k.ypower) * partialSum r m (2 * tau / beta - 1) (omega / wmax) := by
  have e1 : beta / 2 * ((2 * tau / beta - 1) + 1) = tau := by field_simp; ring
  have e2 : wmax * (omega / wmax) = omega := by field_simp
  have hx1 : -1 ≤ 2 * tau / beta - 1 := by have : 0 ≤ 2 * tau / beta := by positivity
                                           linarith
  have hx2 : 2 * tau / beta - 1 ≤ 1 := by
    have : 2 * tau / beta ≤ 2 := by rw [div_le_iff₀ hb]; linarith
    linarith
  have hy1 : -1 ≤ omega / wmax := by rw [le_div_iff₀ hw]; linarith
  have hy2 : omega / wmax ≤ 1 := by rw [div_le_iff₀ hw]; linarith
  have hbs := d.size_eq
  have hle := d.size_le
  unfold partialSum
  rw [Finset.mul_sum, sum_prefix (N := r.n) (by omega) _
    (fun l => wmax ^ (-k.ypower) * (r.s l * fn r.u l (2 * tau / beta - 1) * fn r.v l (omega / wmax)))]
  · apply Finset.sum_congr rfl
    intro l _
    rw [hbs]
    split <;> simp
  · intro l l' hl
    have hu := d.u_eq l l' hl _ hx1 hx2
    have hv := d.v_eq l l' hl _ hy1 hy2
    rw [e1] at hu
    rw [e2] at hv
    rw [hu, hv, d.s_eq l l' hl, Real.sqrt_mul (by positivity)]
    have h1 : Real.sqrt (beta / 2) ≠ 0 := (Real.sqrt_pos.2 (by positivity)).ne'
    have h2 : Real.sqrt wmax ≠ 0 := (Real.sqrt_pos.2 hw).ne'
    field_simp

/-- Logistic kernel: wherever the first `size` terms of the dimensionless expansion approximate the
dimensionless kernel up to `δ` (`δ = 0`: exactly), the basis approximates `exp(-τω)/(1+exp(-βω))` up to `δ`. -/
theorem C39_logistic (v : Valid fp compute stat beta wmax eps maxSize kernel sve k lam r h e m)
    (hy : k.ypower = 0) (hlam : lam = beta * wmax) (δ : ℝ)
    (hK : ∀ x y, -1 ≤ x → x ≤ 1 → -1 ≤ y → y ≤ 1 →
      |partialSum r (min m (maxSize.getD m)) x y - logisticK lam x y| ≤ δ) :
    ∃ b, make fp compute stat beta wmax eps maxSize kernel sve = .ok b ∧
      ∀ tau omega, 0 ≤ tau → tau ≤ beta → -wmax ≤ omega → omega ≤ wmax →
        ∃ ut vw, b.u.call tau = .ok ut ∧ b.v.call omega = .ok vw ∧
          |∑ l, b.s l * ut l * vw l - Real.exp (-tau * omega) / (1 + Real.exp (-beta * omega))| ≤ δ := by
  obtain ⟨b, hb, d⟩ := v.ok
  refine ⟨b, hb, fun tau omega ht ht' ho ho' => ?_⟩
  obtain ⟨i, hi⟩ := d.uwf.exists_inSeg (x := tau) (by rw [d.umin]; exact ht) (by rw [d.umax]; exact ht')
  obtain ⟨j, hj⟩ := d.vwf.exists_inSeg (x := omega) (by rw [d.vmin]; exact ho) (by rw [d.vmax]; exact ho')
  refine ⟨fun l => fn b.u l tau, fun l => fn b.v l omega, ?_, ?_, ?_⟩
  · unfold fn; rw [PPoly.call_eq d.uwf hi]
  · unfold fn; rw [PPoly.call_eq d.vwf hj]
  · rw [expansion d v.hbeta v.hwmax ht ht' ho ho', hy, neg_zero, zpow_zero, one_mul]
    have hb := v.hbeta
    have hw := v.hwmax
    have := hK (2 * tau / beta - 1) (omega / wmax)
      (by have : 0 ≤ 2 * tau / beta := by positivity
          linarith)
      (by have : 2 * tau / beta ≤ 2 := by rw [div_le_iff₀ hb]; linarith
          linarith)
      (by rw [le_div_iff₀ hw]; linarith) (by rw [div_le_iff₀ hw]; linarith)
    rw [logisticK, hlam] at this
    rw [show -(beta * wmax) * (omega / wmax) * (2 * tau / beta - 1 + 1) / 2 = -tau * omega by field_simp; ring,
      show -(beta * wmax) * (omega / wmax) = -beta * omega by field_simp] at this
    exact this

/-- Regularised Bose kernel (`ypower = 1`): the expansion gives `wmax**(-2)` times the kernel
`ω exp(-τω)/(1-exp(-βω))` in physical units. -/
theorem C39_bose (v : Valid fp compute stat beta wmax eps maxSize kernel sve k lam r h e m)
    (hy : k.ypower = 1) (hlam : lam = beta * wmax)
    (hK : ∀ x y, -1 ≤ x → x ≤ 1 → -1 ≤ y → y ≤ 1 →
      partialSum r (min m (maxSize.getD m)) x y = boseK lam x y) :
    ∃ b, make fp compute stat beta wmax eps maxSize kernel sve = .ok b ∧
      ∀ tau omega, 0 ≤ tau → tau ≤ beta → -wmax ≤ omega → omega ≤ wmax →
        ∑ l, b.s l * fn b.u l tau * fn b.v l omega =
          wmax ^ (-2 : ℤ) * (omega * Real.exp (-tau * omega) / (1 - Real.exp (-beta * omega))) := by
  obtain ⟨b, hb, d⟩ := v.ok
  refine ⟨b, hb, fun tau omega ht ht' ho ho' => ?_⟩
  have hb := v.hbeta
  have hw := v.hwmax
  rw [expansion d hb hw ht ht' ho ho', hy, hK]
  · rw [boseK, hlam]
    rw [show -(beta * wmax) * (omega / wmax) * (2 * tau / beta - 1 + 1) / 2 = -tau * omega by field_simp; ring,
      show -(beta * wmax) * (omega / wmax) = -beta * omega by field_simp]
    rw [show (-2 : ℤ) = -1 + -1 by norm_num, zpow_add₀ hw.ne', zpow_neg_one]
    ring
  · have : 0 ≤ 2 * tau / beta := by positivity
    linarith
  · have : 2 * tau / beta ≤ 2 := by rw [div_le_iff₀ hb]; linarith
    linarith
  · rw [le_div_iff₀ hw]; linarith
  · rw [div_le_iff₀ hw]; linarith

/-- Outside of `[0, β]` and `[-wmax, wmax]` the functions raise. -/
theorem C39_range (v : Valid fp compute stat beta wmax eps maxSize kernel sve k lam r h e m) :
    ∃ b, make fp compute stat beta wmax eps maxSize kernel sve = .ok b ∧
      (∀ tau, ¬ (0 ≤ tau ∧ tau ≤ beta) → b.u.call tau = .error .valueError) ∧
      ∀ omega, ¬ (-wmax ≤ omega ∧ omega ≤ wmax) → b.v.call omega = .error .valueError := by
  obtain ⟨b, hb, d⟩ := v.ok
  refine ⟨b, hb, fun tau ht => PPoly.call_out (by rw [d.umin, d.umax]; exact ht),
    fun omega ho => PPoly.call_out (by rw [d.vmin, d.vmax]; exact ho)⟩

theorem integral_scaled {c d : ℝ} (hc : 0 < c) (f g f' g' : ℝ → ℝ)
    (hf : ∀ x, -1 ≤ x → x ≤ 1 → f (c * x + d) = f' x / Real.sqrt c)
    (hg : ∀ x, -1 ≤ x → x ≤ 1 → g (c * x + d) = g' x / Real.sqrt c) :
    ∫ t in (c * -1 + d)..(c * 1 + d), f t * g t = ∫ x in (-1 : ℝ)..1, f' x * g' x := by
  have hsub := intervalIntegral.smul_integral_comp_mul_add (a := -1) (b := 1) (fun t => f t * g t) c d
  rw [← hsub, smul_eq_mul, ← intervalIntegral.integral_const_mul]
  apply intervalIntegral.integral_congr
  intro x hx
  rw [Set.uIcc_of_le (by norm_num)] at hx
  simp only
  rw [hf x hx.1 hx.2, hg x hx.1 hx.2]
  have h1 : Real.sqrt c ≠ 0 := (Real.sqrt_pos.2 hc).ne'
  have h2 : Real.sqrt c * Real.sqrt c = c := Real.mul_self_sqrt hc.le
  field_simp
  linear_combination (-(f' x * g' x)) * h2

/-- Orthonormality is kept by the change of variables. -/
theorem C39_orthonormal (v : Valid fp compute stat beta wmax eps maxSize kernel sve k lam r h e m)
    (hu : Orthonormal r.u (-1) 1) (hv : Orthonormal r.v (-1) 1) :
    ∃ b, make fp compute stat beta wmax eps maxSize kernel sve = .ok b ∧
      Orthonormal b.u 0 beta ∧ Orthonormal b.v (-wmax) wmax := by
  obtain ⟨b, hb, d⟩ := v.ok
  have hlt : ∀ l : Fin b.size, l.1 < r.n := fun l => by have := d.size_eq; have := d.size_le; omega
  have hif : ∀ l l' : Fin b.size, ((if (⟨l.1, hlt l⟩ : Fin r.n) = ⟨l'.1, hlt l'⟩ then 1 else 0) : ℝ) =
      if l = l' then 1 else 0 := by
    intro l l'
    simp only [Fin.mk.injEq, Fin.val_inj]
  refine ⟨b, hb, fun l l' => ?_, fun l l' => ?_⟩
  · have hx : ∀ l : Fin b.size, ∀ x, -1 ≤ x → x ≤ 1 →
        fn b.u l (beta / 2 * x + beta / 2) = fn r.u ⟨l.1, hlt l⟩ x / Real.sqrt (beta / 2) := by
      intro l x h1 h2
      rw [← d.u_eq l ⟨l.1, hlt l⟩ rfl x h1 h2]
      congr 1; ring
    have := integral_scaled (c := beta / 2) (d := beta / 2) (by have := v.hbeta; positivity) _ _ _ _ (hx l) (hx l')
    rw [show beta / 2 * -1 + beta / 2 = 0 by ring, show beta / 2 * 1 + beta / 2 = beta by ring, hu, hif] at this
    exact this
  · have hx : ∀ l : Fin b.size, ∀ x, -1 ≤ x → x ≤ 1 →
        fn b.v l (wmax * x + 0) = fn r.v ⟨l.1, hlt l⟩ x / Real.sqrt wmax := by
      intro l x h1 h2
      rw [← d.v_eq l ⟨l.1, hlt l⟩ rfl x h1 h2, add_zero]
    have := integral_scaled (c := wmax) (d := 0) v.hwmax _ _ _ _ (hx l) (hx l')
    rw [show wmax * -1 + 0 = -wmax by ring, show wmax * 1 + 0 = wmax by ring, hv, hif] at this
    exact this

/-- `uhat` is the Fourier transform of `u` in imaginary time, for all frequencies of the right parity below the
radius `40 Λ`, and frequencies of the wrong parity are refused. -/
theorem C59_uhat (v : Valid fp compute stat beta wmax eps maxSize kernel sve k lam r h e m) (n : ℤ)
    (hn : |(n : ℝ)| < 40 * lam) :
    ∃ b, make fp compute stat beta wmax eps maxSize kernel sve = .ok b ∧
      ((stat = "F" ↔ Odd n) → b.uhat.call n = .ok fun l =>
        ∫ t in (0 : ℝ)..beta, Complex.exp (Complex.I * Real.pi * n * t / beta) * (fn b.u l t : ℂ)) ∧
      (¬ (stat = "F" ↔ Odd n) → b.uhat.call n = .error .valueError) := by
  obtain ⟨b, hb, d⟩ := v.ok
  refine ⟨b, hb, fun hp => ?_, fun hp => ?_⟩
  · exact d.uhat_eq n hn (by rw [d.statistics]; exact hp)
  · exact d.uhat_parity n hn (by rw [d.statistics]; exact hp)

/-- Significances start at 1, do not increase and are positive; the accuracy is the first discarded relative
singular value, or the last kept one if none was discarded; `0 < accuracy <= significance[-1]`. -/
theorem C40_significance (v : Valid fp compute stat beta wmax eps maxSize kernel sve k lam r h e m) :
    ∃ b sig, make fp compute stat beta wmax eps maxSize kernel sve = .ok b ∧ b.significance = .ok sig ∧
      Antitone sig ∧ (∀ l, l.1 = 0 → sig l = 1) ∧ (∀ l, 0 < sig l ∧ sig l ≤ 1) ∧
      0 < b.accuracy ∧ b.accuracy ≤ 1 ∧ (∀ l, b.accuracy ≤ sig l) ∧
      (∀ l : Fin b.size, ∀ l' : Fin r.n, l'.1 = l.1 → sig l = r.s l' / r.s ⟨0, h.pos⟩) ∧
      (∀ hs : b.size < r.n, b.accuracy = r.s ⟨b.size, hs⟩ / r.s ⟨0, h.pos⟩) ∧
      (b.size = r.n → ∀ l, l.1 + 1 = b.size → b.accuracy = sig l) := by
  obtain ⟨b, hb, d⟩ := v.ok
  have hsz : 0 < b.size := by rw [d.size_eq]; exact v.hpos
  have hlt : ∀ l : Fin b.size, l.1 < r.n := fun l => by have := d.size_eq; have := d.size_le; omega
  have hbeta := v.hbeta
  have hw := v.hwmax
  have hfac : 0 < Real.sqrt (beta / 2 * wmax) * wmax ^ (-k.ypower) := by positivity
  have hs0 := d.s_eq ⟨0, hsz⟩ ⟨0, h.pos⟩ rfl
  have h0 : b.s ⟨0, hsz⟩ ≠ 0 := by
    rw [hs0]; exact (mul_pos hfac (h.spos _)).ne'
  have hsig : ∀ (l : Fin b.size) (l' : Fin r.n), l'.1 = l.1 →
      b.s l / b.s ⟨0, hsz⟩ = r.s l' / r.s ⟨0, h.pos⟩ := by
    intro l l' hl
    rw [hs0, d.s_eq l l' hl, mul_div_mul_left _ _ hfac.ne']
  have hr0 := h.spos ⟨0, h.pos⟩
  have hle : ∀ l, r.s l ≤ r.s ⟨0, h.pos⟩ := fun l => h.anti (Fin.mk_le_of_le_val (Nat.zero_le _))
  have hacc : ∃ j : Fin r.n, b.accuracy = r.s j / r.s ⟨0, h.pos⟩ ∧ b.size ≤ j.1 + 1 ∧
      (∀ hs : b.size < r.n, j = ⟨b.size, hs⟩) ∧ (b.size = r.n → j.1 + 1 = r.n) := by
    rcases lt_or_eq_of_le d.size_le with hs | hs
    · refine ⟨_, d.acc.1 hs, ?_, ?_, ?_⟩
      · rw [d.size_eq]; exact Nat.le_succ _
      · intro hs'; exact Fin.ext d.size_eq.symm
      · intro hc
        have := d.size_eq
        omega
    · refine ⟨_, d.acc.2 hs, ?_, ?_, ?_⟩
      · rw [d.size_eq]; simp only; omega
      · intro hs'
        have := d.size_eq
        omega
      · intro _
        have := v.hpos
        simp only
        omega
  obtain ⟨j, hj, hj1, hj2, hj3⟩ := hacc
  refine ⟨b, fun l => b.s l / b.s ⟨0, hsz⟩, hb, ?_, ?_, ?_, ?_, ?_, ?_, ?_, hsig, ?_, ?_⟩
  · unfold Basis.significance
    rw [dif_pos hsz, if_neg h0]
  · intro l l' hll
    simp only
    rw [hsig l ⟨l.1, hlt l⟩ rfl, hsig l' ⟨l'.1, hlt l'⟩ rfl, div_le_div_iff_of_pos_right hr0]
    exact h.anti hll
  · intro l hl
    simp only
    rw [show l = ⟨0, hsz⟩ from Fin.ext hl, div_self h0]
  · intro l
    simp only
    rw [hsig l ⟨l.1, hlt l⟩ rfl]
    exact ⟨div_pos (h.spos _) hr0, (div_le_one hr0).2 (hle _)⟩
  · rw [hj]; exact div_pos (h.spos _) hr0
  · rw [hj]; exact (div_le_one hr0).2 (hle _)
  · intro l
    simp only
    rw [hj, hsig l ⟨l.1, hlt l⟩ rfl, div_le_div_iff_of_pos_right hr0]
    apply h.anti
    rw [Fin.le_def]
    have := l.2
    simp only
    omega
  · intro hs
    rw [hj, hj2 hs]
  · intro hs l hl
    simp only
    rw [hj, hsig l j (by have := hj3 hs; omega)]

end

/-! Non-vacuity: the two functions `1`, `x` with singular values `1`, `1/10`. -/

/-- An expansion with two terms. -/
noncomputable def exSve (eps : ℝ) : SveResult := ⟨2, exPair, ![1, 1 / 10], exPair, some eps⟩

theorem exSve_good (eps : ℝ) : Good (exSve eps) where
  pos := Nat.two_pos
  spos l := by
    change Fin 2 at l
    show 0 < (![1, 1 / 10] : Fin 2 → ℝ) l
    fin_cases l <;> norm_num
  anti := by
    intro i j hij
    change Fin 2 at i j
    have hij : i ≤ j := hij
    show (![1, 1 / 10] : Fin 2 → ℝ) j ≤ (![1, 1 / 10] : Fin 2 → ℝ) i
    fin_cases i <;> fin_cases j
    · exact le_refl _
    · norm_num
    · exact absurd hij (by decide)
    · exact le_refl _
  uwf := exPair_WF
  vwf := exPair_WF
  umin := rfl
  umax := rfl
  vmin := rfl
  vmax := rfl
  ulen := exPair_len
  upo := Nat.le_succ 1

theorem exSve_cut_one (eps e : ℝ) (h1 : 1 / 10 < e) (h2 : e ≤ 1) : Cut (exSve eps) (exSve_good eps).pos e 1 := by
  refine ⟨Nat.le_succ 1, fun l => ?_⟩
  change Fin 2 at l
  show l.1 < 1 ↔ e * 1 ≤ (![1, 1 / 10] : Fin 2 → ℝ) l
  fin_cases l
  · simpa using h2
  · simp; linarith

theorem exSve_cut_two (eps e : ℝ) (h1 : e ≤ 1 / 10) : Cut (exSve eps) (exSve_good eps).pos e 2 := by
  refine ⟨le_refl _, fun l => ?_⟩
  change Fin 2 at l
  show l.1 < 2 ↔ e * 1 ≤ (![1, 1 / 10] : Fin 2 → ℝ) l
  fin_cases l
  · simp; linarith
  · simp; linarith

/-- A valid call with this expansion. -/
theorem exValid (eps e : ℝ) (he : e ≤ 1 / 10) (compute : KernelInfo → Option ℝ → PyM SveResult) :
    Valid Fp.exact compute "F" 10 4 (some e) none none (some (exSve eps)) (logisticInfo 40) 40 (exSve eps)
      (exSve_good eps) e 2 where
  hstat := Or.inl rfl
  hbeta := by norm_num
  hwmax := by norm_num
  hkernel := by
    unfold getKernel
    rw [show pyIn "F" "BF" = true by decide +kernel]
    simp only [Bool.not_true, Bool.false_eq_true, if_false, Fp.exact]
    congr 2
    norm_num
  hlam := rfl
  hsve := rfl
  heps := rfl
  hcut := exSve_cut_two eps e he
  hpos := by norm_num

example : ∃ b sig, make Fp.exact (fun _ _ => .error .valueError) "F" 10 4 (some 0.01) none none
    (some (exSve 0.01)) = .ok b ∧ b.significance = .ok sig ∧ ∀ l, l.1 = 0 → sig l = 1 := by
  obtain ⟨b, sig, h1, h2, -, h3, -⟩ := C40_significance
    (exValid 0.01 0.01 (by norm_num) fun _ _ => .error .valueError)
  exact ⟨b, sig, h1, h2, h3⟩

end Verif.Props
