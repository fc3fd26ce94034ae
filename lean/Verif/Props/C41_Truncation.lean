import Verif.Props.C39_PhysicalUnits
/-!
# C41, C42 — truncating and rescaling a basis
-/

namespace Verif.Props
open Verif Verif.Np Verif.Poly Verif.Sve Verif.Kernel Verif.Spec Verif.FiniteTemp

section
variable {fp : Fp} {compute : KernelInfo → Option ℝ → PyM SveResult} {stat : String} {beta wmax : ℝ}
    {eps : Option ℝ} {maxSize : Option ℕ} {kernel : Option KernelInfo} {sve : Option SveResult} {k : KernelInfo}
    {lam : ℝ} {r : SveResult} {h : Good r} {e : ℝ} {m : ℕ}

/-- The kernel of an existing basis passes the check again. -/
theorem getKernel_again {lam0 : ℝ} (hk : getKernel stat lam0 kernel = .ok k) :
    getKernel stat lam0 (some k) = .ok k := by
  unfold getKernel at hk ⊢
  split at hk
  · cases hk
  · rename_i hst
    rw [if_neg hst]
    cases kernel with
    | none =>
      have := Except.ok.inj hk
      subst this
      simp [logisticInfo]
      positivity
    | some k' =>
      simp only at hk ⊢
      cases hl : k'.lambda with
      | none =>
        rw [hl] at hk
        have := Except.ok.inj hk
        subst this
        simp [hl]
      | some l =>
        rw [hl] at hk
        simp only at hk
        split at hk
        · rename_i hle
          have := Except.ok.inj hk
          subst this
          simp [hl, hle]
        · cases hk

theorem exists_cut (h : Good r) (e : ℝ) : ∃ m, Cut r h.pos e m := by
  obtain ⟨m, hm, -⟩ := part_idx r h (some e) e rfl none
  exact ⟨m, hm⟩

/-- With a given expansion, the accuracy and size arguments matter only through the indices kept. -/
theorem init_congr_part {eps' : Option ℝ} {M M' : Option ℤ} (hp : r.part eps M = r.part eps' M') :
    init fp compute stat beta wmax eps M kernel (some r) = init fp compute stat beta wmax eps' M' kernel (some r) := by
  unfold init
  simp only [getSve, okBind, hp]

/-- Two bases built from the same expansion consist of the same functions. -/
def SameFunctions (b b' : Basis) : Prop :=
  ∀ (l : Fin b.size) (l' : Fin b'.size), l.1 = l'.1 → b.s l = b'.s l' ∧
    (∀ tau, 0 ≤ tau → tau ≤ b.beta → fn b.u l tau = fn b'.u l' tau) ∧
    (∀ omega, -b.wmax ≤ omega → omega ≤ b.wmax → fn b.v l omega = fn b'.v l' omega)

theorem same_functions {b b' : Basis} {n n' : ℕ} (d : Describes b r h stat beta wmax k lam n)
    (d' : Describes b' r h stat beta wmax k lam n') (hb : 0 < beta) (hw : 0 < wmax) : SameFunctions b b' := by
  intro l l' hl
  have hlt : l.1 < r.n := by have := d.size_eq; have := d.size_le; omega
  refine ⟨?_, ?_, ?_⟩
  · rw [d.s_eq l ⟨l.1, hlt⟩ rfl, d'.s_eq l' ⟨l.1, hlt⟩ hl]
  · intro tau h1 h2
    rw [d.beta_eq] at h2
    have e1 : beta / 2 * ((2 * tau / beta - 1) + 1) = tau := by field_simp; ring
    have hx1 : -1 ≤ 2 * tau / beta - 1 := by have : 0 ≤ 2 * tau / beta := by positivity
                                             linarith
    have hx2 : 2 * tau / beta - 1 ≤ 1 := by
      have : 2 * tau / beta ≤ 2 := by rw [div_le_iff₀ hb]; linarith
      linarith
    rw [← e1, d.u_eq l ⟨l.1, hlt⟩ rfl _ hx1 hx2, d'.u_eq l' ⟨l.1, hlt⟩ hl _ hx1 hx2]
  · intro omega h1 h2
    rw [d.wmax_eq] at h1 h2
    have e2 : wmax * (omega / wmax) = omega := by field_simp
    have hy1 : -1 ≤ omega / wmax := by rw [le_div_iff₀ hw]; linarith
    have hy2 : omega / wmax ≤ 1 := by rw [div_le_iff₀ hw]; linarith
    rw [← e2, d.v_eq l ⟨l.1, hlt⟩ rfl _ hy1 hy2, d'.v_eq l' ⟨l.1, hlt⟩ hl _ hy1 hy2]

/-- What `basis[:n]` and `basis[:]` (`stop = none`) give: the first `min(m0, n)` functions, where `m0` is the
number of singular values above the accuracy `e0` *of the expansion* (not of the basis). -/
theorem C41_slice (v : Valid fp compute stat beta wmax eps maxSize kernel sve k lam r h e m) {b : Basis}
    (hb : make fp compute stat beta wmax eps maxSize kernel sve = .ok b) (start step : Option ℤ)
    (h1 : start = none ∨ start = some 0) (h2 : step = none ∨ step = some 1) (stop : Option ℕ)
    (e0 : ℝ) (he0 : r.eps = some e0) (m0 : ℕ) (hm0 : Cut r h.pos e0 m0) (hpos : 0 < min m0 (stop.getD m0)) :
    ∃ b', b.getitem fp compute (.slice start (stop.map fun n : ℕ => (n : ℤ)) step) = .ok b' ∧
      b'.size = min m0 (stop.getD m0) ∧ SameFunctions b b' ∧ b'.beta = b.beta ∧ b'.wmax = b.wmax ∧
      b'.statistics = b.statistics := by
  have d := v.describes hb
  have v' : Valid fp compute stat beta wmax none stop (some k) (some r) k lam r h e0 m0 :=
    ⟨v.hstat, v.hbeta, v.hwmax, getKernel_again v.hkernel, v.hlam, rfl, by rw [he0]; rfl, hm0, hpos⟩
  obtain ⟨b', hb', d'⟩ := v'.ok
  refine ⟨b', ?_, d'.size_eq, same_functions d d' v.hbeta v.hwmax, ?_, ?_, ?_⟩
  · unfold Basis.getitem sliceToSize
    dsimp only
    rw [if_neg (by rcases h1 with h1 | h1 <;> simp [h1]), if_neg (by rcases h2 with h2 | h2 <;> simp [h2]), okBind,
      d.statistics, d.beta_eq, d.wmax_eq, d.kernel_eq, d.sve_eq]
    exact hb'
  · rw [d.beta_eq, d'.beta_eq]
  · rw [d.wmax_eq, d'.wmax_eq]
  · rw [d.statistics, d'.statistics]

/-- Like a Python slice if the basis has all functions that the accuracy of the expansion allows (default
arguments): `basis[:n]` keeps the first `min(n, size)` functions, `basis[:]` all.  Missing for the full claim:
other bases (false, see below), `n = 0` and negative `n`. -/
theorem C41_slice_partial (v : Valid fp compute stat beta wmax eps maxSize kernel sve k lam r h e m) {b : Basis}
    (hb : make fp compute stat beta wmax eps maxSize kernel sve = .ok b) (start step : Option ℤ)
    (h1 : start = none ∨ start = some 0) (h2 : step = none ∨ step = some 1)
    (e0 : ℝ) (he0 : r.eps = some e0) (hm0 : Cut r h.pos e0 b.size) :
    (∀ n : ℕ, 0 < n → ∃ b', b.getitem fp compute (.slice start (some n) step) = .ok b' ∧
      b'.size = min n b.size ∧ SameFunctions b b') ∧
    (∃ b', b.getitem fp compute (.slice start none step) = .ok b' ∧ b'.size = b.size ∧ SameFunctions b b') := by
  have hs : 0 < b.size := by rw [(v.describes hb).size_eq]; exact v.hpos
  constructor
  · intro n hn
    obtain ⟨b', hb', h3, h4, -⟩ := C41_slice v hb start step h1 h2 (some n) e0 he0 _ hm0
      (by simp only [Option.getD_some]; omega)
    exact ⟨b', hb', by rw [h3, Option.getD_some, min_comm], h4⟩
  · obtain ⟨b', hb', h3, h4, -⟩ := C41_slice v hb start step h1 h2 none e0 he0 _ hm0
      (by simp only [Option.getD_none]; omega)
    exact ⟨b', hb', by rw [h3, Option.getD_none, min_self], h4⟩

/-- Everything that is not a slice from zero in steps of one is refused. -/
theorem C41_refused (b : Basis) :
    b.getitem fp compute .other = .error .valueError ∧
    (∀ start stop step, start ≠ 0 → b.getitem fp compute (.slice (some start) stop step) = .error .valueError) ∧
    (∀ start stop step, step ≠ 1 → b.getitem fp compute (.slice start stop (some step)) = .error .valueError) := by
  refine ⟨rfl, fun start stop step hs => ?_, fun start stop step hs => ?_⟩
  · unfold Basis.getitem sliceToSize
    dsimp only
    rw [if_pos (by simp [hs])]
    rfl
  · unfold Basis.getitem sliceToSize
    dsimp only
    by_cases hc : start ≠ none ∧ start ≠ some 0
    · rw [if_pos hc]; rfl
    · rw [if_neg hc, if_pos (by simp [hs])]; rfl

/-- `basis[:0]` raises IndexError. -/
theorem C41_empty (v : Valid fp compute stat beta wmax eps maxSize kernel sve k lam r h e m) {b : Basis}
    (hb : make fp compute stat beta wmax eps maxSize kernel sve = .ok b) (e0 : ℝ) (he0 : r.eps = some e0) :
    b.getitem fp compute (.slice none (some 0) none) = .error .indexError := by
  have d := v.describes hb
  unfold Basis.getitem sliceToSize
  dsimp only
  rw [if_neg (by simp), if_neg (by simp), okBind, d.statistics, d.beta_eq, d.wmax_eq, d.kernel_eq, d.sve_eq]
  obtain ⟨m', -, hp⟩ := part_idx r h none e0 (by rw [he0]; rfl) (some 0)
  unfold init
  rw [if_neg (not_not.2 v.hbeta), if_neg (not_not.2 v.hwmax.le), getKernel_again v.hkernel, okBind, getSve, okBind]
  simp only [Option.map_some, Nat.cast_zero, Option.getD_some, Nat.min_zero, List.take_zero] at hp
  rw [hp, okBind]
  rfl

/-- A negative bound counts from the end of the *expansion*: `basis[:-j]` has `n - j` functions, where `n` is
the size of the expansion, however small the basis is. -/
theorem C41_negative (v : Valid fp compute stat beta wmax eps maxSize kernel sve k lam r h e m) {b : Basis}
    (hb : make fp compute stat beta wmax eps maxSize kernel sve = .ok b) (e0 : ℝ) (he0 : r.eps = some e0) (j : ℕ)
    (hj : 0 < j) (hj' : j < r.n) :
    ∃ b', b.getitem fp compute (.slice none (some (-(j : ℤ))) none) = .ok b' ∧ b'.size = r.n - j ∧
      SameFunctions b b' := by
  have d := v.describes hb
  have hcut : Cut r h.pos 0 r.n := ⟨le_refl _, fun l => ⟨fun _ => by rw [zero_mul]; exact (h.spos l).le, fun _ => l.2⟩⟩
  have v' : Valid fp compute stat beta wmax (some 0) (some (r.n - j)) (some k) (some r) k lam r h 0 r.n :=
    ⟨v.hstat, v.hbeta, v.hwmax, getKernel_again v.hkernel, v.hlam, rfl, rfl, hcut, by
      simp only [Option.getD_some]; omega⟩
  obtain ⟨b', hb', d'⟩ := v'.ok
  refine ⟨b', ?_, ?_, same_functions d d' v.hbeta v.hwmax⟩
  · unfold Basis.getitem sliceToSize
    dsimp only
    rw [if_neg (by simp), if_neg (by simp), okBind, d.statistics, d.beta_eq, d.wmax_eq, d.kernel_eq, d.sve_eq,
      ← hb']
    apply init_congr_part
    obtain ⟨m', hm', hp⟩ := part_idx r h (some 0) 0 rfl (some (r.n - j))
    rw [hp, cut_unique hm' hcut]
    unfold SveResult.part Sve.part
    rw [he0]
    have hhead : (List.ofFn r.s).head? = some (r.s ⟨0, h.pos⟩) := by
      rw [List.head?_eq_getElem?, List.getElem?_eq_getElem (by simpa using h.pos)]
      simp
    rw [hhead]
    simp only [Option.none_or]
    have h1 : ∀ c : ℕ, (-(j : ℤ)) < c := fun c => by omega
    simp only [h1, if_true]
    rw [if_neg (by simp; omega)]
    simp only [Except.map, Option.getD_some]
    congr 1
    rw [pyTake, if_neg (by omega), List.length_finRange]
    congr 1
    omega
  · rw [d'.size_eq]
    simp only [Option.getD_some]
    omega

/-! ### Rescaling -/

/-- Relative error of one rounded operation in double precision (no underflow or overflow). -/
def Rounded (exact computed : ℝ) : Prop := |computed - exact| ≤ 2 ^ (-53 : ℤ) * |exact|

/-- The consistency check of the kernel survives the rounding errors of `lambda / new_beta` and
`new_beta * new_wmax`. -/
theorem lambda_check {lam nb w p : ℝ} (hlam : 0 < lam) (hnb : 0 < nb) (hw : Rounded (lam / nb) w)
    (hp : Rounded (nb * w) p) : 0 < w ∧ |lam - p| ≤ 4e-16 * |p| := by
  unfold Rounded at hw hp
  have hq : 0 < lam / nb := by positivity
  rw [abs_of_pos hq] at hw
  have hu : (2 : ℝ) ^ (-53 : ℤ) ≤ 1.2e-16 := by norm_num
  have hw1 := abs_le.1 (hw.trans (mul_le_mul_of_nonneg_right hu hq.le))
  have hwpos : 0 < w := by nlinarith [hw1.1]
  refine ⟨hwpos, ?_⟩
  have hnw : 0 < nb * w := by positivity
  rw [abs_of_pos hnw] at hp
  have hp1 := abs_le.1 (hp.trans (mul_le_mul_of_nonneg_right hu hnw.le))
  have e : nb * (lam / nb) = lam := by field_simp
  have h1 : nb * w ≤ lam * (1 + 1.2e-16) := by nlinarith [hw1.2]
  have h2 : lam * (1 - 1.2e-16) ≤ nb * w := by nlinarith [hw1.1]
  have hp' : 0 < p := by nlinarith [hp1.1]
  rw [abs_of_pos hp', abs_le]
  constructor <;> nlinarith [hp1.1, hp1.2]

/-- Dimensionless content of two bases. -/
def SameDimensionless (b b' : Basis) : Prop :=
  b'.kernel = b.kernel ∧ b'.sve = b.sve ∧ b'.statistics = b.statistics ∧
  ∀ (l : Fin b.size) (l' : Fin b'.size), l.1 = l'.1 →
    (∀ x, -1 ≤ x → x ≤ 1 → Real.sqrt b.beta * fn b.u l (b.beta / 2 * (x + 1)) =
      Real.sqrt b'.beta * fn b'.u l' (b'.beta / 2 * (x + 1))) ∧
    (∀ y, -1 ≤ y → y ≤ 1 → Real.sqrt b.wmax * fn b.v l (b.wmax * y) =
      Real.sqrt b'.wmax * fn b'.v l' (b'.wmax * y))

/-- `rescale` never fails the consistency check and gives the first `min(m0, size)` functions of the same
dimensionless basis, where `m0` counts the singular values above the accuracy of the expansion. -/
theorem C42_rescale (v : Valid fp compute stat beta wmax eps maxSize kernel sve k lam r h e m) {b : Basis}
    (hb : make fp compute stat beta wmax eps maxSize kernel sve = .ok b) (hlam : 0 < lam) (nb : ℝ) (hnb : 0 < nb)
    (hdiv : Rounded (lam / nb) (fp.div lam nb)) (hmul : Rounded (nb * fp.div lam nb) (fp.mul nb (fp.div lam nb)))
    (e0 : ℝ) (he0 : r.eps = some e0) (m0 : ℕ) (hm0 : Cut r h.pos e0 m0) (hpos : 0 < m0) :
    ∃ b', b.rescale fp compute nb = .ok b' ∧ b'.size = min m0 b.size ∧ SameDimensionless b b' ∧ b'.beta = nb ∧
      |lam - b'.lambda fp| ≤ 4e-16 * |b'.lambda fp| := by
  have d := v.describes hb
  obtain ⟨hw', hchk⟩ := lambda_check hlam hnb hdiv hmul
  have hbs : 0 < b.size := by rw [d.size_eq]; exact v.hpos
  have hker : getKernel stat (fp.mul nb (fp.div lam nb)) (some k) = .ok k := by
    have := v.hkernel
    unfold getKernel at this ⊢
    split at this
    · cases this
    · rename_i hst
      rw [if_neg hst]
      simp only [v.hlam]
      rw [if_pos hchk]
  have v' : Valid fp compute stat nb (fp.div lam nb) none (some b.size) (some k) (some r) k lam r h e0 m0 :=
    ⟨v.hstat, hnb, hw', hker, v.hlam, rfl, by rw [he0]; rfl, hm0, by
      simp only [Option.getD_some]; omega⟩
  obtain ⟨b', hb', d'⟩ := v'.ok
  refine ⟨b', ?_, d'.size_eq, ⟨?_, ?_, ?_, ?_⟩, d'.beta_eq, ?_⟩
  · unfold Basis.rescale
    rw [d.kernel_eq, v.hlam]
    simp only
    rw [if_neg hnb.ne', d.statistics, d.sve_eq]
    exact hb'
  · rw [d.kernel_eq, d'.kernel_eq]
  · rw [d.sve_eq, d'.sve_eq]
  · rw [d.statistics, d'.statistics]
  · intro l l' hl
    have hlt : l.1 < r.n := by have := d.size_eq; have := d.size_le; omega
    have key : ∀ {c : ℝ}, 0 < c → ∀ t : ℝ, Real.sqrt c * (t / Real.sqrt (c / 2)) = Real.sqrt 2 * t := by
      intro c hc t
      rw [Real.sqrt_div' _ (by norm_num)]
      have : Real.sqrt c ≠ 0 := (Real.sqrt_pos.2 hc).ne'
      field_simp
    constructor
    · intro x h1 h2
      rw [d.beta_eq, d'.beta_eq, d.u_eq l ⟨l.1, hlt⟩ rfl x h1 h2, d'.u_eq l' ⟨l.1, hlt⟩ hl x h1 h2,
        key v.hbeta, key hnb]
    · intro y h1 h2
      rw [d.wmax_eq, d'.wmax_eq, d.v_eq l ⟨l.1, hlt⟩ rfl y h1 h2, d'.v_eq l' ⟨l.1, hlt⟩ hl y h1 h2,
        mul_div_cancel₀ _ (Real.sqrt_pos.2 v.hwmax).ne', mul_div_cancel₀ _ (Real.sqrt_pos.2 hw').ne']
  · unfold Basis.lambda
    rw [d'.beta_eq, d'.wmax_eq]
    exact hchk

/-- `rescale` keeps the size if no singular value of the basis lies below the accuracy of the expansion (always
so if `eps` was not given or not smaller).  Missing for the full claim: bases built with a smaller `eps`, which
shrink (see below). -/
theorem C42_size_partial (v : Valid fp compute stat beta wmax eps maxSize kernel sve k lam r h e m) {b : Basis}
    (hb : make fp compute stat beta wmax eps maxSize kernel sve = .ok b) (hlam : 0 < lam) (nb : ℝ) (hnb : 0 < nb)
    (hdiv : Rounded (lam / nb) (fp.div lam nb)) (hmul : Rounded (nb * fp.div lam nb) (fp.mul nb (fp.div lam nb)))
    (e0 : ℝ) (he0 : r.eps = some e0) (hle : e0 ≤ e) :
    ∃ b', b.rescale fp compute nb = .ok b' ∧ b'.size = b.size ∧ SameDimensionless b b' := by
  obtain ⟨m0, hm0⟩ := exists_cut h e0
  have hmm : m ≤ m0 := by
    by_contra hc
    push Not at hc
    have hlt : m0 < r.n := lt_of_lt_of_le hc v.hcut.1
    have h1 := (v.hcut.2 ⟨m0, hlt⟩).1 hc
    have h2 := (hm0.2 ⟨m0, hlt⟩).2 (le_trans (mul_le_mul_of_nonneg_right hle (h.spos _).le) h1)
    exact absurd h2 (lt_irrefl m0)
  have hs := (v.describes hb).size_eq
  have hp := v.hpos
  have hbm : b.size ≤ m := by rw [hs]; exact min_le_left _ _
  obtain ⟨b', h1, h2, h3, -⟩ := C42_rescale v hb hlam nb hnb hdiv hmul e0 he0 m0 hm0 (by omega)
  exact ⟨b', h1, by rw [h2]; omega, h3⟩

end

/-! ### Disagreements, with concrete bases -/

/-- `basis[:n]` never has more functions than `basis`. -/
def SlicesLikePython : Prop :=
  ∀ (fp : Fp) (compute : KernelInfo → Option ℝ → PyM SveResult) (stat : String) (beta wmax : ℝ) (eps : Option ℝ)
    (maxSize : Option ℕ) (kernel : Option KernelInfo) (sve : Option SveResult) (b : Basis),
    make fp compute stat beta wmax eps maxSize kernel sve = .ok b →
    ∀ (n : ℕ) (b' : Basis), b.getitem fp compute (.slice none (some n) none) = .ok b' → b'.size = min n b.size

theorem exValidCut (compute : KernelInfo → Option ℝ → PyM SveResult) :
    Valid Fp.exact compute "F" 10 4 (some 0.5) none none (some (exSve 0.01)) (logisticInfo 40) 40 (exSve 0.01)
      (exSve_good 0.01) 0.5 1 :=
  { exValid 0.01 0.01 (by norm_num) compute with
    heps := rfl
    hcut := exSve_cut_one _ _ (by norm_num) (by norm_num)
    hpos := by norm_num }

/-- A basis cut to one function by `eps = 0.5` grows to two functions when asked for the first two (or for a
full slice), because `eps` is not remembered. -/
theorem C41_negation : ¬ SlicesLikePython := by
  intro hall
  have v := exValidCut fun _ _ => .error .valueError
  obtain ⟨b, hb, d⟩ := v.ok
  obtain ⟨b', hb', hs, -⟩ := C41_slice v hb none none (Or.inl rfl) (Or.inl rfl) (some 2) 0.01 rfl 2
    (exSve_cut_two _ _ (by norm_num)) (by norm_num)
  have := hall _ _ _ _ _ _ _ _ _ b hb 2 b' hb'
  rw [hs, d.size_eq] at this
  revert this
  decide

/-- `rescale` keeps the size. -/
def RescaleKeepsSize : Prop :=
  ∀ (fp : Fp) (compute : KernelInfo → Option ℝ → PyM SveResult) (stat : String) (beta wmax : ℝ) (eps : Option ℝ)
    (maxSize : Option ℕ) (kernel : Option KernelInfo) (sve : Option SveResult) (b : Basis),
    make fp compute stat beta wmax eps maxSize kernel sve = .ok b →
    ∀ (nb : ℝ) (b' : Basis), b.rescale fp compute nb = .ok b' → b'.size = b.size

theorem rounded_exact (a : ℝ) : Rounded a a := by
  unfold Rounded
  rw [sub_self, abs_zero]
  positivity

/-- A basis built with `eps = 0.01` from an expansion of accuracy `0.5` loses a function on rescaling. -/
theorem C42_negation : ¬ RescaleKeepsSize := by
  intro hall
  have v := exValid 0.5 0.01 (by norm_num) fun _ _ => .error .valueError
  obtain ⟨b, hb, d⟩ := v.ok
  obtain ⟨b', hb', hs, -⟩ := C42_rescale v hb (by norm_num) 5 (by norm_num) (rounded_exact _) (rounded_exact _) 0.5
    rfl 1 (exSve_cut_one _ _ (by norm_num) (by norm_num)) (by norm_num)
  have := hall _ _ _ _ _ _ _ _ _ b hb 5 b' hb'
  rw [hs, d.size_eq] at this
  revert this
  decide

/-- Non-vacuity of the positive results. -/
example : ∃ b b', make Fp.exact (fun _ _ => .error .valueError) "F" 10 4 (some 0.01) none none
    (some (exSve 0.01)) = .ok b ∧ b.getitem Fp.exact (fun _ _ => .error .valueError) (.slice none (some 1) none) =
      .ok b' ∧ b'.size = 1 ∧ b.size = 2 := by
  have v := exValid 0.01 0.01 (by norm_num) fun _ _ => .error .valueError
  obtain ⟨b, hb, d⟩ := v.ok
  obtain ⟨b', h1, h2, -⟩ := (C41_slice_partial v hb none none (Or.inl rfl) (Or.inl rfl) 0.01 rfl (by
    rw [d.size_eq]; exact exSve_cut_two _ _ (by norm_num))).1 1 (by norm_num)
  have hs : b.size = 2 := d.size_eq
  exact ⟨b, b', hb, h1, by rw [h2, hs]; rfl, hs⟩

example : ∃ b b', make Fp.exact (fun _ _ => .error .valueError) "F" 10 4 (some 0.01) none none
    (some (exSve 0.01)) = .ok b ∧ b.rescale Fp.exact (fun _ _ => .error .valueError) 5 = .ok b' ∧ b'.size = b.size := by
  have v := exValid 0.01 0.01 (by norm_num) fun _ _ => .error .valueError
  obtain ⟨b, hb, d⟩ := v.ok
  obtain ⟨b', h1, h2, -⟩ := C42_size_partial v hb (by norm_num) 5 (by norm_num) (rounded_exact _)
    (rounded_exact _) 0.01 rfl (le_refl _)
  exact ⟨b, b', hb, h1, h2⟩

end Verif.Props
