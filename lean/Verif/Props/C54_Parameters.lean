import Verif.Props.C39_PhysicalUnits
import Mathlib.Data.List.Infix
/-!
# C54, C55 — parameters of the basis, and the pair of bases of a basis set
-/

namespace Verif.Props
open Verif Verif.Np Verif.Poly Verif.Sve Verif.Kernel Verif.Spec Verif.FiniteTemp

/-- Python's substring test. -/
theorem pyIn_iff (a b : String) : pyIn a b = true ↔ a.toList <:+: b.toList := by
  unfold pyIn
  rw [List.any_eq_true]
  constructor
  · rintro ⟨t, ht, hp⟩
    exact (List.isPrefixOf_iff_prefix.1 hp).isInfix.trans ((List.mem_tails _ _).1 ht).isInfix
  · intro hi
    obtain ⟨t, h1, h2⟩ := List.infix_iff_prefix_suffix.1 hi
    exact ⟨t, (List.mem_tails _ _).2 h2, List.isPrefixOf_iff_prefix.2 h1⟩

/-- The strings accepted by `statistics not in 'BF'`: not only `'B'` and `'F'`. -/
theorem pyIn_pair (x y : Char) (s : String) :
    s.toList <:+: [x, y] ↔ s.toList = [] ∨ s.toList = [x] ∨ s.toList = [y] ∨ s.toList = [x, y] := by
  generalize s.toList = l
  constructor
  · intro h
    rcases List.infix_cons_iff.1 h with h0 | h0
    · rcases List.prefix_cons_iff.1 h0 with h1 | ⟨t, rfl, h1⟩
      · exact Or.inl h1
      · rcases List.prefix_cons_iff.1 h1 with rfl | ⟨t', rfl, h2⟩
        · simp
        · rw [List.prefix_nil] at h2; subst h2; simp
    · rcases List.infix_cons_iff.1 h0 with h1 | h1
      · rcases List.prefix_cons_iff.1 h1 with h2 | ⟨t, rfl, h2⟩
        · exact Or.inl h2
        · rw [List.prefix_nil] at h2; subst h2; simp
      · rw [List.infix_nil] at h1; exact Or.inl h1
  · rintro (rfl | rfl | rfl | rfl)
    · exact List.nil_infix
    · exact ⟨[], [y], rfl⟩
    · exact ⟨[x], [], rfl⟩
    · exact List.infix_rfl

theorem pyIn_BF (s : String) : pyIn s "BF" = true ↔ s = "" ∨ s = "B" ∨ s = "F" ∨ s = "BF" := by
  rw [pyIn_iff, show "BF".toList = ['B', 'F'] from rfl, pyIn_pair]
  simp only [← String.toList_inj]
  rfl

theorem pyIn_FB (s : String) : pyIn s "FB" = true ↔ s = "" ∨ s = "F" ∨ s = "B" ∨ s = "FB" := by
  rw [pyIn_iff, show "FB".toList = ['F', 'B'] from rfl, pyIn_pair]
  simp only [← String.toList_inj]
  rfl

/-- Over all floats, including NaN and infinities: ValueError unless `beta > 0` and `wmax >= 0`. -/
theorem C54_params (beta wmax : IEEE) :
    (checkParams beta wmax = .ok () ↔ IEEE.gt beta (.fin 0) = true ∧ IEEE.ge wmax (.fin 0) = true) ∧
    (checkParams beta wmax ≠ .ok () → checkParams beta wmax = .error .valueError) ∧
    checkParams .nan wmax = .error .valueError ∧ checkParams beta .nan = .error .valueError := by
  unfold checkParams
  refine ⟨?_, ?_, rfl, ?_⟩
  · cases h1 : beta.gt (.fin 0) <;> cases h2 : wmax.ge (.fin 0) <;> simp
  · cases h1 : beta.gt (.fin 0) <;> cases h2 : wmax.ge (.fin 0) <;> simp
  · cases h1 : beta.gt (.fin 0)
    · rfl
    · simp [IEEE.ge, IEEE.le]

section
variable {fp : Fp} {compute : KernelInfo → Option ℝ → PyM SveResult} {stat : String} {beta wmax : ℝ}
    {eps : Option ℝ} {maxSize : Option ℤ} {kernel : Option KernelInfo} {sve : Option SveResult}

/-- The constructor raises ValueError for `beta <= 0`, for `wmax < 0` and for statistics other than `'F'`,
`'B'`, `''`, `'BF'`.  Missing for the full claim: the last two, see below. -/
theorem C54_init_partial (hbad : beta ≤ 0 ∨ wmax < 0 ∨
      (stat ≠ "F" ∧ stat ≠ "B" ∧ stat ≠ "" ∧ stat ≠ "BF")) :
    init fp compute stat beta wmax eps maxSize kernel sve = .error .valueError := by
  unfold init
  by_cases hb : beta > 0
  · rw [if_neg (not_not.2 hb)]
    by_cases hw : wmax ≥ 0
    · rw [if_neg (not_not.2 hw)]
      have hs : pyIn stat "BF" = false := by
        rcases hbad with h | h | h
        · linarith
        · linarith
        · rw [← Bool.not_eq_true, pyIn_BF]
          tauto
      unfold getKernel
      rw [hs]
      rfl
    · rw [if_pos hw]
  · rw [if_pos hb]

theorem rescaled_ctor_ok {κ : Type} (p : PPoly κ) (h : p.WF) (k : ℝ → ℝ) (c d : ℝ) (hc : 0 < c)
    (hk : ∀ t, k t = c * t + d) : ∃ q, rescaled p k c = .ok q := by
  obtain ⟨q, hq, -⟩ := rescaled_ok p h k c d hc hk
  exact ⟨q, hq⟩

/-- The empty string and `'BF'` pass the check (it is a substring test) and, when everything else is in order,
the constructor fails with KeyError instead. -/
theorem C54_keyError (hst : stat = "" ∨ stat = "BF") (hb : 0 < beta) (hw : 0 < wmax) {k : KernelInfo}
    {maxSize : Option ℕ} (hk : getKernel stat (fp.mul beta wmax) kernel = .ok k) {lam : ℝ}
    (hlam : k.lambda = some lam) {r : SveResult} (hr : getSve compute k eps sve = .ok r) (h : Good r) {e : ℝ}
    (he : eps.or r.eps = some e) {m : ℕ} (hm : Cut r h.pos e m) (hpos : 0 < min m (maxSize.getD m)) :
    make fp compute stat beta wmax eps maxSize kernel sve = .error .keyError := by
  unfold make init
  rw [if_neg (not_not.2 hb), if_neg (not_not.2 hw.le), hk, okBind, hr, okBind]
  obtain ⟨m', hm', hpart⟩ := part_idx r h eps e he maxSize
  rw [cut_unique hm' hm] at hpart
  rw [hpart, okBind]
  set idx := (List.finRange r.n).take (min m (maxSize.getD m)) with hidx
  have hlen : 0 < idx.length := by
    rw [hidx, List.length_take, List.length_finRange]
    have := h.pos
    omega
  obtain ⟨acc, hacc⟩ : ∃ acc, accuracyOf r idx = .ok acc := by
    unfold accuracyOf
    rw [List.head?_eq_getElem?, List.getElem?_eq_getElem hlen, List.getLast?_eq_getElem?,
      List.getElem?_eq_getElem (by omega)]
    simp only [if_neg (h.spos _).ne']
    split
    · exact ⟨_, rfl⟩
    · exact ⟨_, rfl⟩
  obtain ⟨u, hu⟩ := rescaled_ctor_ok (r.u.select idx.get) ⟨h.uwf.pos, h.uwf.mono, h.uwf.dx_eq⟩
    (fun t => beta / 2 * (t + 1)) (beta / 2) (beta / 2) (by positivity) (fun t => by ring)
  obtain ⟨v, hv⟩ := rescaled_ctor_ok (r.v.select idx.get) ⟨h.vwf.pos, h.vwf.mono, h.vwf.dx_eq⟩
    (fun t => wmax * t) wmax 0 hw (fun t => by ring)
  rw [hacc, okBind, hu, okBind, hv, okBind]
  unfold sScale
  rw [if_neg (fun hc => hw.ne' hc.1), okBind, show k.getLambda = .ok lam by unfold KernelInfo.getLambda; rw [hlam],
    okBind]
  rcases hst with rfl | rfl <;> rfl

/-- A user-defined kernel without the attribute `lambda_`, for which the consistency check makes an exception,
nevertheless always fails in the end. -/
theorem C54_no_lambda {k : KernelInfo} (hlam : k.lambda = none) :
    ∃ err, init fp compute stat beta wmax eps maxSize (some k) sve = .error err := by
  unfold init
  split
  · exact ⟨_, rfl⟩
  split
  · exact ⟨_, rfl⟩
  unfold getKernel
  split
  · exact ⟨_, rfl⟩
  simp only [hlam, okBind]
  cases getSve compute k eps sve with
  | error err => exact ⟨err, rfl⟩
  | ok r =>
    rw [okBind]
    cases r.part eps maxSize with
    | error err => exact ⟨err, rfl⟩
    | ok idx =>
      rw [okBind]
      cases accuracyOf r idx with
      | error err => exact ⟨err, rfl⟩
      | ok acc =>
        rw [okBind]
        cases rescaled (r.u.select idx.get) (fun t => beta / 2 * (t + 1)) (beta / 2) with
        | error err => exact ⟨err, rfl⟩
        | ok u =>
          rw [okBind]
          cases rescaled (r.v.select idx.get) (fun t => wmax * t) wmax with
          | error err => exact ⟨err, rfl⟩
          | ok v =>
            rw [okBind]
            cases sScale beta wmax k.ypower with
            | error err => exact ⟨err, rfl⟩
            | ok c =>
              rw [okBind]
              refine ⟨.attributeError, ?_⟩
              unfold KernelInfo.getLambda
              rw [hlam]
              rfl

end

/-- `wmax = 0` passes the check, but then the discretisation hints of the kernel raise OverflowError. -/
theorem C54_zero_cutoff (legendre : ℕ → PyM Gauss.Rule) (n : ℕ) (rule : Gauss.Rule) (hl : legendre n = .ok rule)
    (hints : Hints) (hx : hints.segX = logisticSegX 0) :
    samplingInit legendre hints (some n) = .error .overflowError := by
  unfold samplingInit
  simp only [Option.getD_some]
  rw [hl, hx]
  simp [logisticSegX, nzerosOf]

/-- The claim: every statistics other than `'F'` and `'B'` gives ValueError. -/
def StatisticsChecked : Prop :=
  ∀ (fp : Fp) (compute : KernelInfo → Option ℝ → PyM SveResult) (stat : String) (beta wmax : ℝ) (eps : Option ℝ)
    (maxSize : Option ℤ) (kernel : Option KernelInfo) (sve : Option SveResult), stat ≠ "F" → stat ≠ "B" →
    init fp compute stat beta wmax eps maxSize kernel sve = .error .valueError

theorem C54_negation : ¬ StatisticsChecked := by
  intro hall
  have h1 := hall Fp.exact (fun _ _ => .error .valueError) "BF" 10 4 (some 0.01) none none (some (exSve 0.01))
    (by decide) (by decide)
  have h2 := C54_keyError (fp := Fp.exact) (compute := fun _ _ => .error .valueError) (stat := "BF") (beta := 10)
    (wmax := 4) (eps := some 0.01) (maxSize := none) (kernel := none) (sve := some (exSve 0.01))
    (k := logisticInfo 40) (lam := 40) (r := exSve 0.01) (e := 0.01) (m := 2) (Or.inr rfl) (by norm_num)
    (by norm_num) (by
      unfold getKernel
      rw [show pyIn "BF" "BF" = true from (pyIn_BF _).2 (by simp)]
      simp only [Bool.not_true, Bool.false_eq_true, if_false, Fp.exact]
      congr 2
      norm_num) rfl rfl (exSve_good _) rfl (exSve_cut_two _ _ (by norm_num)) (by norm_num)
  unfold make at h2
  rw [Option.map_none, h1] at h2
  cases h2

/-- `weight_func` of the kernels: ValueError for all other strings, but the empty string and `'FB'` are treated
as bosonic (logistic kernel) or accepted (base class); the regularised Bose kernel accepts `'B'` only. -/
theorem C54_weight_func (lam : ℝ) (s : String) :
    ((∃ f, logisticWeight lam s = .ok f) ↔ s = "" ∨ s = "F" ∨ s = "B" ∨ s = "FB") ∧
    ((∃ f, abstractWeight s = .ok f) ↔ s = "" ∨ s = "F" ∨ s = "B" ∨ s = "FB") ∧
    ((∃ f, boseWeight s = .ok f) ↔ s = "B") ∧
    logisticWeight lam "" = logisticWeight lam "B" ∧ logisticWeight lam "FB" = logisticWeight lam "B" := by
  refine ⟨?_, ?_, ?_, ?_, ?_⟩
  · rw [← pyIn_FB]
    unfold logisticWeight
    cases pyIn s "FB"
    · simp
    · simp only [Bool.not_true, Bool.false_eq_true, if_false, iff_true]
      split <;> exact ⟨_, rfl⟩
  · rw [← pyIn_FB]
    unfold abstractWeight
    cases pyIn s "FB" <;> simp
  · unfold boseWeight
    by_cases h : s = "B" <;> simp [h]
  · unfold logisticWeight
    rw [(pyIn_FB "").2 (by simp), (pyIn_FB "B").2 (by simp)]
    simp
  · unfold logisticWeight
    rw [(pyIn_FB "FB").2 (by simp), (pyIn_FB "B").2 (by simp)]
    simp

/-! ## C55 -/

section
variable {fp : Fp} {compute : KernelInfo → Option ℝ → PyM SveResult} {beta wmax : ℝ} {eps : Option ℝ}
  {sve : Option SveResult}

/-- The two bases differ at most in statistics and the Matsubara functions. -/
structure Partners (bf bb : Basis) : Prop where
  statF : bf.statistics = "F"
  statB : bb.statistics = "B"
  sve : bb.sve = bf.sve
  size : bb.size = bf.size
  accuracy : bb.accuracy = bf.accuracy
  kernel : bb.kernel = bf.kernel
  beta : bb.beta = bf.beta
  wmax : bb.wmax = bf.wmax
  s : HEq bb.s bf.s
  u : HEq bb.u bf.u
  v : HEq bb.v bf.v

theorem getKernel_stat (lam : ℝ) : getKernel "F" lam none = .ok (logisticInfo lam) ∧
    getKernel "B" lam none = .ok (logisticInfo lam) := by
  unfold getKernel
  rw [(pyIn_BF "F").2 (by simp), (pyIn_BF "B").2 (by simp)]
  exact ⟨rfl, rfl⟩

/-- Whenever the pair is constructed, both bases come from the same expansion and share size, singular values,
functions of imaginary time and of real frequency, and the imaginary-time sampling points (for any root search
on the same functions). -/
theorem C55_pair {bf bb : Basis} (h : finiteTempBases fp compute beta wmax eps sve = .ok (bf, bb)) :
    Partners bf bb ∧ bf.beta = beta ∧ bf.wmax = wmax ∧
    (∀ r, sve = some r → bf.sve = r) ∧ (sve = none → compute (logisticInfo (fp.mul beta wmax)) eps = .ok bf.sve) ∧
    ∀ (meps : ℝ) (F : (r : SveResult) → Fin r.n → ℝ → FVal ℝ) (G : ℝ → FVal ℝ) (np : Option ℕ),
      bb.defaultTau meps (F bb.sve) G np = bf.defaultTau meps (F bf.sve) G np := by
  unfold finiteTempBases at h
  cases hr : getSve compute (logisticInfo (fp.mul beta wmax)) eps sve with
  | error err => rw [hr] at h; cases h
  | ok r =>
  rw [hr, okBind] at h
  unfold init at h
  by_cases hb : beta > 0
  swap
  · rw [if_pos hb] at h; cases h
  by_cases hw : wmax ≥ 0
  swap
  · rw [if_neg (not_not.2 hb), if_pos hw] at h; cases h
  simp only [if_neg (not_not.2 hb), if_neg (not_not.2 hw), getKernel_stat, okBind, getSve] at h
  cases hp : r.part eps none with
  | error err => rw [hp] at h; cases h
  | ok idx =>
  rw [hp] at h
  simp only [okBind] at h
  cases hacc : accuracyOf r idx with
  | error err => rw [hacc] at h; cases h
  | ok acc =>
  rw [hacc] at h
  simp only [okBind] at h
  cases hu : rescaled (r.u.select idx.get) (fun t => beta / 2 * (t + 1)) (beta / 2) with
  | error err => rw [hu] at h; cases h
  | ok u =>
  rw [hu] at h
  simp only [okBind] at h
  cases hv : rescaled (r.v.select idx.get) (fun t => wmax * t) wmax with
  | error err => rw [hv] at h; cases h
  | ok v =>
  rw [hv] at h
  simp only [okBind] at h
  cases hsc : sScale beta wmax (logisticInfo (fp.mul beta wmax)).ypower with
  | error err => rw [hsc] at h; cases h
  | ok c =>
  rw [hsc] at h
  simp only [okBind, KernelInfo.getLambda, logisticInfo,
    show freqOf "F" = .ok .odd from rfl, show freqOf "B" = .ok .even from rfl] at h
  cases hf : PFT.ctor (fun l : Fin r.n => l.1) (uhatBase beta r.u) .odd (some (40 * fp.mul beta wmax)) none with
  | error err => rw [hf] at h; cases h
  | ok f =>
  rw [hf] at h
  simp only [okBind] at h
  cases hf' : PFT.select (fun l : Fin idx.length => l.1) f idx.get with
  | error err => rw [hf'] at h; cases h
  | ok f' =>
  rw [hf'] at h
  simp only [okBind] at h
  cases hg : PFT.ctor (fun l : Fin r.n => l.1) (uhatBase beta r.u) .even (some (40 * fp.mul beta wmax)) none with
  | error err => rw [hg] at h; cases h
  | ok g =>
  rw [hg] at h
  simp only [okBind] at h
  cases hg' : PFT.select (fun l : Fin idx.length => l.1) g idx.get with
  | error err => rw [hg'] at h; cases h
  | ok g' =>
  rw [hg'] at h
  simp only [okBind] at h
  have h := Except.ok.inj h
  have h1 := (Prod.mk.inj h).1
  have h2 := (Prod.mk.inj h).2
  subst h1 h2
  refine ⟨⟨rfl, rfl, rfl, rfl, rfl, rfl, rfl, rfl, HEq.rfl, HEq.rfl, HEq.rfl⟩, rfl, rfl, ?_, ?_, fun _ _ _ _ => rfl⟩
  · rintro r' rfl
    exact (Except.ok.inj hr).symm
  · rintro rfl
    exact hr

/-- For a proper expansion the construction succeeds. -/
theorem C55_exists {r : SveResult} (h : Good r) (hb : 0 < beta) (hw : 0 < wmax)
    (hr : getSve compute (logisticInfo (fp.mul beta wmax)) eps sve = .ok r) {e : ℝ}
    (he : eps.or r.eps = some e) {m : ℕ} (hm : Cut r h.pos e m) (hpos : 0 < m) :
    ∃ bf bb, finiteTempBases fp compute beta wmax eps sve = .ok (bf, bb) ∧ bf.size = m ∧ bb.size = m := by
  have vf : Valid fp compute "F" beta wmax eps none none (some r) (logisticInfo (fp.mul beta wmax))
      (fp.mul beta wmax) r h e m :=
    ⟨Or.inl rfl, hb, hw, (getKernel_stat _).1, rfl, rfl, he, hm, by simpa using hpos⟩
  have vb : Valid fp compute "B" beta wmax eps none none (some r) (logisticInfo (fp.mul beta wmax))
      (fp.mul beta wmax) r h e m :=
    ⟨Or.inr rfl, hb, hw, (getKernel_stat _).2, rfl, rfl, he, hm, by simpa using hpos⟩
  obtain ⟨bf, hbf, df⟩ := vf.ok
  obtain ⟨bb, hbb, db⟩ := vb.ok
  refine ⟨bf, bb, ?_, by rw [df.size_eq]; simp, by rw [db.size_eq]; simp⟩
  unfold finiteTempBases
  have hbf' : init fp compute "F" beta wmax eps none none (some r) = .ok bf := hbf
  have hbb' : init fp compute "B" beta wmax eps none none (some r) = .ok bb := hbb
  rw [hr, okBind, hbf', okBind, hbb', okBind]

end

example : ∃ bf bb, finiteTempBases Fp.exact (fun _ _ => .error .valueError) 10 4 (some 0.01)
    (some (exSve 0.01)) = .ok (bf, bb) ∧ bf.size = 2 ∧ bb.size = 2 :=
  C55_exists (exSve_good 0.01) (by norm_num) (by norm_num) rfl rfl (exSve_cut_two _ _ (by norm_num)) (by norm_num)

end Verif.Props
