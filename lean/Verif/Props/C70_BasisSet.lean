import Verif.Props.C68_SparseSampling
import Verif.Props.C64_DefaultPoints
/-!
# C70: the basis set

`FiniteTempBasisSet` (`basis_set.py`): a fermionic and a bosonic basis with their sampling objects.
-/

namespace Verif.Props
open Verif Verif.Np Verif.Poly Verif.Sve Verif.Kernel Verif.Spec Verif.FiniteTemp Verif.Sampling Verif.Np.NdArray Matrix

section
variable {fp : Fp} {compute : KernelInfo → Option ℝ → PyM SveResult} {svds : Svds} {q : Search} {beta wmax : ℝ}
  {eps : Option ℝ} {sve : Option SveResult} {s : BasisSet q}

theorem fromBases_iff {bf bb : Basis} : BasisSet.fromBases svds q bf bb = .ok s ↔
    ∃ tf tb wf wb, tauInit svds (bf.sampled q) none = .ok tf ∧ tauInit svds (bb.sampled q) none = .ok tb ∧
      matsInit svds (bf.sampled q) none false = .ok wf ∧ matsInit svds (bb.sampled q) none false = .ok wb ∧
      s = ⟨bf, bb, tf, tb, wf, wb⟩ := by
  unfold BasisSet.fromBases
  constructor
  · intro h
    cases h1 : tauInit svds (bf.sampled q) none with
    | error e => rw [h1] at h; cases h
    | ok tf =>
    cases h2 : tauInit svds (bb.sampled q) none with
    | error e => rw [h1, h2] at h; cases h
    | ok tb =>
    cases h3 : matsInit svds (bf.sampled q) none false with
    | error e => rw [h1, h2, h3] at h; cases h
    | ok wf =>
    cases h4 : matsInit svds (bb.sampled q) none false with
    | error e => rw [h1, h2, h3, h4] at h; cases h
    | ok wb =>
    rw [h1, h2, h3, h4] at h
    exact ⟨tf, tb, wf, wb, rfl, rfl, rfl, rfl, (Except.ok.inj h).symm⟩
  · rintro ⟨tf, tb, wf, wb, h1, h2, h3, h4, rfl⟩
    rw [h1, h2, h3, h4]
    rfl

theorem init_iff : BasisSet.init fp compute svds q beta wmax eps sve = .ok s ↔
    finiteTempBases fp compute beta wmax eps sve = .ok (s.basisF, s.basisB) ∧
      tauInit svds (s.basisF.sampled q) none = .ok s.smplTauF ∧ tauInit svds (s.basisB.sampled q) none = .ok s.smplTauB ∧
      matsInit svds (s.basisF.sampled q) none false = .ok s.smplWnF ∧
      matsInit svds (s.basisB.sampled q) none false = .ok s.smplWnB := by
  unfold BasisSet.init
  constructor
  · intro h
    cases h0 : finiteTempBases fp compute beta wmax eps sve with
    | error e => rw [h0] at h; cases h
    | ok p =>
      rw [h0] at h
      obtain ⟨tf, tb, wf, wb, h1, h2, h3, h4, rfl⟩ := fromBases_iff.1 h
      exact ⟨rfl, h1, h2, h3, h4⟩
  · rintro ⟨h0, h1, h2, h3, h4⟩
    rw [h0]
    exact fromBases_iff.2 ⟨_, _, _, _, h1, h2, h3, h4, rfl⟩

theorem tauInit_points {b : SBasis} {o : Obj b ℝ} (h : tauInit svds b none = .ok o) : b.defaultTau = .ok o.points := by
  unfold tauInit at h
  simp only at h
  cases hd : b.defaultTau with
  | error e => rw [hd] at h; cases h
  | ok p =>
    rw [hd] at h
    unfold tauFrom at h
    simp only at h
    split at h
    · cases h
    · rename_i a ha
      cases hm : fullMatrix svds a with
      | error e => rw [hm] at h; cases h
      | ok M =>
        rw [hm] at h
        obtain rfl := Except.ok.inj h
        rfl

theorem matsInit_points {b : SBasis} {o : Obj b ℤ} (h : matsInit svds b none false = .ok o) :
    b.defaultMatsubara false = .ok o.points := by
  unfold matsInit at h
  simp only at h
  cases hd : b.defaultMatsubara false with
  | error e => rw [hd] at h; cases h
  | ok p =>
    rw [hd] at h
    unfold matsFrom at h
    simp only [Bool.false_eq_true, if_false] at h
    split at h
    · cases h
    · rename_i a ha
      cases hm : fullMatrix svds a with
      | error e => rw [hm] at h; cases h
      | ok M =>
        rw [hm] at h
        obtain rfl := Except.ok.inj h
        rfl

/-- Two bases which agree in what `TauSampling` looks at give the same sampling in time. -/
theorem tau_congr (n : ℕ) (u : ℝ → PyM (Fin n → ℝ)) (dt : PyM (List ℝ)) (h1 h2 : ℤ → PyM (Fin n → ℂ)) (wc : Bool)
    (d1 d2 : Bool → PyM (List ℤ)) {o1 : Obj ⟨n, u, h1, wc, dt, d1⟩ ℝ} {o2 : Obj ⟨n, u, h2, wc, dt, d2⟩ ℝ}
    (e1 : tauInit svds ⟨n, u, h1, wc, dt, d1⟩ none = .ok o1) (e2 : tauInit svds ⟨n, u, h2, wc, dt, d2⟩ none = .ok o2) :
    (∀ x axis, tauEvaluate svds o1 x axis none = tauEvaluate svds o2 x axis none) ∧
    ∀ x axis, tauFit svds o1 x axis none = tauFit svds o2 x axis none := by
  cases dt with
  | error e => cases e1
  | ok p =>
    have e1' : tauFrom svds _ p = .ok o1 := e1
    have e2' : tauFrom svds _ p = .ok o2 := e2
    unfold tauFrom at e1' e2'
    simp only at e1' e2'
    cases ha : evalMatrix (fun t => (u t).map fun f l => (f l : ℂ)) p with
    | error e => rw [ha] at e1'; cases e1'
    | ok a =>
      rw [ha] at e1' e2'
      simp only at e1' e2'
      cases hm : fullMatrix svds a with
      | error e => rw [hm] at e1'; cases e1'
      | ok M =>
        rw [hm] at e1' e2'
        obtain rfl := Except.ok.inj e1'
        obtain rfl := Except.ok.inj e2'
        exact ⟨fun _ _ => rfl, fun _ _ => rfl⟩

theorem tau_congr' {b1 b2 : SBasis} (hn : b2.size = b1.size) (hu : HEq b2.u b1.u)
    (hw : b2.wellConditioned = b1.wellConditioned) (hd : b2.defaultTau = b1.defaultTau) {o1 : Obj b1 ℝ} {o2 : Obj b2 ℝ}
    (e1 : tauInit svds b1 none = .ok o1) (e2 : tauInit svds b2 none = .ok o2) :
    (∀ x axis, tauEvaluate svds o2 x axis none = tauEvaluate svds o1 x axis none) ∧
    ∀ x axis, tauFit svds o2 x axis none = tauFit svds o1 x axis none := by
  obtain ⟨n1, u1, h1, wc1, dt1, d1⟩ := b1
  obtain ⟨n2, u2, h2, wc2, dt2, d2⟩ := b2
  simp only at hn hu hw hd
  subst hn
  obtain rfl := eq_of_heq hu
  subst hw
  subst hd
  exact tau_congr _ _ _ _ _ _ _ _ e2 e1

theorem call_heq {n n' : ℕ} (h : n' = n) {p : PPoly (Fin n)} {p' : PPoly (Fin n')} (hp : HEq p' p) :
    HEq p'.call p.call := by
  subst h
  obtain rfl := eq_of_heq hp
  rfl

/-- A set which was constructed: parameters and singular value expansion are the ones given (or computed for the
logistic kernel), the two bases differ in statistics and transforms only, the sampling points are the default points
of the bases, those in time are the same for both, and so are sampling and fit in time. -/
theorem C70_attributes (h : BasisSet.init fp compute svds q beta wmax eps sve = .ok s) :
    Partners s.basisF s.basisB ∧ s.beta = beta ∧ s.wmax = wmax ∧ s.lambda fp = fp.mul beta wmax ∧
    s.accuracy = s.basisB.accuracy ∧ (∀ r, sve = some r → s.sveResult = r) ∧
    (sve = none → compute (logisticInfo (fp.mul beta wmax)) eps = .ok s.sveResult) ∧
    (∃ w, s.basisF.defaultTau q.tol (q.u s.basisF.sve) (q.du s.basisF.sve) none = some (.ok (s.tau, w))) ∧
    (∃ w, s.basisB.defaultTau q.tol (q.u s.basisB.sve) (q.du s.basisB.sve) none = some (.ok (s.tau, w))) ∧
    (∃ w, s.basisF.defaultMatsubara (q.uhat "F" s.basisF.sve) none false = some (.ok (s.wnF, w))) ∧
    (∃ w, s.basisB.defaultMatsubara (q.uhat "B" s.basisB.sve) none false = some (.ok (s.wnB, w))) ∧
    s.smplTauB.points = s.tau ∧
    (∀ x axis, tauEvaluate svds s.smplTauB x axis none = tauEvaluate svds s.smplTauF x axis none) ∧
    ∀ x axis, tauFit svds s.smplTauB x axis none = tauFit svds s.smplTauF x axis none := by
  obtain ⟨h0, h1, h2, h3, h4⟩ := init_iff.1 h
  obtain ⟨hp, hbeta, hwmax, hsv, hcomp, hdef⟩ := C55_pair h0
  have out : ∀ {α : Type} {r : Option (PyM (α × Bool))} {x : α}, outcome r = .ok x → ∃ w, r = some (.ok (x, w)) := by
    intro α r x hx
    cases r with
    | none => cases hx
    | some r =>
      cases r with
      | error e => cases hx
      | ok y => exact ⟨y.2, by rw [← show y.1 = x from Except.ok.inj hx]⟩
  obtain ⟨w1, d1⟩ := out (tauInit_points h1)
  obtain ⟨w2, d2⟩ := out (tauInit_points h2)
  obtain ⟨w3, d3⟩ := out (matsInit_points h3)
  obtain ⟨w4, d4⟩ := out (matsInit_points h4)
  have hd := hdef q.tol q.u (q.du s.basisF.sve) none
  have hdu : q.du s.basisB.sve = q.du s.basisF.sve := by rw [hp.sve]
  have hdt : s.basisB.defaultTau q.tol (q.u s.basisB.sve) (q.du s.basisB.sve) none =
      s.basisF.defaultTau q.tol (q.u s.basisF.sve) (q.du s.basisF.sve) none := by rw [hdu]; exact hd
  have hpts : s.smplTauB.points = s.tau ∧ w2 = w1 := by
    have := Except.ok.inj (Option.some.inj (d2.symm.trans (hdt.trans d1)))
    exact ⟨congrArg Prod.fst this, congrArg Prod.snd this⟩
  have key := tau_congr' (b1 := s.basisF.sampled q) (b2 := s.basisB.sampled q) hp.size (call_heq hp.size hp.u) rfl
    (congrArg outcome hdt) h1 h2
  refine ⟨hp, hbeta, hwmax, ?_, hp.accuracy.symm, hsv, hcomp, ⟨w1, d1⟩, ⟨w2, ?_⟩, ⟨w3, ?_⟩, ⟨w4, ?_⟩, hpts.1, key⟩
  · show fp.mul s.basisF.beta s.basisF.wmax = _
    rw [hbeta, hwmax]
  · rw [← hpts.1]; exact d2
  · rw [← hp.statF]; exact d3
  · rw [← hp.statB]; exact d4

/-- How the transforms of a basis were obtained. -/
theorem init_uhat {stat : String} {maxSize : Option ℤ} {kernel : Option KernelInfo} {b : FiniteTemp.Basis}
    (hb : FiniteTemp.init fp compute stat beta wmax eps maxSize kernel sve = .ok b) :
    ∃ freq na, freqOf stat = .ok freq ∧
      PFT.ctor (fun l : Fin b.sve.n => l.1) (uhatBase beta b.sve.u) freq (some na) none = .ok b.uhatFull ∧
      ∃ σ : Fin b.size → Fin b.sve.n, b.uhatFull.select (fun l => l.1) σ = .ok b.uhat := by
  unfold FiniteTemp.init at hb
  split at hb
  · cases hb
  split at hb
  · cases hb
  simp only [bind, Except.bind] at hb
  repeat' split at hb
  all_goals first | (cases hb; done) | skip
  rename_i _ _ hfreq _ f hf _ _ hu
  obtain rfl := Except.ok.inj hb
  exact ⟨_, _, hfreq, hf, _, hu⟩

/-- The transforms of a basis can be evaluated at every frequency of its parity, also in the asymptotic region. -/
theorem uhat_total {stat : String} {maxSize : Option ℕ} {kernel : Option KernelInfo} {k : KernelInfo}
    {lam : ℝ} {r : SveResult} {h : Good r} {e : ℝ} {m : ℕ} {b : FiniteTemp.Basis}
    (v : Valid fp compute stat beta wmax eps maxSize kernel sve k lam r h e m)
    (hb : make fp compute stat beta wmax eps maxSize kernel sve = .ok b) (n : ℤ) (hn : stat = "F" ↔ Odd n) :
    ∃ f, b.uhat.call n = .ok f := by
  have d := v.describes hb
  obtain rfl := d.sve_eq
  obtain ⟨freq, na, hfreq, hct, σ, hsel⟩ := init_uhat hb
  have : Nonempty (Fin b.size) := ⟨⟨0, by rw [d.size_eq]; exact v.hpos⟩⟩
  obtain ⟨g, hg, hcall⟩ := C10_ft_select _ (fun l : Fin b.size => l.1) _
    (fun i l i' l' => by
      simp only [uhatBase, List.length_map]
      exact (h.ulen i l).trans (h.ulen i' l').symm) freq na none _ hct σ
  obtain rfl := Except.ok.inj (hg.symm.trans hsel)
  obtain ⟨h1, h2, h3⟩ := init_uhatFull hb
  obtain ⟨f, hf⟩ := call_total b.uhatFull (by rw [h2]; exact ⟨h.uwf.pos, h.uwf.mono, h.uwf.dx_eq⟩)
    (by rw [h2]; exact h.umin) (by rw [h2]; exact h.umax) (by rw [h2]; intro i l; simp [uhatBase]; exact h.ulen i l)
    (Or.inr h3) n (by
      rcases v.hstat with rfl | rfl
      · simp [freqOf] at h1
        rw [← h1]
        exact hn.1 rfl
      · simp [freqOf] at h1
        rw [← h1]
        exact Int.not_odd_iff_even.1 fun ho => absurd (hn.2 ho) (by decide))
  exact ⟨_, by rw [hcall, hf]; rfl⟩

section
variable {r : SveResult} {h : Good r} {e : ℝ} {m : ℕ}

/-- What a call of the constructor with a good expansion gives. -/
structure Given (fp : Fp) (compute : KernelInfo → Option ℝ → PyM SveResult) (beta wmax : ℝ) (eps : Option ℝ)
    (sve : Option SveResult) (r : SveResult) (h : Good r) (e : ℝ) (m : ℕ) : Prop where
  hbeta : 0 < beta
  hwmax : 0 < wmax
  hsve : getSve compute (logisticInfo (fp.mul beta wmax)) eps sve = .ok r
  heps : eps.or r.eps = some e
  hcut : Cut r h.pos e m
  hpos : 0 < m

theorem Given.valid (g : Given fp compute beta wmax eps sve r h e m) {stat : String} (hst : stat = "F" ∨ stat = "B") :
    Valid fp compute stat beta wmax eps none none (some r) (logisticInfo (fp.mul beta wmax)) (fp.mul beta wmax) r h e m := by
  refine ⟨hst, g.hbeta, g.hwmax, ?_, rfl, rfl, g.heps, g.hcut, by simpa using g.hpos⟩
  rcases hst with rfl | rfl
  · exact (getKernel_stat _).1
  · exact (getKernel_stat _).2

theorem Given.made (g : Given fp compute beta wmax eps sve r h e m) {bf bb : FiniteTemp.Basis}
    (hb : finiteTempBases fp compute beta wmax eps sve = .ok (bf, bb)) :
    make fp compute "F" beta wmax eps none none (some r) = .ok bf ∧
    make fp compute "B" beta wmax eps none none (some r) = .ok bb := by
  unfold finiteTempBases at hb
  rw [g.hsve, okBind] at hb
  obtain ⟨b1, h1, -⟩ := (g.valid (Or.inl rfl)).ok
  obtain ⟨b2, h2, -⟩ := (g.valid (Or.inr rfl)).ok
  have h1' : FiniteTemp.init fp compute "F" beta wmax eps none none (some r) = .ok b1 := h1
  have h2' : FiniteTemp.init fp compute "B" beta wmax eps none none (some r) = .ok b2 := h2
  rw [h1', okBind, h2', okBind] at hb
  have := Except.ok.inj hb
  rw [Prod.mk.injEq] at this
  rw [← this.1, ← this.2]
  exact ⟨h1, h2⟩

/-- The sampling objects of a basis with the default points, if it has a further function. -/
theorem default_objects (hs : svds.Ok) {stat : String} {k : KernelInfo} {lam : ℝ} {b : FiniteTemp.Basis}
    (v : Valid fp compute stat beta wmax eps none none (some r) k lam r h e m)
    (hb : make fp compute stat beta wmax eps none none (some r) = .ok b)
    (hsym : ∀ l, r.u.symm l = 1 ∨ r.u.symm l = -1) (htol : 0 < q.tol) (hmore : m + 1 < r.n) :
    ∃ ot om, tauInit svds (b.sampled q) none = .ok ot ∧ matsInit svds (b.sampled q) none false = .ok om ∧
      ot.points.Pairwise (· ≤ ·) ∧ (∀ t ∈ ot.points, 0 ≤ t ∧ t ≤ beta) ∧
      GoodPoints (if stat = "F" then 1 else 0) false om.points := by
  have d := v.describes hb
  have hsz : b.size = m := by rw [d.size_eq]; simp
  have hn : b.sve.n = r.n := by rw [d.sve_eq]
  obtain ⟨pts, w, h1, -, h2, h3, -⟩ := C64_tau v hb (fun l => Or.inr (hsym l)) q.tol htol (q.u b.sve) (q.du b.sve) none
  obtain ⟨p, hp⟩ : ∃ p, b.size ≤ p ∧ p ≤ b.size + 1 ∧ (stat = "F" ↔ Even p) := by
    by_cases hst : stat = "F"
    · rcases Nat.even_or_odd b.size with he | ho
      · exact ⟨b.size, le_refl _, by omega, by simp [hst, he]⟩
      · exact ⟨b.size + 1, by omega, le_refl _, by simp [hst, ho.add_one]⟩
    · rcases Nat.even_or_odd b.size with he | ho
      · exact ⟨b.size + 1, by omega, le_refl _, by simp [hst, he.add_one]⟩
      · exact ⟨b.size, le_refl _, by omega, by simp [hst, ho]⟩
  obtain ⟨ex, hex⟩ : ∃ ex, Expected p false ex := ⟨p, Or.inl ⟨rfl, rfl⟩⟩
  obtain ⟨wn, w', h4, h5, -⟩ := C64_matsubara v hb hsym (q.uhat b.statistics b.sve) none false p hp
    (by rw [hn]; omega) ex hex
  have dt : (b.sampled q).defaultTau = .ok pts := by
    show outcome _ = _
    rw [h1]; rfl
  have dm : (b.sampled q).defaultMatsubara false = .ok wn := by
    show outcome _ = _
    rw [h4]; rfl
  obtain ⟨ot, h6, h7, -⟩ := (C68_tau hs v hb q pts).2 h3
  have huhat : ∀ n ∈ wn, ∃ f, (b.sampled q).uhat n = .ok f := by
    intro n hn
    refine uhat_total v hb n ?_
    have hpar := h5.parity n hn
    by_cases hst : stat = "F"
    · rw [if_pos hst] at hpar
      simp [hst, Int.odd_iff, hpar]
    · rw [if_neg hst] at hpar
      simp [hst, Int.even_iff, hpar]
  have hV : ∃ V : ℤ → Fin (b.sampled q).size → ℂ, ∀ t ∈ wn, (b.sampled q).uhat t = .ok (V t) := by
    classical
    refine ⟨fun t => if ht : t ∈ wn then (huhat t ht).choose else fun _ => 0, fun t ht => ?_⟩
    simp only [dif_pos ht]
    exact (huhat t ht).choose_spec
  obtain ⟨V, hV⟩ := hV
  obtain ⟨om, h8, h9, -, -⟩ := C63_matsubara hs (b := b.sampled q) (.ints wn) wn rfl V hV false (by simp)
  have hm := (C63_default hs (b := b.sampled q)).2.2.1 false wn dm (h5.increasing.imp le_of_lt) (by simp)
  have ht := (C63_default hs (b := b.sampled q)).1 pts dt
  have hom := hm.trans h8
  have hpt := Except.ok.inj (dm.symm.trans (matsInit_points hom))
  exact ⟨ot, om, ht.trans h6, hom, by rw [h7]; exact h2, by rw [h7]; exact h3, by rw [← hpt]; exact h5⟩

/-- With a good expansion with at least two further functions the set can be constructed.  Both bases have the size
given by the accuracy, the sampling times are ascending and lie in `[0, beta]`, the sampling frequencies are odd for
fermions and even for bosons, strictly ascending, and symmetric. -/
theorem C70_exists (hs : svds.Ok) (g : Given fp compute beta wmax eps sve r h e m)
    (hsym : ∀ l, r.u.symm l = 1 ∨ r.u.symm l = -1) (htol : 0 < q.tol) (hmore : m + 1 < r.n) :
    ∃ s : BasisSet q, BasisSet.init fp compute svds q beta wmax eps sve = .ok s ∧ s.basisF.size = m ∧ s.basisB.size = m ∧
      s.tau.Pairwise (· ≤ ·) ∧ (∀ t ∈ s.tau, 0 ≤ t ∧ t ≤ beta) ∧
      s.wnF.Pairwise (· < ·) ∧ (∀ n ∈ s.wnF, Odd n ∧ -n ∈ s.wnF) ∧
      s.wnB.Pairwise (· < ·) ∧ ∀ n ∈ s.wnB, Even n ∧ -n ∈ s.wnB := by
  obtain ⟨bf, bb, hbs, hf, hbb⟩ := C55_exists h g.hbeta g.hwmax g.hsve g.heps g.hcut g.hpos
  obtain ⟨mf, mb⟩ := g.made hbs
  obtain ⟨tf, wf, f1, f2, f3, f4, f5⟩ := default_objects hs (q := q) (g.valid (Or.inl rfl)) mf hsym htol hmore
  obtain ⟨tb, wb, b1, b2, b3, b4, b5⟩ := default_objects hs (q := q) (g.valid (Or.inr rfl)) mb hsym htol hmore
  rw [if_pos rfl] at f5
  rw [if_neg (by decide)] at b5
  refine ⟨⟨bf, bb, tf, tb, wf, wb⟩, init_iff.2 ⟨hbs, f1, b1, f2, b2⟩, hf, hbb, f3, f4, f5.increasing, ?_, b5.increasing, ?_⟩
  · exact fun n hn => ⟨Int.odd_iff.2 (f5.parity n hn), f5.reflection rfl n hn⟩
  · exact fun n hn => ⟨Int.even_iff.2 (b5.parity n hn), b5.reflection rfl n hn⟩

/-- Sampling objects represent the functions with given expansion coefficients: sampling is evaluation of the function
and of its Fourier transform at the points, fit gets the coefficients back (if the points determine them), and
sampling after fit leads from values at times to values at frequencies and back. -/
structure Represents (svds : Svds) {b : FiniteTemp.Basis} (ot : Obj (b.sampled q) ℝ) (om : Obj (b.sampled q) ℤ) (beta : ℝ) :
    Prop where
  tau : ∀ (al : NdArray ℂ) (axis : ℤ) (j : ℕ), ValidAxis axis al.ndim j → al.shape[j]? = some b.size →
    ∃ x, tauEvaluate svds ot al (some axis) none = .ok x ∧ AppliedAlong (fun g i => timeValue b g (ot.points.get i)) j al x ∧
      ((∀ g, (∀ t ∈ ot.points, timeValue b g t = 0) → g = 0) → ∃ w, tauFit svds ot x (some axis) none = .ok (al, w))
  freq : ∀ (al : NdArray ℂ) (axis : ℤ) (j : ℕ), ValidAxis axis al.ndim j → al.shape[j]? = some b.size →
    ∃ x, matsEvaluate svds om al (some axis) none = .ok x ∧
      AppliedAlong (fun g i => matsubara beta (timeValue b g) (om.points.get i)) j al x ∧
      ((∀ g, (∀ n ∈ om.points, matsubara beta (timeValue b g) n = 0) → g = 0) →
        ∃ w, matsFit svds om x (some axis) none = .ok (al, w))
  transform : ∀ (al x y : NdArray ℂ) (axis : ℤ) (j : ℕ), ValidAxis axis al.ndim j → al.shape[j]? = some b.size →
    AppliedAlong (fun g i => timeValue b g (ot.points.get i)) j al x →
    AppliedAlong (fun g i => matsubara beta (timeValue b g) (om.points.get i)) j al y →
    ((∀ g, (∀ t ∈ ot.points, timeValue b g t = 0) → g = 0) →
      ∃ c w, tauFit svds ot x (some axis) none = .ok (c, w) ∧ matsEvaluate svds om c (some axis) none = .ok y) ∧
    ((∀ g, (∀ n ∈ om.points, matsubara beta (timeValue b g) n = 0) → g = 0) →
      ∃ c w, matsFit svds om y (some axis) none = .ok (c, w) ∧ tauEvaluate svds ot c (some axis) none = .ok x)

theorem represents_of_init (hs : svds.Ok) {stat : String} {k : KernelInfo} {lam : ℝ} {b : FiniteTemp.Basis}
    (v : Valid fp compute stat beta wmax eps none none (some r) k lam r h e m)
    (hb : make fp compute stat beta wmax eps none none (some r) = .ok b) {ot : Obj (b.sampled q) ℝ}
    {om : Obj (b.sampled q) ℤ} (h1 : tauInit svds (b.sampled q) none = .ok ot)
    (h2 : matsInit svds (b.sampled q) none false = .ok om) (hsort : om.points.Pairwise (· ≤ ·))
    (hns : ∀ n ∈ om.points, |(n : ℝ)| < 40 * lam) : Represents svds ot om beta := by
  have e1 := (C63_default hs (b := b.sampled q)).1 _ (tauInit_points h1)
  have e2 := (C63_default hs (b := b.sampled q)).2.2.1 false _ (matsInit_points h2) hsort (by simp)
  have hp : ∀ t ∈ ot.points, 0 ≤ t ∧ t ≤ beta := by
    by_contra hc
    push Not at hc
    obtain ⟨t, ht, hc⟩ := hc
    have := (C68_tau hs v hb q ot.points).1 ⟨t, ht, by
      by_cases h0 : 0 ≤ t
      · exact Or.inr (hc h0)
      · exact Or.inl (not_le.1 h0)⟩
    rw [← e1, h1] at this
    cases this
  have hpar : ∀ n ∈ om.points, stat = "F" ↔ Odd n := by
    by_contra hc
    push Not at hc
    obtain ⟨n, hn, hc⟩ := hc
    have := (C68_matsubara hs v hb q om.points hns false (by simp)).1 ⟨n, hn, by tauto⟩
    rw [← e2, h2] at this
    cases this
  obtain ⟨ot', t1, -, t3⟩ := (C68_tau hs v hb q ot.points).2 hp
  obtain rfl := Except.ok.inj (h1.symm.trans (e1.trans t1))
  obtain ⟨om', m1, -, -, m4, -⟩ := (C68_matsubara hs v hb q om.points hns false (by simp)).2 hpar
  obtain rfl := Except.ok.inj (h2.symm.trans (e2.trans m1))
  obtain ⟨ot', om', r1, r2, -, -, r5⟩ := C68_transform hs v hb q ot.points hp om.points fun n hn => ⟨hns n hn, hpar n hn⟩
  obtain rfl := Except.ok.inj (t1.symm.trans r1)
  obtain rfl := Except.ok.inj (m1.symm.trans r2)
  refine ⟨t3, fun al axis j hj hal => ?_, r5⟩
  obtain ⟨x, x1, x2, x3⟩ := m4 al axis j hj hal
  exact ⟨x, x1, x2, x3 rfl⟩

/-- The set represents functions of imaginary time and their Fourier transforms, for fermions and bosons, on common
points in time, as long as the default frequencies are below the asymptotic region. -/
theorem C70_transform (hs : svds.Ok) (g : Given fp compute beta wmax eps sve r h e m)
    (hi : BasisSet.init fp compute svds q beta wmax eps sve = .ok s) :
    (s.wnF.Pairwise (· ≤ ·) → (∀ n ∈ s.wnF, |(n : ℝ)| < 40 * fp.mul beta wmax) →
      Represents svds s.smplTauF s.smplWnF beta) ∧
    (s.wnB.Pairwise (· ≤ ·) → (∀ n ∈ s.wnB, |(n : ℝ)| < 40 * fp.mul beta wmax) →
      Represents svds s.smplTauB s.smplWnB beta) := by
  obtain ⟨h0, h1, h2, h3, h4⟩ := init_iff.1 hi
  obtain ⟨mf, mb⟩ := g.made h0
  exact ⟨represents_of_init hs (g.valid (Or.inl rfl)) mf h1 h3, represents_of_init hs (g.valid (Or.inr rfl)) mb h2 h4⟩

end
end

/-! Non-vacuity: the functions `1`, `x` and `(3 x^2 - 1) / 2` with singular values `1`, `1/10`, `1/100`. -/

/-- Three functions. -/
noncomputable def exTriple : PPoly (Fin 3) :=
  ⟨1, 3, ![-1, 1], fun _ => 2, fun _ l => if l = 0 then [1, 0, 0] else if l = 1 then [0, 1, 0] else [0, 0, 1],
    fun l => (-1) ^ (l : ℕ)⟩

theorem exTriple_WF : exTriple.WF := ⟨exPoly_WF.pos, exPoly_WF.mono, exPoly_WF.dx_eq⟩

/-- An expansion with three terms. -/
noncomputable def exSve3 : SveResult := ⟨3, exTriple, ![1, 1 / 10, 1 / 100], exTriple, some (1 / 2)⟩

theorem exSve3_good : Good exSve3 where
  pos := by decide
  spos l := by
    change Fin 3 at l
    show 0 < (![1, 1 / 10, 1 / 100] : Fin 3 → ℝ) l
    fin_cases l <;> norm_num
  anti := by
    intro i j hij
    change Fin 3 at i j
    have hij : i ≤ j := hij
    show (![1, 1 / 10, 1 / 100] : Fin 3 → ℝ) j ≤ (![1, 1 / 10, 1 / 100] : Fin 3 → ℝ) i
    fin_cases i <;> fin_cases j <;> first | exact absurd hij (by decide) | norm_num
  uwf := exTriple_WF
  vwf := exTriple_WF
  umin := rfl
  umax := rfl
  vmin := rfl
  vmax := rfl
  ulen i l := by
    change Fin 3 at l
    change (if l = 0 then [1, 0, 0] else if l = 1 then [(0 : ℝ), 1, 0] else [0, 0, 1]).length = 3
    split
    · rfl
    · split <;> rfl
  upo := by show 1 ≤ 3; norm_num

theorem exSve3_given (compute : KernelInfo → Option ℝ → PyM SveResult) :
    Given Fp.exact compute 10 4 none (some exSve3) exSve3 exSve3_good (1 / 2) 1 where
  hbeta := by norm_num
  hwmax := by norm_num
  hsve := rfl
  heps := rfl
  hcut := by
    refine ⟨by show 1 ≤ 3; norm_num, fun l => ?_⟩
    change Fin 3 at l
    show l.1 < 1 ↔ 1 / 2 * (1 : ℝ) ≤ (![1, 1 / 10, 1 / 100] : Fin 3 → ℝ) l
    fin_cases l
    · norm_num
    · norm_num
    · norm_num
  hpos := Nat.one_pos

example (compute : KernelInfo → Option ℝ → PyM SveResult) (q : Search) (hq : 0 < q.tol) : ∃ s : BasisSet q,
    BasisSet.init Fp.exact compute idealSvds q 10 4 none (some exSve3) = .ok s ∧ s.basisF.size = 1 ∧ s.basisB.size = 1 := by
  obtain ⟨s, h1, h2, h3, -⟩ := C70_exists idealSvds_ok (exSve3_given compute) (fun l => neg_one_pow_eq_or ℝ _) hq
    (by show 1 + 1 < 3; norm_num)
  exact ⟨s, h1, h2, h3⟩

end Verif.Props
