import Verif.Props.C41_Truncation
import Verif.Props.C20_MatsubaraPoints
import Verif.Props.C22_TauPoints
/-!
# C64 — default sampling points of a `FiniteTempBasis`
-/

namespace Verif.Props
open Verif Verif.Np Verif.Poly Verif.Sve Verif.Kernel Verif.Spec Verif.FiniteTemp Verif.Basis

section
variable {fp : Fp} {compute : KernelInfo → Option ℝ → PyM SveResult} {stat : String} {beta wmax : ℝ}
    {eps : Option ℝ} {maxSize : Option ℕ} {kernel : Option KernelInfo} {sve : Option SveResult} {k : KernelInfo}
    {lam : ℝ} {r : SveResult} {h : Good r} {e : ℝ} {m : ℕ} {b : FiniteTemp.Basis}

/-- The transform of all functions of the expansion. -/
theorem init_uhatFull {maxSize : Option ℤ}
    (hb : init fp compute stat beta wmax eps maxSize kernel sve = .ok b) :
    freqOf stat = .ok b.uhatFull.freq ∧ b.uhatFull.poly = uhatBase beta b.sve.u ∧
      ∃ mod, b.uhatFull.model = some mod := by
  unfold init at hb
  split at hb
  · cases hb
  split at hb
  · cases hb
  simp only [bind, Except.bind] at hb
  repeat' split at hb
  all_goals first | (cases hb; done) | skip
  rename_i _ _ hfreq _ f hf _ _ _
  obtain rfl := Except.ok.inj hb
  unfold PFT.ctor at hf
  split at hf
  · cases hf
  · simp only at hf
    split at hf
    · cases hf
    · obtain rfl := Except.ok.inj hf
      exact ⟨hfreq, rfl, _, rfl⟩

theorem freqOffset_of_stat (hst : stat = "F" ∨ stat = "B") {freq : Freq} (h : freqOf stat = .ok freq) :
    FreqOffset freq (if stat = "F" then 1 else 0) := by
  rcases hst with rfl | rfl
  · simp [freqOf] at h; subst h; exact Or.inr ⟨rfl, rfl⟩
  · simp [freqOf] at h; subst h; exact Or.inl ⟨rfl, rfl⟩

theorem requested_of_stat (hst : stat = "F" ∨ stat = "B") {freq : Freq} {L q : ℕ}
    (hoff : FreqOffset freq (if stat = "F" then 1 else 0)) (hq : L ≤ q ∧ q ≤ L + 1 ∧ (stat = "F" ↔ Even q)) :
    Requested freq L q := by
  refine ⟨hq.1, hq.2.1, fun ho => ?_, fun he => ?_⟩
  · have hs : stat = "F" := by
      rcases hst with rfl | rfl
      · rfl
      · rw [ho] at hoff; rcases hoff with ⟨h, -⟩ | ⟨-, h⟩ <;> simp at h
    exact Nat.even_iff.1 (hq.2.2.1 hs)
  · have hs : stat ≠ "F" := by
      rintro rfl
      rw [he] at hoff; rcases hoff with ⟨-, h⟩ | ⟨h, -⟩ <;> simp at h
    exact Nat.odd_iff.1 (Nat.not_even_iff_odd.1 fun hev => hs (hq.2.2.2 hev))

/-- The regular branch for both values of `positive_only` at once. -/
theorem regular_eq {size : ℕ} (uhat : PFT (Fin size)) (F : Fin size → ℤ → FVal ℝ) (L : ℕ)
    (hmin : uhat.poly.xmin = -1) (hmax : uhat.poly.xmax = 1) (m : List (Fin size → ℝ))
    (hm : uhat.model = some m) (z : ℤ) (hoff : FreqOffset uhat.freq z)
    (r : ℕ) (hreq : Requested uhat.freq L r) (hl : r < size)
    (hsym : ∀ l, uhat.poly.symm l = 1 ∨ uhat.poly.symm l = -1) :
    ∃ x : List ℤ, ∃ w : Bool → List ℤ → Bool, x.Pairwise (· < ·) ∧ (∀ y ∈ x, 0 ≤ y) ∧
      ∀ po, defaultMatsubara uhat F L false po =
        some (match (if po then .ok x else symmetrizeMatsubara x : PyM (List ℤ)) with
          | .error e => .error e
          | .ok wn => .ok (wn, w po wn)) := by
  have hz := hoff.zeta
  obtain rfl := hreq.eq hoff
  obtain ⟨g, hg, hgf, hgs⟩ := select_ok uhat hmin hmax m hm ⟨_, hl⟩
  obtain ⟨x0, hr, hr1, hr2⟩ := discr_roots_nonneg (F ⟨_, hl⟩)
  have hz01 : z = 0 ∨ z = 1 := by rcases hoff with ⟨-, h⟩ | ⟨-, h⟩ <;> simp [h]
  obtain ⟨pt, hpt⟩ : ∃ pt, partFor (g.poly.symm ()) g.freq.zeta .none = .ok pt := by
    rw [hgs]
    have c1 : isClose 1 1 := by norm_num [isClose]
    have c2 : ¬ isClose (-1) 1 := by norm_num [isClose, abs_of_pos]
    have c3 : isClose (-1) (-1) := by norm_num [isClose]
    rcases hsym ⟨_, hl⟩ with h | h <;> rw [h]
    · exact ⟨_, by simp only [partFor, c1, if_true]; rfl⟩
    · exact ⟨_, by simp only [partFor, c2, c3, if_true, if_false]; rfl⟩
  refine ⟨x0.map fun x => 2 * x + z, fun po wn => decide (wn.length ≠ expectedSize (lRequested uhat.freq L) po),
    ?_, ?_, fun po => ?_⟩
  · rw [List.pairwise_map]; exact hr1.imp (by intro a b h; omega)
  · intro y hy
    obtain ⟨x, hx, rfl⟩ := List.mem_map.1 hy
    have := hr2 x hx; omega
  · unfold defaultMatsubara
    simp only [dif_pos hl, hg]
    have hsc : g.signChanges (F ⟨_, hl⟩) .none defaultGrid po = some (toMatsubara z po x0) := by
      unfold PFT.signChanges
      rw [hpt]
      simp only
      rw [hgf, hz]
      simp only
      rw [hr]
    rw [hsc]
    unfold toMatsubara
    cases po with
    | true => simp
    | false =>
      simp only [Bool.false_eq_true, if_false]
      cases symmetrizeMatsubara (x0.map fun x => 2 * x + z) <;> simp

/-- Imaginary time: the default points are ascending times in `[0, beta]`, with a warning exactly if their number
is not the one asked for.  If the expansion has a further function, they are its roots in units of `beta / 2`. -/
theorem C64_tau (v : Valid fp compute stat beta wmax eps maxSize kernel sve k lam r h e m)
    (hb : make fp compute stat beta wmax eps maxSize kernel sve = .ok b) (hp : ParityValue r.u) (tol : ℝ)
    (htol : 0 < tol) (F : Fin b.sve.n → ℝ → FVal ℝ) (G : ℝ → FVal ℝ) (np : Option ℕ) :
    ∃ pts w, b.defaultTau tol F G np = some (.ok (pts, w)) ∧ (w = true ↔ pts.length ≠ np.getD b.size) ∧
      pts.Pairwise (· ≤ ·) ∧ (∀ t ∈ pts, 0 ≤ t ∧ t ≤ beta) ∧
      ∀ hL : np.getD b.size < b.sve.n,
        (b.sve.u.select fun _ : Unit => ⟨_, hL⟩).roots tol (F ⟨_, hL⟩) 2 =
          some (.ok (pts.map fun t => 2 * t / beta - 1)) ∧
        ((F ⟨_, hL⟩ (-1)).val ≠ 0 → (F ⟨_, hL⟩ 1).val ≠ 0 → ∀ t ∈ pts, 0 < t ∧ t < beta) := by
  obtain ⟨b', hb', d⟩ := v.ok
  obtain rfl := Except.ok.inj (hb'.symm.trans hb)
  obtain rfl := d.sve_eq
  have hbeta := v.hbeta
  have hsc := fun x => C22_tau beta hbeta x
  unfold FiniteTemp.Basis.defaultTau
  rw [d.beta_eq]
  by_cases hL : np.getD b'.size < b'.sve.n
  · obtain ⟨x, hx, h1, h2, h3, -⟩ := roots_basic (b'.sve.u.select fun _ : Unit => ⟨_, hL⟩)
      ⟨h.uwf.pos, h.uwf.mono, h.uwf.dx_eq⟩ (hp _) tol htol (F ⟨_, hL⟩) 2 (by norm_num)
    have e1 : (b'.sve.u.select fun _ : Unit => (⟨_, hL⟩ : Fin b'.sve.n)).xmin = -1 := h.umin
    have e2 : (b'.sve.u.select fun _ : Unit => (⟨_, hL⟩ : Fin b'.sve.n)).xmax = 1 := h.umax
    rw [e1, e2] at h2 h3
    obtain ⟨s1, s2, s3, s4, -⟩ := hsc x h2
    have hd : defaultPoints b'.sve.u tol F G (np.getD b'.size) =
        some (.ok (x, decide (x.length ≠ np.getD b'.size))) := by
      unfold defaultPoints
      rw [if_neg (by rw [h.umin, h.umax]; simp)]
      simp only [dif_pos hL, hx]
    refine ⟨scaleTau beta x, _, by rw [hd]; rfl, by rw [s1]; simp, s4 h1, s2, fun _ => ⟨?_, fun a b => s3 (h3 a b)⟩⟩
    rw [hx]
    congr 2
    unfold scaleTau
    rw [List.map_map]
    conv_lhs => rw [← List.map_id x]
    apply List.map_congr_left
    intro t _
    simp only [Function.comp, id]
    field_simp
    ring
  · obtain ⟨mx, x, w, -, hd, hw, -, -, -, h1, h2, -⟩ := C22_fallback b'.sve.u h.uwf hp h.umin h.umax tol htol F G
      (np.getD b'.size) (not_lt.1 hL) h.pos
    obtain ⟨s1, s2, -, s4, -⟩ := hsc x h2
    exact ⟨scaleTau beta x, w, by rw [hd]; rfl, by rw [s1]; exact hw, s4 h1, s2, fun hc => absurd hc hL⟩

/-- Real frequency: likewise in `[-wmax, wmax]`, in units of `wmax`. -/
theorem C64_omega (v : Valid fp compute stat beta wmax eps maxSize kernel sve k lam r h e m)
    (hb : make fp compute stat beta wmax eps maxSize kernel sve = .ok b) (hp : ParityValue r.v) (tol : ℝ)
    (htol : 0 < tol) (F : Fin b.sve.n → ℝ → FVal ℝ) (G : ℝ → FVal ℝ) (np : Option ℕ) :
    ∃ pts w, b.defaultOmega tol F G np = some (.ok (pts, w)) ∧ (w = true ↔ pts.length ≠ np.getD b.size) ∧
      pts.Pairwise (· ≤ ·) ∧ (∀ t ∈ pts, -wmax ≤ t ∧ t ≤ wmax) ∧
      ∀ hL : np.getD b.size < b.sve.n,
        (b.sve.v.select fun _ : Unit => ⟨_, hL⟩).roots tol (F ⟨_, hL⟩) 2 = some (.ok (pts.map fun t => t / wmax)) ∧
        ((F ⟨_, hL⟩ (-1)).val ≠ 0 → (F ⟨_, hL⟩ 1).val ≠ 0 → ∀ t ∈ pts, -wmax < t ∧ t < wmax) := by
  obtain ⟨b', hb', d⟩ := v.ok
  obtain rfl := Except.ok.inj (hb'.symm.trans hb)
  obtain rfl := d.sve_eq
  have hw0 := v.hwmax
  have hsc := fun x => C22_omega wmax hw0 x
  unfold FiniteTemp.Basis.defaultOmega
  rw [d.wmax_eq]
  by_cases hL : np.getD b'.size < b'.sve.n
  · obtain ⟨x, hx, h1, h2, h3, -⟩ := roots_basic (b'.sve.v.select fun _ : Unit => ⟨_, hL⟩)
      ⟨h.vwf.pos, h.vwf.mono, h.vwf.dx_eq⟩ (hp _) tol htol (F ⟨_, hL⟩) 2 (by norm_num)
    have e1 : (b'.sve.v.select fun _ : Unit => (⟨_, hL⟩ : Fin b'.sve.n)).xmin = -1 := h.vmin
    have e2 : (b'.sve.v.select fun _ : Unit => (⟨_, hL⟩ : Fin b'.sve.n)).xmax = 1 := h.vmax
    rw [e1, e2] at h2 h3
    obtain ⟨s1, s2, s3, s4, -⟩ := hsc x h2
    have hd : defaultPoints b'.sve.v tol F G (np.getD b'.size) =
        some (.ok (x, decide (x.length ≠ np.getD b'.size))) := by
      unfold defaultPoints
      rw [if_neg (by rw [h.vmin, h.vmax]; simp)]
      simp only [dif_pos hL, hx]
    refine ⟨scaleOmega wmax x, _, by rw [hd]; rfl, by rw [s1]; simp, s4 h1, s2, fun _ => ⟨?_, fun a b => s3 (h3 a b)⟩⟩
    rw [hx]
    congr 2
    unfold scaleOmega
    rw [List.map_map]
    conv_lhs => rw [← List.map_id x]
    apply List.map_congr_left
    intro t _
    simp only [Function.comp, id]
    field_simp
  · obtain ⟨mx, x, w, -, hd, hw, -, -, -, h1, h2, -⟩ := C22_fallback b'.sve.v h.vwf hp h.vmin h.vmax tol htol F G
      (np.getD b'.size) (not_lt.1 hL) h.pos
    obtain ⟨s1, s2, -, s4, -⟩ := hsc x h2
    exact ⟨scaleOmega wmax x, w, by rw [hd]; rfl, by rw [s1]; exact hw, s4 h1, s2, fun hc => absurd hc hL⟩

/-- Matsubara frequencies, if the expansion has a further function of the right parity: strictly ascending, of the
parity of the statistics, symmetric (or non-negative); a warning exactly if they are not as many as expected. -/
theorem C64_matsubara (v : Valid fp compute stat beta wmax eps maxSize kernel sve k lam r h e m)
    (hb : make fp compute stat beta wmax eps maxSize kernel sve = .ok b)
    (hsym : ∀ l, r.u.symm l = 1 ∨ r.u.symm l = -1) (F : Fin b.sve.n → ℤ → FVal ℝ) (np : Option ℕ) (po : Bool)
    (q : ℕ) (hq : np.getD b.size ≤ q ∧ q ≤ np.getD b.size + 1 ∧ (stat = "F" ↔ Even q)) (hlt : q < b.sve.n)
    (ex : ℕ) (hex : Expected q po ex) :
    ∃ wn w, b.defaultMatsubara F np po = some (.ok (wn, w)) ∧ GoodPoints (if stat = "F" then 1 else 0) po wn ∧
      (w = true ↔ wn.length ≠ ex) := by
  obtain ⟨hf, hpoly, mod, hmod⟩ := init_uhatFull hb
  have hoff := freqOffset_of_stat v.hstat hf
  obtain ⟨b', hb', d⟩ := v.ok
  obtain rfl := Except.ok.inj (hb'.symm.trans hb)
  obtain rfl := d.sve_eq
  have hreq := requested_of_stat v.hstat hoff hq
  exact C20_sign_changes b'.uhatFull F _ po (by rw [hpoly]; exact h.umin) (by rw [hpoly]; exact h.umax) mod hmod _
    hoff q hreq ex hex hlt (fun l => by rw [hpoly]; exact hsym l)

/-- With `positive_only` these are the non-negative ones of the full set. -/
theorem C64_positive_half (v : Valid fp compute stat beta wmax eps maxSize kernel sve k lam r h e m)
    (hb : make fp compute stat beta wmax eps maxSize kernel sve = .ok b)
    (hsym : ∀ l, r.u.symm l = 1 ∨ r.u.symm l = -1) (F : Fin b.sve.n → ℤ → FVal ℝ) (np : Option ℕ)
    (q : ℕ) (hq : np.getD b.size ≤ q ∧ q ≤ np.getD b.size + 1 ∧ (stat = "F" ↔ Even q)) (hlt : q < b.sve.n) :
    ∃ wn w w', b.defaultMatsubara F np false = some (.ok (wn, w)) ∧
      b.defaultMatsubara F np true = some (.ok (wn.filter (0 ≤ ·), w')) := by
  obtain ⟨hf, hpoly, mod, hmod⟩ := init_uhatFull hb
  have hoff := freqOffset_of_stat v.hstat hf
  obtain ⟨b', hb', d⟩ := v.ok
  obtain rfl := Except.ok.inj (hb'.symm.trans hb)
  obtain rfl := d.sve_eq
  have hreq := requested_of_stat v.hstat hoff hq
  obtain ⟨x0, w, h1, h2, h3⟩ := regular_eq b'.uhatFull F (np.getD b'.size) (by rw [hpoly]; exact h.umin)
    (by rw [hpoly]; exact h.umax) mod hmod _ hoff q hreq hlt (fun l => by rw [hpoly]; exact hsym l)
  obtain ⟨rr, hr, -, -, -, hfil⟩ := C19_strict x0 h1 h2
  refine ⟨rr, w false rr, w true x0, (h3 false).trans (by simp only [Bool.false_eq_true, if_false, hr]), ?_⟩
  rw [hfil]
  exact (h3 true).trans (by simp)

/-- A basis with one function out of an expansion of two: the root of the second one is the middle of the interval. -/
example : ∃ b pts w, make Fp.exact (fun _ _ => .error .valueError) "F" 10 4 (some 0.5) none none
    (some (exSve 0.01)) = .ok b ∧ ∃ F, b.defaultTau (1 / 1000) F (fun _ => FVal.mk' 1) none = some (.ok (pts, w)) ∧
      ∀ t ∈ pts, 0 ≤ t ∧ t ≤ 10 := by
  have v := exValidCut fun _ _ => .error .valueError
  obtain ⟨b, hb, d⟩ := v.ok
  obtain ⟨pts, w, h1, -, -, h2, -⟩ := C64_tau v hb exPair_parity (1 / 1000) (by norm_num)
    (fun l x => FVal.mk' (if l.1 = 0 then 1 else x)) (fun _ => FVal.mk' 1) none
  exact ⟨b, pts, w, hb, _, h1, h2⟩

example : ∃ b wn w, make Fp.exact (fun _ _ => .error .valueError) "F" 10 4 (some 0.5) none none
    (some (exSve 0.01)) = .ok b ∧ ∃ F, b.defaultMatsubara F (some 0) false = some (.ok (wn, w)) ∧
      GoodPoints 1 false wn := by
  have v := exValidCut fun _ _ => .error .valueError
  obtain ⟨b, hb, d⟩ := v.ok
  obtain ⟨wn, w, h1, h2, -⟩ := C64_matsubara v hb (fun l => neg_one_pow_eq_or ℝ _) (fun _ n => FVal.mk' (5 - n))
    (some 0) false 0 ⟨le_refl _, by simp, by simp⟩ (by rw [d.sve_eq]; exact Nat.two_pos) 0 (Or.inl ⟨rfl, rfl⟩)
  exact ⟨b, wn, w, hb, _, h1, h2⟩

end
end Verif.Props
