import Verif.Props.C65_SveCompute
import Verif.Props.C41_Truncation
/-!
# C66: constructing a basis from scratch

`FiniteTempBasis(statistics, beta, wmax, eps, max_size=…)` without a given expansion: the constructor of C39–C41 with
`sve.compute` of C65.
-/

namespace Verif.Props
open Verif Verif.Np Verif.Sve Verif.Gauss Verif.Kernel Verif.Spec Verif.Poly Verif.Svd Verif.FiniteTemp Verif.SveCompute

/-! ## Specification -/

/-- What a user may rely on: functions on `[0, beta]` and `[-wmax, wmax]`, orthonormal there, positive at `beta`, each
even or odd under reflection (away from finitely many points), with positive singular values that do not increase and
are at least `e` times the first one; `uhat` is the Fourier transform of `u` at frequencies of the parity of the
statistics below `40 * beta * wmax`, and raises ValueError at the others. -/
structure IsBasis (b : Basis) (stat : String) (beta wmax e : ℝ) : Prop where
  statistics : b.statistics = stat
  beta_eq : b.beta = beta
  wmax_eq : b.wmax = wmax
  size_pos : 0 < b.size
  spos : ∀ l, 0 < b.s l
  anti : Antitone b.s
  relevant : ∀ l l0, l0.1 = 0 → e * b.s l0 ≤ b.s l
  udom : b.u.xmin = 0 ∧ b.u.xmax = beta
  vdom : b.v.xmin = -wmax ∧ b.v.xmax = wmax
  uorth : Orthonormal b.u 0 beta
  vorth : Orthonormal b.v (-wmax) wmax
  gauge : ∀ l, 0 < fn b.u l beta
  parity : ∃ g : List ℝ, ∀ l, ∃ p : ℝ, (p = 1 ∨ p = -1) ∧
    (∀ tau, 0 < tau → tau < beta → tau ∉ g → fn b.u l (beta - tau) = p * fn b.u l tau) ∧
    ∀ omega, |omega| < wmax → omega ∉ g → fn b.v l (-omega) = p * fn b.v l omega
  uhat : ∀ n : ℤ, |(n : ℝ)| < 40 * (beta * wmax) → (stat = "F" ↔ Odd n) → b.uhat.call n = .ok fun l =>
    ∫ t in (0 : ℝ)..beta, Complex.exp (Complex.I * Real.pi * n * t / beta) * (fn b.u l t : ℂ)
  uhat_parity : ∀ n : ℤ, |(n : ℝ)| < 40 * (beta * wmax) → ¬ (stat = "F" ↔ Odd n) → b.uhat.call n = .error .valueError

/-- The error of the expansion of `κ` at the point `(tau, omega)`. -/
noncomputable def basisError (κ : ℝ → ℝ → ℝ) (b : Basis) (tau omega : ℝ) : ℝ :=
  κ tau omega - ∑ l, b.s l * fn b.u l tau * fn b.v l omega

/-! ## The constructor with a given expansion -/

theorem good_of_sve {r : SveResult} (h : IsSve r) (hn : 0 < r.n) : Good r :=
  ⟨hn, h.spos, h.anti, h.uwf, h.vwf, h.umin, h.umax, h.vmin, h.vmax, h.ulen, h.upo⟩

theorem isBasis_of {fp : Fp} {compute : KernelInfo → Option ℝ → PyM SveResult} {stat : String} {beta wmax : ℝ}
    {eps : Option ℝ} {maxSize : Option ℕ} {kernel : Option KernelInfo} {k : KernelInfo} {r : SveResult} {h : Good r} {e : ℝ}
    {m : ℕ} (v : Valid fp compute stat beta wmax eps maxSize kernel none k (beta * wmax) r h e m) (hr : IsSve r)
    (hp : SveParity r) {b : Basis} (hb : make fp compute stat beta wmax eps maxSize kernel none = .ok b) :
    IsBasis b stat beta wmax e := by
  have d := v.describes hb
  have hbeta := v.hbeta
  have hw := v.hwmax
  have hsz : 0 < b.size := by rw [d.size_eq]; exact v.hpos
  have hlt : ∀ l : Fin b.size, l.1 < r.n := fun l => by have := d.size_eq; have := d.size_le; omega
  have hfac : 0 < Real.sqrt (beta / 2 * wmax) * wmax ^ (-k.ypower) := by positivity
  obtain ⟨b1, hb1, ho, ho'⟩ := C39_orthonormal v hr.uorth hr.vorth
  rw [Except.ok.inj (hb.symm.trans hb1)] at *
  clear hb1
  have hs : ∀ l : Fin b1.size, b1.s l = Real.sqrt (beta / 2 * wmax) * wmax ^ (-k.ypower) * r.s ⟨l.1, hlt l⟩ :=
    fun l => d.s_eq l ⟨l.1, hlt l⟩ rfl
  have hup : ∀ (l : Fin b1.size) tau, 0 ≤ tau → tau ≤ beta →
      fn b1.u l tau = fn r.u ⟨l.1, hlt l⟩ (2 * tau / beta - 1) / Real.sqrt (beta / 2) := by
    intro l tau h1 h2
    have h3 := d.u_eq l ⟨l.1, hlt l⟩ rfl (2 * tau / beta - 1)
      (by have : 0 ≤ 2 * tau / beta := by positivity
          linarith)
      (by have : 2 * tau / beta ≤ 2 := by rw [div_le_iff₀ hbeta]; linarith
          linarith)
    rw [← h3]
    congr 1
    field_simp
    ring
  have hvp : ∀ (l : Fin b1.size) omega, -wmax ≤ omega → omega ≤ wmax →
      fn b1.v l omega = fn r.v ⟨l.1, hlt l⟩ (omega / wmax) / Real.sqrt wmax := by
    intro l omega h1 h2
    have h3 := d.v_eq l ⟨l.1, hlt l⟩ rfl (omega / wmax) (by rw [le_div_iff₀ hw]; linarith) (by rw [div_le_iff₀ hw]; linarith)
    rw [← h3]
    congr 1
    field_simp
  refine ⟨d.statistics, d.beta_eq, d.wmax_eq, hsz, fun l => ?_, fun l l' hl => ?_, fun l l0 hl0 => ?_, ⟨d.umin, d.umax⟩,
    ⟨d.vmin, d.vmax⟩, ho, ho', fun l => ?_, ?_, ?_, ?_⟩
  · rw [hs]; exact mul_pos hfac (hr.spos _)
  · rw [hs, hs]; exact mul_le_mul_of_nonneg_left (hr.anti hl) hfac.le
  · rw [hs, hs, mul_left_comm]
    have h0 : (⟨l0.1, hlt l0⟩ : Fin r.n) = ⟨0, h.pos⟩ := Fin.ext hl0
    rw [h0]
    refine mul_le_mul_of_nonneg_left ?_ hfac.le
    refine (v.hcut.2 ⟨l.1, hlt l⟩).1 ?_
    have h1 := d.size_eq
    have h2 := l.2
    simp only
    omega
  · rw [hup l beta hbeta.le le_rfl, show 2 * beta / beta - 1 = 1 by field_simp; norm_num]
    exact div_pos (hr.gauge _) (Real.sqrt_pos.2 (by positivity))
  · obtain ⟨g, hg⟩ := hp
    refine ⟨g.map (fun x => beta / 2 * (x + 1)) ++ g.map (fun y => wmax * y), fun l => ?_⟩
    obtain ⟨h1, -, h3⟩ := hg ⟨l.1, hlt l⟩
    refine ⟨_, h1, fun tau t1 t2 t3 => ?_, fun omega o1 o2 => ?_⟩
    · rw [List.mem_append, not_or] at t3
      rw [hup l _ (by linarith) (by linarith), hup l _ t1.le t2.le,
        show 2 * (beta - tau) / beta - 1 = -(2 * tau / beta - 1) by field_simp; ring, (h3 _ ?_ ?_).1, mul_div_assoc]
      · rw [abs_lt]
        constructor
        · have : 0 < 2 * tau / beta := by positivity
          linarith
        · have : 2 * tau / beta < 2 := by rw [div_lt_iff₀ hbeta]; linarith
          linarith
      · intro hm
        refine t3.1 (List.mem_map.2 ⟨_, hm, ?_⟩)
        field_simp
        ring
    · rw [List.mem_append, not_or] at o2
      rw [abs_lt] at o1
      rw [hvp l _ (by linarith) (by linarith), hvp l _ (by linarith) (by linarith), neg_div, (h3 _ ?_ ?_).2, mul_div_assoc]
      · rw [abs_lt]
        exact ⟨by rw [lt_div_iff₀ hw]; linarith, by rw [div_lt_iff₀ hw]; linarith⟩
      · intro hm
        refine o2.2 (List.mem_map.2 ⟨_, hm, ?_⟩)
        field_simp
  · intro n hn hpar
    rw [d.uhat_eq n hn (by rw [d.statistics]; exact hpar)]
    rfl
  · intro n hn hpar
    exact d.uhat_parity n hn (by rw [d.statistics]; exact hpar)

/-- The error in physical units. -/
theorem basis_resid {b : Basis} {r : SveResult} {h : Good r} {stat : String} {beta wmax lam : ℝ} {k : KernelInfo} {m : ℕ}
    (d : FiniteTemp.Describes b r h stat beta wmax k lam m) (hbeta : 0 < beta) (hw : 0 < wmax) {κ : ℝ → ℝ → ℝ}
    (κ' : ℝ → ℝ → ℝ) (hκ : ∀ x y, |x| ≤ 1 → |y| ≤ 1 → κ' (beta / 2 * (x + 1)) (wmax * y) = wmax ^ (-k.ypower) * κ x y)
    {x y : ℝ} (hx : |x| ≤ 1) (hy : |y| ≤ 1) :
    basisError κ' b (beta / 2 * (x + 1)) (wmax * y) = wmax ^ (-k.ypower) * resid κ r b.size x y := by
  have hxi := abs_le.1 hx
  have hyj := abs_le.1 hy
  unfold basisError resid
  rw [hκ _ _ hx hy, expansion d hbeta hw (by nlinarith) (by nlinarith) (by nlinarith) (by nlinarith), mul_sub]
  congr 2
  unfold partialSum
  rw [Finset.sum_filter, d.size_eq, show 2 * (beta / 2 * (x + 1)) / beta - 1 = x by field_simp; ring,
    show wmax * y / wmax = y by field_simp]

/-- The error in physical units at the nodes. -/
theorem basis_error {b : Basis} {r : SveResult} {h : Good r} {stat : String} {beta wmax lam : ℝ} {k : KernelInfo} {m : ℕ}
    (d : FiniteTemp.Describes b r h stat beta wmax k lam m) (hbeta : 0 < beta) (hw : 0 < wmax) {X Y : Type} [Fintype X]
    [Fintype Y] {x wx : X → ℝ} {y wy : Y → ℝ} (hx : ∀ i, |x i| ≤ 1) (hy : ∀ j, |y j| ≤ 1) {κ : ℝ → ℝ → ℝ} {dr : List ℝ}
    (hN : NodeSve κ r x wx y wy dr) (κ' : ℝ → ℝ → ℝ)
    (hκ : ∀ x y, |x| ≤ 1 → |y| ≤ 1 → κ' (beta / 2 * (x + 1)) (wmax * y) = wmax ^ (-k.ypower) * κ x y) :
    ∑ i, ∑ j, (beta / 2 * wx i) * (wmax * wy j) * basisError κ' b (beta / 2 * (x i + 1)) (wmax * y j) ^ 2 =
      ((((List.ofFn r.s).drop b.size ++ dr).map fun t => Real.sqrt (beta / 2 * wmax) * wmax ^ (-k.ypower) * t).map
        (· ^ 2)).sum := by
  have hsq : Real.sqrt (beta / 2 * wmax) ^ 2 = beta / 2 * wmax := Real.sq_sqrt (by positivity)
  have hsize : b.size ≤ r.n := by rw [d.size_eq]; exact d.size_le
  have e1 : ∀ i j, (beta / 2 * wx i) * (wmax * wy j) * basisError κ' b (beta / 2 * (x i + 1)) (wmax * y j) ^ 2 =
      (Real.sqrt (beta / 2 * wmax) * wmax ^ (-k.ypower)) ^ 2 * (wx i * wy j * resid κ r b.size (x i) (y j) ^ 2) := by
    intro i j
    rw [basis_resid d hbeta hw κ' hκ (hx i) (hy j), mul_pow, mul_pow, hsq]
    ring
  simp only [e1, ← Finset.mul_sum]
  rw [hN.error, List.map_map, List.map_append, List.sum_append, add_comm, mul_add]
  congr 1
  · rw [show ((fun t : ℝ => t ^ 2) ∘ fun t => Real.sqrt (beta / 2 * wmax) * wmax ^ (-k.ypower) * t) =
      fun t => (Real.sqrt (beta / 2 * wmax) * wmax ^ (-k.ypower)) ^ 2 * t ^ 2 from funext fun t => mul_pow _ _ _,
      List.sum_map_mul_left]
    congr 1
    rw [sum_drop hsize, Finset.sum_filter]
    refine Finset.sum_congr rfl fun l _ => ?_
    by_cases hl : l.1 < b.size
    · rw [if_neg (by omega), if_pos hl]
    · rw [if_pos (by omega), if_neg hl]
  · rw [show ((fun t : ℝ => t ^ 2) ∘ fun t => Real.sqrt (beta / 2 * wmax) * wmax ^ (-k.ypower) * t) =
      fun t => (Real.sqrt (beta / 2 * wmax) * wmax ^ (-k.ypower)) ^ 2 * t ^ 2 from funext fun t => mul_pow _ _ _,
      List.sum_map_mul_left]

/-! ## The constructor without a given expansion -/

/-- The outcome `res` of constructing a basis for the kernel function `κ` (`k` in dimensionless variables): there are
Gauss nodes in the upper right quarter, and factorisations of the even and odd parts of `k` there, such that either one of
the singular functions vanishes at 1 (then the sign cannot be fixed), or `res` is a basis; its singular values and the
`omitted` ones are, up to `fac`, those of the factorisations; with no limit on the size the omitted ones are at most
`max e t` times the first one; and if the factorisations are exact, the squared error of the expansion of `κ`, summed over
the nodes with both signs, is the sum of the squares of the omitted ones. -/
def FromScratch (env : Env) (c : Choice) (segs : PyM (List ℝ)) (k κ : ℝ → ℝ → ℝ) (n : ℕ) (stat : String)
    (beta wmax fac e t : ℝ) (maxSize : Option ℕ) (res : PyM Basis) : Prop :=
  ∃ (mx my : ℕ) (x wx : Fin mx → ℝ) (y wy : Fin my → ℝ) (hint : ℕ) (fe : Factors ℝ mx my) (we : List Warning)
    (fo : Factors ℝ mx my) (wo : List Warning),
    NodesOn 0 n x wx ∧ NodesOn 0 n y wy ∧
    Svd.compute env.libs (decide (c.dtype = .ddouble)) (nodeMatrix (fun x y => k x y + k x (-y)) x wx y wy) (some hint)
      c.strategy = .ok (fe, we) ∧
    Svd.compute env.libs (decide (c.dtype = .ddouble)) (nodeMatrix (fun x y => k x y - k x (-y)) x wx y wy) (some hint)
      c.strategy = .ok (fo, wo) ∧
    ((res = .error .nanResult ∧ ∃ g, segs = .ok g ∧ (Vanishing fe x wx g n ∨ Vanishing fo x wx g n)) ∨
    ∃ b omitted, res = .ok b ∧ IsBasis b stat beta wmax e ∧ (∀ m ∈ maxSize, b.size ≤ m) ∧
      (List.ofFn b.s ++ omitted).Perm ((List.ofFn fe.s ++ List.ofFn fo.s).map (fac * ·)) ∧
      (∀ q ∈ omitted, ∀ l, q ≤ b.s l) ∧
      (maxSize = none → ∀ q ∈ omitted, ∀ l0, l0.1 = 0 → q ≤ max e t * b.s l0) ∧
      (IsSvdFactors (nodeMatrix (fun x y => k x y + k x (-y)) x wx y wy) fe →
        IsSvdFactors (nodeMatrix (fun x y => k x y - k x (-y)) x wx y wy) fo →
        ∑ i, ∑ j, (beta / 2 * Sum.elim wx wx i) * (wmax * Sum.elim wy wy j) *
          basisError κ b (beta / 2 * (Sum.elim x (fun i => -x i) i + 1)) (wmax * Sum.elim y (fun j => -y j) j) ^ 2 =
        (omitted.map (· ^ 2)).sum))

theorem top_of_selected {r : SveResult} (hr : IsSve r) (hn : 0 < r.n) {all d : List ℝ} {t : ℝ} {nSv : Option ℕ}
    (h : Selected all t nSv (List.ofFn r.s) d) : IsGreatest {q | q ∈ all} (r.s ⟨0, hn⟩) := by
  have hm : ∀ q, q ∈ all ↔ q ∈ List.ofFn r.s ∨ q ∈ d := fun q => by rw [← h.perm.mem_iff, List.mem_append]
  have h0 : r.s ⟨0, hn⟩ ∈ List.ofFn r.s := List.mem_ofFn.2 ⟨_, rfl⟩
  refine ⟨(hm _).2 (Or.inl h0), fun q hq => ?_⟩
  rcases (hm q).1 hq with h1 | h1
  · obtain ⟨l, rfl⟩ := List.mem_ofFn.1 h1
    exact hr.anti (Nat.zero_le _)
  · exact (h.order q h1 _ h0).le

/-- Creating a basis, where the singular value expansion is computed (by `sve`) from a kernel described by `k₁`; the error
is stated relative to any symmetric function `k`. -/
theorem scratch_gen (env : Env) (sve : KernelInfo → Option ℝ → PyM SveResult) (fp : Fp) (stat : String) (hstat : stat = "F" ∨ stat = "B") (beta wmax : ℝ) (hbeta : 0 < beta)
    (hw : 0 < wmax) (eps : Option ℝ) (maxSize : Option ℕ) (hmax : maxSize ≠ some 0) (kernel : Option KernelInfo)
    (ki : KernelInfo) (hki : getKernel stat (fp.mul beta wmax) kernel = .ok ki) (hlam : ki.lambda = some (beta * wmax))
    (K : Kern) (hcomp : sve ki eps = SveCompute.compute env K (eps.map .real) none none none none none none)
    (k k₁ κ : ℝ → ℝ → ℝ) (hsymm : ∀ x y, k (-x) (-y) = k x y)
    (hκ : ∀ x y, |x| ≤ 1 → |y| ≤ 1 → κ (beta / 2 * (x + 1)) (wmax * y) = wmax ^ (-ki.ypower) * k x y)
    (c : Choice) (hc : safeEps env.platform (eps.map .real) none none = .ok c)
    (he : eps.getD c.safeEps ≤ 1) (hK : DescribesHalf K k₁ c.safeEps (if 1e-8 ≤ c.safeEps then 10 else 16)) (t : ℝ) (ht : CutoffIs env.platform c.dtype none t)
    (h0 : 0 ≤ t) (h1 : t < 1) (hsvd : SvdOk env.libs (decide (c.dtype = .ddouble)) c.strategy)
    (hsort : ∀ k, ArgsortOk (env.argsort k)) (n : ℕ) (hn : n = if 1e-8 ≤ c.safeEps then 10 else 16) (rule : Rule)
    (hleg : env.legendre n = .ok rule) (hr : GoodRule rule) (hrn : rule.x.length = n) :
    ∃ (mx my : ℕ) (x wx : Fin mx → ℝ) (y wy : Fin my → ℝ) (hint : ℕ) (fe : Factors ℝ mx my) (we : List Warning)
      (fo : Factors ℝ mx my) (wo : List Warning),
      NodesOn 0 n x wx ∧ NodesOn 0 n y wy ∧
      Svd.compute env.libs (decide (c.dtype = .ddouble)) (nodeMatrix (fun x y => k₁ x y + k₁ x (-y)) x wx y wy) (some hint)
        c.strategy = .ok (fe, we) ∧
      Svd.compute env.libs (decide (c.dtype = .ddouble)) (nodeMatrix (fun x y => k₁ x y - k₁ x (-y)) x wx y wy) (some hint)
        c.strategy = .ok (fo, wo) ∧
      ((make fp sve stat beta wmax eps maxSize kernel none = .error .nanResult ∧
        ∃ g, ((K.symmetrized 1).hints c.safeEps).segX = .ok g ∧ (Vanishing fe x wx g n ∨ Vanishing fo x wx g n)) ∨
      ∃ b omitted, make fp sve stat beta wmax eps maxSize kernel none = .ok b ∧
        IsBasis b stat beta wmax (eps.getD c.safeEps) ∧ (∀ m ∈ maxSize, b.size ≤ m) ∧
        (List.ofFn b.s ++ omitted).Perm ((List.ofFn fe.s ++ List.ofFn fo.s).map
          (Real.sqrt (beta / 2 * wmax) * wmax ^ (-ki.ypower) * ·)) ∧
        (∀ q ∈ omitted, ∀ l, q ≤ b.s l) ∧
        (maxSize = none → ∀ q ∈ omitted, ∀ l0, l0.1 = 0 → q ≤ max (eps.getD c.safeEps) t * b.s l0) ∧
        (IsSvdFactors (nodeMatrix (fun x y => k x y + k x (-y)) x wx y wy) fe →
          IsSvdFactors (nodeMatrix (fun x y => k x y - k x (-y)) x wx y wy) fo →
          ∑ i, ∑ j, (beta / 2 * Sum.elim wx wx i) * (wmax * Sum.elim wy wy j) *
            basisError κ b (beta / 2 * (Sum.elim x (fun i => -x i) i + 1)) (wmax * Sum.elim y (fun j => -y j) j) ^ 2 =
          (omitted.map (· ^ 2)).sum) ∧
        b.u.WF ∧ b.v.WF ∧ ∃ r d, b.size ≤ r.n ∧
          omitted = ((List.ofFn r.s).drop b.size ++ d).map (Real.sqrt (beta / 2 * wmax) * wmax ^ (-ki.ypower) * ·) ∧
          (∀ x y, |x| ≤ 1 → |y| ≤ 1 →
            basisError κ b (beta / 2 * (x + 1)) (wmax * y) = wmax ^ (-ki.ypower) * resid k r b.size x y) ∧
          OnSegments (K.full.hints c.safeEps) n r (Sum.elim x fun i => -x i) (Sum.elim wx wx) (Sum.elim y fun j => -y j)
            (Sum.elim wy wy) ∧
          ∀ k : ℝ → ℝ → ℝ, (∀ x y, k (-x) (-y) = k x y) →
            IsSvdFactors (nodeMatrix (fun x y => k x y + k x (-y)) x wx y wy) fe →
            IsSvdFactors (nodeMatrix (fun x y => k x y - k x (-y)) x wx y wy) fo →
            NodeSve k r (Sum.elim x fun i => -x i) (Sum.elim wx wx) (Sum.elim y fun j => -y j) (Sum.elim wy wy) d) := by
  obtain ⟨mx, my, x, wx, y, wy, hint, fe, we, fo, wo, nx, ny, -, hfe, hfo, hres⟩ :=
    compute_centrosymm env K k₁ (eps.map .real) none none none none none (Or.inl rfl) none c hc hK t ht h0 h1.le hsvd hsort n
      (by simpa using hn) rule hleg hr hrn
  refine ⟨mx, my, x, wx, y, wy, hint, fe, we, fo, wo, nx, ny, hfe, hfo, ?_⟩
  rcases hres with ⟨h2, h3⟩ | ⟨r, d, h2, h3, h4, h5, h6, h7, hseg, h8⟩
  · left
    refine ⟨?_, h3⟩
    have h2' : sve ki eps = .error .nanResult := hcomp.trans h2
    unfold make init
    rw [if_neg (not_not.2 hbeta), if_neg (not_not.2 hw.le)]
    simp only [hki, getSve, h2', bind, Except.bind]
  · right
    have hpos : 0 < r.n := h7 rfl h1
    have hg := good_of_sve h4 hpos
    obtain ⟨m, hm⟩ := exists_cut hg (eps.getD c.safeEps)
    have hm0 : 0 < m := (hm.2 ⟨0, hpos⟩).2 (by have := h4.spos ⟨0, hpos⟩; nlinarith)
    have v : Valid fp sve stat beta wmax eps maxSize kernel none ki (beta * wmax) r hg (eps.getD c.safeEps) m :=
      { hstat := hstat, hbeta := hbeta, hwmax := hw, hkernel := hki, hlam := hlam
        hsve := hcomp.trans h2
        heps := by rw [h3]; cases eps <;> rfl
        hcut := hm
        hpos := by
          cases maxSize with
          | none => simpa using hm0
          | some M =>
            have : M ≠ 0 := fun h => hmax (by rw [h])
            simp only [Option.getD_some]
            omega }
    obtain ⟨b, hb, ds⟩ := v.ok
    have hB := isBasis_of v h4 h5 hb
    have hfac : 0 < Real.sqrt (beta / 2 * wmax) * wmax ^ (-ki.ypower) := by positivity
    have hsize : b.size ≤ r.n := by rw [ds.size_eq]; exact ds.size_le
    have hs : ∀ l : Fin b.size, b.s l = Real.sqrt (beta / 2 * wmax) * wmax ^ (-ki.ypower) *
        r.s ⟨l.1, lt_of_lt_of_le l.2 hsize⟩ := fun l => ds.s_eq l ⟨l.1, _⟩ rfl
    have htake : List.ofFn b.s = ((List.ofFn r.s).take b.size).map
        (Real.sqrt (beta / 2 * wmax) * wmax ^ (-ki.ypower) * ·) := by
      apply List.ext_getElem
      · simp [hsize]
      · intro i h9 h10
        simp [hs]
    have hdrop : ∀ q ∈ (List.ofFn r.s).drop b.size, ∃ l : Fin r.n, b.size ≤ l.1 ∧ r.s l = q := by
      intro q hq
      obtain ⟨i, hi, rfl⟩ := List.mem_iff_getElem.1 hq
      simp only [List.length_drop, List.length_ofFn] at hi
      exact ⟨⟨b.size + i, by omega⟩, by simp, by simp⟩
    refine ⟨b, ((List.ofFn r.s).drop b.size ++ d).map (Real.sqrt (beta / 2 * wmax) * wmax ^ (-ki.ypower) * ·), hb, hB,
      ?_, ?_, ?_, ?_, ?_, ds.uwf, ds.vwf, r, d, hsize, rfl, fun x y hx hy => basis_resid ds hbeta hw κ hκ hx hy, hseg, h8⟩
    · rintro M hM
      rw [ds.size_eq, Option.mem_def.1 hM]
      simp
    · rw [htake, ← List.map_append, ← List.append_assoc, List.take_append_drop]
      exact h6.perm.map _
    · intro q hq l
      obtain ⟨q', hq', rfl⟩ := List.mem_map.1 hq
      rw [hs]
      refine mul_le_mul_of_nonneg_left ?_ hfac.le
      rcases List.mem_append.1 hq' with h9 | h9
      · obtain ⟨l', hl', rfl⟩ := hdrop _ h9
        exact h4.anti (show l.1 ≤ l'.1 by omega)
      · exact (h6.order _ h9 _ (List.mem_ofFn.2 ⟨_, rfl⟩)).le
    · rintro rfl q hq l0 hl0
      obtain ⟨q', hq', rfl⟩ := List.mem_map.1 hq
      have hz : (⟨l0.1, lt_of_lt_of_le l0.2 hsize⟩ : Fin r.n) = ⟨0, hpos⟩ := Fin.ext hl0
      have hs0 := h4.spos ⟨0, hpos⟩
      rw [hs, hz, mul_left_comm]
      refine mul_le_mul_of_nonneg_left ?_ hfac.le
      rcases List.mem_append.1 hq' with h9 | h9
      · obtain ⟨l', hl', rfl⟩ := hdrop _ h9
        have h10 : ¬ l'.1 < m := by
          have := ds.size_eq
          simp only [Option.getD_none, min_self] at this
          omega
        rw [hm.2 l', not_le] at h10
        exact h10.le.trans (mul_le_mul_of_nonneg_right (le_max_left _ _) hs0.le)
      · rcases h6.below _ (top_of_selected h4 hpos h6) _ h9 with h10 | ⟨_, h10, -⟩
        · exact h10.trans (mul_le_mul_of_nonneg_right (le_max_right _ _) hs0.le)
        · cases h10
    · intro he' ho'
      have habs : ∀ {m : ℕ} {z w : Fin m → ℝ}, NodesOn 0 n z w → ∀ i, |Sum.elim z (fun i => -z i) i| ≤ 1 := by
        intro m z w hz i
        rcases i with i | i
        · rw [Sum.elim_inl, abs_of_pos (hz.inside i).1]; exact (hz.inside i).2.le
        · rw [Sum.elim_inr, abs_neg, abs_of_pos (hz.inside i).1]; exact (hz.inside i).2.le
      exact basis_error ds hbeta hw (habs nx) (habs ny) (h8 k hsymm he' ho') κ hκ

theorem scratch_full (env : Env) (fp : Fp) (stat : String) (hstat : stat = "F" ∨ stat = "B") (beta wmax : ℝ) (hbeta : 0 < beta)
    (hw : 0 < wmax) (eps : Option ℝ) (maxSize : Option ℕ) (hmax : maxSize ≠ some 0) (kernel : Option KernelInfo)
    (ki : KernelInfo) (hki : getKernel stat (fp.mul beta wmax) kernel = .ok ki) (hlam : ki.lambda = some (beta * wmax))
    (K : Kern) (hKi : (if ki.ypower = 0 then logisticKern (beta * wmax) else boseKern (beta * wmax)) = K) (k κ : ℝ → ℝ → ℝ)
    (hκ : ∀ x y, |x| ≤ 1 → |y| ≤ 1 → κ (beta / 2 * (x + 1)) (wmax * y) = wmax ^ (-ki.ypower) * k x y)
    (c : Choice) (hc : safeEps env.platform (eps.map .real) none none = .ok c)
    (he : eps.getD c.safeEps ≤ 1) (hK : Describes K k c.safeEps) (t : ℝ) (ht : CutoffIs env.platform c.dtype none t)
    (h0 : 0 ≤ t) (h1 : t < 1) (hsvd : SvdOk env.libs (decide (c.dtype = .ddouble)) c.strategy)
    (hsort : ∀ k, ArgsortOk (env.argsort k)) (n : ℕ) (hn : n = if 1e-8 ≤ c.safeEps then 10 else 16) (rule : Rule)
    (hleg : env.legendre n = .ok rule) (hr : GoodRule rule) (hrn : rule.x.length = n) :
    ∃ (mx my : ℕ) (x wx : Fin mx → ℝ) (y wy : Fin my → ℝ) (hint : ℕ) (fe : Factors ℝ mx my) (we : List Warning)
      (fo : Factors ℝ mx my) (wo : List Warning),
      NodesOn 0 n x wx ∧ NodesOn 0 n y wy ∧
      Svd.compute env.libs (decide (c.dtype = .ddouble)) (nodeMatrix (fun x y => k x y + k x (-y)) x wx y wy) (some hint)
        c.strategy = .ok (fe, we) ∧
      Svd.compute env.libs (decide (c.dtype = .ddouble)) (nodeMatrix (fun x y => k x y - k x (-y)) x wx y wy) (some hint)
        c.strategy = .ok (fo, wo) ∧
      ((make fp (computeOf env) stat beta wmax eps maxSize kernel none = .error .nanResult ∧
        ∃ g, ((K.symmetrized 1).hints c.safeEps).segX = .ok g ∧ (Vanishing fe x wx g n ∨ Vanishing fo x wx g n)) ∨
      ∃ b omitted, make fp (computeOf env) stat beta wmax eps maxSize kernel none = .ok b ∧
        IsBasis b stat beta wmax (eps.getD c.safeEps) ∧ (∀ m ∈ maxSize, b.size ≤ m) ∧
        (List.ofFn b.s ++ omitted).Perm ((List.ofFn fe.s ++ List.ofFn fo.s).map
          (Real.sqrt (beta / 2 * wmax) * wmax ^ (-ki.ypower) * ·)) ∧
        (∀ q ∈ omitted, ∀ l, q ≤ b.s l) ∧
        (maxSize = none → ∀ q ∈ omitted, ∀ l0, l0.1 = 0 → q ≤ max (eps.getD c.safeEps) t * b.s l0) ∧
        (IsSvdFactors (nodeMatrix (fun x y => k x y + k x (-y)) x wx y wy) fe →
          IsSvdFactors (nodeMatrix (fun x y => k x y - k x (-y)) x wx y wy) fo →
          ∑ i, ∑ j, (beta / 2 * Sum.elim wx wx i) * (wmax * Sum.elim wy wy j) *
            basisError κ b (beta / 2 * (Sum.elim x (fun i => -x i) i + 1)) (wmax * Sum.elim y (fun j => -y j) j) ^ 2 =
          (omitted.map (· ^ 2)).sum) ∧
        b.u.WF ∧ b.v.WF ∧ ∃ r d, b.size ≤ r.n ∧
          omitted = ((List.ofFn r.s).drop b.size ++ d).map (Real.sqrt (beta / 2 * wmax) * wmax ^ (-ki.ypower) * ·) ∧
          (∀ x y, |x| ≤ 1 → |y| ≤ 1 →
            basisError κ b (beta / 2 * (x + 1)) (wmax * y) = wmax ^ (-ki.ypower) * resid k r b.size x y) ∧
          OnSegments (K.full.hints c.safeEps) n r (Sum.elim x fun i => -x i) (Sum.elim wx wx) (Sum.elim y fun j => -y j)
            (Sum.elim wy wy) ∧
          ∀ k : ℝ → ℝ → ℝ, (∀ x y, k (-x) (-y) = k x y) →
            IsSvdFactors (nodeMatrix (fun x y => k x y + k x (-y)) x wx y wy) fe →
            IsSvdFactors (nodeMatrix (fun x y => k x y - k x (-y)) x wx y wy) fo →
            NodeSve k r (Sum.elim x fun i => -x i) (Sum.elim wx wx) (Sum.elim y fun j => -y j) (Sum.elim wy wy) d) :=
  scratch_gen env (computeOf env) fp stat hstat beta wmax hbeta hw eps maxSize hmax kernel ki hki hlam K
    (by simp only [computeOf, hlam, hKi]) k k κ hK.symm hκ c hc he (hK.inside _) t ht h0 h1 hsvd hsort n hn rule hleg hr hrn

theorem scratch (env : Env) (fp : Fp) (stat : String) (hstat : stat = "F" ∨ stat = "B") (beta wmax : ℝ) (hbeta : 0 < beta)
    (hw : 0 < wmax) (eps : Option ℝ) (maxSize : Option ℕ) (hmax : maxSize ≠ some 0) (kernel : Option KernelInfo)
    (ki : KernelInfo) (hki : getKernel stat (fp.mul beta wmax) kernel = .ok ki) (hlam : ki.lambda = some (beta * wmax))
    (K : Kern) (hKi : (if ki.ypower = 0 then logisticKern (beta * wmax) else boseKern (beta * wmax)) = K) (k κ : ℝ → ℝ → ℝ)
    (hκ : ∀ x y, |x| ≤ 1 → |y| ≤ 1 → κ (beta / 2 * (x + 1)) (wmax * y) = wmax ^ (-ki.ypower) * k x y)
    (c : Choice) (hc : safeEps env.platform (eps.map .real) none none = .ok c)
    (he : eps.getD c.safeEps ≤ 1) (hK : Describes K k c.safeEps) (t : ℝ) (ht : CutoffIs env.platform c.dtype none t)
    (h0 : 0 ≤ t) (h1 : t < 1) (hsvd : SvdOk env.libs (decide (c.dtype = .ddouble)) c.strategy)
    (hsort : ∀ k, ArgsortOk (env.argsort k)) (n : ℕ) (hn : n = if 1e-8 ≤ c.safeEps then 10 else 16) (rule : Rule)
    (hleg : env.legendre n = .ok rule) (hr : GoodRule rule) (hrn : rule.x.length = n) :
    FromScratch env c ((K.symmetrized 1).hints c.safeEps).segX k κ n stat beta wmax
      (Real.sqrt (beta / 2 * wmax) * wmax ^ (-ki.ypower)) (eps.getD c.safeEps) t maxSize
      (make fp (computeOf env) stat beta wmax eps maxSize kernel none) := by
  obtain ⟨mx, my, x, wx, y, wy, hint, fe, we, fo, wo, a1, a2, a3, a4, h | ⟨b, omitted, b1, b2, b3, b4, b5, b6, b7, -⟩⟩ :=
    scratch_full env fp stat hstat beta wmax hbeta hw eps maxSize hmax kernel ki hki hlam K hKi k κ hκ c hc he hK t ht h0 h1
      hsvd hsort n hn rule hleg hr hrn
  · exact ⟨mx, my, x, wx, y, wy, hint, fe, we, fo, wo, a1, a2, a3, a4, Or.inl h⟩
  · exact ⟨mx, my, x, wx, y, wy, hint, fe, we, fo, wo, a1, a2, a3, a4, Or.inr ⟨b, omitted, b1, b2, b3, b4, b5, b6, b7⟩⟩

/-- `FiniteTempBasis(stat, beta, wmax, eps, max_size=…)`: the basis of the kernel
`exp(-tau * omega) / (1 + exp(-beta * omega))`. -/
theorem C66_logistic (env : Env) (fp : Fp) (stat : String) (hstat : stat = "F" ∨ stat = "B") (beta wmax : ℝ)
    (hbeta : 0 < beta) (hw : 0 < wmax) (hfp : fp.mul beta wmax = beta * wmax) (eps : Option ℝ) (maxSize : Option ℕ)
    (hmax : maxSize ≠ some 0) (c : Choice) (hc : safeEps env.platform (eps.map .real) none none = .ok c)
    (he : eps.getD c.safeEps ≤ 1) (t : ℝ) (ht : CutoffIs env.platform c.dtype none t) (h0 : 0 ≤ t) (h1 : t < 1)
    (hsvd : SvdOk env.libs (decide (c.dtype = .ddouble)) c.strategy) (hsort : ∀ k, ArgsortOk (env.argsort k)) (n : ℕ)
    (hn : n = if 1e-8 ≤ c.safeEps then 10 else 16) (rule : Rule) (hleg : env.legendre n = .ok rule) (hr : GoodRule rule)
    (hrn : rule.x.length = n) :
    FromScratch env c (((logisticKern (beta * wmax)).symmetrized 1).hints c.safeEps).segX (logisticK (beta * wmax))
      (fun tau omega => Real.exp (-tau * omega) / (1 + Real.exp (-beta * omega))) n stat beta wmax
      (Real.sqrt (beta / 2 * wmax)) (eps.getD c.safeEps) t maxSize
      (make fp (computeOf env) stat beta wmax eps maxSize none none) := by
  have h2 := scratch env fp stat hstat beta wmax hbeta hw eps maxSize hmax none (logisticInfo (beta * wmax))
    (by rw [hfp]; rcases hstat with rfl | rfl <;> rfl) rfl _ (if_pos rfl) (logisticK (beta * wmax))
    (fun tau omega => Real.exp (-tau * omega) / (1 + Real.exp (-beta * omega)))
    (fun x y _ _ => by
      show _ = wmax ^ (-(0 : ℤ)) * _
      rw [neg_zero, zpow_zero, one_mul]
      unfold logisticK
      congr 2
      · ring
      · congr 1; ring)
    c hc he (C65_logistic _ _ (by positivity)) t ht h0 h1 hsvd hsort n hn rule hleg hr hrn
  simpa only [logisticInfo, neg_zero, zpow_zero, mul_one] using h2

/-- `FiniteTempBasis(stat, beta, wmax, eps, max_size=…, kernel=RegularizedBoseKernel(beta * wmax))`: the basis of a kernel
that agrees with `omega * exp(-tau * omega) / (1 - exp(-beta * omega)) / wmax ^ 2` to 200 digits. -/
theorem C66_bose (env : Env) (fp : Fp) (stat : String) (hstat : stat = "F" ∨ stat = "B") (beta wmax : ℝ) (hbeta : 0 < beta)
    (hw : 0 < wmax) (hfp : fp.mul beta wmax = beta * wmax) (eps : Option ℝ) (maxSize : Option ℕ) (hmax : maxSize ≠ some 0)
    (c : Choice) (hc : safeEps env.platform (eps.map .real) none none = .ok c) (he : eps.getD c.safeEps ≤ 1) (t : ℝ)
    (ht : CutoffIs env.platform c.dtype none t) (h0 : 0 ≤ t) (h1 : t < 1)
    (hsvd : SvdOk env.libs (decide (c.dtype = .ddouble)) c.strategy) (hsort : ∀ k, ArgsortOk (env.argsort k)) (n : ℕ)
    (hn : n = if 1e-8 ≤ c.safeEps then 10 else 16) (rule : Rule) (hleg : env.legendre n = .ok rule) (hr : GoodRule rule)
    (hrn : rule.x.length = n) :
    ∃ k κ : ℝ → ℝ → ℝ, IsBose (beta * wmax) k ∧
      (∀ tau omega, 0 ≤ tau → tau ≤ beta → |omega| ≤ wmax → omega ≠ 0 →
        |κ tau omega - omega * Real.exp (-tau * omega) / (1 - Real.exp (-beta * omega)) / wmax ^ 2| ≤
          1e-200 * (omega * Real.exp (-tau * omega) / (1 - Real.exp (-beta * omega)) / wmax ^ 2)) ∧
      FromScratch env c (((boseKern (beta * wmax)).symmetrized 1).hints c.safeEps).segX k κ n stat beta wmax
        (Real.sqrt (beta / 2 * wmax) / wmax) (eps.getD c.safeEps) t maxSize
        (make fp (computeOf env) stat beta wmax eps maxSize (some (boseInfo (beta * wmax))) none) := by
  obtain ⟨k, hk, hd⟩ := C65_bose (beta * wmax) c.safeEps (by positivity)
  refine ⟨k, fun tau omega => wmax⁻¹ * k (2 * tau / beta - 1) (omega / wmax), hk, fun tau omega h2 h3 h4 h5 => ?_, ?_⟩
  · have hx : |2 * tau / beta - 1| ≤ 1 := by
      rw [abs_le]
      constructor
      · have : 0 ≤ 2 * tau / beta := by positivity
        linarith
      · have : 2 * tau / beta ≤ 2 := by rw [div_le_iff₀ hbeta]; linarith
        linarith
    have hy : |omega / wmax| ≤ 1 := by rwa [abs_div, abs_of_pos hw, div_le_one hw]
    have h6 := (hk _ _ hx hy).2.2 (div_ne_zero h5 hw.ne')
    have h7 : boseK (beta * wmax) (2 * tau / beta - 1) (omega / wmax) =
        wmax * (omega * Real.exp (-tau * omega) / (1 - Real.exp (-beta * omega)) / wmax ^ 2) := by
      unfold boseK
      rw [show -(beta * wmax) * (omega / wmax) * (2 * tau / beta - 1 + 1) / 2 = -tau * omega by field_simp; ring,
        show -(beta * wmax) * (omega / wmax) = -beta * omega by field_simp]
      field_simp
    rw [h7] at h6
    have h8 : ∀ A B : ℝ, wmax⁻¹ * A - B = wmax⁻¹ * (A - wmax * B) := fun A B => by field_simp
    show |wmax⁻¹ * k (2 * tau / beta - 1) (omega / wmax) - _| ≤ _
    rw [h8, abs_mul, abs_of_pos (inv_pos.2 hw)]
    calc _ ≤ wmax⁻¹ * _ := mul_le_mul_of_nonneg_left h6 (inv_pos.2 hw).le
      _ = _ := by field_simp
  · have h2 := scratch env fp stat hstat beta wmax hbeta hw eps maxSize hmax (some (boseInfo (beta * wmax)))
      (boseInfo (beta * wmax))
      (by
        rw [hfp]
        have h3 : |beta * wmax - beta * wmax| ≤ 4e-16 * |beta * wmax| := by rw [sub_self, abs_zero]; positivity
        rcases hstat with rfl | rfl
        · show (if |beta * wmax - beta * wmax| ≤ 4e-16 * |beta * wmax| then _ else _) = _
          rw [if_pos h3]
        · show (if |beta * wmax - beta * wmax| ≤ 4e-16 * |beta * wmax| then _ else _) = _
          rw [if_pos h3])
      rfl _ (if_neg (show ¬ (1 : ℤ) = 0 by decide)) k (fun tau omega => wmax⁻¹ * k (2 * tau / beta - 1) (omega / wmax))
      (fun x y _ _ => by
        show _ = wmax ^ (-(1 : ℤ)) * _
        rw [zpow_neg_one, show 2 * (beta / 2 * (x + 1)) / beta - 1 = x by field_simp; ring,
          show wmax * y / wmax = y by field_simp])
      c hc he hd t ht h0 h1 hsvd hsort n hn rule hleg hr hrn
    simpa only [boseInfo, zpow_neg_one, ← div_eq_mul_inv] using h2

/-- An environment with ideal libraries meets the hypotheses, for a default accuracy and a requested one; and with exact
SVDs the conditional part of the conclusion applies. -/
example : ∃ (env : Env) (c : Choice) (rule : Rule),
    safeEps env.platform ((some (1e-6 : ℝ)).map .real) none none = .ok c ∧ (some (1e-6 : ℝ)).getD c.safeEps ≤ 1 ∧
    CutoffIs env.platform c.dtype none (2 * 2 ^ (-52 : ℤ)) ∧ SvdOk env.libs (decide (c.dtype = .ddouble)) c.strategy ∧
    (∀ k, ArgsortOk (env.argsort k)) ∧ env.legendre 10 = .ok rule ∧ GoodRule rule ∧ rule.x.length = 10 ∧
    (10 = if 1e-8 ≤ c.safeEps then 10 else 16) ∧
    ∀ m n (A : Matrix (Fin m) (Fin n) ℝ) hint f w,
      Svd.compute env.libs (decide (c.dtype = .ddouble)) A (some hint) c.strategy = .ok (f, w) → IsSvdFactors A f := by
  obtain ⟨eig, diff, sub, r, h1, h2, h3, h4⟩ := C25_exists 9
  have hg := C36_goodRule (Nat.succ_pos 9) h1 h2 h3 h4
  have hlib : ∀ m n (A : Matrix (Fin m) (Fin n) ℝ) hint,
      Svd.compute (idealLibs true true) false A (some hint) "fast" = .ok (idealFactors A, []) := by
    intro m n A hint
    unfold Svd.compute idealLibs
    rfl
  refine ⟨⟨fun _ => .ok r, idealLibs true true, exPlatform true, fun k s => Tuple.sort s⟩, ⟨1e-8, .float64, "fast", false⟩,
    r, ?_, ?_, Or.inr ⟨rfl, _, rfl, rfl⟩, fun m n A hint _ _ _ => ⟨_, [], hlib m n A hint, (idealFactors_ok A).thin⟩,
    fun k s => ⟨(Tuple.sort s).bijective, Tuple.monotone_sort s⟩, rfl, hg, h2, ?_, fun m n A hint f w h5 => ?_⟩
  · have h5 : ¬ ((1e-6 : ℝ) < 1e-8) := by norm_num
    simp [safeEps, chooseDtype, safeEpsOf, Flt.lt, h5]
  · norm_num
  · simp
  · have h6 := (hlib m n A hint).symm.trans h5
    cases h6
    exact idealFactors_ok A

end Verif.Props
