import Verif.Model.FiniteTemp
import Verif.Props.C10_Selection
import Verif.Props.C14_FourierTransform
import Verif.Props.C16_PowerModel
import Verif.Props.C34_Truncate
import Verif.Props.C36_Sampling
/-! Facts about the construction of a `FiniteTempBasis`. -/

namespace Verif.FiniteTemp
open Verif Verif.Np Verif.Poly Verif.Sve Verif.Kernel Verif.Spec

theorem segFun_map (a b c d : ℝ) (hc : 0 < c) (l : List ℝ) (x : ℝ) :
    segFun (c * a + d) (c * b + d) l (c * x + d) = segFun a b l x / Real.sqrt c := by
  unfold segFun
  rw [show c * b + d - (c * a + d) = c * (b - a) by ring,
    show 2 * (c * x + d) - (c * a + d + (c * b + d)) = c * (2 * x - (a + b)) by ring,
    mul_div_mul_left _ _ hc.ne', show 2 / (c * (b - a)) = (2 / (b - a)) / c by rw [div_div, mul_comm],
    Real.sqrt_div' _ hc.le]
  ring

/-- The polynomials with affinely mapped knots. -/
theorem rescaled_ok {κ : Type} (p : PPoly κ) (h : p.WF) (k : ℝ → ℝ) (c d : ℝ) (hc : 0 < c)
    (hk : ∀ t, k t = c * t + d) :
    ∃ q, rescaled p k c = .ok q ∧ q.WF ∧ q.xmin = k p.xmin ∧ q.xmax = k p.xmax ∧ q.polyorder = p.polyorder ∧
      q.nseg = p.nseg ∧ q.symm = p.symm ∧
      ∀ x, p.xmin ≤ x → x ≤ p.xmax → ∀ l, fn q l (k x) = fn p l x / Real.sqrt c := by
  have hkm : StrictMono k := by
    intro a b hab
    rw [hk, hk]
    have := mul_lt_mul_of_pos_left hab hc
    linarith
  refine ⟨⟨p.nseg, p.polyorder, fun j => k (p.knots j), fun i => c * p.dx i, p.coef, p.symm⟩, ?_, ?_, rfl, rfl,
    rfl, rfl, rfl, ?_⟩
  · unfold rescaled PPoly.ctor
    have hl : ((List.ofFn p.knots).map k).length = p.nseg + 1 := by simp
    rw [dif_pos hl]
    have hkn : ∀ j : Fin (p.nseg + 1), ((List.ofFn p.knots).map k).get (j.cast hl.symm) = k (p.knots j) := by
      intro j
      rw [List.get_eq_getElem, List.getElem_map, List.getElem_ofFn]
      rfl
    simp only [hkn]
    rw [if_pos, if_pos]
    · rfl
    · intro i
      rw [isClose, h.dx_eq, hkn, hkn, hk, hk, show c * (p.knots i.succ - p.knots i.castSucc) -
        (c * p.knots i.succ + d - (c * p.knots i.castSucc + d)) = 0 by ring, abs_zero]
      positivity
    · intro i
      exact (hkm (h.mono Fin.castSucc_lt_succ)).le
  · refine ⟨h.pos, fun i j hij => hkm (h.mono hij), fun i => ?_⟩
    show c * p.dx i = k _ - k _
    rw [h.dx_eq, hk, hk]; ring
  · intro x h1 h2 l
    obtain ⟨i, hi⟩ := h.exists_inSeg h1 h2
    set q : PPoly κ := ⟨p.nseg, p.polyorder, fun j => k (p.knots j), fun i => c * p.dx i, p.coef, p.symm⟩
    have hq : q.WF := by
      refine ⟨h.pos, fun i j hij => hkm (h.mono hij), fun i => ?_⟩
      show c * p.dx i = k _ - k _
      rw [h.dx_eq, hk, hk]; ring
    have hi' : q.InSeg i (k x) := by
      refine ⟨hkm.monotone hi.1, ?_⟩
      rcases hi.2 with h3 | ⟨h3, h4⟩
      · exact Or.inl (hkm h3)
      · exact Or.inr ⟨h3, by rw [h4]; rfl⟩
    rw [fn, PPoly.call_eq hq hi', fn, PPoly.call_eq h hi]
    show segFun (k _) (k _) (p.coef i l) (k x) = _
    simp only [hk]
    exact segFun_map _ _ _ _ hc _ _

/-- What is required of a singular value expansion. -/
structure Good (r : SveResult) : Prop where
  pos : 0 < r.n
  spos : ∀ l, 0 < r.s l
  anti : Antitone r.s
  uwf : r.u.WF
  vwf : r.v.WF
  umin : r.u.xmin = -1
  umax : r.u.xmax = 1
  vmin : r.v.xmin = -1
  vmax : r.v.xmax = 1
  ulen : ∀ i l, (r.u.coef i l).length = r.u.polyorder
  upo : 1 ≤ r.u.polyorder

/-- `m` is the number of singular values that are at least `e` times the largest one. -/
def Cut (r : SveResult) (h : 0 < r.n) (e : ℝ) (m : ℕ) : Prop :=
  m ≤ r.n ∧ ∀ l : Fin r.n, l.1 < m ↔ e * r.s ⟨0, h⟩ ≤ r.s l

theorem cut_unique {r : SveResult} {h : 0 < r.n} {e : ℝ} {m m' : ℕ} (h1 : Cut r h e m) (h2 : Cut r h e m') :
    m = m' := by
  by_contra hne
  rcases Nat.lt_or_gt_of_ne hne with hlt | hlt
  · have hm : m < r.n := lt_of_lt_of_le hlt h2.1
    exact absurd ((h1.2 ⟨m, hm⟩).2 ((h2.2 ⟨m, hm⟩).1 hlt)) (lt_irrefl m)
  · have hm : m' < r.n := lt_of_lt_of_le hlt h1.1
    exact absurd ((h2.2 ⟨m', hm⟩).2 ((h1.2 ⟨m', hm⟩).1 hlt)) (lt_irrefl m')

theorem part_idx (r : SveResult) (h : Good r) (eps : Option ℝ) (e : ℝ) (he : eps.or r.eps = some e)
    (maxSize : Option ℕ) :
    ∃ m, Cut r h.pos e m ∧ r.part eps (maxSize.map fun n : ℕ => (n : ℤ)) =
      .ok ((List.finRange r.n).take (min m (maxSize.getD m))) := by
  have hhead : (List.ofFn r.s).head? = some (r.s ⟨0, h.pos⟩) := by
    rw [List.head?_eq_getElem?, List.getElem?_eq_getElem (by simpa using h.pos)]
    simp
  obtain ⟨m, h1, h2, h3, h4⟩ := Props.C35_part (List.finRange r.n) (List.ofFn r.s) (List.finRange r.n) r.eps eps
    e (r.s ⟨0, h.pos⟩) maxSize
    (by
      rw [List.pairwise_ofFn]
      intro i j hij
      exact h.anti hij.le)
    (by cases eps <;> simp_all)
    (by cases eps with
        | some x => left; simp
        | none => right; intro hc; rw [hc] at he; simp at he) hhead (by simp) (by simp)
  refine ⟨m, ⟨by simpa using h3, fun l => ⟨fun hl => ?_, fun hl => ?_⟩⟩, ?_⟩
  · apply h1
    rw [List.mem_take_iff_getElem]
    exact ⟨l.1, by simp [hl], by simp⟩
  · by_contra hlm
    have := h2 (r.s l) (by
      rw [List.mem_drop_iff_getElem]
      refine ⟨l.1 - m, by simp; omega, ?_⟩
      simp only [List.getElem_ofFn]
      congr 1
      ext
      simp
      omega)
    linarith
  · unfold SveResult.part
    rw [h4]
    rfl

/-- A basis built from the expansion `r`, described in terms of `r`. -/
structure Describes (b : Basis) (r : SveResult) (h : Good r) (stat : String) (beta wmax : ℝ) (k : KernelInfo)
    (lam : ℝ) (size : ℕ) : Prop where
  statistics : b.statistics = stat
  beta_eq : b.beta = beta
  wmax_eq : b.wmax = wmax
  kernel_eq : b.kernel = k
  sve_eq : b.sve = r
  size_eq : b.size = size
  size_le : size ≤ r.n
  acc : (∀ hs : size < r.n, b.accuracy = r.s ⟨size, hs⟩ / r.s ⟨0, h.pos⟩) ∧
    ∀ hs : size = r.n, b.accuracy = r.s ⟨size - 1, by have := h.pos; omega⟩ / r.s ⟨0, h.pos⟩
  s_eq : ∀ (l : Fin b.size) (l' : Fin r.n), l'.1 = l.1 →
    b.s l = Real.sqrt (beta / 2 * wmax) * wmax ^ (-k.ypower) * r.s l'
  uwf : b.u.WF
  umin : b.u.xmin = 0
  umax : b.u.xmax = beta
  u_eq : ∀ (l : Fin b.size) (l' : Fin r.n), l'.1 = l.1 → ∀ x, -1 ≤ x → x ≤ 1 →
    fn b.u l (beta / 2 * (x + 1)) = fn r.u l' x / Real.sqrt (beta / 2)
  vwf : b.v.WF
  vmin : b.v.xmin = -wmax
  vmax : b.v.xmax = wmax
  v_eq : ∀ (l : Fin b.size) (l' : Fin r.n), l'.1 = l.1 → ∀ y, -1 ≤ y → y ≤ 1 →
    fn b.v l (wmax * y) = fn r.v l' y / Real.sqrt wmax
  uhat_eq : ∀ n : ℤ, |(n : ℝ)| < 40 * lam → (b.statistics = "F" ↔ Odd n) →
    b.uhat.call n = .ok fun l => ftTau beta (fn b.u l) n
  uhat_parity : ∀ n : ℤ, |(n : ℝ)| < 40 * lam → ¬ (b.statistics = "F" ↔ Odd n) →
    b.uhat.call n = .error .valueError

theorem okBind {α β : Type} (a : α) (f : α → PyM β) : ((Except.ok a : PyM α) >>= f) = f a := rfl

theorem take_get {n k : ℕ} (l : Fin ((List.finRange n).take k).length) :
    (((List.finRange n).take k).get l).1 = l.1 := by
  simp [List.get_eq_getElem]

theorem sqrt_beta_fac {beta : ℝ} (hb : 0 < beta) :
    1 / Real.sqrt 2 * Real.sqrt beta = beta / 2 / Real.sqrt (beta / 2) := by
  rw [Real.div_sqrt, Real.sqrt_div' _ (by norm_num)]
  ring

/-- The Fourier transform in imaginary time in dimensionless variables. -/
theorem ftTau_eq {beta : ℝ} (hb : 0 < beta) (f g : ℝ → ℝ)
    (h : ∀ x, -1 ≤ x → x ≤ 1 → f (beta / 2 * (x + 1)) = g x / Real.sqrt (beta / 2)) (n : ℤ) :
    ftTau beta f n = ft (fun x => g x * Real.sqrt beta) n := by
  unfold ftTau ft
  have hsub := intervalIntegral.smul_integral_comp_mul_add (a := -1) (b := 1)
    (fun t : ℝ => Complex.exp (Complex.I * Real.pi * n * t / beta) * (f t : ℂ)) (beta / 2) (beta / 2)
  rw [show beta / 2 * -1 + beta / 2 = 0 by ring, show beta / 2 * 1 + beta / 2 = beta by ring] at hsub
  rw [← hsub, Complex.real_smul, ← intervalIntegral.integral_const_mul, ← intervalIntegral.integral_const_mul]
  apply intervalIntegral.integral_congr
  intro x hx
  rw [Set.uIcc_of_le (by norm_num)] at hx
  simp only
  have e1 : beta / 2 * x + beta / 2 = beta / 2 * (x + 1) := by ring
  rw [e1, h x hx.1 hx.2]
  have e2 : Complex.exp (Complex.I * Real.pi * n * ((beta / 2 * (x + 1) : ℝ) : ℂ) / beta) =
      Complex.exp (Complex.I * Real.pi * n * (x + 1) / 2) := by
    congr 1
    push_cast
    have : (beta : ℂ) ≠ 0 := by exact_mod_cast hb.ne'
    field_simp
  rw [e2]
  have e3 := sqrt_beta_fac hb
  have e4 : ((beta / 2 : ℝ) : ℂ) * ((g x / Real.sqrt (beta / 2) : ℝ) : ℂ) =
      1 / (Real.sqrt 2 : ℂ) * ((g x * Real.sqrt beta : ℝ) : ℂ) := by
    have : beta / 2 * (g x / Real.sqrt (beta / 2)) = 1 / Real.sqrt 2 * (g x * Real.sqrt beta) := by
      linear_combination (-g x) * e3
    exact_mod_cast this
  linear_combination Complex.exp (Complex.I * Real.pi * n * (x + 1) / 2) * e4

theorem freq_parity {stat : String} (hst : stat = "F" ∨ stat = "B") :
    ∃ freq, freqOf stat = .ok freq ∧ (∃ s, freq.statsign = .ok s) ∧
      ∀ n : ℤ, Props.HasParity freq.zeta n ↔ (stat = "F" ↔ Odd n) := by
  rcases hst with rfl | rfl
  · refine ⟨.odd, rfl, ⟨_, rfl⟩, fun n => ?_⟩
    simp [Props.HasParity, Freq.zeta, Int.odd_iff]
  · refine ⟨.even, rfl, ⟨_, rfl⟩, fun n => ?_⟩
    simp [Props.HasParity, Freq.zeta, Int.odd_iff]

/-- Construction succeeds and gives the truncated expansion in physical units. -/
theorem init_ok (fp : Fp) (compute : KernelInfo → Option ℝ → PyM SveResult) (stat : String)
    (hst : stat = "F" ∨ stat = "B") (beta wmax : ℝ) (hb : 0 < beta) (hw : 0 < wmax) (eps : Option ℝ)
    (maxSize : Option ℕ) (kernel : Option KernelInfo) (k : KernelInfo) (lam : ℝ)
    (hk : getKernel stat (fp.mul beta wmax) kernel = .ok k) (hlam : k.lambda = some lam)
    (sve : Option SveResult) (r : SveResult)
    (hr : getSve compute k eps sve = .ok r) (h : Good r) (e : ℝ)
    (he : eps.or r.eps = some e) (m : ℕ) (hm : Cut r h.pos e m) (hpos : 0 < min m (maxSize.getD m)) :
    ∃ b, init fp compute stat beta wmax eps (maxSize.map fun n : ℕ => (n : ℤ)) kernel sve = .ok b ∧
      Describes b r h stat beta wmax k lam (min m (maxSize.getD m)) := by
  set K := min m (maxSize.getD m) with hK
  have hKn : K ≤ r.n := le_trans (min_le_left _ _) hm.1
  obtain ⟨m', hm', hpart⟩ := part_idx r h eps e he maxSize
  rw [cut_unique hm' hm, ← hK] at hpart
  set idx := (List.finRange r.n).take K with hidx
  have hlen : idx.length = K := by rw [hidx]; simp [hKn]
  have hget : ∀ l : Fin idx.length, (idx.get l).1 = l.1 := fun l => take_get l
  -- accuracy
  have hhead : idx.head? = some ⟨0, h.pos⟩ := by
    rw [List.head?_eq_getElem?, List.getElem?_eq_getElem (by omega)]
    congr 1
    exact Fin.ext (hget ⟨0, by omega⟩)
  have hlast : idx.getLast? = some ⟨K - 1, by omega⟩ := by
    rw [List.getLast?_eq_getElem?, List.getElem?_eq_getElem (by omega)]
    congr 1
    apply Fin.ext
    rw [show (idx[idx.length - 1]'(by omega)).1 = idx.length - 1 from hget ⟨idx.length - 1, by omega⟩, hlen]
  obtain ⟨acc, hacc, hacc1, hacc2⟩ : ∃ acc, accuracyOf r idx = .ok acc ∧
      (∀ hs : K < r.n, acc = r.s ⟨K, hs⟩ / r.s ⟨0, h.pos⟩) ∧
      ∀ hs : K = r.n, acc = r.s ⟨K - 1, by have := h.pos; omega⟩ / r.s ⟨0, h.pos⟩ := by
    unfold accuracyOf
    rw [hhead, hlast]
    simp only [if_neg (h.spos _).ne']
    by_cases hs : K < r.n
    · rw [dif_pos (by rw [hlen]; exact hs)]
      refine ⟨_, rfl, fun _ => ?_, fun hc => by omega⟩
      simp only [hlen]
    · rw [dif_neg (by rw [hlen]; exact hs)]
      exact ⟨_, rfl, fun hc => absurd hc hs, fun _ => rfl⟩
  -- polynomials
  have hselu : (r.u.select idx.get).WF := ⟨h.uwf.pos, h.uwf.mono, h.uwf.dx_eq⟩
  have hselv : (r.v.select idx.get).WF := ⟨h.vwf.pos, h.vwf.mono, h.vwf.dx_eq⟩
  obtain ⟨u, hu, huwf, humin, humax, -, -, -, huval⟩ := rescaled_ok (r.u.select idx.get) hselu
    (fun t => beta / 2 * (t + 1)) (beta / 2) (beta / 2) (by positivity) (fun t => by ring)
  obtain ⟨v, hv, hvwf, hvmin, hvmax, -, -, -, hvval⟩ := rescaled_ok (r.v.select idx.get) hselv
    (fun t => wmax * t) wmax 0 hw (fun t => by ring)
  have hfnsel : ∀ {n : ℕ} (p : PPoly (Fin n)) (σ : Fin idx.length → Fin n) (l : Fin idx.length) (x : ℝ),
      fn (p.select σ) l x = fn p (σ l) x := by
    intro n p σ l x
    unfold fn
    rw [Props.C10_poly_select]
    cases p.call x <;> rfl
  have humin' : (r.u.select idx.get).xmin = -1 := h.umin
  have humax' : (r.u.select idx.get).xmax = 1 := h.umax
  have hvmin' : (r.v.select idx.get).xmin = -1 := h.vmin
  have hvmax' : (r.v.select idx.get).xmax = 1 := h.vmax
  rw [humin', humax'] at huval
  rw [hvmin', hvmax'] at hvval
  have huval' : ∀ (l : Fin idx.length) (l' : Fin r.n), l'.1 = l.1 → ∀ x, -1 ≤ x → x ≤ 1 →
      fn u l (beta / 2 * (x + 1)) = fn r.u l' x / Real.sqrt (beta / 2) := by
    intro l l' hl x h1 h2
    rw [huval x h1 h2, hfnsel, show idx.get l = l' from Fin.ext ((hget l).trans hl.symm)]
  -- scale
  have hscale : sScale beta wmax k.ypower = .ok (Real.sqrt (beta / 2 * wmax) * wmax ^ (-k.ypower)) := by
    unfold sScale
    rw [if_neg (fun hc => hw.ne' hc.1)]
  obtain ⟨freq, hfreq, ⟨sg, hsg⟩, hpar⟩ := freq_parity hst
  -- transform
  have hbase : (uhatBase beta r.u).WF := ⟨h.uwf.pos, h.uwf.mono, h.uwf.dx_eq⟩
  have hbmin : (uhatBase beta r.u).xmin = -1 := h.umin
  have hbmax : (uhatBase beta r.u).xmax = 1 := h.umax
  obtain ⟨f, hf, hfpoly, hffreq, hfna, hfm⟩ : ∃ f, PFT.ctor (fun l : Fin r.n => l.1) (uhatBase beta r.u) freq
      (some (40 * lam)) none = .ok f ∧ f.poly = uhatBase beta r.u ∧ f.freq = freq ∧ f.nAsymp = some (40 * lam) ∧
      ∃ mod, f.model = some mod := by
    unfold PFT.ctor
    rw [if_neg (by rw [hbmin, hbmax]; simp)]
    simp only [Props.powerModel_eq _ hbase hbmax h.upo _ _ _ hsg]
    exact ⟨_, rfl, rfl, rfl, rfl, _, rfl⟩
  obtain ⟨mod, hfm⟩ := hfm
  obtain ⟨g, hg, hgpoly, hgfreq, hgna⟩ : ∃ g, f.select (fun l : Fin idx.length => l.1) idx.get = .ok g ∧
      g.poly = (uhatBase beta r.u).select idx.get ∧ g.freq = freq ∧ g.nAsymp = some (40 * lam) := by
    unfold PFT.select
    rw [hfpoly, hffreq, hfna, hfm]
    simp only
    rw [if_neg (by
      show ¬ ((uhatBase beta r.u).xmin ≠ -1 ∨ (uhatBase beta r.u).xmax ≠ 1)
      rw [hbmin, hbmax]; simp)]
    exact ⟨_, rfl, rfl, rfl, rfl⟩
  have hgcall := fun n hn => Props.call_of_parity g (by rw [hgpoly]; exact ⟨h.uwf.pos, h.uwf.mono, h.uwf.dx_eq⟩)
    (by rw [hgpoly]; exact h.umin) (by rw [hgpoly]; exact h.umax)
    (by
      rw [hgpoly]
      intro i l
      show ((r.u.coef i _).map _).length = r.u.polyorder
      rw [List.length_map]
      exact h.ulen i _) n (fun na hna => by
        rw [hgna] at hna
        rw [← Option.some.inj hna]
        exact hn)
  rw [hgfreq] at hgcall
  have hbasefn : ∀ l x, fn (uhatBase beta r.u) l x = fn r.u l x * Real.sqrt beta := by
    intro l x
    rw [← Props.fn_scaled r.u (fun _ => Real.sqrt beta) l x]
    congr 1
    unfold uhatBase
    congr 1
    funext i l
    congr 1
    funext t
    ring
  refine ⟨⟨stat, beta, wmax, k, r, idx.length, acc, u, v,
    fun l => Real.sqrt (beta / 2 * wmax) * wmax ^ (-k.ypower) * r.s (idx.get l), f, g⟩, ?_, ?_⟩
  · unfold init
    rw [if_neg (not_not.2 hb), if_neg (not_not.2 hw.le), hk, okBind]
    rw [hr, okBind, hpart, okBind, hacc, okBind, hu, okBind, hv, okBind, hscale, okBind,
      show k.getLambda = .ok lam by unfold KernelInfo.getLambda; rw [hlam], okBind]
    rw [hfreq, okBind, hf, okBind, hg, okBind]
  · refine ⟨rfl, rfl, rfl, rfl, rfl, hlen, hKn, ⟨hacc1, hacc2⟩, ?_, huwf, ?_, ?_, huval', hvwf, ?_, ?_, ?_, ?_, ?_⟩
    · intro l l' hl
      show _ * r.s (idx.get l) = _
      rw [show idx.get l = l' from Fin.ext ((hget l).trans hl.symm)]
    · show u.xmin = 0
      rw [humin, humin']; ring
    · show u.xmax = beta
      rw [humax, humax']; ring
    · show v.xmin = -wmax
      rw [hvmin, hvmin']; ring
    · show v.xmax = wmax
      rw [hvmax, hvmax']; ring
    · intro l l' hl y h1 h2
      show fn v l (wmax * y) = _
      rw [hvval y h1 h2, hfnsel, show idx.get l = l' from Fin.ext ((hget l).trans hl.symm)]
    · intro n hn hp
      show g.call n = _
      rw [(hgcall n hn).1 ((hpar n).2 hp)]
      congr 1
      funext l
      rw [ftTau_eq hb (fn u l) (fn r.u (idx.get l)) (huval' l _ (hget l))]
      congr 1
      funext x
      rw [hgpoly, hfnsel, hbasefn]
    · intro n hn hp
      exact (hgcall n hn).2 (fun hc => hp ((hpar n).1 hc))

/-- Valid arguments of the constructor: `k` is the kernel and `r` the expansion that are used, `e` the relative
cutoff and `m` the number of singular values above it. -/
structure Valid (fp : Fp) (compute : KernelInfo → Option ℝ → PyM SveResult) (stat : String) (beta wmax : ℝ)
    (eps : Option ℝ) (maxSize : Option ℕ) (kernel : Option KernelInfo) (sve : Option SveResult) (k : KernelInfo)
    (lam : ℝ) (r : SveResult) (h : Good r) (e : ℝ) (m : ℕ) : Prop where
  hstat : stat = "F" ∨ stat = "B"
  hbeta : 0 < beta
  hwmax : 0 < wmax
  hkernel : getKernel stat (fp.mul beta wmax) kernel = .ok k
  hlam : k.lambda = some lam
  hsve : getSve compute k eps sve = .ok r
  heps : eps.or r.eps = some e
  hcut : Cut r h.pos e m
  hpos : 0 < min m (maxSize.getD m)

/-- The constructor call. -/
noncomputable abbrev make (fp : Fp) (compute : KernelInfo → Option ℝ → PyM SveResult) (stat : String)
    (beta wmax : ℝ) (eps : Option ℝ) (maxSize : Option ℕ) (kernel : Option KernelInfo) (sve : Option SveResult) :
    PyM Basis :=
  init fp compute stat beta wmax eps (maxSize.map fun n : ℕ => (n : ℤ)) kernel sve

theorem Valid.ok {fp : Fp} {compute : KernelInfo → Option ℝ → PyM SveResult} {stat : String} {beta wmax : ℝ}
    {eps : Option ℝ} {maxSize : Option ℕ} {kernel : Option KernelInfo} {sve : Option SveResult} {k : KernelInfo}
    {lam : ℝ} {r : SveResult} {h : Good r} {e : ℝ} {m : ℕ}
    (v : Valid fp compute stat beta wmax eps maxSize kernel sve k lam r h e m) :
    ∃ b, make fp compute stat beta wmax eps maxSize kernel sve = .ok b ∧
      Describes b r h stat beta wmax k lam (min m (maxSize.getD m)) :=
  init_ok fp compute stat v.hstat beta wmax v.hbeta v.hwmax eps maxSize kernel k lam v.hkernel v.hlam sve r v.hsve h e
    v.heps m v.hcut v.hpos

theorem Valid.describes {fp : Fp} {compute : KernelInfo → Option ℝ → PyM SveResult} {stat : String}
    {beta wmax : ℝ} {eps : Option ℝ} {maxSize : Option ℕ} {kernel : Option KernelInfo} {sve : Option SveResult}
    {k : KernelInfo} {lam : ℝ} {r : SveResult} {h : Good r} {e : ℝ} {m : ℕ}
    (v : Valid fp compute stat beta wmax eps maxSize kernel sve k lam r h e m) {b : Basis}
    (hb : make fp compute stat beta wmax eps maxSize kernel sve = .ok b) :
    Describes b r h stat beta wmax k lam (min m (maxSize.getD m)) := by
  obtain ⟨b', h1, h2⟩ := v.ok
  rw [Except.ok.inj (hb.symm.trans h1)]
  exact h2

end Verif.FiniteTemp
