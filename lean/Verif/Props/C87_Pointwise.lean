import Verif.Props.C85_InexactSvd
import Verif.Props.C51_DlrConversion
import Verif.Props.C74_HighFrequency
import Verif.Lemmas.Pointwise
import Verif.Lemmas.MinSegment
/-!
# C87: accuracy at every point

C83 to C85 bound the error of the expansion in the mean.  Here it is bounded at every single point of
`[0, beta] × [-wmax, wmax]`, hence for Green's functions at every imaginary time and for the conversion between DLR and IR.
-/

namespace Verif.Props
open Verif Verif.Np Verif.Sve Verif.Gauss Verif.Kernel Verif.Spec Verif.Poly Verif.Svd Verif.FiniteTemp Verif.SveCompute
open Verif.Dlr Verif.Np.NdArray
open MeasureTheory Filter Topology

/-! ## Inside the segments -/

/-- The error of the first `m` terms at a point inside a segment in `x` and a segment in `y`. -/
theorem C87_point {h : Hints} {n : ℕ} (hn : 1 ≤ n) {k k' : ℝ → ℝ → ℝ} {r : SveResult} {X Y : Type} [Fintype X] [Fintype Y]
    {x wx : X → ℝ} {y wy : Y → ℝ} {d : List ℝ} {εx εy e : ℝ} (hR : OnSegments h n r x wx y wy)
    (hN : NodeSve k' r x wx y wy d) (hK : KernelNear h n k εx εy)
    (he : Real.sqrt (∑ i, ∑ j, wx i * wy j * (k (x i) (y j) - k' (x i) (y j)) ^ 2) ≤ e) (m : ℕ)
    {gx gy : List ℝ} (h1 : h.segX = .ok gx) (h2 : h.segY = .ok gy)
    {a b c c' p q : ℝ} (hab : Roots.Adjacent gx a b) (hcd : Roots.Adjacent gy c c') (hp1 : a < p) (hp2 : p < b) (hq1 : c < q)
    (hq2 : q < c') :
    |resid k r m p q| ≤ n ^ 2 / Real.sqrt ((b - a) * (c' - c)) *
      (Real.sqrt ((d.map (· ^ 2)).sum + ∑ l with m ≤ l.1, r.s l ^ 2) + e) + (1 + n) * (εx + n * εy) := by
  obtain ⟨gx', gy', h1', h2', Sx, Sy, Ex, Ey, hp⟩ := hR
  cases h1.symm.trans h1'
  cases h2.symm.trans h2'
  have := point_le Sx.toGridFromTo Sy.toGridFromTo hn Ex Ey k (Finset.univ.filter fun l : Fin r.n => l.1 < m) r.s
    (fun l _ => (hp l).1) (fun l _ => (hp l).2) (hK.x gx h1) (hK.y gy h2) hab hcd hp1 hp2 hq1 hq2
  have e1 := weighted_add_le (w := fun i j => wx i * wy j) (fun i j => mul_nonneg (Ex.wpos i) (Ey.wpos j))
    (fun i j => resid k' r m (x i) (y j)) fun i j => k (x i) (y j) - k' (x i) (y j)
  rw [hN.error m] at e1
  refine this.trans (add_le_add (mul_le_mul_of_nonneg_left ?_ (by positivity)) le_rfl)
  have e2 : ∀ i j, resid k' r m (x i) (y j) + (k (x i) (y j) - k' (x i) (y j)) =
      k (x i) (y j) - ∑ l with l.1 < m, r.s l * fn r.u l (x i) * fn r.v l (y j) := by
    intro i j
    unfold resid
    ring
  simp only [e2] at e1
  linarith

/-! ## At the knots -/

theorem exists_adjacent_of {P : ℝ → Prop} : ∀ (g : List ℝ) (a b : ℝ), g.head? = some a → g.getLast? = some b → P a → ¬ P b →
    ∃ u v, Roots.Adjacent g u v ∧ P u ∧ ¬ P v
  | [], _, _, h, _, _, _ => by simp at h
  | [t], a, b, h1, h2, h3, h4 => by
    simp at h1 h2
    subst h1
    subst h2
    exact absurd h3 h4
  | t :: t' :: g, a, b, h1, h2, h3, h4 => by
    simp at h1
    subst h1
    by_cases h5 : P t'
    · obtain ⟨u, v, ⟨l1, l2, e⟩, h6, h7⟩ := exists_adjacent_of (t' :: g) t' b rfl (by simpa using h2) h5 h4
      exact ⟨u, v, ⟨t :: l1, l2, by rw [e]; rfl⟩, h6, h7⟩
    · exact ⟨t, t', ⟨[], g, rfl⟩, h3, h5⟩

/-- At every point of its domain a piecewise polynomial is the limit of its values inside the segments of any grid. -/
theorem exists_filter {κ : Type} {p : PPoly κ} (h : p.WF) {α γ : ℝ} (hα : 0 < α) (h0 : α * p.xmin + γ = -1)
    (h1 : α * p.xmax + γ = 1) {g : List ℝ} (hg : GridFromTo (-1) 1 g) {t : ℝ} (ht0 : p.xmin ≤ t) (ht1 : t ≤ p.xmax) :
    ∃ f : Filter ℝ, f.NeBot ∧ f ≤ 𝓝 t ∧ (∀ l, Tendsto (fn p l) f (𝓝 (fn p l t))) ∧
      ∀ᶠ s in f, ∃ a b, Roots.Adjacent g a b ∧ a < α * s + γ ∧ α * s + γ < b := by
  have hcont : Continuous fun s => α * s + γ := by fun_prop
  obtain ⟨i, hi⟩ := h.exists_inSeg ht0 ht1
  have hval : ∀ l, fn p l t = segFun (p.knots i.castSucc) (p.knots i.succ) (p.coef i l) t := fun l => by
    rw [fn, PPoly.call_eq h hi]
  rcases hi.2 with hlt | ⟨hlast, rfl⟩
  · refine ⟨𝓝[>] t, inferInstance, nhdsWithin_le_nhds, fun l => ?_, ?_⟩
    · rw [hval]
      refine Tendsto.congr' ?_ ((segFun_continuous (p.knots i.castSucc) (p.knots i.succ) (p.coef i l)).tendsto t |>.mono_left
        nhdsWithin_le_nhds)
      filter_upwards [Ioo_mem_nhdsGT hlt] with s hs
      rw [fn, PPoly.call_eq h (⟨hi.1.trans hs.1.le, Or.inl hs.2⟩ : p.InSeg i s)]
    · have htx : t < p.xmax := hlt.trans_le (h.mono.monotone (Fin.le_last _))
      obtain ⟨a, b, hab, ha, hb⟩ := exists_adjacent_of (P := (· ≤ α * t + γ)) g _ _ hg.first hg.last
        (by rw [← h0]; nlinarith) (by rw [← h1, not_le]; nlinarith)
      filter_upwards [self_mem_nhdsWithin, nhdsWithin_le_nhds ((hcont.tendsto t).eventually_lt_const (not_le.1 hb))] with s hs hs'
      have hs : t < s := hs
      exact ⟨a, b, hab, ha.trans_lt (by nlinarith), hs'⟩
  · have hk : p.knots i.succ = p.xmax := by
      unfold PPoly.xmax
      congr 1
      exact Fin.ext hlast
    have hlt : p.knots i.castSucc < p.xmax := hk ▸ h.mono (Fin.castSucc_lt_succ)
    refine ⟨𝓝[<] p.xmax, inferInstance, nhdsWithin_le_nhds, fun l => ?_, ?_⟩
    · rw [hval]
      refine Tendsto.congr' ?_ ((segFun_continuous (p.knots i.castSucc) (p.knots i.succ) (p.coef i l)).tendsto p.xmax |>.mono_left
        nhdsWithin_le_nhds)
      filter_upwards [Ioo_mem_nhdsLT hlt] with s hs
      rw [fn, PPoly.call_eq h (⟨hs.1.le, Or.inl (hk ▸ hs.2)⟩ : p.InSeg i s)]
    · obtain ⟨a, b, hab, ha, hb⟩ := exists_adjacent_of (P := (· < α * p.xmax + γ)) g _ _ hg.first hg.last
        (by rw [h1]; norm_num) (by rw [h1]; exact lt_irrefl _)
      filter_upwards [self_mem_nhdsWithin, nhdsWithin_le_nhds ((hcont.tendsto p.xmax).eventually_const_lt ha)] with s hs hs'
      have hs : s < p.xmax := hs
      exact ⟨a, b, hab, hs', lt_of_lt_of_le (by nlinarith) (not_lt.1 hb)⟩

/-- A bound on the error of a basis inside the segments holds everywhere. -/
theorem basisError_le {b : Basis} {beta wmax : ℝ} (hb : 0 < beta) (hw : 0 < wmax) (hu : b.u.WF) (hv : b.v.WF)
    (hud : b.u.xmin = 0 ∧ b.u.xmax = beta) (hvd : b.v.xmin = -wmax ∧ b.v.xmax = wmax) {κ : ℝ → ℝ → ℝ}
    (hκ : Continuous fun z : ℝ × ℝ => κ z.1 z.2) {gx gy : List ℝ} (hgx : GridFromTo (-1) 1 gx) (hgy : GridFromTo (-1) 1 gy)
    {E : ℝ} (hE : ∀ a b' c d x y, Roots.Adjacent gx a b' → Roots.Adjacent gy c d → a < x → x < b' → c < y → y < d →
      |basisError κ b (beta / 2 * (x + 1)) (wmax * y)| ≤ E) {tau omega : ℝ} (ht0 : 0 ≤ tau) (ht1 : tau ≤ beta)
    (ho0 : -wmax ≤ omega) (ho1 : omega ≤ wmax) : |basisError κ b tau omega| ≤ E := by
  obtain ⟨f, f1, f2, f3, f4⟩ := exists_filter hu (t := tau) (α := 2 / beta) (γ := -1) (by positivity) (by rw [hud.1]; ring)
    (by rw [hud.2]; field_simp; norm_num) hgx (by rw [hud.1]; exact ht0) (by rw [hud.2]; exact ht1)
  obtain ⟨f', f1', f2', f3', f4'⟩ := exists_filter hv (t := omega) (α := 1 / wmax) (γ := 0) (by positivity) (by rw [hvd.1]; field_simp; norm_num)
    (by rw [hvd.2]; field_simp; norm_num) hgy (by rw [hvd.1]; exact ho0) (by rw [hvd.2]; exact ho1)
  have hlim : Tendsto (fun z : ℝ × ℝ => |basisError κ b z.1 z.2|) (f ×ˢ f') (𝓝 |basisError κ b tau omega|) := by
    refine Tendsto.abs (Tendsto.sub ?_ (tendsto_finset_sum _ fun l _ => ?_))
    · refine (hκ.tendsto (tau, omega)).mono_left ?_
      rw [nhds_prod_eq]
      exact Filter.prod_mono f2 f2'
    · exact (((f3 l).comp tendsto_fst).const_mul (b.s l)).mul ((f3' l).comp tendsto_snd)
  refine le_of_tendsto hlim ?_
  filter_upwards [f4.prod_mk f4'] with z hz
  obtain ⟨⟨a, b', h1, h2, h3⟩, c, d, h4, h5, h6⟩ := hz
  have := hE a b' c d _ _ h1 h4 h2 h3 h5 h6
  have e1 : beta / 2 * (2 / beta * z.1 + -1 + 1) = z.1 := by field_simp; ring
  have e2 : wmax * (1 / wmax * z.2 + 0) = z.2 := by field_simp; ring
  rwa [e1, e2] at this

/-! ## Green's functions -/

/-- If the expansion of the kernel has an error of at most `E` everywhere, the expansion of a Green's function has an error
of at most `E` times the integral of the absolute value of the spectral function, at every imaginary time. -/
theorem C87_greens {b : Basis} {beta wmax : ℝ} (hw : 0 < wmax) (hv : b.v.WF)
    (hvd : b.v.xmin = -wmax ∧ b.v.xmax = wmax) {κ : ℝ → ℝ → ℝ} (hκ : Continuous fun z : ℝ × ℝ => κ z.1 z.2) {E : ℝ}
    (hE : ∀ tau omega, 0 ≤ tau → tau ≤ beta → -wmax ≤ omega → omega ≤ wmax → |basisError κ b tau omega| ≤ E) {ρ : ℝ → ℝ}
    (hρ : SquareIntegrable wmax ρ) {tau : ℝ} (ht0 : 0 ≤ tau) (ht1 : tau ≤ beta) :
    |greens κ wmax ρ tau - expanded b wmax ρ tau| ≤ E * ∫ omega in (-wmax)..wmax, |ρ omega| := by
  set ν := volume.restrict (Set.Ioc (-wmax) wmax) with hν
  have hmv : ∀ l, MemLp (fn b.v l) 2 ν := fun l => by
    have := fn_memLp hv l (by rw [hvd.1, hvd.2]; linarith)
    rwa [hvd.1, hvd.2] at this
  have hrow : MemLp (κ tau) 2 ν := by
    have hc : Continuous (κ tau) := hκ.comp (f := fun omega => (tau, omega)) (by fun_prop)
    obtain ⟨M, hM⟩ := isCompact_Icc.exists_bound_of_continuousOn (hc.continuousOn (s := Set.Icc (-wmax) wmax))
    refine MemLp.of_bound hc.aestronglyMeasurable M ?_
    exact (ae_restrict_mem measurableSet_Ioc).mono fun x hx => hM x (Set.Ioc_subset_Icc_self hx)
  have i1 : Integrable (fun omega => κ tau omega * ρ omega) ν := hrow.integrable_mul hρ
  have i2 : ∀ l, Integrable (fun omega => fn b.v l omega * ρ omega) ν := fun l => (hmv l).integrable_mul hρ
  have hdiff : greens κ wmax ρ tau - expanded b wmax ρ tau = -∫ omega, basisError κ b tau omega * ρ omega ∂ν := by
    have e : ∀ omega, basisError κ b tau omega * ρ omega =
        κ tau omega * ρ omega - ∑ l, b.s l * fn b.u l tau * (fn b.v l omega * ρ omega) := by
      intro omega
      unfold basisError
      rw [sub_mul, Finset.sum_mul]
      congr 1
      exact Finset.sum_congr rfl fun l _ => by ring
    simp only [e]
    rw [integral_sub i1 (integrable_finset_sum _ fun l _ => (i2 l).const_mul _),
      integral_finset_sum _ fun l _ => (i2 l).const_mul _]
    simp only [integral_const_mul]
    unfold greens expanded coefs
    simp only [intervalIntegral.integral_of_le (show -wmax ≤ wmax by linarith)]
    rw [neg_sub, sub_eq_add_neg, ← Finset.sum_neg_distrib, add_comm, sub_eq_add_neg]
    congr 1
    exact Finset.sum_congr rfl fun l _ => by ring
  have hρ1 : Integrable ρ ν := hρ.integrable (by norm_num)
  rw [hdiff, abs_neg, intervalIntegral.integral_of_le (show -wmax ≤ wmax by linarith), ← integral_const_mul, ← Real.norm_eq_abs]
  refine norm_integral_le_of_norm_le (hρ1.abs.const_mul E) ?_
  refine (ae_restrict_mem measurableSet_Ioc).mono fun omega ho => ?_
  rw [Real.norm_eq_abs, abs_mul]
  exact mul_le_mul_of_nonneg_right (hE tau omega ht0 ht1 ho.1.le ho.2) (abs_nonneg _)

/-- The same for the Fourier transform to the Matsubara axis. -/
theorem C87_matsubara {b : Basis} {beta wmax : ℝ} (hb : 0 < beta) (hw : 0 < wmax) (hu : b.u.WF) (hv : b.v.WF)
    (hud : b.u.xmin = 0 ∧ b.u.xmax = beta) (hvd : b.v.xmin = -wmax ∧ b.v.xmax = wmax) {κ : ℝ → ℝ → ℝ}
    (hκ : Continuous fun z : ℝ × ℝ => κ z.1 z.2) {E : ℝ}
    (hE : ∀ tau omega, 0 ≤ tau → tau ≤ beta → -wmax ≤ omega → omega ≤ wmax → |basisError κ b tau omega| ≤ E) {ρ : ℝ → ℝ}
    (hρ : SquareIntegrable wmax ρ) (n : ℤ) :
    ‖(∫ tau in (0 : ℝ)..beta, Complex.exp (Complex.I * Real.pi * n * tau / beta) * (greens κ wmax ρ tau : ℂ)) -
      ∑ l, (coefs b wmax ρ l : ℂ) *
        ∫ tau in (0 : ℝ)..beta, Complex.exp (Complex.I * Real.pi * n * tau / beta) * (fn b.u l tau : ℂ)‖ ≤
    beta * (E * ∫ omega in (-wmax)..wmax, |ρ omega|) := by
  obtain ⟨hD, hmu, -⟩ := greens_diff hb hw hu hv hud hvd hκ.continuousOn hρ
  have lift : ∀ f : ℝ → ℝ, MemLp f 2 (volume.restrict (Set.Ioc 0 beta)) → IntervalIntegrable
      (fun tau : ℝ => Complex.exp (Complex.I * Real.pi * n * tau / beta) * (f tau : ℂ)) volume 0 beta := by
    intro f hf
    have h1 : IntervalIntegrable f volume 0 beta :=
      (intervalIntegrable_iff_integrableOn_Ioc_of_le hb.le).2 (hf.integrable (by norm_num))
    have h2 : IntervalIntegrable (fun t => (f t : ℂ)) volume 0 beta := ⟨h1.1.ofReal, h1.2.ofReal⟩
    exact IntervalIntegrable.continuousOn_mul h2 (by fun_prop)
  have hX : MemLp (expanded b wmax ρ) 2 (volume.restrict (Set.Ioc 0 beta)) :=
    memLp_finset_sum _ fun l _ => (hmu l).const_mul (coefs b wmax ρ l)
  have hG : MemLp (greens κ wmax ρ) 2 (volume.restrict (Set.Ioc 0 beta)) := by
    have := hD.add hX
    refine (congrArg (fun f => MemLp f 2 (volume.restrict (Set.Ioc 0 beta))) (funext fun tau => ?_)).mp this
    simp
  have e1 : ∑ l, (coefs b wmax ρ l : ℂ) *
      (∫ tau in (0 : ℝ)..beta, Complex.exp (Complex.I * Real.pi * n * tau / beta) * (fn b.u l tau : ℂ)) =
      ∫ tau in (0 : ℝ)..beta, Complex.exp (Complex.I * Real.pi * n * tau / beta) * (expanded b wmax ρ tau : ℂ) := by
    simp only [← intervalIntegral.integral_const_mul]
    rw [← intervalIntegral.integral_finset_sum fun l _ => (lift _ (hmu l)).const_mul _]
    refine intervalIntegral.integral_congr fun (tau : ℝ) _ => ?_
    simp only [expanded]
    push_cast
    rw [Finset.mul_sum]
    exact Finset.sum_congr rfl fun l _ => by ring
  rw [e1, ← intervalIntegral.integral_sub (lift _ hG) (lift _ hX)]
  have hnorm : ∀ tau : ℝ, ‖Complex.exp (Complex.I * Real.pi * n * tau / beta)‖ = 1 := by
    intro tau
    rw [show Complex.I * Real.pi * n * tau / beta = ((Real.pi * n * tau / beta : ℝ) : ℂ) * Complex.I by push_cast; ring]
    exact Complex.norm_exp_ofReal_mul_I _
  have h1 := intervalIntegral.norm_integral_le_of_norm_le_const (a := 0) (b := beta)
    (C := E * ∫ omega in (-wmax)..wmax, |ρ omega|)
    (f := fun tau : ℝ => Complex.exp (Complex.I * Real.pi * n * tau / beta) * (greens κ wmax ρ tau : ℂ) -
      Complex.exp (Complex.I * Real.pi * n * tau / beta) * (expanded b wmax ρ tau : ℂ)) (by
    intro tau ht
    rw [Set.uIoc_of_le hb.le] at ht
    rw [← mul_sub, norm_mul, hnorm, one_mul, ← Complex.ofReal_sub, Complex.norm_real, Real.norm_eq_abs]
    exact C87_greens hw hv hvd hκ hE hρ ht.1.le ht.2)
  rw [sub_zero, abs_of_pos hb] at h1
  exact h1.trans_eq (mul_comm _ _)

/-! ## A basis from scratch -/

theorem make_kernel {fp : Fp} {compute : KernelInfo → Option ℝ → PyM SveResult} {stat : String} {beta wmax : ℝ}
    {eps : Option ℝ} {maxSize : Option ℕ} {kernel : Option KernelInfo} {ki : KernelInfo}
    (hk : getKernel stat (fp.mul beta wmax) kernel = .ok ki) {b : Basis}
    (hb : make fp compute stat beta wmax eps maxSize kernel none = .ok b) : b.kernel = ki := by
  unfold make FiniteTemp.init at hb
  split at hb
  · cases hb
  split at hb
  · cases hb
  obtain ⟨k, h1, hb⟩ := bind_ok hb
  cases hk.symm.trans h1
  obtain ⟨_, -, hb⟩ := bind_ok hb
  obtain ⟨_, -, hb⟩ := bind_ok hb
  obtain ⟨_, -, hb⟩ := bind_ok hb
  obtain ⟨_, -, hb⟩ := bind_ok hb
  obtain ⟨_, -, hb⟩ := bind_ok hb
  obtain ⟨_, -, hb⟩ := bind_ok hb
  obtain ⟨_, -, hb⟩ := bind_ok hb
  obtain ⟨_, -, hb⟩ := bind_ok hb
  obtain ⟨_, -, hb⟩ := bind_ok hb
  obtain ⟨_, -, hb⟩ := bind_ok hb
  cases hb
  rfl

/-- The error at a point: the omitted singular values, the backward error `δ` of the decompositions, both amplified by the
shortness of the segments, and the discretisation. -/
noncomputable def pointError (lam δ : ℝ) (n : ℕ) (omitted : List ℝ) (tail : ℝ) : ℝ :=
  n ^ 2 * (16 * lam ^ (5 / 8 : ℝ) * Real.sqrt (omitted.map (· ^ 2)).sum + 23 * lam ^ (9 / 8 : ℝ) * |δ|) + tail

theorem pointTail_values : (1 + 10 : ℝ) * ((1 / 8) ^ 10 + 10 * (2 * (3 / 25) ^ 10 / (1 - 3 / 25))) ≤ 2e-7 ∧
    (1 + 16 : ℝ) * ((1 / 8) ^ 16 + 16 * (2 * (3 / 25) ^ 16 / (1 - 3 / 25))) ≤ 2e-12 := by
  constructor <;> norm_num

theorem amplification {lam a b c d : ℝ} (hl : 0 < lam) (h1 : 1 / (16 * lam) ≤ b - a) (h2 : 1 / (8 * lam ^ (5 / 4 : ℝ)) ≤ d - c) :
    1 / Real.sqrt ((b - a) * (d - c)) ≤ Real.sqrt 128 * lam ^ (9 / 8 : ℝ) := by
  have h3 : (0 : ℝ) < 1 / (16 * lam) := by positivity
  have h4 : (0 : ℝ) < 1 / (8 * lam ^ (5 / 4 : ℝ)) := by positivity
  have h5 := mul_le_mul h1 h2 h4.le (h3.le.trans h1)
  have e : 1 / (16 * lam) * (1 / (8 * lam ^ (5 / 4 : ℝ))) = (1 / (Real.sqrt 128 * lam ^ (9 / 8 : ℝ))) ^ 2 := by
    have e1 : (lam ^ (9 / 8 : ℝ)) ^ 2 = lam * lam ^ (5 / 4 : ℝ) := by
      rw [← Real.rpow_natCast, ← Real.rpow_mul hl.le]
      nth_rewrite 2 [← Real.rpow_one lam]
      rw [← Real.rpow_add hl]
      norm_num
    rw [div_pow, mul_pow, e1, Real.sq_sqrt (by norm_num)]
    field_simp
    norm_num
  rw [e] at h5
  have h6 := Real.sqrt_le_sqrt h5
  rw [Real.sqrt_sq (by positivity)] at h6
  have h7 := one_div_le_one_div_of_le (by positivity) h6
  rwa [one_div_one_div] at h7

theorem omitted_norm {size : ℕ} {beta wmax : ℝ} (hbeta : 0 < beta) (hw : 0 < wmax) {r : SveResult} {d omitted : List ℝ}
    (c1 : size ≤ r.n) (c2 : omitted = ((List.ofFn r.s).drop size ++ d).map (Real.sqrt (beta / 2 * wmax) * ·)) :
    Real.sqrt (omitted.map (· ^ 2)).sum = Real.sqrt (beta / 2 * wmax) *
      Real.sqrt ((d.map (· ^ 2)).sum + ∑ l with size ≤ l.1, r.s l ^ 2) := by
  rw [← Real.sqrt_mul (by positivity)]
  congr 1
  rw [c2, List.map_map, List.map_append, List.sum_append, add_comm, mul_add]
  have hf : ((fun t : ℝ => t ^ 2) ∘ fun t => Real.sqrt (beta / 2 * wmax) * t) = fun t => beta / 2 * wmax * t ^ 2 :=
    funext fun t => by
      show (Real.sqrt (beta / 2 * wmax) * t) ^ 2 = _
      rw [mul_pow, Real.sq_sqrt (by positivity)]
  rw [hf, List.sum_map_mul_left, List.sum_map_mul_left]
  congr 2
  rw [sum_drop c1, Finset.sum_filter]
  refine Finset.sum_congr rfl fun l _ => ?_
  by_cases hl : l.1 < size
  · rw [if_pos hl, if_neg (by omega)]
  · rw [if_neg hl, if_pos (by omega)]

theorem amplified {beta wmax δ R O D : ℝ} {n : ℕ} (hbeta : 0 < beta) (hw : 0 < wmax)
    (hO : O = Real.sqrt (beta / 2 * wmax) * R) (hR : 0 ≤ R)
    (hD : 1 / D ≤ Real.sqrt 128 * (beta * wmax) ^ (9 / 8 : ℝ)) :
    n ^ 2 / D * (R + 2 * |δ|) ≤
      n ^ 2 * (16 * (beta * wmax) ^ (5 / 8 : ℝ) * O + 23 * (beta * wmax) ^ (9 / 8 : ℝ) * |δ|) := by
  have hl : 0 < beta * wmax := by positivity
  have e0 : (beta * wmax) ^ (9 / 8 : ℝ) = (beta * wmax) ^ (5 / 8 : ℝ) * Real.sqrt (beta * wmax) := by
    rw [Real.sqrt_eq_rpow, ← Real.rpow_add hl]
    norm_num
  have e1 : Real.sqrt 128 * Real.sqrt (beta * wmax) = 16 * Real.sqrt (beta / 2 * wmax) := by
    have : (16 : ℝ) = Real.sqrt (16 ^ 2) := (Real.sqrt_sq (by norm_num)).symm
    rw [this, ← Real.sqrt_mul (by norm_num), ← Real.sqrt_mul (by norm_num)]
    congr 1
    ring
  have e2 : Real.sqrt 128 * (beta * wmax) ^ (9 / 8 : ℝ) * R = 16 * (beta * wmax) ^ (5 / 8 : ℝ) * O := by
    rw [hO, e0]
    linear_combination (beta * wmax) ^ (5 / 8 : ℝ) * R * e1
  have h1 : Real.sqrt 128 ≤ 23 / 2 := Real.sqrt_le_iff.2 ⟨by norm_num, by norm_num⟩
  have h2 : 0 ≤ (beta * wmax) ^ (9 / 8 : ℝ) * (2 * |δ|) := by positivity
  have h3 := mul_le_mul_of_nonneg_right h1 h2
  have h4 := mul_le_mul_of_nonneg_right hD (show 0 ≤ R + 2 * |δ| by positivity)
  rw [show (n : ℝ) ^ 2 / D * (R + 2 * |δ|) = n ^ 2 * (1 / D * (R + 2 * |δ|)) by ring]
  refine mul_le_mul_of_nonneg_left (h4.trans ?_) (by positivity)
  linarith

/-- The outcome `res` of constructing a basis, as `AccurateNear` of C85, with errors at every point: unless the sign of a
singular function could not be fixed, `res` is a basis with the given kernel, the expansion deviates from the kernel at most
by `pointError` at every point of the domain, that of a Green's function at most by this times the integral of `|ρ|` at
every imaginary time, and with `uhat` at most by `beta` times as much on the Matsubara axis. -/
def AccurateAt (k κ : ℝ → ℝ → ℝ) (δ : ℝ) (n : ℕ) (ki : KernelInfo) (stat : String) (beta wmax fac e t tail : ℝ)
    (maxSize : Option ℕ) (res : PyM Basis) : Prop :=
  ∃ (mx my : ℕ) (x wx : Fin mx → ℝ) (y wy : Fin my → ℝ) (fe fo : Factors ℝ mx my),
    NodesOn 0 n x wx ∧ NodesOn 0 n y wy ∧
    NearSvd (nodeMatrix (fun x y => k x y + k x (-y)) x wx y wy) fe δ ∧
    NearSvd (nodeMatrix (fun x y => k x y - k x (-y)) x wx y wy) fo δ ∧
    (res = .error .nanResult ∨
    ∃ (b : Basis) (omitted : List ℝ), res = .ok b ∧ IsBasis b stat beta wmax e ∧ b.kernel = ki ∧ (∀ m ∈ maxSize, b.size ≤ m) ∧
      (List.ofFn b.s ++ omitted).Perm ((List.ofFn fe.s ++ List.ofFn fo.s).map (fac * ·)) ∧
      (∀ q ∈ omitted, ∀ l, q ≤ b.s l) ∧
      (maxSize = none → ∀ q ∈ omitted, ∀ l0 : Fin b.size, l0.1 = 0 → q ≤ max e t * b.s l0) ∧
      (∀ tau omega, 0 ≤ tau → tau ≤ beta → -wmax ≤ omega → omega ≤ wmax → ∃ ut vw, b.u.call tau = .ok ut ∧
        b.v.call omega = .ok vw ∧
        |∑ l, b.s l * ut l * vw l - κ tau omega| ≤ pointError (beta * wmax) δ n omitted tail) ∧
      ∀ ρ, SquareIntegrable wmax ρ →
        (∀ tau, 0 ≤ tau → tau ≤ beta → ∃ ut, b.u.call tau = .ok ut ∧
          |greens κ wmax ρ tau - ∑ l, coefs b wmax ρ l * ut l| ≤
            pointError (beta * wmax) δ n omitted tail * ∫ omega in (-wmax)..wmax, |ρ omega|) ∧
        ∀ m : ℤ, |(m : ℝ)| < 40 * (beta * wmax) → (stat = "F" ↔ Odd m) → ∃ f, b.uhat.call m = .ok f ∧
          ‖(∫ tau in (0 : ℝ)..beta, Complex.exp (Complex.I * Real.pi * m * tau / beta) * (greens κ wmax ρ tau : ℂ)) -
            ∑ l, (coefs b wmax ρ l : ℂ) * f l‖ ≤
          beta * (pointError (beta * wmax) δ n omitted tail * ∫ omega in (-wmax)..wmax, |ρ omega|))

/-- `FiniteTempBasis` for the logistic kernel, at every point, in terms of how well the hinted segments resolve it. -/
theorem basis_at (env : Env) (fp : Fp) (stat : String) (hstat : stat = "F" ∨ stat = "B") (beta wmax : ℝ)
    (hbeta : 0 < beta) (hw : 0 < wmax) (hfp : fp.mul beta wmax = beta * wmax) (hl1 : 10 ≤ beta * wmax)
    (eps : Option ℝ) (maxSize : Option ℕ)
    (hmax : maxSize ≠ some 0) (c : Choice) (hc : safeEps env.platform (eps.map .real) none none = .ok c)
    (he : eps.getD c.safeEps ≤ 1) (t : ℝ) (ht : CutoffIs env.platform c.dtype none t) (h0 : 0 ≤ t) (h1 : t < 1)
    (hsvd : SvdOk env.libs (decide (c.dtype = .ddouble)) c.strategy) (δ : ℝ)
    (hex : SvdNear env.libs (decide (c.dtype = .ddouble)) c.strategy δ) (hsort : ∀ k, ArgsortOk (env.argsort k))
    (rule : Rule) (hleg : env.legendre (if 1e-8 ≤ c.safeEps then 10 else 16) = .ok rule) (hr : GoodRule rule)
    (hrn : rule.x.length = if 1e-8 ≤ c.safeEps then 10 else 16) {εx εy tail : ℝ}
    (hnear : KernelNear ((logisticKern (beta * wmax)).full.hints c.safeEps) (if 1e-8 ≤ c.safeEps then 10 else 16)
      (logisticK (beta * wmax)) εx εy)
    (htail : (1 + ((if (1e-8 : ℝ) ≤ c.safeEps then 10 else 16 : ℕ) : ℝ)) *
      (εx + ((if (1e-8 : ℝ) ≤ c.safeEps then 10 else 16 : ℕ) : ℝ) * εy) ≤ tail) :
    AccurateAt (logisticK (beta * wmax)) (fun tau omega => Real.exp (-tau * omega) / (1 + Real.exp (-beta * omega))) δ
      (if 1e-8 ≤ c.safeEps then 10 else 16) (logisticInfo (beta * wmax)) stat beta wmax (Real.sqrt (beta / 2 * wmax))
      (eps.getD c.safeEps) t tail maxSize
      (make fp (computeOf env) stat beta wmax eps maxSize none none) := by
  have hκ : ∀ x y, |x| ≤ 1 → |y| ≤ 1 → (fun tau omega => Real.exp (-tau * omega) / (1 + Real.exp (-beta * omega)))
      (beta / 2 * (x + 1)) (wmax * y) = wmax ^ (-(logisticInfo (beta * wmax)).ypower) * logisticK (beta * wmax) x y := by
    intro x y _ _
    show _ = wmax ^ (-(0 : ℤ)) * _
    rw [neg_zero, zpow_zero, one_mul]
    unfold logisticK
    simp only
    congr 2
    · ring
    · congr 1; ring
  have hki : getKernel stat (fp.mul beta wmax) none = .ok (logisticInfo (beta * wmax)) := by
    rw [hfp]; rcases hstat with rfl | rfl <;> rfl
  obtain ⟨mx, my, x, wx, y, wy, hint, fe, we, fo, wo, a1, a2, a3, a4, hres⟩ :=
    scratch_full env fp stat hstat beta wmax hbeta hw eps maxSize hmax none (logisticInfo (beta * wmax))
      hki rfl _ (if_pos rfl) (logisticK (beta * wmax))
      (fun tau omega => Real.exp (-tau * omega) / (1 + Real.exp (-beta * omega))) hκ c hc he
      (C65_logistic _ _ (by positivity)) t ht h0 h1 hsvd hsort _ rfl rule hleg hr hrn
  have hyp : wmax ^ (-(logisticInfo (beta * wmax)).ypower) = 1 := by
    show wmax ^ (-(0 : ℤ)) = 1
    rw [neg_zero, zpow_zero]
  have e1 := hex _ _ _ _ _ _ (a1.pos one_pos) (a2.pos one_pos) a3
  have e2 := hex _ _ _ _ _ _ (a1.pos one_pos) (a2.pos one_pos) a4
  refine ⟨mx, my, x, wx, y, wy, fe, fo, a1, a2, e1, e2, ?_⟩
  rcases hres with ⟨h, -⟩ | ⟨b, omitted, b1, b2, b3, b4, b5, b6, b7, b8, b9, r, d, c1, c2, c3, c4, c5⟩
  · exact Or.inl h
  · rw [hyp] at c2 c3 b4
    simp only [mul_one] at c2 b4
    have hn10 : 10 ≤ if (1e-8 : ℝ) ≤ c.safeEps then 10 else 16 := by split <;> norm_num
    obtain ⟨k', s1, s2, s3, s4⟩ := exists_near a1 a2 (C65_logistic (beta * wmax) c.safeEps (by positivity)).symm
      (fun x y hx _ => logisticK_le_one (by positivity) x y hx) e1 e2
    have hnode := c5 k' s1 s2 s3
    obtain ⟨gx, gy, g1, g2, Sx, Sy, -⟩ := id c4
    have hcont : Continuous fun z : ℝ × ℝ => Real.exp (-z.1 * z.2) / (1 + Real.exp (-beta * z.2)) :=
      Continuous.div (by fun_prop) (by fun_prop) fun z => by positivity
    set n : ℕ := if (1e-8 : ℝ) ≤ c.safeEps then 10 else 16 with hn
    set R := Real.sqrt ((d.map (· ^ 2)).sum + ∑ l with b.size ≤ l.1, r.s l ^ 2) with hR
    have hS : Real.sqrt (omitted.map (· ^ 2)).sum = Real.sqrt (beta / 2 * wmax) * R := omitted_norm hbeta hw c1 c2
    have hE : ∀ tau omega, 0 ≤ tau → tau ≤ beta → -wmax ≤ omega → omega ≤ wmax →
        |basisError (fun tau omega => Real.exp (-tau * omega) / (1 + Real.exp (-beta * omega))) b tau omega| ≤
          pointError (beta * wmax) δ n omitted tail := by
      intro tau omega q1 q2 q3 q4
      refine basisError_le hbeta hw b8 b9 b2.udom b2.vdom hcont Sx.toGridFromTo Sy.toGridFromTo ?_ q1 q2 q3 q4
      intro p1 p2 p3 p4 x' y' t1 t2 t3 t4 t5 t6
      have m1 := grid_mem Sx.toGridFromTo (adjacent_mem t1).1
      have m2 := grid_mem Sx.toGridFromTo (adjacent_mem t1).2
      have m3 := grid_mem Sy.toGridFromTo (adjacent_mem t2).1
      have m4 := grid_mem Sy.toGridFromTo (adjacent_mem t2).2
      rw [c3 x' y' (abs_le.2 ⟨by linarith, by linarith⟩) (abs_le.2 ⟨by linarith, by linarith⟩), one_mul]
      have key := C87_point (show 1 ≤ n by omega) c4 hnode hnear s4 b.size g1 g2 t1 t2 t3 t4 t5 t6
      rw [mul_one, ← hR] at key
      refine key.trans (add_le_add ?_ htail)
      have amp := amplification (lam := beta * wmax) (by positivity) (logistic_minX hl1 g1 _ _ t1) (logistic_minY hl1 g2 _ _ t2)
      exact amplified hbeta hw hS (Real.sqrt_nonneg _) amp
    refine Or.inr ⟨b, omitted, b1, b2, make_kernel hki b1, b3, b4, b5, b6, fun tau omega q1 q2 q3 q4 => ?_, fun ρ hρ => ?_⟩
    · obtain ⟨i, hi⟩ := b8.exists_inSeg (x := tau) (by rw [b2.udom.1]; exact q1) (by rw [b2.udom.2]; exact q2)
      obtain ⟨j, hj⟩ := b9.exists_inSeg (x := omega) (by rw [b2.vdom.1]; exact q3) (by rw [b2.vdom.2]; exact q4)
      refine ⟨_, _, PPoly.call_eq b8 hi, PPoly.call_eq b9 hj, ?_⟩
      have := hE tau omega q1 q2 q3 q4
      rw [abs_sub_comm]
      unfold basisError at this
      simpa only [fn, PPoly.call_eq b8 hi, PPoly.call_eq b9 hj] using this
    · refine ⟨fun tau q1 q2 => ?_, fun m hm hp => ⟨_, b2.uhat m hm hp, C87_matsubara hbeta hw b8 b9 b2.udom b2.vdom hcont hE hρ m⟩⟩
      obtain ⟨i, hi⟩ := b8.exists_inSeg (x := tau) (by rw [b2.udom.1]; exact q1) (by rw [b2.udom.2]; exact q2)
      refine ⟨_, PPoly.call_eq b8 hi, ?_⟩
      have := C87_greens hw b9 b2.vdom hcont hE hρ q1 q2
      unfold expanded at this
      simpa only [fn, PPoly.call_eq b8 hi] using this

/-- `FiniteTempBasis` for the logistic kernel, at every point. -/
theorem C87_basis (env : Env) (fp : Fp) (stat : String) (hstat : stat = "F" ∨ stat = "B") (beta wmax : ℝ)
    (hbeta : 0 < beta) (hw : 0 < wmax) (hfp : fp.mul beta wmax = beta * wmax) (hl1 : 10 ≤ beta * wmax)
    (hl2 : beta * wmax ≤ 10 ^ 6) (eps : Option ℝ) (maxSize : Option ℕ)
    (hmax : maxSize ≠ some 0) (c : Choice) (hc : safeEps env.platform (eps.map .real) none none = .ok c)
    (he : eps.getD c.safeEps ≤ 1) (t : ℝ) (ht : CutoffIs env.platform c.dtype none t) (h0 : 0 ≤ t) (h1 : t < 1)
    (hsvd : SvdOk env.libs (decide (c.dtype = .ddouble)) c.strategy) (δ : ℝ)
    (hex : SvdNear env.libs (decide (c.dtype = .ddouble)) c.strategy δ) (hsort : ∀ k, ArgsortOk (env.argsort k))
    (rule : Rule) (hleg : env.legendre (if 1e-8 ≤ c.safeEps then 10 else 16) = .ok rule) (hr : GoodRule rule)
    (hrn : rule.x.length = if 1e-8 ≤ c.safeEps then 10 else 16) :
    AccurateAt (logisticK (beta * wmax)) (fun tau omega => Real.exp (-tau * omega) / (1 + Real.exp (-beta * omega))) δ
      (if 1e-8 ≤ c.safeEps then 10 else 16) (logisticInfo (beta * wmax)) stat beta wmax (Real.sqrt (beta / 2 * wmax))
      (eps.getD c.safeEps) t (if 1e-8 ≤ c.safeEps then 2e-7 else 2e-12) maxSize
      (make fp (computeOf env) stat beta wmax eps maxSize none none) :=
  basis_at env fp stat hstat beta wmax hbeta hw hfp hl1 eps maxSize hmax c hc he t ht h0 h1 hsvd δ hex hsort rule hleg hr hrn
    (C83_hints hl1 hl2 c.safeEps (by split <;> norm_num)) (by
      split
      · exact_mod_cast pointTail_values.1
      · exact_mod_cast pointTail_values.2)

/-- With a basis as above, for any poles within the bandwidth: `to_IR` of the DLR preserves the function of imaginary time up to
the error of the basis times the sum of the absolute values of the coefficients; and coefficients in the DLR represent a
Green's function as well as `to_IR` maps them to its coefficients in the IR, up to the error of the basis. -/
theorem C87_dlr {k : ℝ → ℝ → ℝ} {δ : ℝ} {n : ℕ} {ki : KernelInfo} {stat : String} {beta wmax fac e t tail : ℝ} (hbeta : 0 < beta)
    {maxSize : Option ℕ} {res : PyM Basis} (hres : AccurateAt k
      (fun tau omega => Real.exp (-tau * omega) / (1 + Real.exp (-beta * omega))) δ n ki stat beta wmax fac e t tail maxSize res)
    {libs : Svd.Libs ℝ} (hl : LibsOk libs) {isLogistic : KernelInfo → Bool} (hk : isLogistic ki = true) {dflt : PyM (List ℝ)}
    {poles : List ℝ} (hne : poles ≠ []) (hin : ∀ w ∈ poles, -wmax ≤ w ∧ w ≤ wmax) :
    res = .error .nanResult ∨ ∃ (b : Basis) (omitted : List ℝ), res = .ok b ∧
      (∀ q ∈ omitted, ∀ l, q ≤ b.s l) ∧
      (maxSize = none → ∀ q ∈ omitted, ∀ l0 : Fin b.size, l0.1 = 0 → q ≤ max e t * b.s l0) ∧
      ∃ d w, Dlr.init libs isLogistic dflt b (some poles) = .ok (d, w) ∧ ∃ T : (Fin poles.length → ℂ) → Fin b.size → ℂ,
      (∀ (g : NdArray ℂ) (axis : ℤ) (k : ℕ), ValidAxis axis g.ndim k → g.shape[k]? = some poles.length →
        ∃ r, d.toIR g (some axis) = .ok r ∧ AppliedAlong T k g r) ∧
      ∀ (g : Fin poles.length → ℂ) (tau : ℝ), 0 ≤ tau → tau ≤ beta → ∃ ut, b.u.call tau = .ok ut ∧
        ‖∑ i, g i * (poleTau beta (poles.get i) tau : ℝ) - ∑ l, T g l * (ut l : ℝ)‖ ≤
          pointError (beta * wmax) δ n omitted tail * ∑ i, ‖g i‖ ∧
        ∀ ρ, SquareIntegrable wmax ρ →
          ‖(greens (fun tau omega => Real.exp (-tau * omega) / (1 + Real.exp (-beta * omega))) wmax ρ tau : ℂ) -
            ∑ i, g i * (poleTau beta (poles.get i) tau : ℝ)‖ ≤
          pointError (beta * wmax) δ n omitted tail * ((∫ omega in (-wmax)..wmax, |ρ omega|) + ∑ i, ‖g i‖) +
            ‖∑ l, ((coefs b wmax ρ l : ℂ) - T g l) * (ut l : ℝ)‖ := by
  obtain ⟨mx, my, x, wx, y, wy, fe, fo, -, -, -, -, h | ⟨b, omitted, h1, h2, h3, -, -, h5, h6, h7, h8⟩⟩ := hres
  · exact Or.inl h
  refine Or.inr ⟨b, omitted, h1, h5, h6, ?_⟩
  have hex : Expands b (pointError (beta * wmax) δ n omitted tail) := by
    unfold Expands
    rw [h2.beta_eq, h2.wmax_eq]
    exact h7
  obtain ⟨d, w, i1, -, -, T, i2, i3⟩ := C51_to_IR hl (isLogistic := isLogistic) (dflt := dflt) h2.size_pos (by rw [h2.beta_eq]; exact hbeta)
    (by rw [h3]; exact hk) (Or.inl rfl) hne (by rw [h2.wmax_eq]; exact hin) hex
  rw [h2.beta_eq] at i3
  refine ⟨d, w, i1, T, i2, fun g tau q1 q2 => ?_⟩
  obtain ⟨ut, u1, -⟩ := (h8 (fun _ => 0) MemLp.zero').1 tau q1 q2
  have hT := i3 g tau ut q1 q2 u1
  refine ⟨ut, u1, hT, fun ρ hρ => ?_⟩
  obtain ⟨ut', u2, hG⟩ := (h8 ρ hρ).1 tau q1 q2
  obtain rfl : ut' = ut := Except.ok.inj (u2.symm.trans u1)
  rw [← Real.norm_eq_abs, ← Complex.norm_real] at hG
  push_cast at hG
  set G : ℂ := (greens (fun tau omega => Real.exp (-tau * omega) / (1 + Real.exp (-beta * omega))) wmax ρ tau : ℂ)
  set A := ∑ l, (coefs b wmax ρ l : ℂ) * (ut' l : ℂ) with hA
  set B := ∑ l, T g l * (ut' l : ℂ) with hB
  set P := ∑ i, g i * ((poleTau beta (poles.get i) tau : ℝ) : ℂ)
  have e1 : ∑ l, ((coefs b wmax ρ l : ℂ) - T g l) * (ut' l : ℂ) = A - B := by
    rw [hA, hB, ← Finset.sum_sub_distrib]
    exact Finset.sum_congr rfl fun l _ => sub_mul _ _ _
  rw [e1]
  have e2 : G - P = (G - A) + (A - B) - (P - B) := by ring
  rw [e2]
  have n1 := norm_sub_le ((G - A) + (A - B)) (P - B)
  have n2 := norm_add_le (G - A) (A - B)
  rw [mul_add]
  linarith

/-- For example `beta = 20`, `wmax = 5`, `eps = 10⁻⁶` and a backward error of `10⁻¹²`. -/
example : ∃ env c, safeEps env.platform (some (.real 1e-6)) none none = .ok c ∧
    AccurateAt (logisticK (20 * 5)) (fun tau omega => Real.exp (-tau * omega) / (1 + Real.exp (-20 * omega))) 1e-12
      (if 1e-8 ≤ c.safeEps then 10 else 16) (logisticInfo (20 * 5)) "F" 20 5 (Real.sqrt (20 / 2 * 5)) 1e-6 (2 * 2 ^ (-52 : ℤ))
      (if 1e-8 ≤ c.safeEps then 2e-7 else 2e-12) none (make Fp.exact (computeOf env) "F" 20 5 (some 1e-6) none none none) := by
  obtain ⟨env, c, rule, h1, h2, h3, h4, h5, h6, h7, h8⟩ :=
    inexact_env (show (0 : ℝ) ≤ 1e-12 by norm_num) (by norm_num) true
  exact ⟨env, c, h1, C87_basis env Fp.exact "F" (Or.inl rfl) 20 5 (by norm_num) (by norm_num) rfl (by norm_num)
    (by norm_num) (some 1e-6) none (by simp) c h1 (by norm_num) _ h2 (by positivity) (by norm_num) h3 _ h4 h5 rule h6 h7 h8⟩

/-- The hypotheses about the DLR are met, for example by poles at -5, 0 and 1. -/
example : LibsOk (idealLibs true true) ∧ [-5, 0, 1] ≠ ([] : List ℝ) ∧ ∀ w ∈ ([-5, 0, 1] : List ℝ), -5 ≤ w ∧ w ≤ 5 := by
  refine ⟨idealLibs_ok true true, by simp, ?_⟩
  simp only [List.mem_cons, List.not_mem_nil, or_false]
  rintro w (rfl | rfl | rfl) <;> norm_num

end Verif.Props
