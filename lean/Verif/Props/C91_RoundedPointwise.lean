import Verif.Props.C89_RoundedKernel
/-!
# C91: accuracy at every point with a kernel evaluated in floating-point arithmetic

C87 and C88 with the logistic kernel evaluated in floating-point arithmetic (C89): rounding acts like a backward error of the
decompositions.
-/

namespace Verif.Props
open Verif Verif.Np Verif.Sve Verif.Gauss Verif.Kernel Verif.Spec Verif.Poly Verif.Svd Verif.FiniteTemp Verif.SveCompute
open MeasureTheory

theorem NearSvd.mono {m n : ℕ} {A : Matrix (Fin m) (Fin n) ℝ} {f : Factors ℝ m n} {δ δ' : ℝ} (h : NearSvd A f δ) (hδ : δ ≤ δ') :
    NearSvd A f δ' :=
  ⟨h.near.trans (mul_le_mul_of_nonneg_right hδ (Real.sqrt_nonneg _)), h.u_orth, h.v_orth, h.nonneg, h.anti⟩

/-- `FiniteTempBasis` for a kernel evaluated in floating-point arithmetic, at every point, in terms of how well the hinted
segments resolve it. -/
theorem rounded_at {A : Arith} {u eta : ℝ} (hA : A.Ok u eta) (env : Env) (fp : Fp) (stat : String)
    (hstat : stat = "F" ∨ stat = "B") (beta wmax : ℝ)
    (hbeta : 0 < beta) (hw : 0 < wmax) (hfp : fp.mul beta wmax = beta * wmax) (hl1 : 10 ≤ beta * wmax)
    (hsm : 64 * (1 + beta * wmax) * (u + eta) ≤ 1) (hu4 : u ≤ 1e-4)
    (he4 : 10000 * (1 + beta * wmax) * eta ≤ Real.exp (-(beta * wmax / 722)))
    (eps : Option ℝ) (maxSize : Option ℕ)
    (hmax : maxSize ≠ some 0) (c : Choice) (hc : safeEps env.platform (eps.map .real) none none = .ok c)
    (he : eps.getD c.safeEps ≤ 1) (t : ℝ) (ht : CutoffIs env.platform c.dtype none t) (h0 : 0 ≤ t) (h1 : t < 1)
    (hsvd : SvdOk env.libs (decide (c.dtype = .ddouble)) c.strategy) (δ : ℝ)
    (hex : SvdNear env.libs (decide (c.dtype = .ddouble)) c.strategy δ) (hsort : ∀ k, ArgsortOk (env.argsort k))
    (rule : Rule) (hleg : env.legendre (if 1e-8 ≤ c.safeEps then 10 else 16) = .ok rule) (hr : GoodRule rule)
    (hrn : rule.x.length = if 1e-8 ≤ c.safeEps then 10 else 16) {εx εy tail : ℝ}
    (hnear : KernelNear ((logisticKern (beta * wmax)).full.hints c.safeEps) (if 1e-8 ≤ c.safeEps then 10 else 16)
      (logisticK (beta * wmax)) εx εy)
    (htail : (1 + ((if (1e-8 : ℝ) ≤ c.safeEps then 10 else 16 : ℕ) : ℝ)) *
      (εx + ((if (1e-8 : ℝ) ≤ c.safeEps then 10 else 16 : ℕ) : ℝ) * εy) ≤ tail) :
    ∃ k₁, (∀ x y, |x| ≤ 1 → |y| ≤ 1 → |k₁ x y - logisticK (beta * wmax) x y| ≤ logisticError u eta (beta * wmax)) ∧
    AccurateAt k₁ (fun tau omega => Real.exp (-tau * omega) / (1 + Real.exp (-beta * omega)))
      (|δ| + logisticError u eta (beta * wmax) * (1 + |δ|))
      (if 1e-8 ≤ c.safeEps then 10 else 16) (logisticInfo (beta * wmax)) stat beta wmax (Real.sqrt (beta / 2 * wmax))
      (eps.getD c.safeEps) t tail maxSize
      (make fp (computeOfFl A env) stat beta wmax eps maxSize none none) := by
  have hκ : ∀ x y, |x| ≤ 1 → |y| ≤ 1 → (fun tau omega => Real.exp (-tau * omega) / (1 + Real.exp (-beta * omega)))
      (beta / 2 * (x + 1)) (wmax * y) = wmax ^ (-(logisticInfo (beta * wmax)).ypower) * logisticK (beta * wmax) x y := by
    intro x y _ _
    show _ = wmax ^ (-(0 : ℤ)) * _
    rw [neg_zero, zpow_zero, one_mul]
    unfold logisticK
    simp only
    congr 2
    · ring
    · congr 1; ring
  have hki : getKernel stat (fp.mul beta wmax) none = .ok (logisticInfo (beta * wmax)) := by
    rw [hfp]; rcases hstat with rfl | rfl <;> rfl
  obtain ⟨k₁, hk, hε⟩ := C89_values hA (by positivity : 0 < beta * wmax) hsm hu4 he4 c.safeEps
    (n := if 1e-8 ≤ c.safeEps then 10 else 16) (by split <;> norm_num)
  refine ⟨k₁, hε, ?_⟩
  have hε0 : 0 ≤ logisticError u eta (beta * wmax) := (abs_nonneg _).trans (hε 0 0 (by simp) (by simp))
  set ε := logisticError u eta (beta * wmax) with hεd
  set δ' := |δ| + ε * (1 + |δ|) with hδ'
  have hδε : 0 ≤ ε * (1 + |δ|) := mul_nonneg hε0 (by positivity)
  have hδ0 : 0 ≤ δ' := by have := abs_nonneg δ; linarith
  have hle : δ ≤ δ' := by have := le_abs_self δ; linarith
  obtain ⟨mx, my, x, wx, y, wy, hint, fe, we, fo, wo, a1, a2, a3, a4, hres⟩ :=
    scratch_gen env (computeOfFl A env) fp stat hstat beta wmax hbeta hw eps maxSize hmax none (logisticInfo (beta * wmax))
      hki rfl (logisticKernFl A (beta * wmax)) rfl (logisticK (beta * wmax)) k₁
      (fun tau omega => Real.exp (-tau * omega) / (1 + Real.exp (-beta * omega)))
      (C65_logistic (beta * wmax) c.safeEps (by positivity)).symm hκ c hc he hk t ht h0 h1 hsvd hsort _ rfl rule hleg hr hrn
  have hyp : wmax ^ (-(logisticInfo (beta * wmax)).ypower) = 1 := by
    show wmax ^ (-(0 : ℤ)) = 1
    rw [neg_zero, zpow_zero]
  have e1 := hex _ _ _ _ _ _ (a1.pos one_pos) (a2.pos one_pos) a3
  have e2 := hex _ _ _ _ _ _ (a1.pos one_pos) (a2.pos one_pos) a4
  refine ⟨mx, my, x, wx, y, wy, fe, fo, a1, a2, e1.mono hle, e2.mono hle, ?_⟩
  rcases hres with ⟨h, -⟩ | ⟨b, omitted, b1, b2, b3, b4, b5, b6, b7, b8, b9, r, d, c1, c2, c3, c4, c5⟩
  · exact Or.inl h
  · rw [hyp] at c2 c3 b4
    simp only [mul_one] at c2 b4
    have hn10 : 10 ≤ if (1e-8 : ℝ) ≤ c.safeEps then 10 else 16 := by split <;> norm_num
    obtain ⟨k', s1, s2, s3, s4⟩ := exists_near_of a1 a2 hk.symm
      (fun x y hx _ => logisticK_le_one (by positivity) x y hx) hε e1 e2
    replace s4 := s4.trans (le_of_eq (show 2 * (1 + ε) * |δ| + 2 * ε = 2 * |δ'| by rw [abs_of_nonneg hδ0, hδ']; ring))
    have hnode := c5 k' s1 s2 s3
    obtain ⟨gx, gy, g1, g2, Sx, Sy, -⟩ := id c4
    have hcont : Continuous fun z : ℝ × ℝ => Real.exp (-z.1 * z.2) / (1 + Real.exp (-beta * z.2)) :=
      Continuous.div (by fun_prop) (by fun_prop) fun z => by positivity
    set n : ℕ := if (1e-8 : ℝ) ≤ c.safeEps then 10 else 16 with hn
    set R := Real.sqrt ((d.map (· ^ 2)).sum + ∑ l with b.size ≤ l.1, r.s l ^ 2) with hR
    have hS : Real.sqrt (omitted.map (· ^ 2)).sum = Real.sqrt (beta / 2 * wmax) * R := omitted_norm hbeta hw c1 c2
    have hE : ∀ tau omega, 0 ≤ tau → tau ≤ beta → -wmax ≤ omega → omega ≤ wmax →
        |basisError (fun tau omega => Real.exp (-tau * omega) / (1 + Real.exp (-beta * omega))) b tau omega| ≤
          pointError (beta * wmax) δ' n omitted tail := by
      intro tau omega q1 q2 q3 q4
      refine basisError_le hbeta hw b8 b9 b2.udom b2.vdom hcont Sx.toGridFromTo Sy.toGridFromTo ?_ q1 q2 q3 q4
      intro p1 p2 p3 p4 x' y' t1 t2 t3 t4 t5 t6
      have m1 := grid_mem Sx.toGridFromTo (adjacent_mem t1).1
      have m2 := grid_mem Sx.toGridFromTo (adjacent_mem t1).2
      have m3 := grid_mem Sy.toGridFromTo (adjacent_mem t2).1
      have m4 := grid_mem Sy.toGridFromTo (adjacent_mem t2).2
      rw [c3 x' y' (abs_le.2 ⟨by linarith, by linarith⟩) (abs_le.2 ⟨by linarith, by linarith⟩), one_mul]
      have key := C87_point (show 1 ≤ n by omega) c4 hnode hnear s4 b.size g1 g2 t1 t2 t3 t4 t5 t6
      rw [← hR] at key
      refine key.trans (add_le_add ?_ htail)
      have amp := amplification (lam := beta * wmax) (by positivity) (logistic_minX hl1 g1 _ _ t1) (logistic_minY hl1 g2 _ _ t2)
      exact amplified hbeta hw hS (Real.sqrt_nonneg _) amp
    refine Or.inr ⟨b, omitted, b1, b2, make_kernel hki b1, b3, b4, b5, b6, fun tau omega q1 q2 q3 q4 => ?_, fun ρ hρ => ?_⟩
    · obtain ⟨i, hi⟩ := b8.exists_inSeg (x := tau) (by rw [b2.udom.1]; exact q1) (by rw [b2.udom.2]; exact q2)
      obtain ⟨j, hj⟩ := b9.exists_inSeg (x := omega) (by rw [b2.vdom.1]; exact q3) (by rw [b2.vdom.2]; exact q4)
      refine ⟨_, _, PPoly.call_eq b8 hi, PPoly.call_eq b9 hj, ?_⟩
      have := hE tau omega q1 q2 q3 q4
      rw [abs_sub_comm]
      unfold basisError at this
      simpa only [fn, PPoly.call_eq b8 hi, PPoly.call_eq b9 hj] using this
    · refine ⟨fun tau q1 q2 => ?_, fun m hm hp => ⟨_, b2.uhat m hm hp, C87_matsubara hbeta hw b8 b9 b2.udom b2.vdom hcont hE hρ m⟩⟩
      obtain ⟨i, hi⟩ := b8.exists_inSeg (x := tau) (by rw [b2.udom.1]; exact q1) (by rw [b2.udom.2]; exact q2)
      refine ⟨_, PPoly.call_eq b8 hi, ?_⟩
      have := C87_greens hw b9 b2.vdom hcont hE hρ q1 q2
      unfold expanded at this
      simpa only [fn, PPoly.call_eq b8 hi] using this

/-- `FiniteTempBasis(stat, beta, wmax, eps, max_size)` with the logistic kernel evaluated in floating-point arithmetic, at every
point: rounding acts like a backward error of `74 u` and what underflows. -/
theorem C91_basis {A : Arith} {u eta : ℝ} (hA : A.Ok u eta) (env : Env) (fp : Fp) (stat : String)
    (hstat : stat = "F" ∨ stat = "B") (beta wmax : ℝ)
    (hbeta : 0 < beta) (hw : 0 < wmax) (hfp : fp.mul beta wmax = beta * wmax) (hl1 : 10 ≤ beta * wmax)
    (hl2 : beta * wmax ≤ 10 ^ 6)
    (hsm : 64 * (1 + beta * wmax) * (u + eta) ≤ 1) (hu4 : u ≤ 1e-4)
    (he4 : 10000 * (1 + beta * wmax) * eta ≤ Real.exp (-(beta * wmax / 722)))
    (eps : Option ℝ) (maxSize : Option ℕ)
    (hmax : maxSize ≠ some 0) (c : Choice) (hc : safeEps env.platform (eps.map .real) none none = .ok c)
    (he : eps.getD c.safeEps ≤ 1) (t : ℝ) (ht : CutoffIs env.platform c.dtype none t) (h0 : 0 ≤ t) (h1 : t < 1)
    (hsvd : SvdOk env.libs (decide (c.dtype = .ddouble)) c.strategy) (δ : ℝ)
    (hex : SvdNear env.libs (decide (c.dtype = .ddouble)) c.strategy δ) (hsort : ∀ k, ArgsortOk (env.argsort k))
    (rule : Rule) (hleg : env.legendre (if 1e-8 ≤ c.safeEps then 10 else 16) = .ok rule) (hr : GoodRule rule)
    (hrn : rule.x.length = if 1e-8 ≤ c.safeEps then 10 else 16) :
    ∃ k₁, (∀ x y, |x| ≤ 1 → |y| ≤ 1 → |k₁ x y - logisticK (beta * wmax) x y| ≤ 74 * u + 82 * (1 + beta * wmax) * eta) ∧
    AccurateAt k₁ (fun tau omega => Real.exp (-tau * omega) / (1 + Real.exp (-beta * omega)))
      (|δ| + (74 * u + 82 * (1 + beta * wmax) * eta) * (1 + |δ|))
      (if 1e-8 ≤ c.safeEps then 10 else 16) (logisticInfo (beta * wmax)) stat beta wmax (Real.sqrt (beta / 2 * wmax))
      (eps.getD c.safeEps) t (if 1e-8 ≤ c.safeEps then 2e-7 else 2e-12) maxSize
      (make fp (computeOfFl A env) stat beta wmax eps maxSize none none) :=
  rounded_at hA env fp stat hstat beta wmax hbeta hw hfp hl1 hsm hu4 he4 eps maxSize hmax c hc he t ht h0 h1 hsvd δ hex hsort
    rule hleg hr hrn (C83_hints hl1 hl2 c.safeEps (by split <;> norm_num)) (by
      split
      · exact_mod_cast pointTail_values.1
      · exact_mod_cast pointTail_values.2)

/-- For large cut-offs, in the mean and at every point. -/
theorem C91_large {A : Arith} {u eta : ℝ} (hA : A.Ok u eta) (env : Env) (fp : Fp) {rg : CutoffRange}
    (hrg : rg = range9 ∨ rg = range14) (stat : String) (hstat : stat = "F" ∨ stat = "B") (beta wmax : ℝ)
    (hbeta : 0 < beta) (hw : 0 < wmax) (hfp : fp.mul beta wmax = beta * wmax) (hl1 : 10 ≤ beta * wmax)
    (hl2 : beta * wmax ≤ rg.top)
    (hsm : 64 * (1 + beta * wmax) * (u + eta) ≤ 1) (hu4 : u ≤ 1e-4)
    (he4 : 10000 * (1 + beta * wmax) * eta ≤ Real.exp (-(beta * wmax / 722)))
    (eps : Option ℝ) (maxSize : Option ℕ)
    (hmax : maxSize ≠ some 0) (c : Choice) (hc : safeEps env.platform (eps.map .real) none none = .ok c)
    (he : eps.getD c.safeEps ≤ 1) (t : ℝ) (ht : CutoffIs env.platform c.dtype none t) (h0 : 0 ≤ t) (h1 : t < 1)
    (hsvd : SvdOk env.libs (decide (c.dtype = .ddouble)) c.strategy) (δ : ℝ)
    (hex : SvdNear env.libs (decide (c.dtype = .ddouble)) c.strategy δ) (hsort : ∀ k, ArgsortOk (env.argsort k))
    (rule : Rule) (hleg : env.legendre (if 1e-8 ≤ c.safeEps then 10 else 16) = .ok rule) (hr : GoodRule rule)
    (hrn : rule.x.length = if 1e-8 ≤ c.safeEps then 10 else 16) :
    (∃ k₁, (∀ x y, |x| ≤ 1 → |y| ≤ 1 → |k₁ x y - logisticK (beta * wmax) x y| ≤ logisticError u eta (beta * wmax)) ∧
    AccurateNear k₁ (fun tau omega => Real.exp (-tau * omega) / (1 + Real.exp (-beta * omega))) δ
      (if 1e-8 ≤ c.safeEps then 10 else 16) stat beta wmax (Real.sqrt (beta / 2 * wmax)) (eps.getD c.safeEps) t
      (Real.sqrt (beta / 2 * wmax) * (2 * (1 + logisticError u eta (beta * wmax)) * |δ| +
        2 * logisticError u eta (beta * wmax) + if 1e-8 ≤ c.safeEps then rg.mean10 else rg.mean16)) maxSize
      (make fp (computeOfFl A env) stat beta wmax eps maxSize none none)) ∧
    ∃ k₁, (∀ x y, |x| ≤ 1 → |y| ≤ 1 → |k₁ x y - logisticK (beta * wmax) x y| ≤ logisticError u eta (beta * wmax)) ∧
    AccurateAt k₁ (fun tau omega => Real.exp (-tau * omega) / (1 + Real.exp (-beta * omega)))
      (|δ| + logisticError u eta (beta * wmax) * (1 + |δ|))
      (if 1e-8 ≤ c.safeEps then 10 else 16) (logisticInfo (beta * wmax)) stat beta wmax (Real.sqrt (beta / 2 * wmax))
      (eps.getD c.safeEps) t (if 1e-8 ≤ c.safeEps then rg.point10 else rg.point16) maxSize
      (make fp (computeOfFl A env) stat beta wmax eps maxSize none none) := by
  obtain ⟨θ, hθ, hnear⟩ := C88_hints hrg hl1 hl2 c.safeEps
  have hn := hnear (if (1e-8 : ℝ) ≤ c.safeEps then 10 else 16) (by split <;> norm_num)
  refine ⟨basis_rounded hA env fp stat hstat beta wmax hbeta hw hfp hsm hu4 he4 eps maxSize hmax c hc he t ht h0 h1 hsvd δ hex
      hsort rule hleg hr hrn hn ?_,
    rounded_at hA env fp stat hstat beta wmax hbeta hw hfp hl1 hsm hu4 he4 eps maxSize hmax c hc he t ht h0 h1 hsvd δ hex hsort
      rule hleg hr hrn hn ?_⟩
  · rcases hθ with ⟨rfl, rfl⟩ | ⟨rfl, rfl⟩
    · split
      · exact range9_mean.1
      · exact range9_mean.2
    · split
      · exact range14_mean.1
      · exact range14_mean.2
  · rcases hθ with ⟨rfl, rfl⟩ | ⟨rfl, rfl⟩
    · split
      · exact_mod_cast range9_point.1
      · exact_mod_cast range9_point.2
    · split
      · exact_mod_cast range14_point.1
      · exact_mod_cast range14_point.2

/-- The DLR on top of such a basis: `to_IR` preserves the function of imaginary time up to the error of the basis times the
sum of the absolute values of the coefficients. -/
theorem C91_dlr {A : Arith} {u eta : ℝ} (hA : A.Ok u eta) (env : Env) (fp : Fp) (stat : String)
    (hstat : stat = "F" ∨ stat = "B") (beta wmax : ℝ)
    (hbeta : 0 < beta) (hw : 0 < wmax) (hfp : fp.mul beta wmax = beta * wmax) (hl1 : 10 ≤ beta * wmax)
    (hl2 : beta * wmax ≤ 10 ^ 6)
    (hsm : 64 * (1 + beta * wmax) * (u + eta) ≤ 1) (hu4 : u ≤ 1e-4)
    (he4 : 10000 * (1 + beta * wmax) * eta ≤ Real.exp (-(beta * wmax / 722)))
    (eps : Option ℝ) (maxSize : Option ℕ)
    (hmax : maxSize ≠ some 0) (c : Choice) (hc : safeEps env.platform (eps.map .real) none none = .ok c)
    (he : eps.getD c.safeEps ≤ 1) (t : ℝ) (ht : CutoffIs env.platform c.dtype none t) (h0 : 0 ≤ t) (h1 : t < 1)
    (hsvd : SvdOk env.libs (decide (c.dtype = .ddouble)) c.strategy) (δ : ℝ)
    (hex : SvdNear env.libs (decide (c.dtype = .ddouble)) c.strategy δ) (hsort : ∀ k, ArgsortOk (env.argsort k))
    (rule : Rule) (hleg : env.legendre (if 1e-8 ≤ c.safeEps then 10 else 16) = .ok rule) (hr : GoodRule rule)
    (hrn : rule.x.length = if 1e-8 ≤ c.safeEps then 10 else 16)
    {libs : Svd.Libs ℝ} (hlibs : LibsOk libs) {isLogistic : KernelInfo → Bool} (hk : isLogistic (logisticInfo (beta * wmax)) = true)
    {dflt : PyM (List ℝ)} {poles : List ℝ} (hne : poles ≠ []) (hin : ∀ w ∈ poles, -wmax ≤ w ∧ w ≤ wmax) :
    make fp (computeOfFl A env) stat beta wmax eps maxSize none none = .error .nanResult ∨
    ∃ (b : Basis) (omitted : List ℝ), make fp (computeOfFl A env) stat beta wmax eps maxSize none none = .ok b ∧
      (∀ q ∈ omitted, ∀ l, q ≤ b.s l) ∧
      (maxSize = none → ∀ q ∈ omitted, ∀ l0 : Fin b.size, l0.1 = 0 → q ≤ max (eps.getD c.safeEps) t * b.s l0) ∧
      ∃ d w, Dlr.init libs isLogistic dflt b (some poles) = .ok (d, w) ∧ ∃ T : (Fin poles.length → ℂ) → Fin b.size → ℂ,
      (∀ (g : NdArray ℂ) (axis : ℤ) (k : ℕ), ValidAxis axis g.ndim k → g.shape[k]? = some poles.length →
        ∃ r, d.toIR g (some axis) = .ok r ∧ AppliedAlong T k g r) ∧
      ∀ (g : Fin poles.length → ℂ) (tau : ℝ), 0 ≤ tau → tau ≤ beta → ∃ ut, b.u.call tau = .ok ut ∧
        ‖∑ i, g i * (poleTau beta (poles.get i) tau : ℝ) - ∑ l, T g l * (ut l : ℝ)‖ ≤
          pointError (beta * wmax) (|δ| + (74 * u + 82 * (1 + beta * wmax) * eta) * (1 + |δ|))
            (if 1e-8 ≤ c.safeEps then 10 else 16) omitted (if 1e-8 ≤ c.safeEps then 2e-7 else 2e-12) * ∑ i, ‖g i‖ := by
  obtain ⟨k₁, -, h⟩ := C91_basis hA env fp stat hstat beta wmax hbeta hw hfp hl1 hl2 hsm hu4 he4 eps maxSize hmax c hc he t ht h0
    h1 hsvd δ hex hsort rule hleg hr hrn
  obtain h | ⟨b, omitted, e1, e2, e3, d, w, e4, T, e5, e6⟩ := C87_dlr hbeta h hlibs (dflt := dflt) hk hne hin
  · exact Or.inl h
  · refine Or.inr ⟨b, omitted, e1, e2, e3, d, w, e4, T, e5, fun g tau q1 q2 => ?_⟩
    obtain ⟨ut, e7, e8, -⟩ := e6 g tau q1 q2
    exact ⟨ut, e7, e8⟩

/-- For example `beta = 200`, `wmax = 500`, `eps = 10⁻⁶`, a backward error of `10⁻¹²` and an arithmetic that rounds with
`u = 10⁻¹⁶`. -/
example : ∃ env c k₁, safeEps env.platform (some (.real 1e-6)) none none = .ok c ∧
    AccurateAt k₁ (fun tau omega => Real.exp (-tau * omega) / (1 + Real.exp (-200 * omega)))
      (|1e-12| + (74 * 1e-16 + 82 * (1 + 200 * 500) * 1e-200) * (1 + |1e-12|))
      (if 1e-8 ≤ c.safeEps then 10 else 16) (logisticInfo (200 * 500)) "F" 200 500 (Real.sqrt (200 / 2 * 500)) 1e-6
      (2 * 2 ^ (-52 : ℤ)) (if 1e-8 ≤ c.safeEps then 2e-7 else 2e-12) none
      (make Fp.exact (computeOfFl (absorbing 1e-16) env) "F" 200 500 (some 1e-6) none none none) := by
  obtain ⟨env, c, rule, h1, h2, h3, h4, h5, h6, h7, h8⟩ :=
    inexact_env (show (0 : ℝ) ≤ 1e-12 by norm_num) (by norm_num) true
  obtain ⟨k₁, -, h9⟩ := C91_basis (absorbing_ok (u := 1e-16) (eta := 1e-200) (by norm_num) (by norm_num)) env Fp.exact "F" (Or.inl rfl)
    200 500 (by norm_num) (by norm_num) rfl (by norm_num)
    (by norm_num) (by norm_num) (by norm_num) small_underflow (some 1e-6) none (by simp) c h1 (by norm_num) _ h2
    (by positivity) (by norm_num) h3 _ h4 h5 rule h6 h7 h8
  exact ⟨env, c, k₁, h1, h9⟩

end Verif.Props
