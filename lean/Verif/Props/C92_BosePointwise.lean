import Verif.Props.C90_RoundedBose
import Verif.Lemmas.MinSegmentBose
/-!
# C92: accuracy of the expansion at every point for the regularized Bose kernel

C87 for `RegularizedBoseKernel(lambda_)` with any cut-off up to `10¹²`, evaluated exactly or in floating-point arithmetic.
-/

namespace Verif.Props
open Verif Verif.Np Verif.Sve Verif.Gauss Verif.Kernel Verif.Spec Verif.Poly Verif.Svd Verif.FiniteTemp Verif.SveCompute
open MeasureTheory

/-- `AccurateAt` of C87 with any bound `E` on the error, as a function of the omitted singular values: unless the sign of a
singular function could not be fixed, `res` is a basis with the given kernel, the expansion deviates from the kernel at most
by `E` at every point of the domain, that of a Green's function at most by this times the integral of `|ρ|` at every
imaginary time, and with `uhat` at most by `beta` times as much on the Matsubara axis. -/
def AccurateWithin (k κ : ℝ → ℝ → ℝ) (δ : ℝ) (n : ℕ) (ki : KernelInfo) (stat : String) (beta wmax fac e t : ℝ)
    (E : List ℝ → ℝ) (maxSize : Option ℕ) (res : PyM Basis) : Prop :=
  ∃ (mx my : ℕ) (x wx : Fin mx → ℝ) (y wy : Fin my → ℝ) (fe fo : Factors ℝ mx my),
    NodesOn 0 n x wx ∧ NodesOn 0 n y wy ∧
    NearSvd (nodeMatrix (fun x y => k x y + k x (-y)) x wx y wy) fe δ ∧
    NearSvd (nodeMatrix (fun x y => k x y - k x (-y)) x wx y wy) fo δ ∧
    (res = .error .nanResult ∨
    ∃ (b : Basis) (omitted : List ℝ), res = .ok b ∧ IsBasis b stat beta wmax e ∧ b.kernel = ki ∧ (∀ m ∈ maxSize, b.size ≤ m) ∧
      (List.ofFn b.s ++ omitted).Perm ((List.ofFn fe.s ++ List.ofFn fo.s).map (fac * ·)) ∧
      (∀ q ∈ omitted, ∀ l, q ≤ b.s l) ∧
      (maxSize = none → ∀ q ∈ omitted, ∀ l0 : Fin b.size, l0.1 = 0 → q ≤ max e t * b.s l0) ∧
      (∀ tau omega, 0 ≤ tau → tau ≤ beta → -wmax ≤ omega → omega ≤ wmax → ∃ ut vw, b.u.call tau = .ok ut ∧
        b.v.call omega = .ok vw ∧
        |∑ l, b.s l * ut l * vw l - κ tau omega| ≤ E omitted) ∧
      ∀ ρ, SquareIntegrable wmax ρ →
        (∀ tau, 0 ≤ tau → tau ≤ beta → ∃ ut, b.u.call tau = .ok ut ∧
          |greens κ wmax ρ tau - ∑ l, coefs b wmax ρ l * ut l| ≤
            E omitted * ∫ omega in (-wmax)..wmax, |ρ omega|) ∧
        ∀ m : ℤ, |(m : ℝ)| < 40 * (beta * wmax) → (stat = "F" ↔ Odd m) → ∃ f, b.uhat.call m = .ok f ∧
          ‖(∫ tau in (0 : ℝ)..beta, Complex.exp (Complex.I * Real.pi * m * tau / beta) * (greens κ wmax ρ tau : ℂ)) -
            ∑ l, (coefs b wmax ρ l : ℂ) * f l‖ ≤
          beta * (E omitted * ∫ omega in (-wmax)..wmax, |ρ omega|))

theorem AccurateAt.within {k κ : ℝ → ℝ → ℝ} {δ : ℝ} {n : ℕ} {ki : KernelInfo} {stat : String} {beta wmax fac e t tail : ℝ}
    {maxSize : Option ℕ} {res : PyM Basis} (h : AccurateAt k κ δ n ki stat beta wmax fac e t tail maxSize res) :
    AccurateWithin k κ δ n ki stat beta wmax fac e t (fun omitted => pointError (beta * wmax) δ n omitted tail) maxSize res := h

/-- The error at a point: the omitted singular values and an error `e` on the nodes, both amplified by the shortness of the
segments, and the discretisation, in units of `1 + 1 / (beta * wmax)`. -/
noncomputable def bosePointError (beta wmax e : ℝ) (n : ℕ) (tail : ℝ) (omitted : List ℝ) : ℝ :=
  26 * n ^ 2 * max (beta * wmax) 10 ^ (3 / 2 : ℝ) *
      (Real.sqrt (omitted.map (· ^ 2)).sum / Real.sqrt (beta / 2 * wmax) + e / wmax) +
    (1 + 1 / (beta * wmax)) * tail / wmax

theorem bosePoint_tail {lam : ℝ} (hl : 0 < lam) :
    (1 + 10 : ℝ) * ((1 + 2 / lam) * (1 / 8) ^ 10 + 10 * ((4 + 4 / lam) * (1 / 8) ^ 10 / (1 - 1 / 8))) ≤ (1 + 1 / lam) * 5e-7 ∧
    (1 + 16 : ℝ) * ((1 + 2 / lam) * (1 / 8) ^ 16 + 16 * ((4 + 4 / lam) * (1 / 8) ^ 16 / (1 - 1 / 8))) ≤ (1 + 1 / lam) * 4.6e-12 := by
  have h : 0 < 1 / lam := by positivity
  rw [show 2 / lam = 2 * (1 / lam) by ring, show 4 / lam = 4 * (1 / lam) by ring]
  generalize 1 / lam = q at h
  constructor <;> norm_num <;> linarith

theorem bose_amplification {L a b c d : ℝ} (hl : 0 < L) (h1 : 1 / (14 * L ^ (4 / 3 : ℝ)) ≤ b - a)
    (h2 : 1 / (45 * L ^ (5 / 3 : ℝ)) ≤ d - c) : 1 / Real.sqrt ((b - a) * (d - c)) ≤ 26 * L ^ (3 / 2 : ℝ) := by
  have h3 : (0 : ℝ) < 1 / (14 * L ^ (4 / 3 : ℝ)) := by positivity
  have h4 : (0 : ℝ) < 1 / (45 * L ^ (5 / 3 : ℝ)) := by positivity
  have h5 := mul_le_mul h1 h2 h4.le (h3.le.trans h1)
  have e1 : (L ^ (3 / 2 : ℝ)) ^ 2 = L ^ (4 / 3 : ℝ) * L ^ (5 / 3 : ℝ) := by
    rw [← Real.rpow_natCast, ← Real.rpow_mul hl.le, ← Real.rpow_add hl]
    norm_num
  have e : (1 / (26 * L ^ (3 / 2 : ℝ))) ^ 2 ≤ 1 / (14 * L ^ (4 / 3 : ℝ)) * (1 / (45 * L ^ (5 / 3 : ℝ))) := by
    rw [div_pow, mul_pow, e1, div_mul_div_comm, one_pow, one_mul]
    refine one_div_le_one_div_of_le (by positivity) ?_
    have : 0 < L ^ (4 / 3 : ℝ) * L ^ (5 / 3 : ℝ) := by positivity
    nlinarith
  have h6 := Real.sqrt_le_sqrt (e.trans h5)
  rw [Real.sqrt_sq (by positivity)] at h6
  have h7 := one_div_le_one_div_of_le (by positivity) h6
  rwa [one_div_one_div] at h7

theorem omitted_fac {size : ℕ} {s : ℝ} (hs : 0 ≤ s) {r : SveResult} {d omitted : List ℝ}
    (c1 : size ≤ r.n) (c2 : omitted = ((List.ofFn r.s).drop size ++ d).map (s * ·)) :
    Real.sqrt (omitted.map (· ^ 2)).sum = s * Real.sqrt ((d.map (· ^ 2)).sum + ∑ l with size ≤ l.1, r.s l ^ 2) := by
  conv_rhs => rw [← Real.sqrt_sq hs, ← Real.sqrt_mul (sq_nonneg _)]
  congr 1
  rw [c2, List.map_map, List.map_append, List.sum_append, add_comm, mul_add]
  rw [show ((fun t : ℝ => t ^ 2) ∘ fun t => s * t) = fun t => s ^ 2 * t ^ 2 from funext fun t => mul_pow _ _ _,
    List.sum_map_mul_left, List.sum_map_mul_left]
  congr 2
  rw [sum_drop c1, Finset.sum_filter]
  refine Finset.sum_congr rfl fun l _ => ?_
  by_cases hl : l.1 < size
  · rw [if_pos hl, if_neg (by omega)]
  · rw [if_neg hl, if_pos (by omega)]

/-- `FiniteTempBasis` for a kernel object `K` with the hints of the regularized Bose kernel whose values deviate from it by at
most `ε`. -/
theorem bose_at (env : Env) (sve : KernelInfo → Option ℝ → PyM SveResult) (fp : Fp) (stat : String)
    (hstat : stat = "F" ∨ stat = "B") (beta wmax : ℝ)
    (hbeta : 0 < beta) (hw : 0 < wmax) (hfp : fp.mul beta wmax = beta * wmax) (h12 : beta * wmax ≤ 10 ^ 12)
    (eps : Option ℝ) (maxSize : Option ℕ)
    (hmax : maxSize ≠ some 0) (c : Choice) (hc : safeEps env.platform (eps.map .real) none none = .ok c)
    (he : eps.getD c.safeEps ≤ 1) (t : ℝ) (ht : CutoffIs env.platform c.dtype none t) (h0 : 0 ≤ t) (h1 : t < 1)
    (hsvd : SvdOk env.libs (decide (c.dtype = .ddouble)) c.strategy) (δ : ℝ)
    (hex : SvdNear env.libs (decide (c.dtype = .ddouble)) c.strategy δ) (hsort : ∀ k, ArgsortOk (env.argsort k))
    (rule : Rule) (hleg : env.legendre (if 1e-8 ≤ c.safeEps then 10 else 16) = .ok rule) (hr : GoodRule rule)
    (hrn : rule.x.length = if 1e-8 ≤ c.safeEps then 10 else 16)
    (K : Kern) (hcomp : sve (boseInfo (beta * wmax)) eps = SveCompute.compute env K (eps.map .real) none none none none none none)
    (hhints : K.full.hints c.safeEps = boseHints (beta * wmax) c.safeEps) (k₁ : ℝ → ℝ → ℝ)
    (hK : DescribesHalf K k₁ c.safeEps (if 1e-8 ≤ c.safeEps then 10 else 16)) (ε : ℝ)
    (hε : ∀ x y, |x| ≤ 1 → |y| ≤ 1 → |k₁ x y - boseLim (beta * wmax) x y| ≤ ε) :
    AccurateWithin k₁ (bosePhys beta wmax) δ (if 1e-8 ≤ c.safeEps then 10 else 16)
      (boseInfo (beta * wmax)) stat beta wmax (Real.sqrt (beta / 2 * wmax) / wmax) (eps.getD c.safeEps) t
      (bosePointError beta wmax (2 * (1 + 1 / (beta * wmax) + ε) * |δ| + 2 * ε) (if 1e-8 ≤ c.safeEps then 10 else 16)
        (if 1e-8 ≤ c.safeEps then 5e-7 else 4.6e-12)) maxSize
      (make fp sve stat beta wmax eps maxSize (some (boseInfo (beta * wmax))) none) := by
  have hl : 0 < beta * wmax := by positivity
  have hx : ∀ x : ℝ, 2 * (beta / 2 * (x + 1)) / beta - 1 = x := fun x => by field_simp; ring
  have hy : ∀ y : ℝ, wmax * y / wmax = y := fun y => by field_simp
  have hki : getKernel stat (fp.mul beta wmax) (some (boseInfo (beta * wmax))) = .ok (boseInfo (beta * wmax)) := by
    rw [hfp]
    have h3 : |beta * wmax - beta * wmax| ≤ 4e-16 * |beta * wmax| := by rw [sub_self, abs_zero]; positivity
    rcases hstat with rfl | rfl
    · show (if |beta * wmax - beta * wmax| ≤ 4e-16 * |beta * wmax| then _ else _) = _
      rw [if_pos h3]
    · show (if |beta * wmax - beta * wmax| ≤ 4e-16 * |beta * wmax| then _ else _) = _
      rw [if_pos h3]
  obtain ⟨mx, my, x, wx, y, wy, hint, fe, we, fo, wo, a1, a2, a3, a4, hres⟩ :=
    scratch_gen env sve fp stat hstat beta wmax hbeta hw eps maxSize hmax (some (boseInfo (beta * wmax)))
      (boseInfo (beta * wmax)) hki rfl K hcomp (boseLim (beta * wmax)) k₁ (bosePhys beta wmax) (boseLim_symm _)
      (fun x y _ _ => by
        show _ = wmax ^ (-(1 : ℤ)) * _
        rw [zpow_neg_one, bosePhys_eq hbeta hw, hx, hy])
      c hc he hK t ht h0 h1 hsvd hsort _ rfl rule hleg hr hrn
  have hyp : wmax ^ (-(boseInfo (beta * wmax)).ypower) = wmax⁻¹ := by
    show wmax ^ (-(1 : ℤ)) = _
    rw [zpow_neg_one]
  have e1 := hex _ _ _ _ _ _ (a1.pos one_pos) (a2.pos one_pos) a3
  have e2 := hex _ _ _ _ _ _ (a1.pos one_pos) (a2.pos one_pos) a4
  refine ⟨mx, my, x, wx, y, wy, fe, fo, a1, a2, e1, e2, ?_⟩
  rcases hres with ⟨h, -⟩ | ⟨b, omitted, b1, b2, b3, b4, b5, b6, b7, b8, b9, r, d, c1, c2, c3, c4, c5⟩
  · exact Or.inl h
  · rw [hyp] at c2 c3 b4
    have hn10 : 10 ≤ if (1e-8 : ℝ) ≤ c.safeEps then 10 else 16 := by split <;> norm_num
    obtain ⟨k', s1, s2, s3, s4⟩ := exists_near_of a1 a2 hK.symm (fun x y hx hy => by
        rw [abs_of_pos (boseLim_le hl hx hy).1]
        exact (boseLim_le hl hx hy).2) hε e1 e2
    have hε0 : 0 ≤ ε := (abs_nonneg _).trans (hε 0 0 (by simp) (by simp))
    have hnode := c5 k' s1 s2 s3
    have hnear := C86_hints hl h12 c.safeEps hn10
    change KernelNear (boseHints (beta * wmax) c.safeEps) _ _ _ _ at hnear
    rw [← hhints] at hnear
    obtain ⟨gx, gy, g1, g2, Sx, Sy, -⟩ := id c4
    have g1' : Kernel.boseSegX (beta * wmax) = .ok gx := by rw [hhints] at g1; exact g1
    have g2' : Kernel.boseSegY (beta * wmax) = .ok gy := by rw [hhints] at g2; exact g2
    have hcont : Continuous fun z : ℝ × ℝ => bosePhys beta wmax z.1 z.2 := by
      simp only [bosePhys_eq hbeta hw]
      exact continuous_const.mul ((bose_continuous hl).comp (f := fun z : ℝ × ℝ => (2 * z.1 / beta - 1, z.2 / wmax)) (by fun_prop))
    have htail : (1 + ((if (1e-8 : ℝ) ≤ c.safeEps then 10 else 16 : ℕ) : ℝ)) *
        ((1 + 2 / (beta * wmax)) * (1 / 8) ^ (if (1e-8 : ℝ) ≤ c.safeEps then 10 else 16) +
          ((if (1e-8 : ℝ) ≤ c.safeEps then 10 else 16 : ℕ) : ℝ) *
            ((4 + 4 / (beta * wmax)) * (1 / 8) ^ (if (1e-8 : ℝ) ≤ c.safeEps then 10 else 16) / (1 - 1 / 8))) ≤
        (1 + 1 / (beta * wmax)) * if (1e-8 : ℝ) ≤ c.safeEps then 5e-7 else 4.6e-12 := by
      split
      · exact_mod_cast (bosePoint_tail hl).1
      · exact_mod_cast (bosePoint_tail hl).2
    set n : ℕ := if (1e-8 : ℝ) ≤ c.safeEps then 10 else 16 with hn
    set T : ℝ := if (1e-8 : ℝ) ≤ c.safeEps then 5e-7 else 4.6e-12 with hT
    set R := Real.sqrt ((d.map (· ^ 2)).sum + ∑ l with b.size ≤ l.1, r.s l ^ 2) with hR
    set e := 2 * (1 + 1 / (beta * wmax) + ε) * |δ| + 2 * ε with he'
    have he0 : 0 ≤ e := by positivity
    have hsq : 0 < Real.sqrt (beta / 2 * wmax) := Real.sqrt_pos.2 (by positivity)
    have hS : Real.sqrt (omitted.map (· ^ 2)).sum = Real.sqrt (beta / 2 * wmax) * wmax⁻¹ * R :=
      omitted_fac (by positivity) c1 c2
    have hS' : Real.sqrt (omitted.map (· ^ 2)).sum / Real.sqrt (beta / 2 * wmax) = wmax⁻¹ * R := by
      rw [hS]
      field_simp
    have hE : ∀ tau omega, 0 ≤ tau → tau ≤ beta → -wmax ≤ omega → omega ≤ wmax →
        |basisError (bosePhys beta wmax) b tau omega| ≤ bosePointError beta wmax e n T omitted := by
      intro tau omega q1 q2 q3 q4
      refine basisError_le hbeta hw b8 b9 b2.udom b2.vdom hcont Sx.toGridFromTo Sy.toGridFromTo ?_ q1 q2 q3 q4
      intro p1 p2 p3 p4 x' y' t1 t2 t3 t4 t5 t6
      have m1 := grid_mem Sx.toGridFromTo (adjacent_mem t1).1
      have m2 := grid_mem Sx.toGridFromTo (adjacent_mem t1).2
      have m3 := grid_mem Sy.toGridFromTo (adjacent_mem t2).1
      have m4 := grid_mem Sy.toGridFromTo (adjacent_mem t2).2
      rw [c3 x' y' (abs_le.2 ⟨by linarith, by linarith⟩) (abs_le.2 ⟨by linarith, by linarith⟩), abs_mul,
        abs_of_pos (inv_pos.2 hw)]
      have key := C87_point (show 1 ≤ n by omega) c4 hnode hnear s4 b.size g1 g2 t1 t2 t3 t4 t5 t6
      rw [← hR] at key
      have amp := bose_amplification (L := max (beta * wmax) 10) (lt_max_of_lt_left hl) (bose_minX hl g1' _ _ t1)
        (bose_minY hl h12 g2' _ _ t2)
      have hRe : 0 ≤ R + e := add_nonneg (Real.sqrt_nonneg _) he0
      have k2 : (n : ℝ) ^ 2 / Real.sqrt ((p2 - p1) * (p4 - p3)) * (R + e) ≤
          26 * n ^ 2 * max (beta * wmax) 10 ^ (3 / 2 : ℝ) * (R + e) := by
        rw [div_eq_mul_one_div]
        have := mul_le_mul_of_nonneg_right (mul_le_mul_of_nonneg_left amp (sq_nonneg (n : ℝ))) hRe
        linarith
      have k3 := mul_le_mul_of_nonneg_left (key.trans (add_le_add k2 htail)) (inv_pos.2 hw).le
      refine k3.trans (le_of_eq ?_)
      unfold bosePointError
      rw [hS']
      ring
    refine Or.inr ⟨b, omitted, b1, b2, make_kernel hki b1, b3, ?_, b5, b6, fun tau omega q1 q2 q3 q4 => ?_, fun ρ hρ => ?_⟩
    · rw [div_eq_mul_inv]
      exact b4
    · obtain ⟨i, hi⟩ := b8.exists_inSeg (x := tau) (by rw [b2.udom.1]; exact q1) (by rw [b2.udom.2]; exact q2)
      obtain ⟨j, hj⟩ := b9.exists_inSeg (x := omega) (by rw [b2.vdom.1]; exact q3) (by rw [b2.vdom.2]; exact q4)
      refine ⟨_, _, PPoly.call_eq b8 hi, PPoly.call_eq b9 hj, ?_⟩
      have := hE tau omega q1 q2 q3 q4
      rw [abs_sub_comm]
      unfold basisError at this
      simpa only [fn, PPoly.call_eq b8 hi, PPoly.call_eq b9 hj] using this
    · refine ⟨fun tau q1 q2 => ?_, fun m hm hp => ⟨_, b2.uhat m hm hp, C87_matsubara hbeta hw b8 b9 b2.udom b2.vdom hcont hE hρ m⟩⟩
      obtain ⟨i, hi⟩ := b8.exists_inSeg (x := tau) (by rw [b2.udom.1]; exact q1) (by rw [b2.udom.2]; exact q2)
      refine ⟨_, PPoly.call_eq b8 hi, ?_⟩
      have := C87_greens hw b9 b2.vdom hcont hE hρ q1 q2
      unfold expanded at this
      simpa only [fn, PPoly.call_eq b8 hi] using this

/-- `FiniteTempBasis(stat, beta, wmax, eps, max_size=…, kernel=RegularizedBoseKernel(beta * wmax))`, at every point. -/
theorem C92_basis (env : Env) (fp : Fp) (stat : String) (hstat : stat = "F" ∨ stat = "B") (beta wmax : ℝ)
    (hbeta : 0 < beta) (hw : 0 < wmax) (hfp : fp.mul beta wmax = beta * wmax) (h12 : beta * wmax ≤ 10 ^ 12)
    (eps : Option ℝ) (maxSize : Option ℕ)
    (hmax : maxSize ≠ some 0) (c : Choice) (hc : safeEps env.platform (eps.map .real) none none = .ok c)
    (he : eps.getD c.safeEps ≤ 1) (t : ℝ) (ht : CutoffIs env.platform c.dtype none t) (h0 : 0 ≤ t) (h1 : t < 1)
    (hsvd : SvdOk env.libs (decide (c.dtype = .ddouble)) c.strategy) (δ : ℝ)
    (hex : SvdNear env.libs (decide (c.dtype = .ddouble)) c.strategy δ) (hsort : ∀ k, ArgsortOk (env.argsort k))
    (rule : Rule) (hleg : env.legendre (if 1e-8 ≤ c.safeEps then 10 else 16) = .ok rule) (hr : GoodRule rule)
    (hrn : rule.x.length = if 1e-8 ≤ c.safeEps then 10 else 16) :
    ∃ k, IsBose (beta * wmax) k ∧ AccurateWithin k (bosePhys beta wmax) δ (if 1e-8 ≤ c.safeEps then 10 else 16)
      (boseInfo (beta * wmax)) stat beta wmax (Real.sqrt (beta / 2 * wmax) / wmax) (eps.getD c.safeEps) t
      (bosePointError beta wmax (2 * (1 + 1 / (beta * wmax) + 1e-200 * (1 + 1 / (beta * wmax))) * |δ| + 2 * (1e-200 * (1 + 1 / (beta * wmax)))) (if 1e-8 ≤ c.safeEps then 10 else 16)
        (if 1e-8 ≤ c.safeEps then 5e-7 else 4.6e-12)) maxSize
      (make fp (computeOf env) stat beta wmax eps maxSize (some (boseInfo (beta * wmax))) none) := by
  have hl : 0 < beta * wmax := by positivity
  obtain ⟨k, hk, hd⟩ := C65_bose (beta * wmax) c.safeEps hl
  exact ⟨k, hk, bose_at env (computeOf env) fp stat hstat beta wmax hbeta hw hfp h12 eps maxSize hmax c hc he t ht h0 h1 hsvd δ hex
    hsort rule hleg hr hrn (boseKern (beta * wmax)) (by
      show SveCompute.compute env (if (1 : ℤ) = 0 then logisticKern (beta * wmax) else boseKern (beta * wmax))
        (eps.map .real) none none none none none none = _
      rw [if_neg (by decide)]) rfl k (hd.inside _) _ fun x y h2 h3 => by
        rw [abs_sub_comm]
        exact bose_code hl hk x y h2 h3⟩

/-- The same with the kernel evaluated in floating-point arithmetic. -/
theorem C92_rounded {A : Arith} {u eta : ℝ} (hA : A.Ok u eta) (env : Env) (fp : Fp) (stat : String)
    (hstat : stat = "F" ∨ stat = "B") (beta wmax : ℝ)
    (hbeta : 0 < beta) (hw : 0 < wmax) (hfp : fp.mul beta wmax = beta * wmax) (h12 : beta * wmax ≤ 10 ^ 12)
    (hsm : 64 * (1 + beta * wmax) * (u + eta) ≤ 1) (hu0 : 1e-199 ≤ u) (heu : eta ≤ 1e-240 * u) (hu4 : u ≤ 1e-4)
    (he4 : 10000 * (1 + beta * wmax) ^ 3 * eta ≤ Real.exp (-(beta * wmax / 722)))
    (eps : Option ℝ) (maxSize : Option ℕ)
    (hmax : maxSize ≠ some 0) (c : Choice) (hc : safeEps env.platform (eps.map .real) none none = .ok c)
    (he : eps.getD c.safeEps ≤ 1) (t : ℝ) (ht : CutoffIs env.platform c.dtype none t) (h0 : 0 ≤ t) (h1 : t < 1)
    (hsvd : SvdOk env.libs (decide (c.dtype = .ddouble)) c.strategy) (δ : ℝ)
    (hex : SvdNear env.libs (decide (c.dtype = .ddouble)) c.strategy δ) (hsort : ∀ k, ArgsortOk (env.argsort k))
    (rule : Rule) (hleg : env.legendre (if 1e-8 ≤ c.safeEps then 10 else 16) = .ok rule) (hr : GoodRule rule)
    (hrn : rule.x.length = if 1e-8 ≤ c.safeEps then 10 else 16) :
    ∃ k₁, (∀ x y, |x| ≤ 1 → |y| ≤ 1 → |k₁ x y - boseLim (beta * wmax) x y| ≤ boseError u eta (beta * wmax)) ∧
    AccurateWithin k₁ (bosePhys beta wmax) δ (if 1e-8 ≤ c.safeEps then 10 else 16)
      (boseInfo (beta * wmax)) stat beta wmax (Real.sqrt (beta / 2 * wmax) / wmax) (eps.getD c.safeEps) t
      (bosePointError beta wmax (2 * (1 + 1 / (beta * wmax) + boseError u eta (beta * wmax)) * |δ| + 2 * boseError u eta (beta * wmax)) (if 1e-8 ≤ c.safeEps then 10 else 16)
        (if 1e-8 ≤ c.safeEps then 5e-7 else 4.6e-12)) maxSize
      (make fp (computeOfFl A env) stat beta wmax eps maxSize (some (boseInfo (beta * wmax))) none) := by
  have hl : 0 < beta * wmax := by positivity
  obtain ⟨k₁, hk, hε⟩ := C90_values hA hl hsm hu0 heu (cutoff_underflow hA.hu hA.heta h12 heu) hu4 he4 c.safeEps
    (n := if 1e-8 ≤ c.safeEps then 10 else 16) (by split <;> norm_num)
  exact ⟨k₁, hε, bose_at env (computeOfFl A env) fp stat hstat beta wmax hbeta hw hfp h12 eps maxSize hmax c hc he t ht h0 h1 hsvd δ
    hex hsort rule hleg hr hrn (boseKernFl A (beta * wmax)) (by
      show SveCompute.compute env (if (1 : ℤ) = 0 then logisticKernFl A (beta * wmax) else boseKernFl A (beta * wmax))
        (eps.map .real) none none none none none none = _
      rw [if_neg (by decide)]) rfl k₁ hk _ hε⟩

/-- The hypotheses are met, for example by `beta = 20`, `wmax = 5`, `eps = 10⁻⁶` and libraries with an error of `10⁻¹²`. -/
example : ∃ env c k, safeEps env.platform (some (.real 1e-6)) none none = .ok c ∧ IsBose (20 * 5) k ∧
    AccurateWithin k (bosePhys 20 5) 1e-12 (if 1e-8 ≤ c.safeEps then 10 else 16) (boseInfo (20 * 5)) "B" 20 5
      (Real.sqrt (20 / 2 * 5) / 5) 1e-6 (2 * 2 ^ (-52 : ℤ))
      (bosePointError 20 5 (2 * (1 + 1 / (20 * 5) + 1e-200 * (1 + 1 / (20 * 5))) * |1e-12| + 2 * (1e-200 * (1 + 1 / (20 * 5))))
        (if 1e-8 ≤ c.safeEps then 10 else 16) (if 1e-8 ≤ c.safeEps then 5e-7 else 4.6e-12)) none
      (make Fp.exact (computeOf env) "B" 20 5 (some 1e-6) none (some (boseInfo (20 * 5))) none) := by
  obtain ⟨env, c, rule, h1, h2, h3, h4, h5, h6, h7, h8⟩ :=
    inexact_env (show (0 : ℝ) ≤ 1e-12 by norm_num) (by norm_num) true
  obtain ⟨k, hk, h9⟩ := C92_basis env Fp.exact "B" (Or.inr rfl) 20 5 (by norm_num) (by norm_num) rfl (by norm_num)
    (some 1e-6) none (by simp) c h1 (by norm_num) _ h2 (by positivity) (by norm_num) h3 _ h4 h5 rule h6 h7 h8
  exact ⟨env, c, k, h1, hk, h9⟩

/-- For the rounded kernel, for example by `beta = 20`, `wmax = 500` and an arithmetic that rounds with `u = 10⁻¹⁶`. -/
example : ∃ env c k₁, safeEps env.platform (some (.real 1e-6)) none none = .ok c ∧
    AccurateWithin k₁ (bosePhys 20 500) 1e-12 (if 1e-8 ≤ c.safeEps then 10 else 16) (boseInfo (20 * 500)) "B" 20 500
      (Real.sqrt (20 / 2 * 500) / 500) 1e-6 (2 * 2 ^ (-52 : ℤ))
      (bosePointError 20 500 (2 * (1 + 1 / (20 * 500) + boseError 1e-16 (1e-130 * 1e-130) (20 * 500)) * |1e-12| +
        2 * boseError 1e-16 (1e-130 * 1e-130) (20 * 500))
        (if 1e-8 ≤ c.safeEps then 10 else 16) (if 1e-8 ≤ c.safeEps then 5e-7 else 4.6e-12)) none
      (make Fp.exact (computeOfFl (absorbing 1e-16) env) "B" 20 500 (some 1e-6) none (some (boseInfo (20 * 500))) none) := by
  obtain ⟨env, c, rule, h1, h2, h3, h4, h5, h6, h7, h8⟩ :=
    inexact_env (show (0 : ℝ) ≤ 1e-12 by norm_num) (by norm_num) true
  obtain ⟨k₁, -, h9⟩ := C92_rounded (absorbing_ok (u := 1e-16) (eta := 1e-130 * 1e-130) (by norm_num) (by norm_num)) env Fp.exact
    "B" (Or.inr rfl) 20 500 (by norm_num) (by norm_num) rfl (by norm_num)
    (by norm_num) (by norm_num) (by norm_num) (by norm_num) bose_small_underflow (some 1e-6) none (by simp) c h1 (by norm_num) _
    h2 (by positivity) (by norm_num) h3 _ h4 h5 rule h6 h7 h8
  exact ⟨env, c, k₁, h1, h9⟩

end Verif.Props
