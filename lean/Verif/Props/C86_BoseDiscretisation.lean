import Verif.Props.C85_InexactSvd
import Verif.Lemmas.BoseApprox
import Verif.Lemmas.BoseGrid
/-!
# C86: accuracy of the expansion for the regularized Bose kernel

As C83 – C85, for `RegularizedBoseKernel(lambda_)` with any cut-off up to `10¹²`: the segments hinted by the kernel resolve
it, so the error over the whole square is that of the omitted singular values, of the matrix decompositions and a small
error of the discretisation.  The code replaces the kernel for `|Λ y| < 1e-200`; here the expansion is compared with the
kernel itself, which is continuous with value `1 / Λ` at `y = 0`.
-/

namespace Verif.Props
open Verif Verif.Np Verif.Sve Verif.Gauss Verif.Kernel Verif.Spec Verif.Poly Verif.Svd Verif.FiniteTemp Verif.SveCompute
open MeasureTheory

/-! ## The discretisation -/

/-- The hints of the regularized Bose kernel resolve it. -/
theorem C86_hints {lam : ℝ} (hl : 0 < lam) (h12 : lam ≤ 10 ^ 12) (eps : ℝ) {n : ℕ} (hn : 10 ≤ n) :
    KernelNear ((boseKern lam).full.hints eps) n (boseLim lam) ((1 + 2 / lam) * (1 / 8) ^ n)
      ((4 + 4 / lam) * (1 / 8) ^ n / (1 - 1 / 8)) := by
  obtain ⟨gx, ex, sx, fx⟩ := bose_fineX hl hn
  obtain ⟨gy, ey, sy, fy⟩ := bose_fineY hl h12
  refine ⟨(bose_continuous hl).continuousOn, fun g hg y hy => ?_, fun g hg x hx => ?_⟩
  · cases ex.symm.trans hg
    exact bose_near_x hl (by norm_num) sx.toGridFromTo fx hy
  · cases ey.symm.trans hg
    exact bose_near_y hl (by norm_num) (by norm_num) sy.toGridFromTo fy hx

theorem boseTail_values {lam : ℝ} (hl : 0 < lam) :
    4 * ((1 + 2 / lam) * (1 / 8) ^ 10 + (4 + 4 / lam) * (1 / 8) ^ 10 / (1 - 1 / 8)) ≤ (1 + 1 / lam) * 2.45e-8 ∧
    4 * ((1 + 2 / lam) * (1 / 8) ^ 16 + (4 + 4 / lam) * (1 / 8) ^ 16 / (1 - 1 / 8)) ≤ (1 + 1 / lam) * 9.4e-14 := by
  have h : 0 < 1 / lam := by positivity
  rw [show 2 / lam = 2 * (1 / lam) by ring, show 4 / lam = 4 * (1 / lam) by ring]
  generalize 1 / lam = q at h
  constructor <;> norm_num <;> linarith

/-- What the code evaluates is close to the kernel. -/
theorem bose_code {lam : ℝ} (hl : 0 < lam) {k : ℝ → ℝ → ℝ} (hk : IsBose lam k) (x y : ℝ) (hx : |x| ≤ 1) (hy : |y| ≤ 1) :
    |boseLim lam x y - k x y| ≤ 1e-200 * (1 + 1 / lam) := by
  have h := boseLim_le hl hx hy
  by_cases h0 : y = 0
  · rw [(hk x y hx hy).2.1 h0, boseLim, if_pos h0, sub_self, abs_zero]
    have : 0 < 1 / lam := by positivity
    positivity
  · have h1 := (hk x y hx hy).2.2 h0
    have e : boseLim lam x y = boseK lam x y := if_neg h0
    rw [e] at h ⊢
    rw [abs_sub_comm]
    exact h1.trans (mul_le_mul_of_nonneg_left h.2 (by norm_num))

theorem bose_code_le {lam : ℝ} (hl : 0 < lam) {k : ℝ → ℝ → ℝ} (hk : IsBose lam k) (x y : ℝ) (hx : |x| ≤ 1) (hy : |y| ≤ 1) :
    |k x y| ≤ 1.1 * (1 + 1 / lam) := by
  have h1 := bose_code hl hk x y hx hy
  have h2 := boseLim_le hl hx hy
  have h3 := abs_sub_abs_le_abs_sub (k x y) (boseLim lam x y)
  rw [abs_sub_comm, abs_of_pos h2.1] at h3
  have : 0 < 1 / lam := by positivity
  have h4 : (1e-200 : ℝ) * (1 + 1 / lam) ≤ 0.1 * (1 + 1 / lam) := mul_le_mul_of_nonneg_right (by norm_num) (by positivity)
  linarith

/-- The norm on the nodes of a bounded function. -/
theorem nodes_le {mx my n : ℕ} {x wx : Fin mx → ℝ} {y wy : Fin my → ℝ} (hx : NodesOn 0 n x wx) (hy : NodesOn 0 n y wy)
    {f : ℝ → ℝ → ℝ} {M : ℝ} (hM : ∀ x y, |x| ≤ 1 → |y| ≤ 1 → |f x y| ≤ M) :
    Real.sqrt (∑ i, ∑ j, Sum.elim wx wx i * Sum.elim wy wy j *
      f (Sum.elim x (fun i => -x i) i) (Sum.elim y (fun j => -y j) j) ^ 2) ≤ 2 * M := by
  have hM0 : 0 ≤ M := (abs_nonneg _).trans (hM 0 0 (by simp) (by simp))
  refine Real.sqrt_le_iff.2 ⟨by positivity, ?_⟩
  have hw := weights_sum hx hy
  have hww : ∑ i, ∑ j, Sum.elim wx wx i * Sum.elim wy wy j = 4 := by
    rw [← Finset.sum_mul_sum] at hw ⊢
    rw [Fintype.sum_sum_type, Fintype.sum_sum_type]
    simp only [Sum.elim_inl, Sum.elim_inr]
    linear_combination 4 * hw
  have habs : ∀ {m : ℕ} {z w : Fin m → ℝ}, NodesOn 0 n z w → ∀ i, |Sum.elim z (fun i => -z i) i| ≤ 1 := by
    intro m z w hz i
    rcases i with i | i
    · rw [Sum.elim_inl, abs_of_pos (hz.inside i).1]; exact (hz.inside i).2.le
    · rw [Sum.elim_inr, abs_neg, abs_of_pos (hz.inside i).1]; exact (hz.inside i).2.le
  have hpos : ∀ {m : ℕ} {z w : Fin m → ℝ}, NodesOn 0 n z w → ∀ i, 0 ≤ Sum.elim w w i := by
    intro m z w hz i
    rcases i with i | i <;> exact (hz.wpos i).le
  rw [mul_pow, show (2 : ℝ) ^ 2 = 4 by norm_num, ← hww, Finset.sum_mul]
  refine Finset.sum_le_sum fun i _ => ?_
  rw [Finset.sum_mul]
  refine Finset.sum_le_sum fun j _ => mul_le_mul_of_nonneg_left ?_ (mul_nonneg (hpos hx i) (hpos hy j))
  rw [← sq_abs]
  exact pow_le_pow_left₀ (abs_nonneg _) (hM _ _ (habs hx i) (habs hy j)) 2

/-- The part of the error that is not due to omitted singular values, in units of `1 + 1 / lam`, for an error `δ` of the
decompositions and an accuracy `eps`. -/
noncomputable def boseRest (δ eps : ℝ) : ℝ := 3 * |δ| + if 1e-8 ≤ eps then 2.5e-8 else 1e-13

theorem bose_expansion {lam : ℝ} (hl : 0 < lam) (h12 : lam ≤ 10 ^ 12) {k : ℝ → ℝ → ℝ} (hk : IsBose lam k)
    (hsym : ∀ x y, k (-x) (-y) = k x y) {eps : ℝ} {mx my : ℕ} {x wx : Fin mx → ℝ} {y wy : Fin my → ℝ} {fe fo : Factors ℝ mx my}
    {r : SveResult} {d : List ℝ} {δ : ℝ} (hx : NodesOn 0 (if 1e-8 ≤ eps then 10 else 16) x wx)
    (hy : NodesOn 0 (if 1e-8 ≤ eps then 10 else 16) y wy)
    (he : NearSvd (nodeMatrix (fun x y => k x y + k x (-y)) x wx y wy) fe δ)
    (ho : NearSvd (nodeMatrix (fun x y => k x y - k x (-y)) x wx y wy) fo δ)
    (hR : OnSegments ((boseKern lam).full.hints eps) (if 1e-8 ≤ eps then 10 else 16) r (Sum.elim x fun i => -x i)
      (Sum.elim wx wx) (Sum.elim y fun j => -y j) (Sum.elim wy wy))
    (hN : ∀ k : ℝ → ℝ → ℝ, (∀ x y, k (-x) (-y) = k x y) →
      IsSvdFactors (nodeMatrix (fun x y => k x y + k x (-y)) x wx y wy) fe →
      IsSvdFactors (nodeMatrix (fun x y => k x y - k x (-y)) x wx y wy) fo →
      NodeSve k r (Sum.elim x fun i => -x i) (Sum.elim wx wx) (Sum.elim y fun j => -y j) (Sum.elim wy wy) d) (m : ℕ) :
    squareNorm (resid (boseLim lam) r m) ≤ Real.sqrt ((d.map (· ^ 2)).sum + ∑ l with m ≤ l.1, r.s l ^ 2) +
      (1 + 1 / lam) * boseRest δ eps := by
  have hn10 : 10 ≤ if (1e-8 : ℝ) ≤ eps then 10 else 16 := by split <;> norm_num
  obtain ⟨k', s1, s2, s3, s4⟩ := exists_near hx hy hsym (bose_code_le hl hk) he ho
  have h1 := nodes_le hx hy (f := fun x y => boseLim lam x y - k x y) (bose_code hl hk)
  have hpos : ∀ {m : ℕ} {z w : Fin m → ℝ}, NodesOn 0 (if 1e-8 ≤ eps then 10 else 16) z w → ∀ i, 0 ≤ Sum.elim w w i := by
    intro m z w hz i
    rcases i with i | i <;> exact (hz.wpos i).le
  have h2 := weighted_add_le (w := fun i j => Sum.elim wx wx i * Sum.elim wy wy j)
    (fun i j => mul_nonneg (hpos hx i) (hpos hy j))
    (fun i j => boseLim lam (Sum.elim x (fun i => -x i) i) (Sum.elim y (fun j => -y j) j) -
      k (Sum.elim x (fun i => -x i) i) (Sum.elim y (fun j => -y j) j))
    fun i j => k (Sum.elim x (fun i => -x i) i) (Sum.elim y (fun j => -y j) j) -
      k' (Sum.elim x (fun i => -x i) i) (Sum.elim y (fun j => -y j) j)
  simp only [sub_add_sub_cancel] at h2
  have h3 := expansion_le hR (hN k' s1 s2 s3) (C86_hints hl h12 eps hn10) (h2.trans (add_le_add h1 s4)) m
  refine h3.trans (add_le_add le_rfl ?_)
  have hq : 0 < 1 + 1 / lam := by positivity
  have h4 : 4 * ((1 + 2 / lam) * (1 / 8) ^ (if (1e-8 : ℝ) ≤ eps then 10 else 16) +
      (4 + 4 / lam) * (1 / 8) ^ (if (1e-8 : ℝ) ≤ eps then 10 else 16) / (1 - 1 / 8)) ≤
      (1 + 1 / lam) * if 1e-8 ≤ eps then 2.45e-8 else 9.4e-14 := by
    split
    · exact (boseTail_values hl).1
    · exact (boseTail_values hl).2
  have h5 : 2 * (1e-200 * (1 + 1 / lam)) + 2 * (1.1 * (1 + 1 / lam)) * |δ| +
      ((1 + 1 / lam) * if 1e-8 ≤ eps then 2.45e-8 else 9.4e-14) ≤ (1 + 1 / lam) * boseRest δ eps := by
    have e : 2 * (1e-200 * (1 + 1 / lam)) + 2 * (1.1 * (1 + 1 / lam)) * |δ| +
        ((1 + 1 / lam) * if 1e-8 ≤ eps then 2.45e-8 else 9.4e-14) =
        (1 + 1 / lam) * (2.2 * |δ| + (2e-200 + if 1e-8 ≤ eps then 2.45e-8 else 9.4e-14)) := by ring
    rw [e]
    refine mul_le_mul_of_nonneg_left ?_ hq.le
    unfold boseRest
    have := abs_nonneg δ
    refine add_le_add (by linarith) ?_
    split <;> norm_num
  linarith

/-- `compute(RegularizedBoseKernel(lam), eps, cutoff, n_sv)` with a backward error `δ` of the decompositions (of the even and
odd parts of what the code evaluates). -/
theorem C86_bose (env : Env) (lam : ℝ) (hl : 0 < lam) (h12 : lam ≤ 10 ^ 12) (eps : Option Flt) (cutoff : Option ℝ)
    (nSv : Option ℕ) (work : Option Dtype) (sveStrat : Option Strat) (hstrat : sveStrat = none ∨ sveStrat = some .centrosymm)
    (svdStrat : Option String) (c : Choice) (hc : safeEps env.platform eps work svdStrat = .ok c)
    (t : ℝ) (ht : CutoffIs env.platform c.dtype cutoff t) (h0 : 0 ≤ t) (h1 : t ≤ 1)
    (hsvd : SvdOk env.libs (decide (c.dtype = .ddouble)) c.strategy) (δ : ℝ)
    (hex : SvdNear env.libs (decide (c.dtype = .ddouble)) c.strategy δ) (hsort : ∀ k, ArgsortOk (env.argsort k))
    (rule : Rule) (hleg : env.legendre (if 1e-8 ≤ c.safeEps then 10 else 16) = .ok rule)
    (hr : GoodRule rule) (hrn : rule.x.length = if 1e-8 ≤ c.safeEps then 10 else 16) (r : SveResult)
    (hok : SveCompute.compute env (boseKern lam) eps cutoff (nSv.map fun n : ℕ => PyNum.int n) none work sveStrat svdStrat
      = .ok r) :
    ∃ (k : ℝ → ℝ → ℝ) (mx my : ℕ) (x wx : Fin mx → ℝ) (y wy : Fin my → ℝ) (fe fo : Factors ℝ mx my) (d : List ℝ),
      IsBose lam k ∧
      NearSvd (nodeMatrix (fun x y => k x y + k x (-y)) x wx y wy) fe δ ∧
      NearSvd (nodeMatrix (fun x y => k x y - k x (-y)) x wx y wy) fo δ ∧
      Selected (List.ofFn fe.s ++ List.ofFn fo.s) t nSv (List.ofFn r.s) d ∧
      ∀ m, squareNorm (resid (boseLim lam) r m) ≤
        Real.sqrt ((d.map (· ^ 2)).sum + ∑ l with m ≤ l.1, r.s l ^ 2) + (1 + 1 / lam) * boseRest δ c.safeEps := by
  obtain ⟨k, hk, hd⟩ := C65_bose lam c.safeEps hl
  obtain ⟨mx, my, x, wx, y, wy, hint, fe, we, fo, wo, a1, a2, a3, a4, a5, ⟨h, -⟩ | ⟨r', d, b1, b2, b3, b4, b5, b6, b7, b8⟩⟩ :=
    compute_centrosymm env (boseKern lam) k eps cutoff nSv none work sveStrat hstrat svdStrat c hc (hd.inside _) t ht h0 h1 hsvd
      hsort _ rfl rule hleg hr hrn
  · rw [hok] at h
    cases h
  · obtain rfl : r = r' := Except.ok.inj (hok.symm.trans b1)
    have e1 := hex _ _ _ _ _ _ (a1.pos one_pos) (a2.pos one_pos) a4
    have e2 := hex _ _ _ _ _ _ (a1.pos one_pos) (a2.pos one_pos) a5
    exact ⟨k, mx, my, x, wx, y, wy, fe, fo, d, hk, e1, e2, b5, fun m => bose_expansion hl h12 hk hd.symm a1 a2 e1 e2 b7 b8 m⟩

/-! ## A basis from scratch -/

/-- The kernel in physical units that the basis expands, at `omega = 0` its limit. -/
noncomputable def bosePhys (beta wmax tau omega : ℝ) : ℝ :=
  if omega = 0 then 1 / (beta * wmax ^ 2) else omega * Real.exp (-tau * omega) / (1 - Real.exp (-beta * omega)) / wmax ^ 2

theorem bosePhys_eq {beta wmax : ℝ} (hb : 0 < beta) (hw : 0 < wmax) (tau omega : ℝ) :
    bosePhys beta wmax tau omega = wmax⁻¹ * boseLim (beta * wmax) (2 * tau / beta - 1) (omega / wmax) := by
  unfold bosePhys boseLim
  by_cases h : omega = 0
  · rw [if_pos h, if_pos (by rw [h, zero_div])]
    field_simp
  · rw [if_neg h, if_neg (div_ne_zero h hw.ne')]
    unfold boseK
    rw [show -(beta * wmax) * (omega / wmax) * (2 * tau / beta - 1 + 1) / 2 = -tau * omega by field_simp; ring,
      show -(beta * wmax) * (omega / wmax) = -beta * omega by field_simp]
    field_simp

/-- From the expansion of the dimensionless kernel to the basis, with a factor. -/
theorem region_le_fac {b : Basis} {beta wmax : ℝ} (hbeta : 0 < beta) (hw : 0 < wmax) {f : ℝ} (hf : 0 ≤ f) {k κ : ℝ → ℝ → ℝ}
    {r : SveResult} {d omitted : List ℝ} (c1 : b.size ≤ r.n)
    (c2 : omitted = ((List.ofFn r.s).drop b.size ++ d).map (Real.sqrt (beta / 2 * wmax) * f * ·))
    (c3 : ∀ x y, |x| ≤ 1 → |y| ≤ 1 → basisError κ b (beta / 2 * (x + 1)) (wmax * y) = f * resid k r b.size x y) {tail : ℝ}
    (hexp : squareNorm (resid k r b.size) ≤ Real.sqrt ((d.map (· ^ 2)).sum + ∑ l with b.size ≤ l.1, r.s l ^ 2) + tail) :
    regionNorm beta wmax (basisError κ b) ≤
      Real.sqrt (omitted.map (· ^ 2)).sum + Real.sqrt (beta / 2 * wmax) * f * tail := by
  rw [region_eq hbeta hw hf c3]
  have hS : Real.sqrt (omitted.map (· ^ 2)).sum = Real.sqrt (beta / 2 * wmax) * f *
      Real.sqrt ((d.map (· ^ 2)).sum + ∑ l with b.size ≤ l.1, r.s l ^ 2) := by
    rw [← Real.sqrt_sq (show 0 ≤ Real.sqrt (beta / 2 * wmax) * f by positivity), ← Real.sqrt_mul (sq_nonneg _)]
    congr 1
    rw [c2, List.map_map, List.map_append, List.sum_append, add_comm, mul_add]
    rw [show ((fun t : ℝ => t ^ 2) ∘ fun t => Real.sqrt (beta / 2 * wmax) * f * t) =
      fun t => (Real.sqrt (beta / 2 * wmax) * f) ^ 2 * t ^ 2 from funext fun t => mul_pow _ _ _,
      List.sum_map_mul_left, List.sum_map_mul_left]
    congr 2
    rw [sum_drop c1, Finset.sum_filter]
    refine Finset.sum_congr rfl fun l _ => ?_
    by_cases hl : l.1 < b.size
    · rw [if_pos hl, if_neg (by omega)]
    · rw [if_neg hl, if_pos (by omega)]
  rw [hS, ← mul_add]
  exact mul_le_mul_of_nonneg_left hexp (by positivity)

/-- `FiniteTempBasis(stat, beta, wmax, eps, max_size=…, kernel=RegularizedBoseKernel(beta * wmax))`. -/
theorem C86_basis (env : Env) (fp : Fp) (stat : String) (hstat : stat = "F" ∨ stat = "B") (beta wmax : ℝ)
    (hbeta : 0 < beta) (hw : 0 < wmax) (hfp : fp.mul beta wmax = beta * wmax) (h12 : beta * wmax ≤ 10 ^ 12)
    (eps : Option ℝ) (maxSize : Option ℕ)
    (hmax : maxSize ≠ some 0) (c : Choice) (hc : safeEps env.platform (eps.map .real) none none = .ok c)
    (he : eps.getD c.safeEps ≤ 1) (t : ℝ) (ht : CutoffIs env.platform c.dtype none t) (h0 : 0 ≤ t) (h1 : t < 1)
    (hsvd : SvdOk env.libs (decide (c.dtype = .ddouble)) c.strategy) (δ : ℝ)
    (hex : SvdNear env.libs (decide (c.dtype = .ddouble)) c.strategy δ) (hsort : ∀ k, ArgsortOk (env.argsort k))
    (rule : Rule) (hleg : env.legendre (if 1e-8 ≤ c.safeEps then 10 else 16) = .ok rule) (hr : GoodRule rule)
    (hrn : rule.x.length = if 1e-8 ≤ c.safeEps then 10 else 16) :
    ∃ k, IsBose (beta * wmax) k ∧ AccurateNear k (bosePhys beta wmax) δ (if 1e-8 ≤ c.safeEps then 10 else 16) stat beta wmax
      (Real.sqrt (beta / 2 * wmax) / wmax) (eps.getD c.safeEps) t
      (Real.sqrt (beta / 2 * wmax) / wmax * ((1 + 1 / (beta * wmax)) * boseRest δ c.safeEps)) maxSize
      (make fp (computeOf env) stat beta wmax eps maxSize (some (boseInfo (beta * wmax))) none) := by
  have hl : 0 < beta * wmax := by positivity
  obtain ⟨k, hk, hd⟩ := C65_bose (beta * wmax) c.safeEps hl
  refine ⟨k, hk, ?_⟩
  have hx : ∀ x : ℝ, 2 * (beta / 2 * (x + 1)) / beta - 1 = x := fun x => by field_simp; ring
  have hy : ∀ y : ℝ, wmax * y / wmax = y := fun y => by field_simp
  obtain ⟨mx, my, x, wx, y, wy, hint, fe, we, fo, wo, a1, a2, a3, a4, hres⟩ :=
    scratch_full env fp stat hstat beta wmax hbeta hw eps maxSize hmax (some (boseInfo (beta * wmax)))
      (boseInfo (beta * wmax))
      (by
        rw [hfp]
        have h3 : |beta * wmax - beta * wmax| ≤ 4e-16 * |beta * wmax| := by rw [sub_self, abs_zero]; positivity
        rcases hstat with rfl | rfl
        · show (if |beta * wmax - beta * wmax| ≤ 4e-16 * |beta * wmax| then _ else _) = _
          rw [if_pos h3]
        · show (if |beta * wmax - beta * wmax| ≤ 4e-16 * |beta * wmax| then _ else _) = _
          rw [if_pos h3])
      rfl _ (if_neg (show ¬ (1 : ℤ) = 0 by decide)) k (fun tau omega => wmax⁻¹ * k (2 * tau / beta - 1) (omega / wmax))
      (fun x y _ _ => by
        show _ = wmax ^ (-(1 : ℤ)) * _
        rw [zpow_neg_one, hx, hy])
      c hc he hd t ht h0 h1 hsvd hsort _ rfl rule hleg hr hrn
  have hyp : wmax ^ (-(boseInfo (beta * wmax)).ypower) = wmax⁻¹ := by
    show wmax ^ (-(1 : ℤ)) = _
    rw [zpow_neg_one]
  have e1 := hex _ _ _ _ _ _ (a1.pos one_pos) (a2.pos one_pos) a3
  have e2 := hex _ _ _ _ _ _ (a1.pos one_pos) (a2.pos one_pos) a4
  refine ⟨mx, my, x, wx, y, wy, fe, fo, a1, a2, e1, e2, ?_⟩
  rcases hres with ⟨h, -⟩ | ⟨b, omitted, b1, b2, b3, b4, b5, b6, b7, b8, b9, r, d, c1, c2, c3, c4, c5⟩
  · exact Or.inl h
  · rw [hyp] at c2 c3 b4
    have hexp := bose_expansion hl h12 hk hd.symm a1 a2 e1 e2 c4 c5 b.size
    have c3' : ∀ x y, |x| ≤ 1 → |y| ≤ 1 → basisError (bosePhys beta wmax) b (beta / 2 * (x + 1)) (wmax * y) =
        wmax⁻¹ * resid (boseLim (beta * wmax)) r b.size x y := by
      intro x y h2 h3
      have h4 := c3 x y h2 h3
      unfold basisError resid at h4 ⊢
      simp only [hx, hy] at h4
      rw [bosePhys_eq hbeta hw, hx, hy]
      linarith
    have hreg := region_le_fac hbeta hw (inv_pos.2 hw).le c1 c2 c3' hexp
    rw [← div_eq_mul_inv] at hreg b4
    refine Or.inr ⟨b, omitted, b1, b2, b3, b4, b5, b6, hreg, fun ρ hρ => ?_⟩
    have hcont : Continuous fun z : ℝ × ℝ => bosePhys beta wmax z.1 z.2 := by
      simp only [bosePhys_eq hbeta hw]
      exact continuous_const.mul ((bose_continuous hl).comp (f := fun z : ℝ × ℝ => (2 * z.1 / beta - 1, z.2 / wmax)) (by fun_prop))
    have hmul := mul_le_mul_of_nonneg_right hreg (Real.sqrt_nonneg (∫ omega in (-wmax)..wmax, ρ omega ^ 2))
    refine ⟨(C84_greens hbeta hw b8 b9 b2.udom b2.vdom hcont.continuousOn hρ).trans hmul, fun m hm hp => ?_⟩
    exact ⟨_, b2.uhat m hm hp, (C84_matsubara hbeta hw b8 b9 b2.udom b2.vdom hcont.continuousOn hρ m).trans
      (mul_le_mul_of_nonneg_left hmul (Real.sqrt_nonneg _))⟩

/-- The hypotheses are met, for example by `beta = 20`, `wmax = 5`, `eps = 10⁻⁶` and libraries with an error of `10⁻¹²`. -/
example : ∃ env c k, safeEps env.platform (some (.real 1e-6)) none none = .ok c ∧ IsBose (20 * 5) k ∧
    AccurateNear k (bosePhys 20 5) 1e-12 (if 1e-8 ≤ c.safeEps then 10 else 16) "B" 20 5
      (Real.sqrt (20 / 2 * 5) / 5) 1e-6 (2 * 2 ^ (-52 : ℤ))
      (Real.sqrt (20 / 2 * 5) / 5 * ((1 + 1 / (20 * 5)) * boseRest 1e-12 c.safeEps)) none
      (make Fp.exact (computeOf env) "B" 20 5 (some 1e-6) none (some (boseInfo (20 * 5))) none) := by
  obtain ⟨env, c, rule, h1, h2, h3, h4, h5, h6, h7, h8⟩ :=
    inexact_env (show (0 : ℝ) ≤ 1e-12 by norm_num) (by norm_num) true
  obtain ⟨k, hk, h9⟩ := C86_basis env Fp.exact "B" (Or.inr rfl) 20 5 (by norm_num) (by norm_num) rfl (by norm_num)
    (some 1e-6) none (by simp) c h1 (by norm_num) _ h2 (by positivity) (by norm_num) h3 _ h4 h5 rule h6 h7 h8
  exact ⟨env, c, k, h1, hk, h9⟩

end Verif.Props
