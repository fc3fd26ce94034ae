import Verif.Props.C87_Pointwise
import Verif.Lemmas.LogisticWide
/-!
# C88: large cut-offs

C83, C85 and C87 are stated for cut-offs of the logistic kernel up to `10⁶`.  The hints are not quite fine enough beyond to
keep these numbers: the shortest segments in `x` shrink as `lam ^ (-0.93)` only.  Here the ranges up to `10⁹` and `10¹⁴`.
-/

namespace Verif.Props
open Verif Verif.Np Verif.Sve Verif.Gauss Verif.Kernel Verif.Spec Verif.Poly Verif.Svd Verif.FiniteTemp Verif.SveCompute

/-- A range of cut-offs, with what the discretisation contributes over the square and at a point, for the two numbers of nodes
that the hints name. -/
structure CutoffRange where
  top : ℝ
  mean10 : ℝ
  mean16 : ℝ
  point10 : ℝ
  point16 : ℝ

/-- Up to `10⁹`. -/
noncomputable def range9 : CutoffRange := ⟨10 ^ 9, 8e-8, 1.5e-12, 4e-7, 8e-12⟩

/-- Up to `10¹⁴`. -/
noncomputable def range14 : CutoffRange := ⟨10 ^ 14, 4e-6, 1e-9, 1.1e-5, 4.2e-9⟩

/-- The hinted segments resolve the logistic kernel, in both ranges. -/
theorem C88_hints {rg : CutoffRange} (hrg : rg = range9 ∨ rg = range14) {lam : ℝ} (h1 : 10 ≤ lam) (h2 : lam ≤ rg.top) (eps : ℝ) :
    ∃ θ, ((rg = range9 ∧ θ = 1 / 6) ∨ (rg = range14 ∧ θ = 1 / 4)) ∧ ∀ n, 10 ≤ n →
      KernelNear ((logisticKern lam).full.hints eps) n (logisticK lam) (θ ^ n) (2 * (3 / 25) ^ n / (1 - 3 / 25)) := by
  rcases hrg with rfl | rfl
  · exact ⟨1 / 6, Or.inl ⟨rfl, rfl⟩, fun n hn => C83_logistic_near (by linarith) (by norm_num) (by norm_num) (by norm_num)
      (logistic_fineX_9 h1 h2 hn) (logistic_fineY h1)⟩
  · exact ⟨1 / 4, Or.inr ⟨rfl, rfl⟩, fun n hn => C83_logistic_near (by linarith) (by norm_num) (by norm_num) (by norm_num)
      (logistic_fineX_14 h1 h2 hn) (logistic_fineY h1)⟩

theorem range9_mean : 4 * ((1 / 6 : ℝ) ^ 10 + 2 * (3 / 25) ^ 10 / (1 - 3 / 25)) ≤ 8e-8 ∧
    4 * ((1 / 6 : ℝ) ^ 16 + 2 * (3 / 25) ^ 16 / (1 - 3 / 25)) ≤ 1.5e-12 := by
  constructor <;> norm_num

theorem range14_mean : 4 * ((1 / 4 : ℝ) ^ 10 + 2 * (3 / 25) ^ 10 / (1 - 3 / 25)) ≤ 4e-6 ∧
    4 * ((1 / 4 : ℝ) ^ 16 + 2 * (3 / 25) ^ 16 / (1 - 3 / 25)) ≤ 1e-9 := by
  constructor <;> norm_num

theorem range9_point : (1 + 10 : ℝ) * ((1 / 6) ^ 10 + 10 * (2 * (3 / 25) ^ 10 / (1 - 3 / 25))) ≤ 4e-7 ∧
    (1 + 16 : ℝ) * ((1 / 6) ^ 16 + 16 * (2 * (3 / 25) ^ 16 / (1 - 3 / 25))) ≤ 8e-12 := by
  constructor <;> norm_num

theorem range14_point : (1 + 10 : ℝ) * ((1 / 4) ^ 10 + 10 * (2 * (3 / 25) ^ 10 / (1 - 3 / 25))) ≤ 1.1e-5 ∧
    (1 + 16 : ℝ) * ((1 / 4) ^ 16 + 16 * (2 * (3 / 25) ^ 16 / (1 - 3 / 25))) ≤ 4.2e-9 := by
  constructor <;> norm_num

/-- `compute(LogisticKernel(lam), eps, cutoff, n_sv)` for large cut-offs, as `C85_logistic`. -/
theorem C88_logistic (env : Env) {rg : CutoffRange} (hrg : rg = range9 ∨ rg = range14) (lam : ℝ) (hl1 : 10 ≤ lam)
    (hl2 : lam ≤ rg.top) (eps : Option Flt) (cutoff : Option ℝ)
    (nSv : Option ℕ) (work : Option Dtype) (sveStrat : Option Strat) (hstrat : sveStrat = none ∨ sveStrat = some .centrosymm)
    (svdStrat : Option String) (c : Choice) (hc : safeEps env.platform eps work svdStrat = .ok c)
    (t : ℝ) (ht : CutoffIs env.platform c.dtype cutoff t) (h0 : 0 ≤ t) (h1 : t ≤ 1)
    (hsvd : SvdOk env.libs (decide (c.dtype = .ddouble)) c.strategy) (δ : ℝ)
    (hex : SvdNear env.libs (decide (c.dtype = .ddouble)) c.strategy δ) (hsort : ∀ k, ArgsortOk (env.argsort k))
    (rule : Rule) (hleg : env.legendre (if 1e-8 ≤ c.safeEps then 10 else 16) = .ok rule)
    (hr : GoodRule rule) (hrn : rule.x.length = if 1e-8 ≤ c.safeEps then 10 else 16) (r : SveResult)
    (hok : SveCompute.compute env (logisticKern lam) eps cutoff (nSv.map fun n : ℕ => PyNum.int n) none work sveStrat svdStrat
      = .ok r) :
    ∃ (mx my : ℕ) (x wx : Fin mx → ℝ) (y wy : Fin my → ℝ) (fe fo : Factors ℝ mx my) (d : List ℝ),
      NearSvd (nodeMatrix (fun x y => logisticK lam x y + logisticK lam x (-y)) x wx y wy) fe δ ∧
      NearSvd (nodeMatrix (fun x y => logisticK lam x y - logisticK lam x (-y)) x wx y wy) fo δ ∧
      Selected (List.ofFn fe.s ++ List.ofFn fo.s) t nSv (List.ofFn r.s) d ∧
      ∀ m, squareNorm (resid (logisticK lam) r m) ≤
        Real.sqrt ((d.map (· ^ 2)).sum + ∑ l with m ≤ l.1, r.s l ^ 2) +
          (2 * |δ| + if 1e-8 ≤ c.safeEps then rg.mean10 else rg.mean16) := by
  obtain ⟨θ, hθ, hnear⟩ := C88_hints hrg hl1 hl2 c.safeEps
  obtain ⟨mx, my, x, wx, y, wy, fe, fo, d, -, -, e1, e2, e3, e4⟩ :=
    C85_centrosymm env (logisticKern lam) (logisticK lam) eps cutoff nSv none work sveStrat hstrat svdStrat c hc
      (C65_logistic lam c.safeEps (by linarith)) t ht h0 h1 hsvd δ hex hsort _ rfl rule hleg hr hrn r hok _ _
      (hnear _ (by simp only [Option.getD_none]; split <;> norm_num)) 1
      fun x y hx _ => logisticK_le_one (by linarith) x y hx
  refine ⟨mx, my, x, wx, y, wy, fe, fo, d, e1, e2, e3, fun m => (e4 m).trans (add_le_add le_rfl ?_)⟩
  simp only [Option.getD_none, mul_one]
  refine add_le_add le_rfl ?_
  rcases hθ with ⟨rfl, rfl⟩ | ⟨rfl, rfl⟩
  · split
    · exact range9_mean.1
    · exact range9_mean.2
  · split
    · exact range14_mean.1
    · exact range14_mean.2

/-- `FiniteTempBasis` for large cut-offs, in the mean as in C85 and at every point as in C87. -/
theorem C88_basis (env : Env) (fp : Fp) {rg : CutoffRange} (hrg : rg = range9 ∨ rg = range14)
    (stat : String) (hstat : stat = "F" ∨ stat = "B") (beta wmax : ℝ)
    (hbeta : 0 < beta) (hw : 0 < wmax) (hfp : fp.mul beta wmax = beta * wmax) (hl1 : 10 ≤ beta * wmax)
    (hl2 : beta * wmax ≤ rg.top) (eps : Option ℝ) (maxSize : Option ℕ)
    (hmax : maxSize ≠ some 0) (c : Choice) (hc : safeEps env.platform (eps.map .real) none none = .ok c)
    (he : eps.getD c.safeEps ≤ 1) (t : ℝ) (ht : CutoffIs env.platform c.dtype none t) (h0 : 0 ≤ t) (h1 : t < 1)
    (hsvd : SvdOk env.libs (decide (c.dtype = .ddouble)) c.strategy) (δ : ℝ)
    (hex : SvdNear env.libs (decide (c.dtype = .ddouble)) c.strategy δ) (hsort : ∀ k, ArgsortOk (env.argsort k))
    (rule : Rule) (hleg : env.legendre (if 1e-8 ≤ c.safeEps then 10 else 16) = .ok rule) (hr : GoodRule rule)
    (hrn : rule.x.length = if 1e-8 ≤ c.safeEps then 10 else 16) :
    AccurateNear (logisticK (beta * wmax)) (fun tau omega => Real.exp (-tau * omega) / (1 + Real.exp (-beta * omega))) δ
      (if 1e-8 ≤ c.safeEps then 10 else 16) stat beta wmax (Real.sqrt (beta / 2 * wmax)) (eps.getD c.safeEps) t
      (Real.sqrt (beta / 2 * wmax) * (2 * |δ| + if 1e-8 ≤ c.safeEps then rg.mean10 else rg.mean16)) maxSize
      (make fp (computeOf env) stat beta wmax eps maxSize none none) ∧
    AccurateAt (logisticK (beta * wmax)) (fun tau omega => Real.exp (-tau * omega) / (1 + Real.exp (-beta * omega))) δ
      (if 1e-8 ≤ c.safeEps then 10 else 16) (logisticInfo (beta * wmax)) stat beta wmax (Real.sqrt (beta / 2 * wmax))
      (eps.getD c.safeEps) t (if 1e-8 ≤ c.safeEps then rg.point10 else rg.point16) maxSize
      (make fp (computeOf env) stat beta wmax eps maxSize none none) := by
  obtain ⟨θ, hθ, hnear⟩ := C88_hints hrg hl1 hl2 c.safeEps
  have hn := hnear (if (1e-8 : ℝ) ≤ c.safeEps then 10 else 16) (by split <;> norm_num)
  refine ⟨basis_near env fp stat hstat beta wmax hbeta hw hfp eps maxSize hmax c hc he t ht h0 h1 hsvd δ hex hsort rule hleg hr
      hrn hn ?_,
    basis_at env fp stat hstat beta wmax hbeta hw hfp hl1 eps maxSize hmax c hc he t ht h0 h1 hsvd δ hex hsort rule hleg hr hrn
      hn ?_⟩
  · rcases hθ with ⟨rfl, rfl⟩ | ⟨rfl, rfl⟩
    · split
      · exact range9_mean.1
      · exact range9_mean.2
    · split
      · exact range14_mean.1
      · exact range14_mean.2
  · rcases hθ with ⟨rfl, rfl⟩ | ⟨rfl, rfl⟩
    · split
      · exact_mod_cast range9_point.1
      · exact_mod_cast range9_point.2
    · split
      · exact_mod_cast range14_point.1
      · exact_mod_cast range14_point.2

/-- For example `beta = 10⁸`, `wmax = 5`, `eps = 10⁻⁶` and a backward error of `10⁻¹²`. -/
example : ∃ env c, safeEps env.platform (some (.real 1e-6)) none none = .ok c ∧
    AccurateAt (logisticK (10 ^ 8 * 5)) (fun tau omega => Real.exp (-tau * omega) / (1 + Real.exp (-(10 ^ 8) * omega))) 1e-12
      (if 1e-8 ≤ c.safeEps then 10 else 16) (logisticInfo (10 ^ 8 * 5)) "F" (10 ^ 8) 5 (Real.sqrt (10 ^ 8 / 2 * 5)) 1e-6
      (2 * 2 ^ (-52 : ℤ)) (if 1e-8 ≤ c.safeEps then range9.point10 else range9.point16) none
      (make Fp.exact (computeOf env) "F" (10 ^ 8) 5 (some 1e-6) none none none) := by
  obtain ⟨env, c, rule, h1, h2, h3, h4, h5, h6, h7, h8⟩ :=
    inexact_env (show (0 : ℝ) ≤ 1e-12 by norm_num) (by norm_num) true
  exact ⟨env, c, h1, (C88_basis env Fp.exact (Or.inl rfl) "F" (Or.inl rfl) (10 ^ 8) 5 (by norm_num) (by norm_num) rfl
    (by norm_num) (by norm_num [range9]) (some 1e-6) none (by simp) c h1 (by norm_num) _ h2 (by positivity) (by norm_num) h3 _ h4 h5
    rule h6 h7 h8).2⟩

end Verif.Props
