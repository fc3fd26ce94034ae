import Verif.Props.C66_FromScratch
import Verif.Lemmas.LogisticGrid
/-!
# C83: accuracy of the expansion over the whole square

C65 states the error at the Gauss nodes.  Here it is bounded over `[-1, 1] × [-1, 1]`, in terms of how well the kernel is
approximated by piecewise polynomials on the hinted segments.
-/

namespace Verif.Props
open Verif Verif.Np Verif.Sve Verif.Gauss Verif.Kernel Verif.Spec Verif.Poly Verif.Svd Verif.FiniteTemp Verif.SveCompute

/-! ## Specification -/

/-- The norm of a function on `[-1, 1] × [-1, 1]`: the root of the integral of its square. -/
noncomputable def squareNorm (f : ℝ → ℝ → ℝ) : ℝ := Real.sqrt (∫ y in (-1 : ℝ)..1, ∫ x in (-1 : ℝ)..1, f x y ^ 2)

/-- On the segments hinted by the kernel, its rows and columns are close to piecewise polynomials with `n` coefficients. -/
structure KernelNear (h : Hints) (n : ℕ) (k : ℝ → ℝ → ℝ) (εx εy : ℝ) : Prop where
  cont : ContinuousOn (fun z : ℝ × ℝ => k z.1 z.2) (Set.Icc (-1) 1 ×ˢ Set.Icc (-1) 1)
  x : ∀ g, h.segX = .ok g → ∀ y, |y| ≤ 1 → Near g n εx fun x => k x y
  y : ∀ g, h.segY = .ok g → ∀ x, |x| ≤ 1 → Near g n εy (k x)

/-- The SVD routines give exact factors. -/
def SvdExact (libs : Libs ℝ) (dd : Bool) (strategy : String) : Prop :=
  ∀ m n (A : Matrix (Fin m) (Fin n) ℝ) hint f w, 0 < m → 0 < n → Svd.compute libs dd A hint strategy = .ok (f, w) →
    IsSvdFactors A f

/-! ## From the nodes to the square -/

theorem C83_expansion {h : Hints} {n : ℕ} {k : ℝ → ℝ → ℝ} {r : SveResult} {X Y : Type} [Fintype X] [Fintype Y]
    {x wx : X → ℝ} {y wy : Y → ℝ} {d : List ℝ} {εx εy : ℝ} (hR : OnSegments h n r x wx y wy) (hN : NodeSve k r x wx y wy d)
    (hK : KernelNear h n k εx εy) (m : ℕ) :
    squareNorm (resid k r m) ≤ Real.sqrt ((d.map (· ^ 2)).sum + ∑ l with m ≤ l.1, r.s l ^ 2) + 4 * (εx + εy) := by
  obtain ⟨gx, gy, h1, h2, Sx, Sy, Ex, Ey, hp⟩ := hR
  have := square_le Sx.toGridFromTo Sy.toGridFromTo Ex Ey hK.cont (Finset.univ.filter fun l : Fin r.n => l.1 < m) r.s
    (fun l _ => (hp l).1) (fun l _ => (hp l).2) (hK.x gx h1) (hK.y gy h2)
  have e := hN.error m
  unfold resid at e
  rw [e] at this
  exact this

theorem NodesOn.pos {a : ℝ} (ha : a < 1) {n m : ℕ} {x w : Fin m → ℝ} (h : NodesOn a n x w) : 0 < m := by
  rcases Nat.eq_zero_or_pos m with rfl | h1
  · have := h.exact 1 (by simp)
    simp at this
    linarith
  · exact h1

/-- `compute` for a centrosymmetric kernel: over the whole square the first `m` terms deviate from the kernel by the
omitted singular values and the error of the discretisation. -/
theorem C83_centrosymm (env : Env) (K : Kern) (k : ℝ → ℝ → ℝ) (eps : Option Flt) (cutoff : Option ℝ) (nSv nGauss : Option ℕ)
    (work : Option Dtype) (sveStrat : Option Strat) (hstrat : sveStrat = none ∨ sveStrat = some .centrosymm)
    (svdStrat : Option String) (c : Choice) (hc : safeEps env.platform eps work svdStrat = .ok c)
    (hK : Describes K k c.safeEps) (t : ℝ) (ht : CutoffIs env.platform c.dtype cutoff t) (h0 : 0 ≤ t) (h1 : t ≤ 1)
    (hsvd : SvdOk env.libs (decide (c.dtype = .ddouble)) c.strategy)
    (hex : SvdExact env.libs (decide (c.dtype = .ddouble)) c.strategy) (hsort : ∀ k, ArgsortOk (env.argsort k))
    (n : ℕ) (hn : n = nGauss.getD (if 1e-8 ≤ c.safeEps then 10 else 16)) (rule : Rule) (hleg : env.legendre n = .ok rule)
    (hr : GoodRule rule) (hrn : rule.x.length = n) (r : SveResult)
    (hok : SveCompute.compute env K eps cutoff (nSv.map fun n : ℕ => PyNum.int n) nGauss work sveStrat svdStrat = .ok r)
    (εx εy : ℝ) (hnear : KernelNear (K.full.hints c.safeEps) n k εx εy) :
    ∃ (mx my : ℕ) (x wx : Fin mx → ℝ) (y wy : Fin my → ℝ) (fe fo : Factors ℝ mx my) (d : List ℝ),
      NodesOn 0 n x wx ∧ NodesOn 0 n y wy ∧
      IsSvdFactors (nodeMatrix (fun x y => k x y + k x (-y)) x wx y wy) fe ∧
      IsSvdFactors (nodeMatrix (fun x y => k x y - k x (-y)) x wx y wy) fo ∧
      Selected (List.ofFn fe.s ++ List.ofFn fo.s) t nSv (List.ofFn r.s) d ∧
      ∀ m, squareNorm (resid k r m) ≤ Real.sqrt ((d.map (· ^ 2)).sum + ∑ l with m ≤ l.1, r.s l ^ 2) + 4 * (εx + εy) := by
  obtain ⟨mx, my, x, wx, y, wy, hint, fe, we, fo, wo, a1, a2, a3, a4, a5, ⟨h, -⟩ | ⟨r', d, b1, b2, b3, b4, b5, b6, b7, b8⟩⟩ :=
    compute_centrosymm env K k eps cutoff nSv nGauss work sveStrat hstrat svdStrat c hc (hK.inside _) t ht h0 h1 hsvd hsort n hn
      rule hleg hr hrn
  · rw [hok] at h
    cases h
  · obtain rfl : r = r' := Except.ok.inj (hok.symm.trans b1)
    have p1 := a1.pos one_pos
    have p2 := a2.pos one_pos
    have e1 := hex _ _ _ _ _ _ p1 p2 a4
    have e2 := hex _ _ _ _ _ _ p1 p2 a5
    exact ⟨mx, my, x, wx, y, wy, fe, fo, d, a1, a2, e1, e2, b5, fun m => C83_expansion b7 (b8 k hK.symm e1 e2) hnear m⟩

/-- The same with `sve_strat=SamplingSVE`. -/
theorem C83_sampling (env : Env) (K : Kern) (k : ℝ → ℝ → ℝ) (eps : Option Flt) (cutoff : Option ℝ) (nSv nGauss : Option ℕ)
    (work : Option Dtype) (svdStrat : Option String) (c : Choice) (hc : safeEps env.platform eps work svdStrat = .ok c)
    (hK : Describes K k c.safeEps) (t : ℝ) (ht : CutoffIs env.platform c.dtype cutoff t) (h0 : 0 ≤ t) (h1 : t ≤ 1)
    (hsvd : SvdOk env.libs (decide (c.dtype = .ddouble)) c.strategy)
    (hex : SvdExact env.libs (decide (c.dtype = .ddouble)) c.strategy)
    (n : ℕ) (hn : n = nGauss.getD (if 1e-8 ≤ c.safeEps then 10 else 16)) (rule : Rule) (hleg : env.legendre n = .ok rule)
    (hr : GoodRule rule) (hrn : rule.x.length = n) (r : SveResult)
    (hok : SveCompute.compute env K eps cutoff (nSv.map fun n : ℕ => PyNum.int n) nGauss work (some .sampling) svdStrat = .ok r)
    (εx εy : ℝ) (hnear : KernelNear (K.full.hints c.safeEps) n k εx εy) :
    ∃ (mx my : ℕ) (x wx : Fin mx → ℝ) (y wy : Fin my → ℝ) (f : Factors ℝ mx my) (d : List ℝ),
      NodesOn (-1) n x wx ∧ NodesOn (-1) n y wy ∧ IsSvdFactors (nodeMatrix k x wx y wy) f ∧
      Selected (List.ofFn f.s) t nSv (List.ofFn r.s) d ∧
      ∀ m, squareNorm (resid k r m) ≤ Real.sqrt ((d.map (· ^ 2)).sum + ∑ l with m ≤ l.1, r.s l ^ 2) + 4 * (εx + εy) := by
  obtain ⟨mx, my, x, wx, y, wy, hint, f, w, a1, a2, a3, a4, ⟨h, -⟩ | ⟨r', d, b1, b2, b3, b4, b5, b6, b7⟩⟩ :=
    compute_sampling env K k eps cutoff nSv nGauss work svdStrat c hc hK t ht h0 h1 hsvd n hn rule hleg hr hrn
  · rw [hok] at h
    cases h
  · obtain rfl : r = r' := Except.ok.inj (hok.symm.trans b1)
    have e1 := hex _ _ _ _ _ _ (a1.pos (by norm_num)) (a2.pos (by norm_num)) a4
    exact ⟨mx, my, x, wx, y, wy, f, d, a1, a2, e1, b4, fun m => C83_expansion b6 (b7 k e1) hnear m⟩

/-! ## The logistic kernel -/

/-- The logistic kernel is close to piecewise polynomials on segments that are fine enough. -/
theorem C83_logistic_near {lam : ℝ} (hl : 0 < lam) {h : Hints} {n : ℕ} {θx θy : ℝ} (hx0 : 0 ≤ θx) (hy0 : 0 ≤ θy) (hy1 : θy < 1)
    (hgx : ∃ g, h.segX = .ok g ∧ SymGrid g ∧ FineX lam n θx g) (hgy : ∃ g, h.segY = .ok g ∧ SymGrid g ∧ FineY lam θy g) :
    KernelNear h n (logisticK lam) (θx ^ n) (2 * θy ^ n / (1 - θy)) := by
  obtain ⟨gx, h1, h2, h3⟩ := hgx
  obtain ⟨gy, h4, h5, h6⟩ := hgy
  refine ⟨(logistic_continuous lam).continuousOn, fun g hg y hy => ?_, fun g hg x hx => ?_⟩
  · cases h1.symm.trans hg
    exact logistic_near_x hl hx0 h2.toGridFromTo h3 hy
  · cases h4.symm.trans hg
    exact logistic_near_y hl hy0 hy1 h5.toGridFromTo h6 hx

/-- For `10 ≤ lam ≤ 10⁶` the hinted segments resolve the logistic kernel. -/
theorem C83_hints {lam : ℝ} (h1 : 10 ≤ lam) (h2 : lam ≤ 10 ^ 6) (eps : ℝ) {n : ℕ} (hn : 10 ≤ n) :
    KernelNear ((logisticKern lam).full.hints eps) n (logisticK lam) ((1 / 8) ^ n) (2 * (3 / 25) ^ n / (1 - 3 / 25)) :=
  C83_logistic_near (by linarith) (by norm_num) (by norm_num) (by norm_num) (logistic_fineX h1 h2 hn) (logistic_fineY h1)

/-- What is left of the kernel due to the discretisation, with `n` nodes per segment. -/
noncomputable def logisticTail (n : ℕ) : ℝ := 4 * ((1 / 8) ^ n + 2 * (3 / 25) ^ n / (1 - 3 / 25))

/-- With the two numbers of nodes that the hints name. -/
theorem logisticTail_values : logisticTail 10 ≤ 1e-8 ∧ logisticTail 16 ≤ 4e-14 := by
  unfold logisticTail
  constructor <;> norm_num

/-- `compute(LogisticKernel(lam), eps, cutoff, n_sv, n_gauss)`: over the whole square the first `m` terms deviate from the
kernel by the omitted singular values and at most `10⁻⁸` (accuracy `10⁻⁸` or worse) or `4·10⁻¹⁴`. -/
theorem C83_logistic (env : Env) (lam : ℝ) (hl1 : 10 ≤ lam) (hl2 : lam ≤ 10 ^ 6) (eps : Option Flt) (cutoff : Option ℝ)
    (nSv : Option ℕ) (work : Option Dtype) (sveStrat : Option Strat) (hstrat : sveStrat = none ∨ sveStrat = some .centrosymm)
    (svdStrat : Option String) (c : Choice) (hc : safeEps env.platform eps work svdStrat = .ok c)
    (t : ℝ) (ht : CutoffIs env.platform c.dtype cutoff t) (h0 : 0 ≤ t) (h1 : t ≤ 1)
    (hsvd : SvdOk env.libs (decide (c.dtype = .ddouble)) c.strategy)
    (hex : SvdExact env.libs (decide (c.dtype = .ddouble)) c.strategy) (hsort : ∀ k, ArgsortOk (env.argsort k))
    (rule : Rule) (hleg : env.legendre (if 1e-8 ≤ c.safeEps then 10 else 16) = .ok rule)
    (hr : GoodRule rule) (hrn : rule.x.length = if 1e-8 ≤ c.safeEps then 10 else 16) (r : SveResult)
    (hok : SveCompute.compute env (logisticKern lam) eps cutoff (nSv.map fun n : ℕ => PyNum.int n) none work sveStrat svdStrat
      = .ok r) :
    ∃ (mx my : ℕ) (x wx : Fin mx → ℝ) (y wy : Fin my → ℝ) (fe fo : Factors ℝ mx my) (d : List ℝ),
      IsSvdFactors (nodeMatrix (fun x y => logisticK lam x y + logisticK lam x (-y)) x wx y wy) fe ∧
      IsSvdFactors (nodeMatrix (fun x y => logisticK lam x y - logisticK lam x (-y)) x wx y wy) fo ∧
      Selected (List.ofFn fe.s ++ List.ofFn fo.s) t nSv (List.ofFn r.s) d ∧
      ∀ m, squareNorm (resid (logisticK lam) r m) ≤
        Real.sqrt ((d.map (· ^ 2)).sum + ∑ l with m ≤ l.1, r.s l ^ 2) + if 1e-8 ≤ c.safeEps then 1e-8 else 4e-14 := by
  obtain ⟨mx, my, x, wx, y, wy, fe, fo, d, -, -, e1, e2, e3, e4⟩ :=
    C83_centrosymm env (logisticKern lam) (logisticK lam) eps cutoff nSv none work sveStrat hstrat svdStrat c hc
      (C65_logistic lam c.safeEps (by linarith)) t ht h0 h1 hsvd hex hsort _ rfl rule hleg hr hrn r hok _ _
      (C83_hints hl1 hl2 c.safeEps (by simp only [Option.getD_none]; split <;> norm_num))
  refine ⟨mx, my, x, wx, y, wy, fe, fo, d, e1, e2, e3, fun m => (e4 m).trans (add_le_add le_rfl ?_)⟩
  simp only [Option.getD_none]
  split
  · exact logisticTail_values.1
  · exact logisticTail_values.2

/-- An environment with ideal libraries meets the hypotheses, for both numbers of nodes; and the result is not an error
when no singular function vanishes at 1 (C65). -/
theorem ideal_env (xprec : Bool) : ∃ (env : Env) (c : Choice) (rule : Rule),
    safeEps env.platform (some (.real 1e-6)) none none = .ok c ∧
    CutoffIs env.platform c.dtype none (2 * 2 ^ (-52 : ℤ)) ∧ SvdOk env.libs (decide (c.dtype = .ddouble)) c.strategy ∧
    SvdExact env.libs (decide (c.dtype = .ddouble)) c.strategy ∧ (∀ k, ArgsortOk (env.argsort k)) ∧
    env.legendre (if 1e-8 ≤ c.safeEps then 10 else 16) = .ok rule ∧ GoodRule rule ∧
    rule.x.length = if 1e-8 ≤ c.safeEps then 10 else 16 := by
  obtain ⟨eig, diff, sub, r, h1, h2, h3, h4⟩ := C25_exists 9
  have hg := C36_goodRule (Nat.succ_pos 9) h1 h2 h3 h4
  have hlib : ∀ m n (A : Matrix (Fin m) (Fin n) ℝ) hint,
      Svd.compute (idealLibs xprec true) false A hint "fast" = .ok (idealFactors A, []) := by
    intro m n A hint
    unfold Svd.compute idealLibs
    cases xprec <;> rfl
  refine ⟨⟨fun _ => .ok r, idealLibs xprec true, exPlatform xprec, fun k s => Tuple.sort s⟩, ⟨1e-8, .float64, "fast", false⟩, r,
    ?_, Or.inr ⟨rfl, _, rfl, rfl⟩, fun m n A hint _ _ _ => ⟨_, [], hlib m n A hint, (idealFactors_ok A).thin⟩,
    fun m n A hint f w _ _ h5 => ?_, fun k s => ⟨(Tuple.sort s).bijective, Tuple.monotone_sort s⟩, rfl, hg, ?_⟩
  · have h5 : ¬ ((1e-6 : ℝ) < 1e-8) := by norm_num
    simp [safeEps, chooseDtype, safeEpsOf, Flt.lt, h5]
  · have h6 := (hlib m n A hint).symm.trans h5
    cases h6
    exact idealFactors_ok A
  · simp [h2]

end Verif.Props
