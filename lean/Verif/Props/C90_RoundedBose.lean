import Verif.Props.C89_RoundedKernel
import Verif.Props.C86_BoseDiscretisation
/-!
# C90: accuracy with the regularized Bose kernel evaluated in floating-point arithmetic

C89 for `RegularizedBoseKernel(lambda_)`: the basis compared with the kernel itself, when the code evaluates it in
floating-point arithmetic (C75).
-/

namespace Verif.Props
open Verif Verif.Np Verif.Sve Verif.Gauss Verif.Kernel Verif.Spec Verif.Poly Verif.Svd Verif.FiniteTemp Verif.SveCompute
open MeasureTheory

/-! ## In real arithmetic -/

theorem bose_call_exact {ι : Type} (lam sign : ℝ) (a : Args ι) :
    boseCallFl (reducedFl Arith.exact (boseFl Arith.exact lam) sign) a = reducedCall (bose lam) sign a := by
  unfold boseCallFl reducedCallFl reducedCall
  show _ = match checkDomainR (0, 1) (0, 1) a.x a.y with
    | .error e => _
    | .ok _ => _
  by_cases h : InQuarter a
  · rw [checkRed_ok h]
    cases hp : a.xPlus with
    | none => rfl
    | some p =>
      have h1 : checkDomainR (-1, 1) (-1, 1) a.x a.y = .ok () := check_ok fun i =>
        ⟨by have := (h i).1; linarith, (h i).2.1, by have := (h i).2.2.1; linarith, (h i).2.2.2⟩
      have h2 : checkDomainR (-1, 1) (-1, 1) a.x (fun i => -a.y i) = .ok () :=
        check_ok (a := { a with y := fun i => -a.y i }) fun i =>
        ⟨by have := (h i).1; simp only; linarith, (h i).2.1, by have := (h i).2.2.2; simp only; linarith,
          by have := (h i).2.2.1; simp only; linarith⟩
      cases hs : a.yScalar with
      | true => simp only [bose, boseWith, h1, if_true]
      | false =>
        simp only [bose, boseWith, h1, h2, Bool.false_eq_true, if_false]
        rfl
  · have h1 : checkDomainR (0, 1) (0, 1) a.x a.y = .error .valueError := by
      unfold checkDomainR
      by_cases h1 : (∀ i, a.x i ≥ 0) ∧ ∀ i, a.x i ≤ 1
      · rw [if_neg (not_not.2 h1), if_pos]
        exact fun h2 => h fun i => ⟨h1.1 i, h1.2 i, h2.1 i, h2.2 i⟩
      · exact if_pos h1
    rw [h1]

/-- In real arithmetic this is the kernel of `Model/SveCompute.lean`, for all arguments. -/
theorem C90_exact (lam : ℝ) : boseKernFl Arith.exact lam = boseKern lam := by
  have h1 : ∀ ι : Type, (boseObjFl Arith.exact lam : KernelObj ι) = bose lam := fun ι => rfl
  have h2 : ∀ (ι : Type) (sign : ℝ), (boseSymmetrizedFl Arith.exact lam sign : PyM (KernelObj ι)) =
      boseSymmetrized lam sign := by
    intro ι sign
    unfold boseSymmetrizedFl boseSymmetrized
    have e1 : (boseCallFl (reducedFl Arith.exact (boseFl Arith.exact lam) sign) : Args ι → PyM (ι → ℝ)) =
        reducedCall (bose lam) sign := funext fun a => bose_call_exact lam sign a
    have e2 : (boseCallFl (boseOddFl Arith.exact lam sign) : Args ι → PyM (ι → ℝ)) =
        boseOddCall (bose lam) lam sign := by
      funext a
      unfold boseOddCall
      rw [← e1]
      unfold boseCallFl reducedCallFl
      cases checkDomainR (0, 1) (0, 1) a.x a.y with
      | error e => rfl
      | ok _ =>
        cases a.xPlus with
        | none => rfl
        | some p =>
          cases hs : a.yScalar with
          | true => rfl
          | false =>
            simp only [Bool.and_false, Bool.false_eq_true, if_false]
            rfl
    rw [h1, e1, e2]
  unfold boseKernFl boseKern
  simp only [h1, h2]

/-! ## The values -/

/-- The largest deviation of the values of the regularized Bose kernel (half the sum of the bounds of C75 for the two
parts). -/
noncomputable def boseError (u eta lam : ℝ) : ℝ := 72 * u * (1 + 1 / lam) + 90 * ((1 + lam) ^ 2 * (1 + 1 / lam)) * eta

/-- The kernel decays with the distance of `x` from one. -/
theorem bose_even_lower {lam x y : ℝ} (hl : 0 < lam) (hy : 0 ≤ y) :
    1 / lam * Real.exp (-(lam / 2 * y * (1 - x))) ≤ boseT lam x (-y) := by
  rw [boseT_plus hl, mul_neg, boseG_neg]
  have h1 := boseG_ge (V := lam * y) (by positivity)
  have h2 : Real.exp (-(-(lam * y) * ((1 + x) / 2))) * Real.exp (-(lam * y)) = Real.exp (-(lam / 2 * y * (1 - x))) := by
    rw [← Real.exp_add]
    congr 1
    ring
  calc 1 / lam * Real.exp (-(lam / 2 * y * (1 - x))) = 1 / lam * Real.exp (-(lam / 2 * y * (1 - x))) * 1 := by ring
    _ ≤ 1 / lam * Real.exp (-(lam / 2 * y * (1 - x))) * boseG (lam * y) := mul_le_mul_of_nonneg_left h1 (by positivity)
    _ = _ := by rw [← h2]; ring

/-- The values of the regularized Bose kernel in floating-point arithmetic are those of a symmetric function close to it. -/
theorem C90_values {A : Arith} {u eta : ℝ} (hA : A.Ok u eta) {lam : ℝ} (hl : 0 < lam)
    (hsm : 64 * (1 + lam) * (u + eta) ≤ 1) (hu0 : 1e-199 ≤ u) (heu : eta ≤ 1e-240 * u) (hel : lam * eta ≤ u)
    (hu4 : u ≤ 1e-4) (he4 : 10000 * (1 + lam) ^ 3 * eta ≤ Real.exp (-(lam / 722))) (eps : ℝ) {n : ℕ} (hn : 10 ≤ n) :
    ∃ k₁, DescribesHalf (boseKernFl A lam) k₁ eps n ∧
      ∀ x y, |x| ≤ 1 → |y| ≤ 1 → |k₁ x y - boseLim lam x y| ≤ boseError u eta lam := by
  have hu := hA.hu
  have heta := hA.heta
  have heu' : eta ≤ 1e-201 * u := heu.trans (mul_le_mul_of_nonneg_right (by norm_num) hu)
  have sym := boseLim_symm lam
  obtain ⟨_, _, hd⟩ := C65_bose lam eps hl
  let E : ℝ → ℝ → ℝ := fun x y => reducedFl A (boseFl A lam) 1 x y x (some (1 - x))
  let O : ℝ → ℝ → ℝ := fun x y => boseOddFl A lam (-1) x y x (some (1 - x))
  obtain ⟨k₁, s1, s2, s3⟩ := exists_of_halves sym E O
  have hp : ∀ x : ℝ, 0 < x → |x - x| ≤ u * (1 + x) := fun x hx => by rw [sub_self, abs_zero]; positivity
  have hm : ∀ x : ℝ, x ≤ 1 → |(some (1 - x)).getD (A.sub 1 x) - (1 - x)| ≤ 3 * u * (1 - x) := fun x hx => by
    rw [Option.getD_some, sub_self, abs_zero]
    exact mul_nonneg (by positivity) (by linarith)
  have hlim : ∀ x y : ℝ, 0 < y → boseLim lam x y = boseK lam x y ∧ boseLim lam x (-y) = boseK lam x (-y) := fun x y h =>
    ⟨if_neg h.ne', if_neg (neg_ne_zero.2 h.ne')⟩
  have hE : ∀ x y, 0 < x → x ≤ 1 → 0 < y → y ≤ 1 → |E x y - (boseLim lam x y + boseLim lam x (-y))| ≤
      44 * u * (1 + 1 / lam) + 90 * ((1 + lam) ^ 2 * (1 + 1 / lam)) * eta := by
    intro x y h1 h2 h3 h4
    have := C75_bose_reduced hA hl hsm hu0 heu' hel h1.le h2 h3 h4 (hp x h1) (hm x h2) (sign := 1) (Or.inl rfl)
    rw [one_mul] at this
    rwa [(hlim x y h3).1, (hlim x y h3).2]
  have hO : ∀ x y, 0 < x → x ≤ 1 → 0 < y → y ≤ 1 → |O x y - (boseLim lam x y - boseLim lam x (-y))| ≤
      100 * u * (1 + 1 / lam) + 90 * ((1 + lam) ^ 2 * (1 + 1 / lam)) * eta := by
    intro x y h1 h2 h3 h4
    rw [(hlim x y h3).1, (hlim x y h3).2]
    exact (C75_bose_odd hA hl hsm hu0 heu hel hu4 h1.le h2 h3 h4 (by rw [sub_self, abs_zero]; positivity) (hp x h1) (hm x h2)
      rfl).1
  have hpos : ∀ x y, 0 < x → x < 1 → 0 < y → y < 1 → 1 - x ≤ 1 / 19 → y ≤ 1 / 19 → 0 < E x y := by
    intro x y h1 h2 h3 h4 n1 n2
    have h5 := bose_reduced_error hA hl hsm hu0 heu' hel h1.le h2.le h3.le h4.le (hp x h1) (hm x h2.le) (sign := 1) (Or.inl rfl)
    rw [one_mul] at h5
    have h6 := bose_even_lower (x := x) hl h3.le
    have h7 : Real.exp (-(lam / 722)) ≤ Real.exp (-(lam / 2 * y * (1 - x))) := by
      refine Real.exp_le_exp.2 (neg_le_neg ?_)
      have : y * (1 - x) ≤ 1 / 19 * (1 / 19) := mul_le_mul n2 n1 (by linarith) (by norm_num)
      nlinarith
    have k1 := boseT_pos hl x y
    have k2 := boseT_pos hl x (-y)
    have hxy : y * x ≤ y := by nlinarith
    have hxy0 : 0 ≤ y * x := by positivity
    have w1 : (1 + lam * (y + y * x) / 2) ≤ 1 + lam := by nlinarith
    have w2 : (1 + lam * (y - y * x) / 2) ≤ 1 + lam := by nlinarith
    have w3 := mul_le_mul_of_nonneg_right w1 k1.le
    have w4 := mul_le_mul_of_nonneg_right w2 k2.le
    have w5 : 22 * u * ((1 + lam * (y + y * x) / 2) * boseT lam x y + (1 + lam * (y - y * x) / 2) * boseT lam x (-y)) ≤
        22 * u * ((1 + lam) * (boseT lam x y + boseT lam x (-y))) :=
      mul_le_mul_of_nonneg_left (by linarith) (by positivity)
    have w6 : 64 * (1 + lam) * u ≤ 1 := by
      refine le_trans ?_ hsm
      have : 0 ≤ 64 * (1 + lam) * eta := by positivity
      linarith
    have w7 := mul_le_mul_of_nonneg_right w6 (add_pos k1 k2).le
    have h8 := (abs_le.1 h5).1
    have w8 : 90 * ((1 + lam) ^ 2 * (1 + 1 / lam)) * eta ≤ 1 / 2 * boseT lam x (-y) := by
      have e : 90 * ((1 + lam) ^ 2 * (1 + 1 / lam)) * eta = 9e-3 * (1 / lam * (10000 * (1 + lam) ^ 3 * eta)) := by
        field_simp
        ring
      rw [e]
      have := (mul_le_mul_of_nonneg_left (he4.trans h7) (show 0 ≤ 1 / lam by positivity)).trans h6
      linarith
    show 0 < reducedFl A (boseFl A lam) 1 x y x (some (1 - x))
    nlinarith
  refine ⟨k₁, ⟨rfl, s1, fun mx my x wx y wy h1 h2 h3 h4 => ?_, ?_, rfl, hd.nsvals, hd.gridX, hd.gridY, fun _ => rfl⟩,
    halves_near sym s1 s2 s3 ?_ ?_ hE hO⟩
  · obtain ⟨i, hi⟩ := exists_node_one h1 hn h3
    obtain ⟨j, hj⟩ := exists_node_zero h2 hn h4
    have := hpos (x i) (y j) (h1.inside i).1 (h1.inside i).2 (h2.inside j).1 (h2.inside j).2 hi hj
    refine ⟨i, j, ?_⟩
    rw [(s3 _ _ (h1.inside i).1 (h2.inside j).1).1, (s3 _ _ (h1.inside i).1 (h2.inside j).1).2]
    linarith
  · intro sign hs ι
    have hval : ∀ a : Args ι, InQuarter a → (∀ i, 0 < a.x i ∧ a.x i < 1 ∧ 0 < a.y i ∧ a.y i < 1) → EdgesRed a →
        (∃ p, a.xMinus = some p) → a.yScalar = false → ∀ call : ℝ → ℝ → ℝ → Option ℝ → ℝ,
        boseCallFl call a = .ok fun i => call (a.x i) (a.y i) (a.x i) (some (1 - a.x i)) := by
      rintro a h1 h2 ⟨⟨p, h3, h4⟩, h5⟩ ⟨q, h6⟩ h7 call
      unfold boseCallFl reducedCallFl
      rw [checkRed_ok h1, h3]
      simp only [h6, Option.map_some, h4, h5 q h6, h7, Bool.false_eq_true, if_false]
    rcases hs with rfl | rfl
    · refine ⟨⟨boseCallFl (reducedFl A (boseFl A lam) 1), (0, 1), (0, 1), false⟩, ?_, fun a h1 h2 h3 h4 h5 h6 => ?_⟩
      · show boseSymmetrizedFl A lam 1 = _
        unfold boseSymmetrizedFl reducedInit
        rw [if_neg (by norm_num), if_neg (by simp [boseObjFl]), if_neg (by simp)]
        rfl
      · show boseCallFl (reducedFl A (boseFl A lam) 1) a = _
        rw [hval a h1 h2 h3 h4 h6]
        congr 1
        funext i
        rw [(s3 _ _ (h2 i).1 (h2 i).2.2.1).1, (s3 _ _ (h2 i).1 (h2 i).2.2.1).2]
        simp only [E]
        ring
    · refine ⟨⟨boseCallFl (boseOddFl A lam (-1)), (0, 1), (0, 1), false⟩, ?_, fun a h1 h2 h3 h4 h5 h6 => ?_⟩
      · show boseSymmetrizedFl A lam (-1) = _
        unfold boseSymmetrizedFl reducedInit
        rw [if_pos rfl, if_neg (by simp [boseObjFl]), if_neg (by simp)]
        rfl
      · show boseCallFl (boseOddFl A lam (-1)) a = _
        rw [hval a h1 h2 h3 h4 h6]
        congr 1
        funext i
        rw [(s3 _ _ (h2 i).1 (h2 i).2.2.1).1, (s3 _ _ (h2 i).1 (h2 i).2.2.1).2]
        simp only [O]
        ring
  · unfold boseError
    positivity
  · unfold boseError
    linarith

/-! ## The theorems -/

/-- The part of the error that is not due to omitted singular values, in units of `1 + 1 / lam`: that of the decompositions,
of rounding and of the discretisation. -/
noncomputable def boseRestFl (u eta lam δ eps : ℝ) : ℝ :=
  2 * (1 + (72 * u + 90 * (1 + lam) ^ 2 * eta)) * |δ| + 2 * (72 * u + 90 * (1 + lam) ^ 2 * eta) +
    if 1e-8 ≤ eps then 2.45e-8 else 9.4e-14

theorem boseRest_le {lam : ℝ} (hl : 0 < lam) (u eta δ eps : ℝ) :
    2 * (1 + 1 / lam + boseError u eta lam) * |δ| + 2 * boseError u eta lam +
      4 * ((1 + 2 / lam) * (1 / 8) ^ (if (1e-8 : ℝ) ≤ eps then 10 else 16) +
        (4 + 4 / lam) * (1 / 8) ^ (if (1e-8 : ℝ) ≤ eps then 10 else 16) / (1 - 1 / 8)) ≤
      (1 + 1 / lam) * boseRestFl u eta lam δ eps := by
  have h4 : 4 * ((1 + 2 / lam) * (1 / 8) ^ (if (1e-8 : ℝ) ≤ eps then 10 else 16) +
      (4 + 4 / lam) * (1 / 8) ^ (if (1e-8 : ℝ) ≤ eps then 10 else 16) / (1 - 1 / 8)) ≤
      (1 + 1 / lam) * if 1e-8 ≤ eps then 2.45e-8 else 9.4e-14 := by
    split
    · exact (boseTail_values hl).1
    · exact (boseTail_values hl).2
  refine (add_le_add le_rfl h4).trans (le_of_eq ?_)
  unfold boseRestFl boseError
  ring

theorem cutoff_underflow {u eta lam : ℝ} (hu : 0 ≤ u) (he : 0 ≤ eta) (h12 : lam ≤ 10 ^ 12)
    (heu : eta ≤ 1e-240 * u) : lam * eta ≤ u := by
  have h1 := mul_le_mul h12 heu he (by norm_num)
  refine h1.trans ?_
  rw [← mul_assoc]
  exact mul_le_of_le_one_left hu (by norm_num)

/-- `compute(RegularizedBoseKernel(lam), eps, cutoff, n_sv)` with a kernel evaluated in floating-point arithmetic. -/
theorem C90_bose {A : Arith} {u eta : ℝ} (hA : A.Ok u eta) (env : Env) (lam : ℝ) (hl : 0 < lam) (h12 : lam ≤ 10 ^ 12)
    (hsm : 64 * (1 + lam) * (u + eta) ≤ 1) (hu0 : 1e-199 ≤ u) (heu : eta ≤ 1e-240 * u) (hu4 : u ≤ 1e-4)
    (he4 : 10000 * (1 + lam) ^ 3 * eta ≤ Real.exp (-(lam / 722)))
    (eps : Option Flt) (cutoff : Option ℝ)
    (nSv : Option ℕ) (work : Option Dtype) (sveStrat : Option Strat) (hstrat : sveStrat = none ∨ sveStrat = some .centrosymm)
    (svdStrat : Option String) (c : Choice) (hc : safeEps env.platform eps work svdStrat = .ok c)
    (t : ℝ) (ht : CutoffIs env.platform c.dtype cutoff t) (h0 : 0 ≤ t) (h1 : t ≤ 1)
    (hsvd : SvdOk env.libs (decide (c.dtype = .ddouble)) c.strategy) (δ : ℝ)
    (hex : SvdNear env.libs (decide (c.dtype = .ddouble)) c.strategy δ) (hsort : ∀ k, ArgsortOk (env.argsort k))
    (rule : Rule) (hleg : env.legendre (if 1e-8 ≤ c.safeEps then 10 else 16) = .ok rule)
    (hr : GoodRule rule) (hrn : rule.x.length = if 1e-8 ≤ c.safeEps then 10 else 16) (r : SveResult)
    (hok : SveCompute.compute env (boseKernFl A lam) eps cutoff (nSv.map fun n : ℕ => PyNum.int n) none work sveStrat svdStrat
      = .ok r) :
    ∃ (all d : List ℝ), Selected all t nSv (List.ofFn r.s) d ∧
      ∀ m, squareNorm (resid (boseLim lam) r m) ≤
        Real.sqrt ((d.map (· ^ 2)).sum + ∑ l with m ≤ l.1, r.s l ^ 2) +
          (1 + 1 / lam) * boseRestFl u eta lam δ c.safeEps := by
  obtain ⟨k₁, hk, hε⟩ := C90_values hA hl hsm hu0 heu (cutoff_underflow hA.hu hA.heta h12 heu) hu4 he4 c.safeEps
    (n := if 1e-8 ≤ c.safeEps then 10 else 16) (by split <;> norm_num)
  obtain ⟨mx, my, x, wx, y, wy, fe, fo, d, -, -, e1, e2, e3, e4⟩ :=
    C89_centrosymm env (boseKernFl A lam) (boseLim lam) k₁ eps cutoff nSv none work sveStrat hstrat svdStrat c hc
      hk t ht h0 h1 hsvd δ hex hsort _ rfl rule hleg hr hrn r hok _ _
      (C86_hints hl h12 c.safeEps (by simp only [Option.getD_none]; split <;> norm_num)) (1 + 1 / lam) _
      (fun x y hx hy => by
        rw [abs_of_pos (boseLim_le hl hx hy).1]
        exact (boseLim_le hl hx hy).2) hε
  refine ⟨_, d, e3, fun m => (e4 m).trans (add_le_add le_rfl ?_)⟩
  simp only [Option.getD_none]
  exact boseRest_le hl u eta δ c.safeEps

/-- `FiniteTempBasis(stat, beta, wmax, eps, max_size=…, kernel=RegularizedBoseKernel(beta * wmax))` with the kernel evaluated
in floating-point arithmetic. -/
theorem C90_basis {A : Arith} {u eta : ℝ} (hA : A.Ok u eta) (env : Env) (fp : Fp) (stat : String)
    (hstat : stat = "F" ∨ stat = "B") (beta wmax : ℝ)
    (hbeta : 0 < beta) (hw : 0 < wmax) (hfp : fp.mul beta wmax = beta * wmax) (h12 : beta * wmax ≤ 10 ^ 12)
    (hsm : 64 * (1 + beta * wmax) * (u + eta) ≤ 1) (hu0 : 1e-199 ≤ u) (heu : eta ≤ 1e-240 * u) (hu4 : u ≤ 1e-4)
    (he4 : 10000 * (1 + beta * wmax) ^ 3 * eta ≤ Real.exp (-(beta * wmax / 722)))
    (eps : Option ℝ) (maxSize : Option ℕ)
    (hmax : maxSize ≠ some 0) (c : Choice) (hc : safeEps env.platform (eps.map .real) none none = .ok c)
    (he : eps.getD c.safeEps ≤ 1) (t : ℝ) (ht : CutoffIs env.platform c.dtype none t) (h0 : 0 ≤ t) (h1 : t < 1)
    (hsvd : SvdOk env.libs (decide (c.dtype = .ddouble)) c.strategy) (δ : ℝ)
    (hex : SvdNear env.libs (decide (c.dtype = .ddouble)) c.strategy δ) (hsort : ∀ k, ArgsortOk (env.argsort k))
    (rule : Rule) (hleg : env.legendre (if 1e-8 ≤ c.safeEps then 10 else 16) = .ok rule) (hr : GoodRule rule)
    (hrn : rule.x.length = if 1e-8 ≤ c.safeEps then 10 else 16) :
    ∃ k₁, (∀ x y, |x| ≤ 1 → |y| ≤ 1 → |k₁ x y - boseLim (beta * wmax) x y| ≤ boseError u eta (beta * wmax)) ∧
    AccurateNear k₁ (bosePhys beta wmax) δ (if 1e-8 ≤ c.safeEps then 10 else 16) stat beta wmax
      (Real.sqrt (beta / 2 * wmax) / wmax) (eps.getD c.safeEps) t
      (Real.sqrt (beta / 2 * wmax) / wmax * ((1 + 1 / (beta * wmax)) * boseRestFl u eta (beta * wmax) δ c.safeEps)) maxSize
      (make fp (computeOfFl A env) stat beta wmax eps maxSize (some (boseInfo (beta * wmax))) none) := by
  have hl : 0 < beta * wmax := by positivity
  obtain ⟨k₁, hk, hε⟩ := C90_values hA hl hsm hu0 heu (cutoff_underflow hA.hu hA.heta h12 heu) hu4 he4 c.safeEps
    (n := if 1e-8 ≤ c.safeEps then 10 else 16) (by split <;> norm_num)
  refine ⟨k₁, hε, ?_⟩
  have hx : ∀ x : ℝ, 2 * (beta / 2 * (x + 1)) / beta - 1 = x := fun x => by field_simp; ring
  have hy : ∀ y : ℝ, wmax * y / wmax = y := fun y => by field_simp
  obtain ⟨mx, my, x, wx, y, wy, hint, fe, we, fo, wo, a1, a2, a3, a4, hres⟩ :=
    scratch_gen env (computeOfFl A env) fp stat hstat beta wmax hbeta hw eps maxSize hmax (some (boseInfo (beta * wmax)))
      (boseInfo (beta * wmax))
      (by
        rw [hfp]
        have h3 : |beta * wmax - beta * wmax| ≤ 4e-16 * |beta * wmax| := by rw [sub_self, abs_zero]; positivity
        rcases hstat with rfl | rfl
        · show (if |beta * wmax - beta * wmax| ≤ 4e-16 * |beta * wmax| then _ else _) = _
          rw [if_pos h3]
        · show (if |beta * wmax - beta * wmax| ≤ 4e-16 * |beta * wmax| then _ else _) = _
          rw [if_pos h3])
      rfl (boseKernFl A (beta * wmax)) (by
        show SveCompute.compute env (if (1 : ℤ) = 0 then logisticKernFl A (beta * wmax) else boseKernFl A (beta * wmax))
          (eps.map .real) none none none none none none = _
        rw [if_neg (by decide)]) (boseLim (beta * wmax)) k₁ (bosePhys beta wmax) (boseLim_symm _)
      (fun x y _ _ => by
        show _ = wmax ^ (-(1 : ℤ)) * _
        rw [zpow_neg_one, bosePhys_eq hbeta hw, hx, hy])
      c hc he hk t ht h0 h1 hsvd hsort _ rfl rule hleg hr hrn
  have hyp : wmax ^ (-(boseInfo (beta * wmax)).ypower) = wmax⁻¹ := by
    show wmax ^ (-(1 : ℤ)) = _
    rw [zpow_neg_one]
  have e1 := hex _ _ _ _ _ _ (a1.pos one_pos) (a2.pos one_pos) a3
  have e2 := hex _ _ _ _ _ _ (a1.pos one_pos) (a2.pos one_pos) a4
  refine ⟨mx, my, x, wx, y, wy, fe, fo, a1, a2, e1, e2, ?_⟩
  rcases hres with ⟨h, -⟩ | ⟨b, omitted, b1, b2, b3, b4, b5, b6, b7, b8, b9, r, d, c1, c2, c3, c4, c5⟩
  · exact Or.inl h
  · rw [hyp] at c2 c3 b4
    obtain ⟨k', s1, s2, s3, s4⟩ := exists_near_of a1 a2 hk.symm (fun x y hx hy => by
        rw [abs_of_pos (boseLim_le hl hx hy).1]
        exact (boseLim_le hl hx hy).2) hε e1 e2
    have hexp := (expansion_le c4 (c5 k' s1 s2 s3) (C86_hints hl h12 c.safeEps (by split <;> norm_num)) s4 b.size).trans
      (add_le_add le_rfl (boseRest_le hl u eta δ c.safeEps))
    have hreg := region_le_fac hbeta hw (inv_pos.2 hw).le c1 c2 c3 hexp
    rw [← div_eq_mul_inv] at hreg b4
    refine Or.inr ⟨b, omitted, b1, b2, b3, b4, b5, b6, hreg, fun ρ hρ => ?_⟩
    have hcont : Continuous fun z : ℝ × ℝ => bosePhys beta wmax z.1 z.2 := by
      simp only [bosePhys_eq hbeta hw]
      exact continuous_const.mul ((bose_continuous hl).comp (f := fun z : ℝ × ℝ => (2 * z.1 / beta - 1, z.2 / wmax)) (by fun_prop))
    have hmul := mul_le_mul_of_nonneg_right hreg (Real.sqrt_nonneg (∫ omega in (-wmax)..wmax, ρ omega ^ 2))
    refine ⟨(C84_greens hbeta hw b8 b9 b2.udom b2.vdom hcont.continuousOn hρ).trans hmul, fun m hm hp => ?_⟩
    exact ⟨_, b2.uhat m hm hp, (C84_matsubara hbeta hw b8 b9 b2.udom b2.vdom hcont.continuousOn hρ m).trans
      (mul_le_mul_of_nonneg_left hmul (Real.sqrt_nonneg _))⟩

/-! ## The hypotheses are met -/

theorem bose_small_underflow : 10000 * (1 + 20 * 500) ^ 3 * ((1e-130 : ℝ) * 1e-130) ≤ Real.exp (-(20 * 500 / 722)) := by
  have h1 : Real.exp 14 ≤ 3 ^ 14 := by
    rw [show (14 : ℝ) = (14 : ℕ) * 1 by norm_num, Real.exp_nat_mul]
    exact pow_le_pow_left₀ (Real.exp_pos _).le (Real.exp_one_lt_d9.le.trans (by norm_num)) 14
  refine le_trans ?_ (Real.exp_le_exp.2 (show (-14 : ℝ) ≤ _ by norm_num))
  rw [Real.exp_neg]
  refine le_trans ?_ (inv_anti₀ (Real.exp_pos _) h1)
  norm_num

/-- For example `beta = 20`, `wmax = 500`, `eps = 10⁻⁶`, a backward error of `10⁻¹²` and an arithmetic that rounds with
`u = 10⁻¹⁶`. -/
example : ∃ env c k₁, safeEps env.platform (some (.real 1e-6)) none none = .ok c ∧
    AccurateNear k₁ (bosePhys 20 500) 1e-12 (if 1e-8 ≤ c.safeEps then 10 else 16) "B" 20 500
      (Real.sqrt (20 / 2 * 500) / 500) 1e-6 (2 * 2 ^ (-52 : ℤ))
      (Real.sqrt (20 / 2 * 500) / 500 *
        ((1 + 1 / (20 * 500)) * boseRestFl 1e-16 (1e-130 * 1e-130) (20 * 500) 1e-12 c.safeEps)) none
      (make Fp.exact (computeOfFl (absorbing 1e-16) env) "B" 20 500 (some 1e-6) none (some (boseInfo (20 * 500))) none) := by
  obtain ⟨env, c, rule, h1, h2, h3, h4, h5, h6, h7, h8⟩ :=
    inexact_env (show (0 : ℝ) ≤ 1e-12 by norm_num) (by norm_num) true
  obtain ⟨k₁, -, h9⟩ := C90_basis (absorbing_ok (u := 1e-16) (eta := 1e-130 * 1e-130) (by norm_num) (by norm_num)) env Fp.exact
    "B" (Or.inr rfl) 20 500 (by norm_num) (by norm_num) rfl (by norm_num)
    (by norm_num) (by norm_num) (by norm_num) (by norm_num) bose_small_underflow (some 1e-6) none (by simp) c h1 (by norm_num) _
    h2 (by positivity) (by norm_num) h3 _ h4 h5 rule h6 h7 h8
  exact ⟨env, c, k₁, h1, h9⟩

end Verif.Props
