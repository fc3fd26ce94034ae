import Verif.Props.C88_LargeCutoffs
import Verif.Props.C75_Rounding
import Verif.Model.SveComputeFl
/-!
# C89: accuracy with a kernel evaluated in floating-point arithmetic

C83 to C88 take the values of the kernel on the nodes as exact.  Here the symmetrised kernels may return values with an
absolute error, and the logistic kernel is evaluated in floating-point arithmetic (C75).
-/

namespace Verif.Props
open Verif Verif.Np Verif.Sve Verif.Gauss Verif.Kernel Verif.Spec Verif.Poly Verif.Svd Verif.FiniteTemp Verif.SveCompute
open MeasureTheory

/-! ## In real arithmetic -/

theorem reduced_exact {ι : Type} (lam sign : ℝ) (a : Args ι) :
    reducedCallFl (reducedFl Arith.exact (logisticFl Arith.exact lam) sign) a = reducedCall (logistic lam) sign a := by
  unfold reducedCallFl reducedCall
  show _ = match checkDomainR (0, 1) (0, 1) a.x a.y with
    | .error e => _
    | .ok _ => _
  by_cases h : InQuarter a
  · rw [checkRed_ok h]
    cases hp : a.xPlus with
    | none => rfl
    | some p =>
      have h1 : checkDomainR (-1, 1) (-1, 1) a.x a.y = .ok () := check_ok fun i =>
        ⟨by have := (h i).1; linarith, (h i).2.1, by have := (h i).2.2.1; linarith, (h i).2.2.2⟩
      have h2 : checkDomainR (-1, 1) (-1, 1) a.x (fun i => -a.y i) = .ok () :=
        check_ok (a := { a with y := fun i => -a.y i }) fun i =>
        ⟨by have := (h i).1; simp only; linarith, (h i).2.1, by have := (h i).2.2.2; simp only; linarith,
          by have := (h i).2.2.1; simp only; linarith⟩
      simp only [logistic, logisticWith, h1, h2]
      rfl
  · have h1 : checkDomainR (0, 1) (0, 1) a.x a.y = .error .valueError := by
      unfold checkDomainR
      by_cases h1 : (∀ i, a.x i ≥ 0) ∧ ∀ i, a.x i ≤ 1
      · rw [if_neg (not_not.2 h1), if_pos]
        exact fun h2 => h fun i => ⟨h1.1 i, h1.2 i, h2.1 i, h2.2 i⟩
      · exact if_pos h1
    rw [h1]

/-- In real arithmetic this is the kernel of `Model/SveCompute.lean`, for all arguments. -/
theorem C89_exact (lam : ℝ) : logisticKernFl Arith.exact lam = logisticKern lam := by
  have h1 : ∀ ι : Type, (logisticObjFl Arith.exact lam : KernelObj ι) = logistic lam := fun ι => rfl
  have h2 : ∀ (ι : Type) (sign : ℝ), (logisticSymmetrizedFl Arith.exact lam sign : PyM (KernelObj ι)) =
      logisticSymmetrized lam sign := by
    intro ι sign
    unfold logisticSymmetrizedFl logisticSymmetrized
    have e1 : (reducedCallFl (reducedFl Arith.exact (logisticFl Arith.exact lam) sign) : Args ι → PyM (ι → ℝ)) =
        reducedCall (logistic lam) sign := funext fun a => reduced_exact lam sign a
    have e2 : (oddCallFl (logisticOddFl Arith.exact lam sign) : Args ι → PyM (ι → ℝ)) =
        logisticOddCall (logistic lam) lam sign := by
      funext a
      unfold oddCallFl logisticOddCall
      rw [← e1]
      unfold reducedCallFl
      cases checkDomainR (0, 1) (0, 1) a.x a.y with
      | error e => rfl
      | ok _ =>
        cases a.xPlus with
        | none => rfl
        | some p => rfl
    rw [h1, e1, e2]
  unfold logisticKernFl logisticKern
  simp only [h1, h2]

/-! ## A function with given even and odd parts -/

/-- Any two functions on the inside of the first quadrant are the even and odd part of a symmetric function. -/
theorem exists_of_halves {k : ℝ → ℝ → ℝ} (hk : ∀ x y, k (-x) (-y) = k x y) (E O : ℝ → ℝ → ℝ) :
    ∃ k' : ℝ → ℝ → ℝ, (∀ x y, k' (-x) (-y) = k' x y) ∧ (∀ x y, x = 0 ∨ y = 0 → k' x y = k x y) ∧
      ∀ x y, 0 < x → 0 < y → k' x y = (E x y + O x y) / 2 ∧ k' x (-y) = (E x y - O x y) / 2 := by
  classical
  let q : ℝ → ℝ → ℝ := fun x y => if 0 < y then (E x y + O x y) / 2 else (E x (-y) - O x (-y)) / 2
  refine ⟨fun x y => if x = 0 ∨ y = 0 then k x y else if 0 < x then q x y else q (-x) (-y), fun x y => ?_, fun x y h => if_pos h,
    fun x y hx hy => ⟨?_, ?_⟩⟩
  · simp only [neg_eq_zero, neg_neg]
    by_cases h : x = 0 ∨ y = 0
    · rw [if_pos h, if_pos h, hk]
    · rw [if_neg h, if_neg h]
      push Not at h
      rcases lt_or_gt_of_ne h.1 with h1 | h1
      · rw [if_pos (by linarith), if_neg (by linarith)]
      · rw [if_neg (by linarith), if_pos h1]
  · simp only
    rw [if_neg (by push Not; exact ⟨hx.ne', hy.ne'⟩), if_pos hx]
    exact if_pos hy
  · simp only
    rw [if_neg (by push Not; exact ⟨hx.ne', neg_ne_zero.2 hy.ne'⟩), if_pos hx]
    simp only [q, neg_neg]
    exact if_neg (by linarith)

/-- If the parts are close to those of `k`, so is the function. -/
theorem halves_near {k k' E O : ℝ → ℝ → ℝ} (hk : ∀ x y, k (-x) (-y) = k x y) (hk' : ∀ x y, k' (-x) (-y) = k' x y)
    (h0 : ∀ x y, x = 0 ∨ y = 0 → k' x y = k x y)
    (hq : ∀ x y, 0 < x → 0 < y → k' x y = (E x y + O x y) / 2 ∧ k' x (-y) = (E x y - O x y) / 2) {a b ε : ℝ} (hε : 0 ≤ ε)
    (hab : a + b ≤ 2 * ε)
    (hE : ∀ x y, 0 < x → x ≤ 1 → 0 < y → y ≤ 1 → |E x y - (k x y + k x (-y))| ≤ a)
    (hO : ∀ x y, 0 < x → x ≤ 1 → 0 < y → y ≤ 1 → |O x y - (k x y - k x (-y))| ≤ b) :
    ∀ x y, |x| ≤ 1 → |y| ≤ 1 → |k' x y - k x y| ≤ ε := by
  have hpos : ∀ x y, 0 < x → x ≤ 1 → y ≠ 0 → |y| ≤ 1 → |k' x y - k x y| ≤ ε := by
    intro x y h1 h2 h3 h4
    rw [abs_le] at h4
    rcases lt_or_gt_of_ne h3 with h5 | h5
    · have e1 := abs_le.1 (hE x (-y) h1 h2 (by linarith) (by linarith))
      have e2 := abs_le.1 (hO x (-y) h1 h2 (by linarith) (by linarith))
      have e3 := (hq x (-y) h1 (by linarith)).2
      rw [neg_neg] at e1 e2 e3
      rw [e3, abs_le]
      constructor <;> linarith
    · have e1 := abs_le.1 (hE x y h1 h2 h5 h4.2)
      have e2 := abs_le.1 (hO x y h1 h2 h5 h4.2)
      rw [(hq x y h1 h5).1, abs_le]
      constructor <;> linarith
  intro x y hx hy
  by_cases h : x = 0 ∨ y = 0
  · rw [h0 x y h, sub_self, abs_zero]
    exact hε
  · push Not at h
    rcases lt_or_gt_of_ne h.1 with h1 | h1
    · rw [← hk, ← hk']
      exact hpos (-x) (-y) (by linarith) (by have := (abs_le.1 hx).1; linarith) (neg_ne_zero.2 h.2) (by rwa [abs_neg])
    · exact hpos x y h1 (abs_le.1 hx).2 h.2 hy

/-- An error of the values gives an error on the nodes. -/
theorem nodes_error {mx my n : ℕ} {x wx : Fin mx → ℝ} {y wy : Fin my → ℝ} (hx : NodesOn 0 n x wx) (hy : NodesOn 0 n y wy)
    {k k' : ℝ → ℝ → ℝ} {ε : ℝ} (h : ∀ x y, |x| ≤ 1 → |y| ≤ 1 → |k' x y - k x y| ≤ ε) :
    Real.sqrt (∑ i, ∑ j, Sum.elim wx wx i * Sum.elim wy wy j * (k (Sum.elim x (fun i => -x i) i) (Sum.elim y (fun j => -y j) j) -
      k' (Sum.elim x (fun i => -x i) i) (Sum.elim y (fun j => -y j) j)) ^ 2) ≤ 2 * ε := by
  have hε : 0 ≤ ε := (abs_nonneg _).trans (h 0 0 (by simp) (by simp))
  have habs : ∀ {m : ℕ} {z w : Fin m → ℝ}, NodesOn 0 n z w → ∀ i, |Sum.elim z (fun i => -z i) i| ≤ 1 ∧ 0 ≤ Sum.elim w w i := by
    intro m z w hz i
    rcases i with i | i
    · rw [Sum.elim_inl, Sum.elim_inl, abs_of_pos (hz.inside i).1]
      exact ⟨(hz.inside i).2.le, (hz.wpos i).le⟩
    · rw [Sum.elim_inr, Sum.elim_inr, abs_neg, abs_of_pos (hz.inside i).1]
      exact ⟨(hz.inside i).2.le, (hz.wpos i).le⟩
  refine Real.sqrt_le_iff.2 ⟨by positivity, ?_⟩
  have e : (2 * ε) ^ 2 = ∑ i, ∑ j, Sum.elim wx wx i * Sum.elim wy wy j * ε ^ 2 := by
    simp only [← Finset.sum_mul]
    have hw := weights_sum hx hy
    simp only [Fintype.sum_sum_type, Sum.elim_inl, Sum.elim_inr, Finset.sum_add_distrib, hw]
    ring
  rw [e]
  refine Finset.sum_le_sum fun i _ => Finset.sum_le_sum fun j _ =>
    mul_le_mul_of_nonneg_left ?_ (mul_nonneg (habs hx i).2 (habs hy j).2)
  rw [← sq_abs, abs_sub_comm]
  exact pow_le_pow_left₀ (abs_nonneg _) (h _ _ (habs hx i).1 (habs hy j).1) 2

/-- Both errors together. -/
theorem exists_near_of {mx my n : ℕ} {x wx : Fin mx → ℝ} {y wy : Fin my → ℝ} (hx : NodesOn 0 n x wx) (hy : NodesOn 0 n y wy)
    {k k₁ : ℝ → ℝ → ℝ} (hk : ∀ x y, k₁ (-x) (-y) = k₁ x y) {M ε : ℝ} (hM : ∀ x y, |x| ≤ 1 → |y| ≤ 1 → |k x y| ≤ M)
    (hε : ∀ x y, |x| ≤ 1 → |y| ≤ 1 → |k₁ x y - k x y| ≤ ε) {δ : ℝ}
    {fe fo : Factors ℝ mx my} (he : NearSvd (nodeMatrix (fun x y => k₁ x y + k₁ x (-y)) x wx y wy) fe δ)
    (ho : NearSvd (nodeMatrix (fun x y => k₁ x y - k₁ x (-y)) x wx y wy) fo δ) :
    ∃ k' : ℝ → ℝ → ℝ, (∀ x y, k' (-x) (-y) = k' x y) ∧
      IsSvdFactors (nodeMatrix (fun x y => k' x y + k' x (-y)) x wx y wy) fe ∧
      IsSvdFactors (nodeMatrix (fun x y => k' x y - k' x (-y)) x wx y wy) fo ∧
      Real.sqrt (∑ i, ∑ j, Sum.elim wx wx i * Sum.elim wy wy j * (k (Sum.elim x (fun i => -x i) i) (Sum.elim y (fun j => -y j) j) -
        k' (Sum.elim x (fun i => -x i) i) (Sum.elim y (fun j => -y j) j)) ^ 2) ≤ 2 * (M + ε) * |δ| + 2 * ε := by
  obtain ⟨k', s1, s2, s3, s4⟩ := exists_near hx hy hk (M := M + ε) (fun x y h1 h2 => by
    have e1 := abs_add_le (k x y) (k₁ x y - k x y)
    rw [add_sub_cancel] at e1
    linarith [hM x y h1 h2, hε x y h1 h2]) he ho
  refine ⟨k', s1, s2, s3, ?_⟩
  have hw : ∀ i j, 0 ≤ Sum.elim wx wx i * Sum.elim wy wy j := by
    intro i j
    refine mul_nonneg ?_ ?_
    · rcases i with i | i <;> exact (hx.wpos i).le
    · rcases j with j | j <;> exact (hy.wpos j).le
  have e1 := weighted_add_le hw
    (fun i j => k₁ (Sum.elim x (fun i => -x i) i) (Sum.elim y (fun j => -y j) j) -
      k' (Sum.elim x (fun i => -x i) i) (Sum.elim y (fun j => -y j) j))
    fun i j => k (Sum.elim x (fun i => -x i) i) (Sum.elim y (fun j => -y j) j) -
      k₁ (Sum.elim x (fun i => -x i) i) (Sum.elim y (fun j => -y j) j)
  have e2 : ∀ a b c : ℝ, a - b + (c - a) = c - b := fun a b c => by ring
  simp only [e2] at e1
  exact e1.trans (add_le_add s4 (nodes_error hx hy hε))

/-! ## The theorems -/

/-- `compute` for a kernel whose values deviate from `k` by at most `ε`: this adds about `2 ε` to the error of the expansion
over the whole square. -/
theorem C89_centrosymm (env : Env) (K : Kern) (k k₁ : ℝ → ℝ → ℝ) (eps : Option Flt) (cutoff : Option ℝ) (nSv nGauss : Option ℕ)
    (work : Option Dtype) (sveStrat : Option Strat) (hstrat : sveStrat = none ∨ sveStrat = some .centrosymm)
    (svdStrat : Option String) (c : Choice) (hc : safeEps env.platform eps work svdStrat = .ok c)
    (hK : DescribesHalf K k₁ c.safeEps (nGauss.getD (if 1e-8 ≤ c.safeEps then 10 else 16))) (t : ℝ) (ht : CutoffIs env.platform c.dtype cutoff t) (h0 : 0 ≤ t) (h1 : t ≤ 1)
    (hsvd : SvdOk env.libs (decide (c.dtype = .ddouble)) c.strategy) (δ : ℝ)
    (hex : SvdNear env.libs (decide (c.dtype = .ddouble)) c.strategy δ) (hsort : ∀ k, ArgsortOk (env.argsort k))
    (n : ℕ) (hn : n = nGauss.getD (if 1e-8 ≤ c.safeEps then 10 else 16)) (rule : Rule) (hleg : env.legendre n = .ok rule)
    (hr : GoodRule rule) (hrn : rule.x.length = n) (r : SveResult)
    (hok : SveCompute.compute env K eps cutoff (nSv.map fun n : ℕ => PyNum.int n) nGauss work sveStrat svdStrat = .ok r)
    (εx εy : ℝ) (hnear : KernelNear (K.full.hints c.safeEps) n k εx εy) (M ε : ℝ)
    (hM : ∀ x y, |x| ≤ 1 → |y| ≤ 1 → |k x y| ≤ M) (hε : ∀ x y, |x| ≤ 1 → |y| ≤ 1 → |k₁ x y - k x y| ≤ ε) :
    ∃ (mx my : ℕ) (x wx : Fin mx → ℝ) (y wy : Fin my → ℝ) (fe fo : Factors ℝ mx my) (d : List ℝ),
      NodesOn 0 n x wx ∧ NodesOn 0 n y wy ∧
      NearSvd (nodeMatrix (fun x y => k₁ x y + k₁ x (-y)) x wx y wy) fe δ ∧
      NearSvd (nodeMatrix (fun x y => k₁ x y - k₁ x (-y)) x wx y wy) fo δ ∧
      Selected (List.ofFn fe.s ++ List.ofFn fo.s) t nSv (List.ofFn r.s) d ∧
      ∀ m, squareNorm (resid k r m) ≤ Real.sqrt ((d.map (· ^ 2)).sum + ∑ l with m ≤ l.1, r.s l ^ 2) +
        (2 * (M + ε) * |δ| + 2 * ε + 4 * (εx + εy)) := by
  obtain ⟨mx, my, x, wx, y, wy, hint, fe, we, fo, wo, a1, a2, a3, a4, a5, ⟨h, -⟩ | ⟨r', d, b1, b2, b3, b4, b5, b6, b7, b8⟩⟩ :=
    compute_centrosymm env K k₁ eps cutoff nSv nGauss work sveStrat hstrat svdStrat c hc hK t ht h0 h1 hsvd hsort n hn rule
      hleg hr hrn
  · rw [hok] at h
    cases h
  · obtain rfl : r = r' := Except.ok.inj (hok.symm.trans b1)
    have p1 := a1.pos one_pos
    have p2 := a2.pos one_pos
    have e1 := hex _ _ _ _ _ _ p1 p2 a4
    have e2 := hex _ _ _ _ _ _ p1 p2 a5
    obtain ⟨k', s1, s2, s3, s4⟩ := exists_near_of a1 a2 hK.symm hM hε e1 e2
    exact ⟨mx, my, x, wx, y, wy, fe, fo, d, a1, a2, e1, e2, b5, fun m => expansion_le b7 (b8 k' s1 s2 s3) hnear s4 m⟩

/-! ## The logistic kernel in floating-point arithmetic -/

/-- The largest deviation of the values of the logistic kernel (half the sum of the bounds of C75 for the two parts). -/
noncomputable def logisticError (u eta lam : ℝ) : ℝ := 74 * u + 82 * (1 + lam) * eta

/-- The even part, `cosh(lam * x * y / 2) / cosh(lam * y / 2)`, decays with the distance of `x` from one. -/
theorem even_lower {lam x y : ℝ} (hl : 0 ≤ lam) (hx : 0 ≤ x) (hx1 : x ≤ 1) (hy : 0 ≤ y) :
    Real.exp (-(lam / 2 * y * (1 - x))) ≤ logisticK lam x y + logisticK lam x (-y) := by
  rw [logisticK_cosh, logisticK_cosh, show lam / 2 * -y = -(lam / 2 * y) by ring, Real.cosh_neg, ← add_div]
  set a := lam / 2 * y * x with ha
  set c := lam / 2 * y * (1 - x) with hc
  have ha0 : 0 ≤ a := by positivity
  have hc0 : 0 ≤ c := mul_nonneg (by positivity) (by linarith)
  have hz : lam / 2 * y = a + c := by rw [ha, hc]; ring
  have h2 : Real.exp (-a) + Real.exp (-(-(lam / 2 * y) * x)) = 2 * Real.cosh a := by
    rw [Real.cosh_eq, neg_mul, neg_neg]
    ring
  rw [h2, hz, mul_div_mul_left _ _ two_ne_zero, le_div_iff₀ (Real.cosh_pos _), Real.cosh_add]
  have h3 : Real.sinh a ≤ Real.cosh a := (Real.sinh_lt_cosh a).le
  have h4 := mul_le_mul_of_nonneg_right h3 (Real.sinh_nonneg_iff.2 hc0)
  have h5 : Real.cosh a * Real.cosh c + Real.sinh a * Real.sinh c ≤ Real.cosh a * Real.exp c := by
    rw [← Real.cosh_add_sinh c]
    linarith
  calc Real.exp (-c) * (Real.cosh a * Real.cosh c + Real.sinh a * Real.sinh c) ≤ Real.exp (-c) * (Real.cosh a * Real.exp c) :=
        mul_le_mul_of_nonneg_left h5 (Real.exp_pos _).le
    _ = Real.cosh a := by
        rw [mul_left_comm, ← Real.exp_add, neg_add_cancel, Real.exp_zero, mul_one]

/-- If the average of `q` with the weight `p` is `b`, then `q` does not exceed `b` on all nodes. -/
theorem exists_node {n m : ℕ} {x w : Fin m → ℝ} (h : NodesOn 0 n x w) (p q : Polynomial ℝ) (hp : p.natDegree ≤ 2 * n - 2)
    (hpq : (p * q).natDegree ≤ 2 * n - 2) (hpos : ∀ t, 0 < t → t < 1 → 0 < p.eval t) {b : ℝ}
    (hb : (∫ t in (0 : ℝ)..1, (p * q).eval t) = b * ∫ t in (0 : ℝ)..1, p.eval t) (hm : 0 < m) : ∃ i, q.eval (x i) ≤ b := by
  by_contra hcon
  push Not at hcon
  have e1 := h.exact p hp
  have e2 := h.exact (p * q) hpq
  rw [hb, ← e1, Finset.mul_sum] at e2
  have : ∑ i, b * (w i * p.eval (x i)) < ∑ i, w i * (p * q).eval (x i) := by
    refine Finset.sum_lt_sum_of_nonempty ⟨⟨0, hm⟩, Finset.mem_univ _⟩ fun i _ => ?_
    have h1 := mul_pos (h.wpos i) (hpos _ (h.inside i).1 (h.inside i).2)
    rw [Polynomial.eval_mul, ← mul_assoc (w i), mul_comm b]
    exact mul_lt_mul_of_pos_left (hcon i) h1
  linarith

/-- A node close to one. -/
theorem exists_node_one {n m : ℕ} {x w : Fin m → ℝ} (h : NodesOn 0 n x w) (hn : 10 ≤ n) (hm : 0 < m) : ∃ i, 1 - x i ≤ 1 / 19 := by
  obtain ⟨i, hi⟩ := exists_node h (Polynomial.X ^ 17) (1 - Polynomial.X) (by simp; omega) (by
    refine Polynomial.natDegree_mul_le.trans ?_
    have : (1 - Polynomial.X : Polynomial ℝ).natDegree ≤ 1 := by compute_degree
    simp only [Polynomial.natDegree_X_pow]
    omega) (fun t h1 _ => by simp only [Polynomial.eval_pow, Polynomial.eval_X]; positivity) (b := 1 / 19) (by
    simp only [Polynomial.eval_mul, Polynomial.eval_sub, Polynomial.eval_one, Polynomial.eval_pow, Polynomial.eval_X]
    have e : ∀ t : ℝ, t ^ 17 * (1 - t) = t ^ 17 - t ^ 18 := fun t => by ring
    simp only [e]
    rw [intervalIntegral.integral_sub (by simp) (by simp), integral_pow, integral_pow]
    norm_num) hm
  exact ⟨i, by simpa using hi⟩

/-- A node close to zero. -/
theorem exists_node_zero {n m : ℕ} {x w : Fin m → ℝ} (h : NodesOn 0 n x w) (hn : 10 ≤ n) (hm : 0 < m) : ∃ i, x i ≤ 1 / 19 := by
  have hd : ((1 - Polynomial.X) ^ 17 : Polynomial ℝ).natDegree ≤ 17 := by compute_degree
  obtain ⟨i, hi⟩ := exists_node h ((1 - Polynomial.X) ^ 17) Polynomial.X (by omega) (by
    refine Polynomial.natDegree_mul_le.trans ?_
    simp only [Polynomial.natDegree_X]
    omega) (fun t _ h2 => by
      simp only [Polynomial.eval_pow, Polynomial.eval_sub, Polynomial.eval_one, Polynomial.eval_X]
      exact pow_pos (by linarith) _) (b := 1 / 19) (by
    simp only [Polynomial.eval_mul, Polynomial.eval_sub, Polynomial.eval_one, Polynomial.eval_pow, Polynomial.eval_X]
    have e1 := intervalIntegral.integral_comp_sub_left (a := 0) (b := 1) (fun t : ℝ => t ^ 17 * (1 - t)) 1
    have e2 := intervalIntegral.integral_comp_sub_left (a := 0) (b := 1) (fun t : ℝ => t ^ 17) 1
    simp only [sub_sub_cancel, sub_self, sub_zero] at e1 e2
    rw [e1, e2]
    have e : ∀ t : ℝ, t ^ 17 * (1 - t) = t ^ 17 - t ^ 18 := fun t => by ring
    simp only [e]
    rw [intervalIntegral.integral_sub (by simp) (by simp), integral_pow, integral_pow]
    norm_num) hm
  exact ⟨i, by simpa using hi⟩

/-- The values of the logistic kernel in floating-point arithmetic are those of a symmetric function close to it. -/
theorem C89_values {A : Arith} {u eta : ℝ} (hA : A.Ok u eta) {lam : ℝ} (hl : 0 < lam)
    (hsm : 64 * (1 + lam) * (u + eta) ≤ 1) (hu4 : u ≤ 1e-4) (he4 : 10000 * (1 + lam) * eta ≤ Real.exp (-(lam / 722))) (eps : ℝ) {n : ℕ} (hn : 10 ≤ n) :
    ∃ k₁, DescribesHalf (logisticKernFl A lam) k₁ eps n ∧
      ∀ x y, |x| ≤ 1 → |y| ≤ 1 → |k₁ x y - logisticK lam x y| ≤ logisticError u eta lam := by
  have hu := hA.hu
  have heta := hA.heta
  have hex1 : Real.exp (-(lam / 722)) ≤ 1 := Real.exp_le_one_iff.2 (by linarith)
  have he4' : eta ≤ 1e-4 := by
    have h1 := mul_nonneg hl.le heta
    norm_num
    linarith
  have sym := (C65_logistic lam eps hl).symm
  let E : ℝ → ℝ → ℝ := fun x y => reducedFl A (logisticFl A lam) 1 x y x (some (1 - x))
  let O : ℝ → ℝ → ℝ := fun x y => logisticOddFl A lam (-1) x y x (some (1 - x))
  obtain ⟨k₁, s1, s2, s3⟩ := exists_of_halves sym E O
  have hp : ∀ x : ℝ, 0 < x → |x - x| ≤ u * (1 + x) := fun x hx => by rw [sub_self, abs_zero]; positivity
  have hm : ∀ x : ℝ, x ≤ 1 → |(some (1 - x)).getD (A.sub 1 x) - (1 - x)| ≤ 3 * u * (1 - x) := fun x hx => by
    rw [Option.getD_some, sub_self, abs_zero]
    exact mul_nonneg (by positivity) (by linarith)
  have hE : ∀ x y, 0 < x → x ≤ 1 → 0 < y → y ≤ 1 →
      |E x y - (logisticK lam x y + logisticK lam x (-y))| ≤ 48 * u + 82 * (1 + lam) * eta := by
    intro x y h1 h2 h3 h4
    have := C75_logistic_reduced hA hl.le hsm h1.le h2 h3.le h4 (hp x h1) (hm x h2) (sign := 1) (Or.inl rfl)
    rwa [one_mul] at this
  have hO : ∀ x y, 0 < x → x ≤ 1 → 0 < y → y ≤ 1 →
      |O x y - (logisticK lam x y - logisticK lam x (-y))| ≤ 100 * u + 82 * (1 + lam) * eta := fun x y h1 h2 h3 h4 =>
    (C75_logistic_odd hA hl.le hsm hu4 he4' h1.le h2 h3.le h4 (by rw [sub_self, abs_zero]; positivity) (hp x h1) (hm x h2) rfl).1
  have hpos : ∀ x y, 0 < x → x < 1 → 0 < y → y < 1 → 1 - x ≤ 1 / 19 → y ≤ 1 / 19 → 0 < E x y := by
    intro x y h1 h2 h3 h4 n1 n2
    have h5 := logistic_reduced_error hA hl.le hsm h1.le h2.le h3.le h4.le (hp x h1) (hm x h2.le) (sign := 1) (Or.inl rfl)
    rw [one_mul] at h5
    have h6 := even_lower hl.le h1.le h2.le h3.le
    have h7 : Real.exp (-(lam / 722)) ≤ Real.exp (-(lam / 2 * y * (1 - x))) := by
      refine Real.exp_le_exp.2 (neg_le_neg ?_)
      have : y * (1 - x) ≤ 1 / 19 * (1 / 19) := mul_le_mul n2 n1 (by linarith) (by norm_num)
      nlinarith
    have k1 := (C65_logistic lam eps hl).pos x y (abs_le.2 ⟨by linarith, h2.le⟩) (abs_le.2 ⟨by linarith, h4.le⟩)
    have k2 := (C65_logistic lam eps hl).pos x (-y) (abs_le.2 ⟨by linarith, h2.le⟩) (abs_le.2 ⟨by linarith, by linarith⟩)
    have hxy : y * x ≤ y := by nlinarith
    have hxy0 : 0 ≤ y * x := by positivity
    have w1 : (1 + lam * (y + y * x) / 2) ≤ 1 + lam := by nlinarith
    have w2 : (1 + lam * (y - y * x) / 2) ≤ 1 + lam := by nlinarith
    have w3 := mul_le_mul_of_nonneg_right w1 k1.le
    have w4 := mul_le_mul_of_nonneg_right w2 k2.le
    have w5 : 24 * u * ((1 + lam * (y + y * x) / 2) * logisticK lam x y + (1 + lam * (y - y * x) / 2) * logisticK lam x (-y)) ≤
        24 * u * ((1 + lam) * (logisticK lam x y + logisticK lam x (-y))) :=
      mul_le_mul_of_nonneg_left (by linarith) (by positivity)
    have w6 : 64 * (1 + lam) * u ≤ 1 := by
      refine le_trans ?_ hsm
      have : 0 ≤ 64 * (1 + lam) * eta := by positivity
      linarith
    have w7 := mul_le_mul_of_nonneg_right w6 (add_pos k1 k2).le
    have h8 := (abs_le.1 h5).1
    have := Real.exp_pos (-(lam / 722))
    show 0 < reducedFl A (logisticFl A lam) 1 x y x (some (1 - x))
    nlinarith
  refine ⟨k₁, ⟨rfl, s1, fun mx my x wx y wy h1 h2 h3 h4 => ?_, ?_, rfl, (C65_logistic lam eps hl).nsvals, (C65_logistic lam eps hl).gridX,
    (C65_logistic lam eps hl).gridY, fun _ => rfl⟩, halves_near sym s1 s2 s3 ?_ ?_ hE hO⟩
  · obtain ⟨i, hi⟩ := exists_node_one h1 hn h3
    obtain ⟨j, hj⟩ := exists_node_zero h2 hn h4
    have := hpos (x i) (y j) (h1.inside i).1 (h1.inside i).2 (h2.inside j).1 (h2.inside j).2 hi hj
    refine ⟨i, j, ?_⟩
    rw [(s3 _ _ (h1.inside i).1 (h2.inside j).1).1, (s3 _ _ (h1.inside i).1 (h2.inside j).1).2]
    linarith
  · intro sign hs ι
    have hval : ∀ a : Args ι, InQuarter a → (∀ i, 0 < a.x i ∧ a.x i < 1 ∧ 0 < a.y i ∧ a.y i < 1) → EdgesRed a →
        (∃ p, a.xMinus = some p) → ∀ call : ℝ → ℝ → ℝ → Option ℝ → ℝ,
        reducedCallFl call a = .ok fun i => call (a.x i) (a.y i) (a.x i) (some (1 - a.x i)) := by
      rintro a h1 h2 ⟨⟨p, h3, h4⟩, h5⟩ ⟨q, h6⟩ call
      unfold reducedCallFl
      rw [checkRed_ok h1, h3]
      simp only [h6, Option.map_some, h4, h5 q h6]
    rcases hs with rfl | rfl
    · refine ⟨⟨reducedCallFl (reducedFl A (logisticFl A lam) 1), (0, 1), (0, 1), false⟩, ?_, fun a h1 h2 h3 h4 h5 h6 => ?_⟩
      · show logisticSymmetrizedFl A lam 1 = _
        unfold logisticSymmetrizedFl reducedInit
        rw [if_neg (by norm_num), if_neg (by simp [logisticObjFl]), if_neg (by simp)]
        rfl
      · show reducedCallFl (reducedFl A (logisticFl A lam) 1) a = _
        rw [hval a h1 h2 h3 h4]
        congr 1
        funext i
        rw [(s3 _ _ (h2 i).1 (h2 i).2.2.1).1, (s3 _ _ (h2 i).1 (h2 i).2.2.1).2]
        simp only [E]
        ring
    · refine ⟨⟨oddCallFl (logisticOddFl A lam (-1)), (0, 1), (0, 1), false⟩, ?_, fun a h1 h2 h3 h4 h5 h6 => ?_⟩
      · show logisticSymmetrizedFl A lam (-1) = _
        unfold logisticSymmetrizedFl reducedInit
        rw [if_pos rfl, if_neg (by simp [logisticObjFl]), if_neg (by simp)]
        rfl
      · show oddCallFl (logisticOddFl A lam (-1)) a = _
        unfold oddCallFl
        rw [hval a h1 h2 h3 h4, h5]
        simp only [Bool.false_and, Bool.false_eq_true, if_false]
        congr 1
        funext i
        rw [(s3 _ _ (h2 i).1 (h2 i).2.2.1).1, (s3 _ _ (h2 i).1 (h2 i).2.2.1).2]
        simp only [O]
        ring
  · unfold logisticError
    positivity
  · unfold logisticError
    linarith

/-- `compute(LogisticKernel(lam), eps, cutoff, n_sv)` with a kernel evaluated in floating-point arithmetic. -/
theorem C89_logistic {A : Arith} {u eta : ℝ} (hA : A.Ok u eta) (env : Env) (lam : ℝ) (hl1 : 10 ≤ lam) (hl2 : lam ≤ 10 ^ 6)
    (hsm : 64 * (1 + lam) * (u + eta) ≤ 1) (hu4 : u ≤ 1e-4) (he4 : 10000 * (1 + lam) * eta ≤ Real.exp (-(lam / 722)))
    (eps : Option Flt) (cutoff : Option ℝ)
    (nSv : Option ℕ) (work : Option Dtype) (sveStrat : Option Strat) (hstrat : sveStrat = none ∨ sveStrat = some .centrosymm)
    (svdStrat : Option String) (c : Choice) (hc : safeEps env.platform eps work svdStrat = .ok c)
    (t : ℝ) (ht : CutoffIs env.platform c.dtype cutoff t) (h0 : 0 ≤ t) (h1 : t ≤ 1)
    (hsvd : SvdOk env.libs (decide (c.dtype = .ddouble)) c.strategy) (δ : ℝ)
    (hex : SvdNear env.libs (decide (c.dtype = .ddouble)) c.strategy δ) (hsort : ∀ k, ArgsortOk (env.argsort k))
    (rule : Rule) (hleg : env.legendre (if 1e-8 ≤ c.safeEps then 10 else 16) = .ok rule)
    (hr : GoodRule rule) (hrn : rule.x.length = if 1e-8 ≤ c.safeEps then 10 else 16) (r : SveResult)
    (hok : SveCompute.compute env (logisticKernFl A lam) eps cutoff (nSv.map fun n : ℕ => PyNum.int n) none work sveStrat svdStrat
      = .ok r) :
    ∃ (all d : List ℝ), Selected all t nSv (List.ofFn r.s) d ∧
      ∀ m, squareNorm (resid (logisticK lam) r m) ≤
        Real.sqrt ((d.map (· ^ 2)).sum + ∑ l with m ≤ l.1, r.s l ^ 2) +
          (2 * (1 + logisticError u eta lam) * |δ| + 2 * logisticError u eta lam + if 1e-8 ≤ c.safeEps then 1e-8 else 4e-14) := by
  obtain ⟨k₁, hk, hε⟩ := C89_values hA (by linarith : 0 < lam) hsm hu4 he4 c.safeEps (n := if 1e-8 ≤ c.safeEps then 10 else 16) (by split <;> norm_num)
  obtain ⟨mx, my, x, wx, y, wy, fe, fo, d, -, -, e1, e2, e3, e4⟩ :=
    C89_centrosymm env (logisticKernFl A lam) (logisticK lam) k₁ eps cutoff nSv none work sveStrat hstrat svdStrat c hc
      hk t ht h0 h1 hsvd δ hex hsort _ rfl rule hleg hr hrn r hok _ _
      (C83_hints hl1 hl2 c.safeEps (by simp only [Option.getD_none]; split <;> norm_num)) 1 _
      (fun x y hx _ => logisticK_le_one (by linarith) x y hx) hε
  refine ⟨_, d, e3, fun m => (e4 m).trans (add_le_add le_rfl ?_)⟩
  simp only [Option.getD_none]
  refine add_le_add le_rfl ?_
  split
  · exact logisticTail_values.1
  · exact logisticTail_values.2

/-- `FiniteTempBasis` for a kernel evaluated in floating-point arithmetic, in terms of how well the hinted segments resolve it. -/
theorem basis_rounded {A : Arith} {u eta : ℝ} (hA : A.Ok u eta) (env : Env) (fp : Fp) (stat : String)
    (hstat : stat = "F" ∨ stat = "B") (beta wmax : ℝ)
    (hbeta : 0 < beta) (hw : 0 < wmax) (hfp : fp.mul beta wmax = beta * wmax)
    (hsm : 64 * (1 + beta * wmax) * (u + eta) ≤ 1) (hu4 : u ≤ 1e-4)
    (he4 : 10000 * (1 + beta * wmax) * eta ≤ Real.exp (-(beta * wmax / 722)))
    (eps : Option ℝ) (maxSize : Option ℕ)
    (hmax : maxSize ≠ some 0) (c : Choice) (hc : safeEps env.platform (eps.map .real) none none = .ok c)
    (he : eps.getD c.safeEps ≤ 1) (t : ℝ) (ht : CutoffIs env.platform c.dtype none t) (h0 : 0 ≤ t) (h1 : t < 1)
    (hsvd : SvdOk env.libs (decide (c.dtype = .ddouble)) c.strategy) (δ : ℝ)
    (hex : SvdNear env.libs (decide (c.dtype = .ddouble)) c.strategy δ) (hsort : ∀ k, ArgsortOk (env.argsort k))
    (rule : Rule) (hleg : env.legendre (if 1e-8 ≤ c.safeEps then 10 else 16) = .ok rule) (hr : GoodRule rule)
    (hrn : rule.x.length = if 1e-8 ≤ c.safeEps then 10 else 16) {εx εy tail : ℝ}
    (hnear : KernelNear ((logisticKern (beta * wmax)).full.hints c.safeEps) (if 1e-8 ≤ c.safeEps then 10 else 16)
      (logisticK (beta * wmax)) εx εy) (htail : 4 * (εx + εy) ≤ tail) :
    ∃ k₁, (∀ x y, |x| ≤ 1 → |y| ≤ 1 → |k₁ x y - logisticK (beta * wmax) x y| ≤ logisticError u eta (beta * wmax)) ∧
    AccurateNear k₁ (fun tau omega => Real.exp (-tau * omega) / (1 + Real.exp (-beta * omega))) δ
      (if 1e-8 ≤ c.safeEps then 10 else 16) stat beta wmax (Real.sqrt (beta / 2 * wmax)) (eps.getD c.safeEps) t
      (Real.sqrt (beta / 2 * wmax) * (2 * (1 + logisticError u eta (beta * wmax)) * |δ| +
        2 * logisticError u eta (beta * wmax) + tail)) maxSize
      (make fp (computeOfFl A env) stat beta wmax eps maxSize none none) := by
  have hκ : ∀ x y, |x| ≤ 1 → |y| ≤ 1 → (fun tau omega => Real.exp (-tau * omega) / (1 + Real.exp (-beta * omega)))
      (beta / 2 * (x + 1)) (wmax * y) = wmax ^ (-(logisticInfo (beta * wmax)).ypower) * logisticK (beta * wmax) x y := by
    intro x y _ _
    show _ = wmax ^ (-(0 : ℤ)) * _
    rw [neg_zero, zpow_zero, one_mul]
    unfold logisticK
    simp only
    congr 2
    · ring
    · congr 1; ring
  obtain ⟨k₁, hk, hε⟩ := C89_values hA (by positivity : 0 < beta * wmax) hsm hu4 he4 c.safeEps (n := if 1e-8 ≤ c.safeEps then 10 else 16) (by split <;> norm_num)
  refine ⟨k₁, hε, ?_⟩
  obtain ⟨mx, my, x, wx, y, wy, hint, fe, we, fo, wo, a1, a2, a3, a4, hres⟩ :=
    scratch_gen env (computeOfFl A env) fp stat hstat beta wmax hbeta hw eps maxSize hmax none (logisticInfo (beta * wmax))
      (by rw [hfp]; rcases hstat with rfl | rfl <;> rfl) rfl (logisticKernFl A (beta * wmax)) rfl (logisticK (beta * wmax)) k₁
      (fun tau omega => Real.exp (-tau * omega) / (1 + Real.exp (-beta * omega)))
      (C65_logistic (beta * wmax) c.safeEps (by positivity)).symm hκ c hc he hk t ht h0 h1 hsvd hsort _ rfl rule hleg hr hrn
  have hyp : wmax ^ (-(logisticInfo (beta * wmax)).ypower) = 1 := by
    show wmax ^ (-(0 : ℤ)) = 1
    rw [neg_zero, zpow_zero]
  have e1 := hex _ _ _ _ _ _ (a1.pos one_pos) (a2.pos one_pos) a3
  have e2 := hex _ _ _ _ _ _ (a1.pos one_pos) (a2.pos one_pos) a4
  refine ⟨mx, my, x, wx, y, wy, fe, fo, a1, a2, e1, e2, ?_⟩
  rcases hres with ⟨h, -⟩ | ⟨b, omitted, b1, b2, b3, b4, b5, b6, b7, b8, b9, r, d, c1, c2, c3, c4, c5⟩
  · exact Or.inl h
  · rw [hyp] at c2 c3 b4
    simp only [mul_one] at c2 b4
    obtain ⟨k', s1, s2, s3, s4⟩ := exists_near_of a1 a2 hk.symm
      (fun x y hx _ => logisticK_le_one (by positivity) x y hx) hε e1 e2
    have hexp := expansion_le c4 (c5 k' s1 s2 s3) hnear s4 b.size
    have hreg : regionNorm beta wmax (basisError (fun tau omega => Real.exp (-tau * omega) / (1 + Real.exp (-beta * omega))) b)
        ≤ Real.sqrt (omitted.map (· ^ 2)).sum + Real.sqrt (beta / 2 * wmax) *
          (2 * (1 + logisticError u eta (beta * wmax)) * |δ| + 2 * logisticError u eta (beta * wmax) + tail) :=
      region_le hbeta hw c1 c2 c3 (hexp.trans (add_le_add le_rfl (add_le_add le_rfl htail)))
    refine Or.inr ⟨b, omitted, b1, b2, b3, b4, b5, b6, hreg, fun ρ hρ => ?_⟩
    have hcont : Continuous fun z : ℝ × ℝ => Real.exp (-z.1 * z.2) / (1 + Real.exp (-beta * z.2)) :=
      Continuous.div (by fun_prop) (by fun_prop) fun z => by positivity
    have hmul := mul_le_mul_of_nonneg_right hreg (Real.sqrt_nonneg (∫ omega in (-wmax)..wmax, ρ omega ^ 2))
    refine ⟨(C84_greens hbeta hw b8 b9 b2.udom b2.vdom hcont.continuousOn hρ).trans hmul, fun m hm hp => ?_⟩
    exact ⟨_, b2.uhat m hm hp, (C84_matsubara hbeta hw b8 b9 b2.udom b2.vdom hcont.continuousOn hρ m).trans
      (mul_le_mul_of_nonneg_left hmul (Real.sqrt_nonneg _))⟩

/-- `FiniteTempBasis(stat, beta, wmax, eps, max_size)` with the logistic kernel evaluated in floating-point arithmetic: rounding
adds `148 u` and what underflows, times `sqrt(beta * wmax / 2)`, to the error of the expansion. -/
theorem C89_basis {A : Arith} {u eta : ℝ} (hA : A.Ok u eta) (env : Env) (fp : Fp) (stat : String)
    (hstat : stat = "F" ∨ stat = "B") (beta wmax : ℝ)
    (hbeta : 0 < beta) (hw : 0 < wmax) (hfp : fp.mul beta wmax = beta * wmax) (hl1 : 10 ≤ beta * wmax)
    (hl2 : beta * wmax ≤ 10 ^ 6)
    (hsm : 64 * (1 + beta * wmax) * (u + eta) ≤ 1) (hu4 : u ≤ 1e-4)
    (he4 : 10000 * (1 + beta * wmax) * eta ≤ Real.exp (-(beta * wmax / 722)))
    (eps : Option ℝ) (maxSize : Option ℕ)
    (hmax : maxSize ≠ some 0) (c : Choice) (hc : safeEps env.platform (eps.map .real) none none = .ok c)
    (he : eps.getD c.safeEps ≤ 1) (t : ℝ) (ht : CutoffIs env.platform c.dtype none t) (h0 : 0 ≤ t) (h1 : t < 1)
    (hsvd : SvdOk env.libs (decide (c.dtype = .ddouble)) c.strategy) (δ : ℝ)
    (hex : SvdNear env.libs (decide (c.dtype = .ddouble)) c.strategy δ) (hsort : ∀ k, ArgsortOk (env.argsort k))
    (rule : Rule) (hleg : env.legendre (if 1e-8 ≤ c.safeEps then 10 else 16) = .ok rule) (hr : GoodRule rule)
    (hrn : rule.x.length = if 1e-8 ≤ c.safeEps then 10 else 16) :
    ∃ k₁, (∀ x y, |x| ≤ 1 → |y| ≤ 1 → |k₁ x y - logisticK (beta * wmax) x y| ≤ 74 * u + 82 * (1 + beta * wmax) * eta) ∧
    AccurateNear k₁ (fun tau omega => Real.exp (-tau * omega) / (1 + Real.exp (-beta * omega))) δ
      (if 1e-8 ≤ c.safeEps then 10 else 16) stat beta wmax (Real.sqrt (beta / 2 * wmax)) (eps.getD c.safeEps) t
      (Real.sqrt (beta / 2 * wmax) * (2 * (1 + (74 * u + 82 * (1 + beta * wmax) * eta)) * |δ| +
        2 * (74 * u + 82 * (1 + beta * wmax) * eta) + if 1e-8 ≤ c.safeEps then 1e-8 else 4e-14)) maxSize
      (make fp (computeOfFl A env) stat beta wmax eps maxSize none none) :=
  basis_rounded hA env fp stat hstat beta wmax hbeta hw hfp hsm hu4 he4 eps maxSize hmax c hc he t ht h0 h1 hsvd δ hex hsort
    rule hleg hr hrn (C83_hints hl1 hl2 c.safeEps (by split <;> norm_num)) (by
      split
      · exact logisticTail_values.1
      · exact logisticTail_values.2)

/-! ## The hypotheses are met -/

theorem small_underflow : 10000 * (1 + 200 * 500) * (1e-200 : ℝ) ≤ Real.exp (-(200 * 500 / 722)) := by
  have h1 : Real.exp 140 ≤ 3 ^ 140 := by
    rw [show (140 : ℝ) = (140 : ℕ) * 1 by norm_num, Real.exp_nat_mul]
    exact pow_le_pow_left₀ (Real.exp_pos _).le (Real.exp_one_lt_d9.le.trans (by norm_num)) 140
  refine le_trans ?_ (Real.exp_le_exp.2 (show (-140 : ℝ) ≤ _ by norm_num))
  rw [Real.exp_neg]
  refine le_trans ?_ (inv_anti₀ (Real.exp_pos _) h1)
  norm_num

/-- For example `beta = 200`, `wmax = 500`, `eps = 10⁻⁶`, a backward error of `10⁻¹²` and an arithmetic that rounds with
`u = 10⁻¹⁶`. -/
example : ∃ env c k₁, safeEps env.platform (some (.real 1e-6)) none none = .ok c ∧
    AccurateNear k₁ (fun tau omega => Real.exp (-tau * omega) / (1 + Real.exp (-200 * omega))) 1e-12
      (if 1e-8 ≤ c.safeEps then 10 else 16) "F" 200 500 (Real.sqrt (200 / 2 * 500)) 1e-6 (2 * 2 ^ (-52 : ℤ))
      (Real.sqrt (200 / 2 * 500) * (2 * (1 + (74 * 1e-16 + 82 * (1 + 200 * 500) * 1e-200)) * |1e-12| +
        2 * (74 * 1e-16 + 82 * (1 + 200 * 500) * 1e-200) + if 1e-8 ≤ c.safeEps then 1e-8 else 4e-14)) none
      (make Fp.exact (computeOfFl (absorbing 1e-16) env) "F" 200 500 (some 1e-6) none none none) := by
  obtain ⟨env, c, rule, h1, h2, h3, h4, h5, h6, h7, h8⟩ :=
    inexact_env (show (0 : ℝ) ≤ 1e-12 by norm_num) (by norm_num) true
  obtain ⟨k₁, -, h9⟩ := C89_basis (absorbing_ok (u := 1e-16) (eta := 1e-200) (by norm_num) (by norm_num)) env Fp.exact "F" (Or.inl rfl)
    200 500 (by norm_num) (by norm_num) rfl (by norm_num)
    (by norm_num) (by norm_num) (by norm_num) small_underflow (some 1e-6) none (by simp) c h1 (by norm_num) _ h2
    (by positivity) (by norm_num) h3 _ h4 h5 rule h6 h7 h8
  exact ⟨env, c, k₁, h1, h9⟩

end Verif.Props
