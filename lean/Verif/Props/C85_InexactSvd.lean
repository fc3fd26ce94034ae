import Verif.Props.C84_GreensFunction
import Verif.Props.C77_SingularValues
import Verif.Spec.SvdError
/-!
# C85: accuracy with inexact singular value decompositions

C83 and C84 need exact decompositions of the matrices on the nodes.  Here the routines may return the decomposition of a
matrix nearby (backward error `δ` relative to the norm).
-/

namespace Verif.Props
open Verif Verif.Np Verif.Sve Verif.Gauss Verif.Kernel Verif.Spec Verif.Poly Verif.Svd Verif.FiniteTemp Verif.SveCompute
open MeasureTheory
open scoped Matrix

/-! ## Specification -/

/-- The SVD routines have a relative backward error of at most `δ`. -/
def SvdNear (libs : Libs ℝ) (dd : Bool) (strategy : String) (δ : ℝ) : Prop :=
  ∀ m n (A : Matrix (Fin m) (Fin n) ℝ) hint f w, 0 < m → 0 < n → Svd.compute libs dd A hint strategy = .ok (f, w) →
    NearSvd A f δ

/-! ## A function with given values on the nodes -/

theorem NearSvd.exact {m n : ℕ} {A : Matrix (Fin m) (Fin n) ℝ} {f : Factors ℝ m n} {δ : ℝ} (h : NearSvd A f δ) :
    IsSvdFactors (f.u * Matrix.diagonal f.s * f.vᵀ) f :=
  ⟨rfl, h.u_orth, h.v_orth, h.nonneg, h.anti⟩

/-- The function with values `B` on the nodes and zero elsewhere. -/
noncomputable def onNodes {m n : ℕ} (x : Fin m → ℝ) (y : Fin n → ℝ) (B : Fin m → Fin n → ℝ) (s t : ℝ) : ℝ :=
  Function.extend x (fun i => Function.extend y (B i) 0 t) 0 s

theorem onNodes_at {m n : ℕ} {x : Fin m → ℝ} {y : Fin n → ℝ} (hx : Function.Injective x) (hy : Function.Injective y)
    (B : Fin m → Fin n → ℝ) (i : Fin m) (j : Fin n) : onNodes x y B (x i) (y j) = B i j := by
  unfold onNodes
  rw [hx.extend_apply, hy.extend_apply]

theorem onNodes_left {m n : ℕ} {x : Fin m → ℝ} {y : Fin n → ℝ} (B : Fin m → Fin n → ℝ) {s : ℝ} (t : ℝ)
    (hs : ∀ i, x i ≠ s) : onNodes x y B s t = 0 := by
  unfold onNodes
  rw [Function.extend_apply' _ _ _ (by rintro ⟨i, hi⟩; exact hs i hi)]
  rfl

theorem onNodes_right {m n : ℕ} {x : Fin m → ℝ} {y : Fin n → ℝ} (B : Fin m → Fin n → ℝ) (s : ℝ) {t : ℝ}
    (ht : ∀ j, y j ≠ t) : onNodes x y B s t = 0 := by
  unfold onNodes
  have : (fun i => Function.extend y (B i) 0 t) = fun _ => (0 : ℝ) := funext fun i =>
    Function.extend_apply' _ _ _ (by rintro ⟨j, hj⟩; exact ht j hj)
  rw [this]
  by_cases h : ∃ i, x i = s
  · obtain ⟨i, hi⟩ := h
    simp [Function.extend]
  · rw [Function.extend_apply' _ _ _ h]
    rfl

/-- For two matrices there is a symmetric function with these as its even and odd parts on the nodes. -/
theorem exists_symmetric {mx my n : ℕ} {x wx : Fin mx → ℝ} {y wy : Fin my → ℝ} (hx : NodesOn 0 n x wx) (hy : NodesOn 0 n y wy)
    (E O : Matrix (Fin mx) (Fin my) ℝ) : ∃ k : ℝ → ℝ → ℝ, (∀ x y, k (-x) (-y) = k x y) ∧
      nodeMatrix (fun x y => k x y + k x (-y)) x wx y wy = E ∧ nodeMatrix (fun x y => k x y - k x (-y)) x wx y wy = O := by
  let P : Fin mx → Fin my → ℝ := fun i j => (E i j + O i j) / 2 / (Real.sqrt (wx i) * Real.sqrt (wy j))
  let N : Fin mx → Fin my → ℝ := fun i j => (E i j - O i j) / 2 / (Real.sqrt (wx i) * Real.sqrt (wy j))
  let k : ℝ → ℝ → ℝ := fun s t => onNodes x y P s t + onNodes x y N s (-t) + onNodes x y P (-s) (-t) + onNodes x y N (-s) t
  have hnx : ∀ i i', x i' ≠ -x i := fun i i' => by
    have := (hx.inside i).1
    have := (hx.inside i').1
    linarith
  have hny : ∀ j j', y j' ≠ -y j := fun j j' => by
    have := (hy.inside j).1
    have := (hy.inside j').1
    linarith
  have k1 : ∀ i j, k (x i) (y j) = P i j := by
    intro i j
    simp only [k]
    rw [onNodes_at hx.mono.injective hy.mono.injective, onNodes_right N _ (hny j), onNodes_left P _ (hnx i),
      onNodes_left N _ (hnx i)]
    ring
  have k2 : ∀ i j, k (x i) (-y j) = N i j := by
    intro i j
    simp only [k, neg_neg]
    rw [onNodes_at hx.mono.injective hy.mono.injective, onNodes_right P _ (hny j), onNodes_left P _ (hnx i),
      onNodes_left N _ (hnx i)]
    ring
  have hw : ∀ i j, Real.sqrt (wx i) * Real.sqrt (wy j) ≠ 0 := fun i j =>
    mul_ne_zero (Real.sqrt_pos.2 (hx.wpos i)).ne' (Real.sqrt_pos.2 (hy.wpos j)).ne'
  refine ⟨k, fun s t => by simp only [k, neg_neg]; ring, ?_, ?_⟩
  · ext i j
    simp only [nodeMatrix, Matrix.of_apply, k1, k2, P, N]
    rw [mul_assoc, ← add_div, div_mul_cancel₀ _ (hw i j)]
    ring
  · ext i j
    simp only [nodeMatrix, Matrix.of_apply, k1, k2, P, N]
    rw [mul_assoc, ← sub_div, div_mul_cancel₀ _ (hw i j)]
    ring

/-! ## The error on the nodes -/

theorem weighted_add_le {X Y : Type} [Fintype X] [Fintype Y] {w : X → Y → ℝ} (hw : ∀ i j, 0 ≤ w i j) (a b : X → Y → ℝ) :
    Real.sqrt (∑ i, ∑ j, w i j * (a i j + b i j) ^ 2) ≤
      Real.sqrt (∑ i, ∑ j, w i j * a i j ^ 2) + Real.sqrt (∑ i, ∑ j, w i j * b i j ^ 2) := by
  have ha : 0 ≤ ∑ i, ∑ j, w i j * a i j ^ 2 :=
    Finset.sum_nonneg fun i _ => Finset.sum_nonneg fun j _ => mul_nonneg (hw i j) (sq_nonneg _)
  have hb : 0 ≤ ∑ i, ∑ j, w i j * b i j ^ 2 :=
    Finset.sum_nonneg fun i _ => Finset.sum_nonneg fun j _ => mul_nonneg (hw i j) (sq_nonneg _)
  have hab : ∑ i, ∑ j, w i j * (a i j * b i j) ≤
      Real.sqrt (∑ i, ∑ j, w i j * a i j ^ 2) * Real.sqrt (∑ i, ∑ j, w i j * b i j ^ 2) := by
    rw [← Real.sqrt_mul ha]
    refine Real.le_sqrt_of_sq_le ?_
    have := Finset.sum_mul_sq_le_sq_mul_sq (Finset.univ : Finset (X × Y)) (fun p => Real.sqrt (w p.1 p.2) * a p.1 p.2)
      fun p => Real.sqrt (w p.1 p.2) * b p.1 p.2
    simp only [Fintype.sum_prod_type, mul_pow, Real.sq_sqrt (hw _ _)] at this
    refine le_trans (le_of_eq ?_) this
    congr 1
    refine Finset.sum_congr rfl fun i _ => Finset.sum_congr rfl fun j _ => ?_
    linear_combination (-(a i j * b i j)) * Real.mul_self_sqrt (hw i j)
  refine Real.sqrt_le_iff.2 ⟨by positivity, ?_⟩
  rw [add_sq, Real.sq_sqrt ha, Real.sq_sqrt hb]
  have e : ∑ i, ∑ j, w i j * (a i j + b i j) ^ 2 = ∑ i, ∑ j, w i j * a i j ^ 2 + 2 * ∑ i, ∑ j, w i j * (a i j * b i j) +
      ∑ i, ∑ j, w i j * b i j ^ 2 := by
    simp only [Finset.mul_sum, ← Finset.sum_add_distrib]
    exact Finset.sum_congr rfl fun i _ => Finset.sum_congr rfl fun j _ => by ring
  rw [e]
  linarith

theorem frob_sq {m n : ℕ} (A : Matrix (Fin m) (Fin n) ℝ) : frob A ^ 2 = ∑ i, ∑ j, A i j ^ 2 :=
  Real.sq_sqrt (Finset.sum_nonneg fun i _ => Finset.sum_nonneg fun j _ => sq_nonneg _)

/-- The squares of a symmetric function on all nodes are those of its even and odd parts. -/
theorem parts_sum {mx my n : ℕ} {x wx : Fin mx → ℝ} {y wy : Fin my → ℝ} (hx : NodesOn 0 n x wx) (hy : NodesOn 0 n y wy)
    {k : ℝ → ℝ → ℝ} (hk : ∀ x y, k (-x) (-y) = k x y) :
    ∑ i, ∑ j, Sum.elim wx wx i * Sum.elim wy wy j * k (Sum.elim x (fun i => -x i) i) (Sum.elim y (fun j => -y j) j) ^ 2 =
      frob (nodeMatrix (fun x y => k x y + k x (-y)) x wx y wy) ^ 2 +
      frob (nodeMatrix (fun x y => k x y - k x (-y)) x wx y wy) ^ 2 := by
  rw [frob_sq, frob_sq, Fintype.sum_sum_type, ← Finset.sum_add_distrib, ← Finset.sum_add_distrib]
  refine Finset.sum_congr rfl fun i _ => ?_
  rw [Fintype.sum_sum_type, Fintype.sum_sum_type, ← Finset.sum_add_distrib, ← Finset.sum_add_distrib,
    ← Finset.sum_add_distrib, ← Finset.sum_add_distrib]
  refine Finset.sum_congr rfl fun j _ => ?_
  have h1 : k (-x i) (y j) = k (x i) (-y j) := by rw [← hk, neg_neg]
  simp only [Sum.elim_inl, Sum.elim_inr, nodeMatrix, Matrix.of_apply, hk, h1, mul_pow, Real.sq_sqrt (hx.wpos i).le,
    Real.sq_sqrt (hy.wpos j).le]
  ring

theorem weights_sum {n mx my : ℕ} {a : ℝ} {x wx : Fin mx → ℝ} {y wy : Fin my → ℝ} (hx : NodesOn a n x wx)
    (hy : NodesOn a n y wy) : ∑ i, ∑ j, wx i * wy j = (1 - a) ^ 2 := by
  have e1 := hx.exact 1 (by simp)
  have e2 := hy.exact 1 (by simp)
  simp at e1 e2
  rw [← Finset.sum_mul_sum, e1, e2]
  ring

/-- The expansion from the error on the nodes. -/
theorem expansion_le {h : Hints} {n : ℕ} {k k' : ℝ → ℝ → ℝ} {r : SveResult} {X Y : Type} [Fintype X] [Fintype Y]
    {x wx : X → ℝ} {y wy : Y → ℝ} {d : List ℝ} {εx εy e : ℝ} (hR : OnSegments h n r x wx y wy)
    (hN : NodeSve k' r x wx y wy d) (hK : KernelNear h n k εx εy)
    (he : Real.sqrt (∑ i, ∑ j, wx i * wy j * (k (x i) (y j) - k' (x i) (y j)) ^ 2) ≤ e) (m : ℕ) :
    squareNorm (resid k r m) ≤ Real.sqrt ((d.map (· ^ 2)).sum + ∑ l with m ≤ l.1, r.s l ^ 2) + (e + 4 * (εx + εy)) := by
  obtain ⟨gx, gy, h1, h2, Sx, Sy, Ex, Ey, hp⟩ := hR
  have := square_le Sx.toGridFromTo Sy.toGridFromTo Ex Ey hK.cont (Finset.univ.filter fun l : Fin r.n => l.1 < m) r.s
    (fun l _ => (hp l).1) (fun l _ => (hp l).2) (hK.x gx h1) (hK.y gy h2)
  have e1 := weighted_add_le (w := fun i j => wx i * wy j) (fun i j => mul_nonneg (Ex.wpos i) (Ey.wpos j))
    (fun i j => resid k' r m (x i) (y j)) fun i j => k (x i) (y j) - k' (x i) (y j)
  rw [hN.error m] at e1
  refine this.trans ?_
  have e2 : ∀ i j, resid k' r m (x i) (y j) + (k (x i) (y j) - k' (x i) (y j)) =
      k (x i) (y j) - ∑ l with l.1 < m, r.s l * fn r.u l (x i) * fn r.v l (y j) := by
    intro i j
    unfold resid
    ring
  simp only [e2] at e1
  linarith

/-- Near decompositions of the even and odd parts give an expansion of a function nearby. -/
theorem exists_near {mx my n : ℕ} {x wx : Fin mx → ℝ} {y wy : Fin my → ℝ} (hx : NodesOn 0 n x wx) (hy : NodesOn 0 n y wy)
    {k : ℝ → ℝ → ℝ} (hk : ∀ x y, k (-x) (-y) = k x y) {M : ℝ} (hM : ∀ x y, |x| ≤ 1 → |y| ≤ 1 → |k x y| ≤ M) {δ : ℝ}
    {fe fo : Factors ℝ mx my} (he : NearSvd (nodeMatrix (fun x y => k x y + k x (-y)) x wx y wy) fe δ)
    (ho : NearSvd (nodeMatrix (fun x y => k x y - k x (-y)) x wx y wy) fo δ) :
    ∃ k' : ℝ → ℝ → ℝ, (∀ x y, k' (-x) (-y) = k' x y) ∧
      IsSvdFactors (nodeMatrix (fun x y => k' x y + k' x (-y)) x wx y wy) fe ∧
      IsSvdFactors (nodeMatrix (fun x y => k' x y - k' x (-y)) x wx y wy) fo ∧
      Real.sqrt (∑ i, ∑ j, Sum.elim wx wx i * Sum.elim wy wy j * (k (Sum.elim x (fun i => -x i) i) (Sum.elim y (fun j => -y j) j) -
        k' (Sum.elim x (fun i => -x i) i) (Sum.elim y (fun j => -y j) j)) ^ 2) ≤ 2 * M * |δ| := by
  have hM0 : 0 ≤ M := (abs_nonneg _).trans (hM 0 0 (by simp) (by simp))
  obtain ⟨k', s1, s2, s3⟩ := exists_symmetric hx hy (fe.u * Matrix.diagonal fe.s * fe.vᵀ) (fo.u * Matrix.diagonal fo.s * fo.vᵀ)
  refine ⟨k', s1, by rw [s2]; exact he.exact, by rw [s3]; exact ho.exact, ?_⟩
  have p1 := parts_sum hx hy (k := fun x y => k x y - k' x y) fun x y => by rw [hk, s1]
  have p2 := parts_sum hx hy hk
  have d1 : nodeMatrix (fun x y => k x y - k' x y + (k x (-y) - k' x (-y))) x wx y wy =
      nodeMatrix (fun x y => k x y + k x (-y)) x wx y wy - fe.u * Matrix.diagonal fe.s * fe.vᵀ := by
    rw [← s2]
    ext i j
    simp only [nodeMatrix, Matrix.of_apply, Matrix.sub_apply]
    ring
  have d2 : nodeMatrix (fun x y => k x y - k' x y - (k x (-y) - k' x (-y))) x wx y wy =
      nodeMatrix (fun x y => k x y - k x (-y)) x wx y wy - fo.u * Matrix.diagonal fo.s * fo.vᵀ := by
    rw [← s3]
    ext i j
    simp only [nodeMatrix, Matrix.of_apply, Matrix.sub_apply]
    ring
  rw [d1, d2] at p1
  rw [p1]
  have q : ∑ i, ∑ j, Sum.elim wx wx i * Sum.elim wy wy j *
      k (Sum.elim x (fun i => -x i) i) (Sum.elim y (fun j => -y j) j) ^ 2 ≤ 4 * M ^ 2 := by
    have hw := weights_sum hx hy
    have hww : ∑ i, ∑ j, Sum.elim wx wx i * Sum.elim wy wy j = 4 := by
      rw [← Finset.sum_mul_sum] at hw ⊢
      rw [Fintype.sum_sum_type, Fintype.sum_sum_type]
      simp only [Sum.elim_inl, Sum.elim_inr]
      linear_combination 4 * hw
    have habs : ∀ {m : ℕ} {z w : Fin m → ℝ}, NodesOn 0 n z w → ∀ i, |Sum.elim z (fun i => -z i) i| ≤ 1 := by
      intro m z w hz i
      rcases i with i | i
      · rw [Sum.elim_inl, abs_of_pos (hz.inside i).1]; exact (hz.inside i).2.le
      · rw [Sum.elim_inr, abs_neg, abs_of_pos (hz.inside i).1]; exact (hz.inside i).2.le
    have hpos : ∀ {m : ℕ} {z w : Fin m → ℝ}, NodesOn 0 n z w → ∀ i, 0 ≤ Sum.elim w w i := by
      intro m z w hz i
      rcases i with i | i <;> exact (hz.wpos i).le
    rw [← hww, Finset.sum_mul]
    refine Finset.sum_le_sum fun i _ => ?_
    rw [Finset.sum_mul]
    refine Finset.sum_le_sum fun j _ => mul_le_mul_of_nonneg_left ?_ (mul_nonneg (hpos hx i) (hpos hy j))
    rw [← sq_abs]
    exact pow_le_pow_left₀ (abs_nonneg _) (hM _ _ (habs hx i) (habs hy j)) 2
  rw [p2] at q
  have n1 : frob (nodeMatrix (fun x y => k x y + k x (-y)) x wx y wy - fe.u * Matrix.diagonal fe.s * fe.vᵀ) ^ 2 ≤
      δ ^ 2 * frob (nodeMatrix (fun x y => k x y + k x (-y)) x wx y wy) ^ 2 := by
    rw [← mul_pow]
    exact pow_le_pow_left₀ (Real.sqrt_nonneg _) he.near 2
  have n2 : frob (nodeMatrix (fun x y => k x y - k x (-y)) x wx y wy - fo.u * Matrix.diagonal fo.s * fo.vᵀ) ^ 2 ≤
      δ ^ 2 * frob (nodeMatrix (fun x y => k x y - k x (-y)) x wx y wy) ^ 2 := by
    rw [← mul_pow]
    exact pow_le_pow_left₀ (Real.sqrt_nonneg _) ho.near 2
  refine Real.sqrt_le_iff.2 ⟨by positivity, ?_⟩
  rw [mul_pow, mul_pow, sq_abs]
  nlinarith [mul_le_mul_of_nonneg_left q (sq_nonneg δ)]

/-! ## The theorems -/

/-- The computed singular values deviate from those of an exact decomposition at most by the backward error (C77). -/
theorem C85_values {m n : ℕ} {A : Matrix (Fin m) (Fin n) ℝ} {f g : Factors ℝ m n} {δ : ℝ} (hf : NearSvd A f δ)
    (hg : IsSvdFactors A g) (l : ℕ) : |sval f l - sval g l| ≤ δ * frob A := by
  rw [abs_sub_comm]
  refine (C77_weyl hg hf.exact (E := frob (A - f.u * Matrix.diagonal f.s * f.vᵀ)) ⟨Real.sqrt_nonneg _, ?_⟩ l).trans hf.near
  rw [frob_sq]
  exact le_rfl

/-- `compute` for a centrosymmetric kernel bounded by `M`: a backward error `δ` of the decompositions adds at most
`2 M δ` to the error over the whole square. -/
theorem C85_centrosymm (env : Env) (K : Kern) (k : ℝ → ℝ → ℝ) (eps : Option Flt) (cutoff : Option ℝ) (nSv nGauss : Option ℕ)
    (work : Option Dtype) (sveStrat : Option Strat) (hstrat : sveStrat = none ∨ sveStrat = some .centrosymm)
    (svdStrat : Option String) (c : Choice) (hc : safeEps env.platform eps work svdStrat = .ok c)
    (hK : Describes K k c.safeEps) (t : ℝ) (ht : CutoffIs env.platform c.dtype cutoff t) (h0 : 0 ≤ t) (h1 : t ≤ 1)
    (hsvd : SvdOk env.libs (decide (c.dtype = .ddouble)) c.strategy) (δ : ℝ)
    (hex : SvdNear env.libs (decide (c.dtype = .ddouble)) c.strategy δ) (hsort : ∀ k, ArgsortOk (env.argsort k))
    (n : ℕ) (hn : n = nGauss.getD (if 1e-8 ≤ c.safeEps then 10 else 16)) (rule : Rule) (hleg : env.legendre n = .ok rule)
    (hr : GoodRule rule) (hrn : rule.x.length = n) (r : SveResult)
    (hok : SveCompute.compute env K eps cutoff (nSv.map fun n : ℕ => PyNum.int n) nGauss work sveStrat svdStrat = .ok r)
    (εx εy : ℝ) (hnear : KernelNear (K.full.hints c.safeEps) n k εx εy) (M : ℝ)
    (hM : ∀ x y, |x| ≤ 1 → |y| ≤ 1 → |k x y| ≤ M) :
    ∃ (mx my : ℕ) (x wx : Fin mx → ℝ) (y wy : Fin my → ℝ) (fe fo : Factors ℝ mx my) (d : List ℝ),
      NodesOn 0 n x wx ∧ NodesOn 0 n y wy ∧
      NearSvd (nodeMatrix (fun x y => k x y + k x (-y)) x wx y wy) fe δ ∧
      NearSvd (nodeMatrix (fun x y => k x y - k x (-y)) x wx y wy) fo δ ∧
      Selected (List.ofFn fe.s ++ List.ofFn fo.s) t nSv (List.ofFn r.s) d ∧
      ∀ m, squareNorm (resid k r m) ≤ Real.sqrt ((d.map (· ^ 2)).sum + ∑ l with m ≤ l.1, r.s l ^ 2) +
        (2 * M * |δ| + 4 * (εx + εy)) := by
  obtain ⟨mx, my, x, wx, y, wy, hint, fe, we, fo, wo, a1, a2, a3, a4, a5, ⟨h, -⟩ | ⟨r', d, b1, b2, b3, b4, b5, b6, b7, b8⟩⟩ :=
    compute_centrosymm env K k eps cutoff nSv nGauss work sveStrat hstrat svdStrat c hc (hK.inside _) t ht h0 h1 hsvd hsort n hn
      rule hleg hr hrn
  · rw [hok] at h
    cases h
  · obtain rfl : r = r' := Except.ok.inj (hok.symm.trans b1)
    have p1 := a1.pos one_pos
    have p2 := a2.pos one_pos
    have e1 := hex _ _ _ _ _ _ p1 p2 a4
    have e2 := hex _ _ _ _ _ _ p1 p2 a5
    obtain ⟨k', s1, s2, s3, s4⟩ := exists_near a1 a2 hK.symm hM e1 e2
    exact ⟨mx, my, x, wx, y, wy, fe, fo, d, a1, a2, e1, e2, b5, fun m => expansion_le b7 (b8 k' s1 s2 s3) hnear s4 m⟩

/-- The same with `sve_strat=SamplingSVE`. -/
theorem C85_sampling (env : Env) (K : Kern) (k : ℝ → ℝ → ℝ) (eps : Option Flt) (cutoff : Option ℝ) (nSv nGauss : Option ℕ)
    (work : Option Dtype) (svdStrat : Option String) (c : Choice) (hc : safeEps env.platform eps work svdStrat = .ok c)
    (hK : Describes K k c.safeEps) (t : ℝ) (ht : CutoffIs env.platform c.dtype cutoff t) (h0 : 0 ≤ t) (h1 : t ≤ 1)
    (hsvd : SvdOk env.libs (decide (c.dtype = .ddouble)) c.strategy) (δ : ℝ)
    (hex : SvdNear env.libs (decide (c.dtype = .ddouble)) c.strategy δ)
    (n : ℕ) (hn : n = nGauss.getD (if 1e-8 ≤ c.safeEps then 10 else 16)) (rule : Rule) (hleg : env.legendre n = .ok rule)
    (hr : GoodRule rule) (hrn : rule.x.length = n) (r : SveResult)
    (hok : SveCompute.compute env K eps cutoff (nSv.map fun n : ℕ => PyNum.int n) nGauss work (some .sampling) svdStrat = .ok r)
    (εx εy : ℝ) (hnear : KernelNear (K.full.hints c.safeEps) n k εx εy) (M : ℝ)
    (hM : ∀ x y, |x| ≤ 1 → |y| ≤ 1 → |k x y| ≤ M) :
    ∃ (mx my : ℕ) (x wx : Fin mx → ℝ) (y wy : Fin my → ℝ) (f : Factors ℝ mx my) (d : List ℝ),
      NodesOn (-1) n x wx ∧ NodesOn (-1) n y wy ∧ NearSvd (nodeMatrix k x wx y wy) f δ ∧
      Selected (List.ofFn f.s) t nSv (List.ofFn r.s) d ∧
      ∀ m, squareNorm (resid k r m) ≤ Real.sqrt ((d.map (· ^ 2)).sum + ∑ l with m ≤ l.1, r.s l ^ 2) +
        (2 * M * |δ| + 4 * (εx + εy)) := by
  obtain ⟨mx, my, x, wx, y, wy, hint, f, w, a1, a2, a3, a4, ⟨h, -⟩ | ⟨r', d, b1, b2, b3, b4, b5, b6, b7⟩⟩ :=
    compute_sampling env K k eps cutoff nSv nGauss work svdStrat c hc hK t ht h0 h1 hsvd n hn rule hleg hr hrn
  · rw [hok] at h
    cases h
  · obtain rfl : r = r' := Except.ok.inj (hok.symm.trans b1)
    have e1 := hex _ _ _ _ _ _ (a1.pos (by norm_num)) (a2.pos (by norm_num)) a4
    refine ⟨mx, my, x, wx, y, wy, f, d, a1, a2, e1, b4, ?_⟩
    have hM0 : 0 ≤ M := (abs_nonneg _).trans (hM 0 0 (by simp) (by simp))
    set F := f.u * Matrix.diagonal f.s * f.vᵀ with hF
    let k' := onNodes x y fun i j => F i j / (Real.sqrt (wx i) * Real.sqrt (wy j))
    have hk' : ∀ i j, k' (x i) (y j) * Real.sqrt (wx i) * Real.sqrt (wy j) = F i j := by
      intro i j
      rw [mul_assoc]
      simp only [k']
      rw [onNodes_at a1.mono.injective a2.mono.injective, div_mul_cancel₀]
      exact mul_ne_zero (Real.sqrt_pos.2 (a1.wpos i)).ne' (Real.sqrt_pos.2 (a2.wpos j)).ne'
    have hk2 : nodeMatrix k' x wx y wy = F := by
      ext i j
      exact hk' i j
    refine fun m => expansion_le b6 (b7 k' (by rw [hk2]; exact e1.exact)) hnear ?_ m
    have hf : ∀ g : ℝ → ℝ → ℝ, ∑ i, ∑ j, wx i * wy j * g (x i) (y j) ^ 2 = frob (nodeMatrix g x wx y wy) ^ 2 := by
      intro g
      rw [frob_sq]
      refine Finset.sum_congr rfl fun i _ => Finset.sum_congr rfl fun j _ => ?_
      simp only [nodeMatrix, Matrix.of_apply, mul_pow, Real.sq_sqrt (a1.wpos i).le, Real.sq_sqrt (a2.wpos j).le]
      ring
    have d1 : nodeMatrix (fun x y => k x y - k' x y) x wx y wy = nodeMatrix k x wx y wy - F := by
      rw [← hk2]
      ext i j
      simp only [nodeMatrix, Matrix.of_apply, Matrix.sub_apply]
      ring
    rw [hf fun x y => k x y - k' x y, d1, Real.sqrt_sq (show 0 ≤ frob _ from Real.sqrt_nonneg _)]
    refine e1.near.trans ?_
    have q : frob (nodeMatrix k x wx y wy) ≤ 2 * M := by
      refine abs_le_of_sq_le_sq' ?_ (by positivity) |>.2
      rw [← hf k]
      have hw := weights_sum a1 a2
      have : (2 * M) ^ 2 = ∑ i, ∑ j, wx i * wy j * M ^ 2 := by
        simp only [← Finset.sum_mul, hw]
        ring
      rw [this]
      refine Finset.sum_le_sum fun i _ => Finset.sum_le_sum fun j _ =>
        mul_le_mul_of_nonneg_left ?_ (mul_nonneg (a1.wpos i).le (a2.wpos j).le)
      rw [← sq_abs]
      exact pow_le_pow_left₀ (abs_nonneg _) (hM _ _ (abs_le.2 ⟨(a1.inside i).1.le, (a1.inside i).2.le⟩)
        (abs_le.2 ⟨(a2.inside j).1.le, (a2.inside j).2.le⟩)) 2
    calc δ * frob (nodeMatrix k x wx y wy) ≤ |δ| * frob (nodeMatrix k x wx y wy) :=
          mul_le_mul_of_nonneg_right (le_abs_self δ) (Real.sqrt_nonneg _)
      _ ≤ |δ| * (2 * M) := mul_le_mul_of_nonneg_left q (abs_nonneg _)
      _ = 2 * M * |δ| := by ring

/-! ## The logistic kernel -/

theorem logisticK_le_one {lam : ℝ} (hl : 0 < lam) (x y : ℝ) (hx : |x| ≤ 1) : |logisticK lam x y| ≤ 1 := by
  unfold logisticK
  rw [abs_of_nonneg (by positivity), div_le_one (by positivity)]
  have h := abs_le.1 hx
  have hp := Real.exp_pos (-lam * y)
  rcases le_total 0 y with hy | hy
  · have h2 := mul_nonneg (mul_nonneg hl.le hy) (show 0 ≤ x + 1 by linarith)
    have h3 : Real.exp (-lam * y * (x + 1) / 2) ≤ 1 := Real.exp_le_one_iff.2 (by linarith)
    linarith
  · have h2 := mul_nonneg (mul_nonneg hl.le (neg_nonneg.2 hy)) (show 0 ≤ 1 - x by linarith)
    have h3 : Real.exp (-lam * y * (x + 1) / 2) ≤ Real.exp (-lam * y) := Real.exp_le_exp.2 (by linarith)
    linarith

/-- `compute(LogisticKernel(lam), eps, cutoff, n_sv)` with a backward error `δ` of the decompositions. -/
theorem C85_logistic (env : Env) (lam : ℝ) (hl1 : 10 ≤ lam) (hl2 : lam ≤ 10 ^ 6) (eps : Option Flt) (cutoff : Option ℝ)
    (nSv : Option ℕ) (work : Option Dtype) (sveStrat : Option Strat) (hstrat : sveStrat = none ∨ sveStrat = some .centrosymm)
    (svdStrat : Option String) (c : Choice) (hc : safeEps env.platform eps work svdStrat = .ok c)
    (t : ℝ) (ht : CutoffIs env.platform c.dtype cutoff t) (h0 : 0 ≤ t) (h1 : t ≤ 1)
    (hsvd : SvdOk env.libs (decide (c.dtype = .ddouble)) c.strategy) (δ : ℝ)
    (hex : SvdNear env.libs (decide (c.dtype = .ddouble)) c.strategy δ) (hsort : ∀ k, ArgsortOk (env.argsort k))
    (rule : Rule) (hleg : env.legendre (if 1e-8 ≤ c.safeEps then 10 else 16) = .ok rule)
    (hr : GoodRule rule) (hrn : rule.x.length = if 1e-8 ≤ c.safeEps then 10 else 16) (r : SveResult)
    (hok : SveCompute.compute env (logisticKern lam) eps cutoff (nSv.map fun n : ℕ => PyNum.int n) none work sveStrat svdStrat
      = .ok r) :
    ∃ (mx my : ℕ) (x wx : Fin mx → ℝ) (y wy : Fin my → ℝ) (fe fo : Factors ℝ mx my) (d : List ℝ),
      NearSvd (nodeMatrix (fun x y => logisticK lam x y + logisticK lam x (-y)) x wx y wy) fe δ ∧
      NearSvd (nodeMatrix (fun x y => logisticK lam x y - logisticK lam x (-y)) x wx y wy) fo δ ∧
      Selected (List.ofFn fe.s ++ List.ofFn fo.s) t nSv (List.ofFn r.s) d ∧
      ∀ m, squareNorm (resid (logisticK lam) r m) ≤
        Real.sqrt ((d.map (· ^ 2)).sum + ∑ l with m ≤ l.1, r.s l ^ 2) + (2 * |δ| + if 1e-8 ≤ c.safeEps then 1e-8 else 4e-14) := by
  obtain ⟨mx, my, x, wx, y, wy, fe, fo, d, -, -, e1, e2, e3, e4⟩ :=
    C85_centrosymm env (logisticKern lam) (logisticK lam) eps cutoff nSv none work sveStrat hstrat svdStrat c hc
      (C65_logistic lam c.safeEps (by linarith)) t ht h0 h1 hsvd δ hex hsort _ rfl rule hleg hr hrn r hok _ _
      (C83_hints hl1 hl2 c.safeEps (by simp only [Option.getD_none]; split <;> norm_num)) 1
      fun x y hx _ => logisticK_le_one (by linarith) x y hx
  refine ⟨mx, my, x, wx, y, wy, fe, fo, d, e1, e2, e3, fun m => (e4 m).trans (add_le_add le_rfl ?_)⟩
  simp only [Option.getD_none, mul_one]
  refine add_le_add le_rfl ?_
  split
  · exact logisticTail_values.1
  · exact logisticTail_values.2

/-- As `Accurate` of C84, with decompositions of matrices nearby. -/
def AccurateNear (k κ : ℝ → ℝ → ℝ) (δ : ℝ) (n : ℕ) (stat : String) (beta wmax fac e t tail : ℝ) (maxSize : Option ℕ)
    (res : PyM Basis) : Prop :=
  ∃ (mx my : ℕ) (x wx : Fin mx → ℝ) (y wy : Fin my → ℝ) (fe fo : Factors ℝ mx my),
    NodesOn 0 n x wx ∧ NodesOn 0 n y wy ∧
    NearSvd (nodeMatrix (fun x y => k x y + k x (-y)) x wx y wy) fe δ ∧
    NearSvd (nodeMatrix (fun x y => k x y - k x (-y)) x wx y wy) fo δ ∧
    (res = .error .nanResult ∨
    ∃ (b : Basis) (omitted : List ℝ), res = .ok b ∧ IsBasis b stat beta wmax e ∧ (∀ m ∈ maxSize, b.size ≤ m) ∧
      (List.ofFn b.s ++ omitted).Perm ((List.ofFn fe.s ++ List.ofFn fo.s).map (fac * ·)) ∧
      (∀ q ∈ omitted, ∀ l, q ≤ b.s l) ∧
      (maxSize = none → ∀ q ∈ omitted, ∀ l0 : Fin b.size, l0.1 = 0 → q ≤ max e t * b.s l0) ∧
      regionNorm beta wmax (basisError κ b) ≤ Real.sqrt (omitted.map (· ^ 2)).sum + tail ∧
      ∀ ρ, SquareIntegrable wmax ρ →
        Real.sqrt (∫ tau in (0 : ℝ)..beta, (greens κ wmax ρ tau - expanded b wmax ρ tau) ^ 2) ≤
          (Real.sqrt (omitted.map (· ^ 2)).sum + tail) * Real.sqrt (∫ omega in (-wmax)..wmax, ρ omega ^ 2) ∧
        ∀ m : ℤ, |(m : ℝ)| < 40 * (beta * wmax) → (stat = "F" ↔ Odd m) → ∃ f, b.uhat.call m = .ok f ∧
          ‖(∫ tau in (0 : ℝ)..beta, Complex.exp (Complex.I * Real.pi * m * tau / beta) * (greens κ wmax ρ tau : ℂ)) -
            ∑ l, (coefs b wmax ρ l : ℂ) * f l‖ ≤
          Real.sqrt beta * ((Real.sqrt (omitted.map (· ^ 2)).sum + tail) *
            Real.sqrt (∫ omega in (-wmax)..wmax, ρ omega ^ 2)))

/-- `FiniteTempBasis` for the logistic kernel, in terms of how well the hinted segments resolve it. -/
theorem basis_near (env : Env) (fp : Fp) (stat : String) (hstat : stat = "F" ∨ stat = "B") (beta wmax : ℝ)
    (hbeta : 0 < beta) (hw : 0 < wmax) (hfp : fp.mul beta wmax = beta * wmax) 
    (eps : Option ℝ) (maxSize : Option ℕ)
    (hmax : maxSize ≠ some 0) (c : Choice) (hc : safeEps env.platform (eps.map .real) none none = .ok c)
    (he : eps.getD c.safeEps ≤ 1) (t : ℝ) (ht : CutoffIs env.platform c.dtype none t) (h0 : 0 ≤ t) (h1 : t < 1)
    (hsvd : SvdOk env.libs (decide (c.dtype = .ddouble)) c.strategy) (δ : ℝ)
    (hex : SvdNear env.libs (decide (c.dtype = .ddouble)) c.strategy δ) (hsort : ∀ k, ArgsortOk (env.argsort k))
    (rule : Rule) (hleg : env.legendre (if 1e-8 ≤ c.safeEps then 10 else 16) = .ok rule) (hr : GoodRule rule)
    (hrn : rule.x.length = if 1e-8 ≤ c.safeEps then 10 else 16) {εx εy tail : ℝ}
    (hnear : KernelNear ((logisticKern (beta * wmax)).full.hints c.safeEps) (if 1e-8 ≤ c.safeEps then 10 else 16)
      (logisticK (beta * wmax)) εx εy) (htail : 4 * (εx + εy) ≤ tail) :
    AccurateNear (logisticK (beta * wmax)) (fun tau omega => Real.exp (-tau * omega) / (1 + Real.exp (-beta * omega))) δ
      (if 1e-8 ≤ c.safeEps then 10 else 16) stat beta wmax (Real.sqrt (beta / 2 * wmax)) (eps.getD c.safeEps) t
      (Real.sqrt (beta / 2 * wmax) * (2 * |δ| + tail)) maxSize
      (make fp (computeOf env) stat beta wmax eps maxSize none none) := by
  have hκ : ∀ x y, |x| ≤ 1 → |y| ≤ 1 → (fun tau omega => Real.exp (-tau * omega) / (1 + Real.exp (-beta * omega)))
      (beta / 2 * (x + 1)) (wmax * y) = wmax ^ (-(logisticInfo (beta * wmax)).ypower) * logisticK (beta * wmax) x y := by
    intro x y _ _
    show _ = wmax ^ (-(0 : ℤ)) * _
    rw [neg_zero, zpow_zero, one_mul]
    unfold logisticK
    simp only
    congr 2
    · ring
    · congr 1; ring
  obtain ⟨mx, my, x, wx, y, wy, hint, fe, we, fo, wo, a1, a2, a3, a4, hres⟩ :=
    scratch_full env fp stat hstat beta wmax hbeta hw eps maxSize hmax none (logisticInfo (beta * wmax))
      (by rw [hfp]; rcases hstat with rfl | rfl <;> rfl) rfl _ (if_pos rfl) (logisticK (beta * wmax))
      (fun tau omega => Real.exp (-tau * omega) / (1 + Real.exp (-beta * omega))) hκ c hc he
      (C65_logistic _ _ (by positivity)) t ht h0 h1 hsvd hsort _ rfl rule hleg hr hrn
  have hyp : wmax ^ (-(logisticInfo (beta * wmax)).ypower) = 1 := by
    show wmax ^ (-(0 : ℤ)) = 1
    rw [neg_zero, zpow_zero]
  have e1 := hex _ _ _ _ _ _ (a1.pos one_pos) (a2.pos one_pos) a3
  have e2 := hex _ _ _ _ _ _ (a1.pos one_pos) (a2.pos one_pos) a4
  refine ⟨mx, my, x, wx, y, wy, fe, fo, a1, a2, e1, e2, ?_⟩
  rcases hres with ⟨h, -⟩ | ⟨b, omitted, b1, b2, b3, b4, b5, b6, b7, b8, b9, r, d, c1, c2, c3, c4, c5⟩
  · exact Or.inl h
  · rw [hyp] at c2 c3 b4
    simp only [mul_one] at c2 b4
    obtain ⟨k', s1, s2, s3, s4⟩ := exists_near a1 a2 (C65_logistic (beta * wmax) c.safeEps (by positivity)).symm
      (fun x y hx _ => logisticK_le_one (by positivity) x y hx) e1 e2
    have hexp := expansion_le c4 (c5 k' s1 s2 s3) hnear s4 b.size
    have hreg : regionNorm beta wmax (basisError (fun tau omega => Real.exp (-tau * omega) / (1 + Real.exp (-beta * omega))) b)
        ≤ Real.sqrt (omitted.map (· ^ 2)).sum +
          Real.sqrt (beta / 2 * wmax) * (2 * |δ| + tail) := by
      rw [mul_one] at hexp
      exact region_le hbeta hw c1 c2 c3 (hexp.trans (add_le_add le_rfl (add_le_add le_rfl htail)))
    refine Or.inr ⟨b, omitted, b1, b2, b3, b4, b5, b6, hreg, fun ρ hρ => ?_⟩
    have hcont : Continuous fun z : ℝ × ℝ => Real.exp (-z.1 * z.2) / (1 + Real.exp (-beta * z.2)) :=
      Continuous.div (by fun_prop) (by fun_prop) fun z => by positivity
    have hmul := mul_le_mul_of_nonneg_right hreg (Real.sqrt_nonneg (∫ omega in (-wmax)..wmax, ρ omega ^ 2))
    refine ⟨(C84_greens hbeta hw b8 b9 b2.udom b2.vdom hcont.continuousOn hρ).trans hmul, fun m hm hp => ?_⟩
    exact ⟨_, b2.uhat m hm hp, (C84_matsubara hbeta hw b8 b9 b2.udom b2.vdom hcont.continuousOn hρ m).trans
      (mul_le_mul_of_nonneg_left hmul (Real.sqrt_nonneg _))⟩

/-- `FiniteTempBasis` for the logistic kernel: the decompositions contribute at most `2 δ` and the discretisation at most
`10⁻⁸` (`4·10⁻¹⁴`), times `sqrt(beta * wmax / 2)`. -/
theorem C85_basis (env : Env) (fp : Fp) (stat : String) (hstat : stat = "F" ∨ stat = "B") (beta wmax : ℝ)
    (hbeta : 0 < beta) (hw : 0 < wmax) (hfp : fp.mul beta wmax = beta * wmax) (hl1 : 10 ≤ beta * wmax)
    (hl2 : beta * wmax ≤ 10 ^ 6) (eps : Option ℝ) (maxSize : Option ℕ)
    (hmax : maxSize ≠ some 0) (c : Choice) (hc : safeEps env.platform (eps.map .real) none none = .ok c)
    (he : eps.getD c.safeEps ≤ 1) (t : ℝ) (ht : CutoffIs env.platform c.dtype none t) (h0 : 0 ≤ t) (h1 : t < 1)
    (hsvd : SvdOk env.libs (decide (c.dtype = .ddouble)) c.strategy) (δ : ℝ)
    (hex : SvdNear env.libs (decide (c.dtype = .ddouble)) c.strategy δ) (hsort : ∀ k, ArgsortOk (env.argsort k))
    (rule : Rule) (hleg : env.legendre (if 1e-8 ≤ c.safeEps then 10 else 16) = .ok rule) (hr : GoodRule rule)
    (hrn : rule.x.length = if 1e-8 ≤ c.safeEps then 10 else 16) :
    AccurateNear (logisticK (beta * wmax)) (fun tau omega => Real.exp (-tau * omega) / (1 + Real.exp (-beta * omega))) δ
      (if 1e-8 ≤ c.safeEps then 10 else 16) stat beta wmax (Real.sqrt (beta / 2 * wmax)) (eps.getD c.safeEps) t
      (Real.sqrt (beta / 2 * wmax) * (2 * |δ| + if 1e-8 ≤ c.safeEps then 1e-8 else 4e-14)) maxSize
      (make fp (computeOf env) stat beta wmax eps maxSize none none) :=
  basis_near env fp stat hstat beta wmax hbeta hw hfp eps maxSize hmax c hc he t ht h0 h1 hsvd δ hex hsort rule hleg hr hrn
    (C83_hints hl1 hl2 c.safeEps (by split <;> norm_num)) (by
      split
      · exact logisticTail_values.1
      · exact logisticTail_values.2)

/-! ## The hypotheses are met -/

/-- Singular values that are too small by a factor. -/
noncomputable def scaledFactors (δ : ℝ) {m n : ℕ} (A : Matrix (Fin m) (Fin n) ℝ) : Factors ℝ m n :=
  ⟨(idealFactors A).k, (idealFactors A).u, fun i => (1 - δ) * (idealFactors A).s i, (idealFactors A).v⟩

theorem scaledFactors_near {δ : ℝ} (h0 : 0 ≤ δ) (h1 : δ < 1) {m n : ℕ} (A : Matrix (Fin m) (Fin n) ℝ) :
    NearSvd A (scaledFactors δ A) δ := by
  have h := idealFactors_ok A
  refine ⟨le_of_eq ?_, h.u_orth, h.v_orth, fun i => mul_nonneg (by linarith) (h.nonneg i),
    fun i j hij => mul_le_mul_of_nonneg_left (h.anti hij) (by linarith)⟩
  have e : A - (scaledFactors δ A).u * Matrix.diagonal (scaledFactors δ A).s * (scaledFactors δ A).vᵀ = δ • A := by
    have e1 : Matrix.diagonal (fun i => (1 - δ) * (idealFactors A).s i) = (1 - δ) • Matrix.diagonal (idealFactors A).s := by
      rw [← Matrix.diagonal_smul]
      rfl
    show A - (idealFactors A).u * Matrix.diagonal (fun i => (1 - δ) * (idealFactors A).s i) * (idealFactors A).vᵀ = δ • A
    rw [e1, Matrix.mul_smul, Matrix.smul_mul, ← h.eq, sub_smul, one_smul, sub_sub_cancel]
  rw [e]
  unfold frob
  simp only [Matrix.smul_apply, smul_eq_mul, mul_pow, ← Finset.mul_sum]
  rw [Real.sqrt_mul (sq_nonneg _), Real.sqrt_sq h0]

/-- Libraries with such an error. -/
noncomputable def scaledLibs (δ : ℝ) (xprec : Bool) : Libs ℝ where
  xprec := if xprec then some fun _ _ A => .ok (scaledFactors δ A) else none
  idsvd := fun _ _ A _ => .ok (scaledFactors δ A)
  npSvd := fun _ _ A => .ok (scaledFactors δ A)
  dgejsv := some fun _ _ A _ => .ok ⟨scaledFactors δ A, 0, 0⟩

/-- An environment with libraries that are not exact meets the hypotheses, for any error below one. -/
theorem inexact_env {δ : ℝ} (h0 : 0 ≤ δ) (h1 : δ < 1) (xprec : Bool) : ∃ (env : Env) (c : Choice) (rule : Rule),
    safeEps env.platform (some (.real 1e-6)) none none = .ok c ∧
    CutoffIs env.platform c.dtype none (2 * 2 ^ (-52 : ℤ)) ∧ SvdOk env.libs (decide (c.dtype = .ddouble)) c.strategy ∧
    SvdNear env.libs (decide (c.dtype = .ddouble)) c.strategy δ ∧ (∀ k, ArgsortOk (env.argsort k)) ∧
    env.legendre (if 1e-8 ≤ c.safeEps then 10 else 16) = .ok rule ∧ GoodRule rule ∧
    rule.x.length = if 1e-8 ≤ c.safeEps then 10 else 16 := by
  obtain ⟨eig, diff, sub, r, h2, h3, h4, h5⟩ := C25_exists 9
  have hg := C36_goodRule (Nat.succ_pos 9) h2 h3 h4 h5
  have hlib : ∀ m n (A : Matrix (Fin m) (Fin n) ℝ) hint,
      Svd.compute (scaledLibs δ xprec) false A hint "fast" = .ok (scaledFactors δ A, []) := by
    intro m n A hint
    unfold Svd.compute scaledLibs
    cases xprec <;> rfl
  refine ⟨⟨fun _ => .ok r, scaledLibs δ xprec, exPlatform xprec, fun k s => Tuple.sort s⟩, ⟨1e-8, .float64, "fast", false⟩, r,
    ?_, Or.inr ⟨rfl, _, rfl, rfl⟩, fun m n A hint _ _ _ => ⟨_, [], hlib m n A hint, ?_⟩,
    fun m n A hint f w _ _ h6 => ?_, fun k s => ⟨(Tuple.sort s).bijective, Tuple.monotone_sort s⟩, rfl, hg, ?_⟩
  · have h6 : ¬ ((1e-6 : ℝ) < 1e-8) := by norm_num
    simp [safeEps, chooseDtype, safeEpsOf, Flt.lt, h6]
  · have hs := scaledFactors_near h0 h1 A
    refine ⟨hs.u_orth, hs.v_orth, hs.nonneg, hs.anti, fun hA => ?_⟩
    obtain ⟨i, hi⟩ := (idealFactors_ok A).thin.nonzero hA
    exact ⟨i, mul_pos (by linarith) hi⟩
  · have h7 := (hlib m n A hint).symm.trans h6
    cases h7
    exact scaledFactors_near h0 h1 A
  · simp [h3]

/-- For example `beta = 20`, `wmax = 5`, `eps = 10⁻⁶` and a backward error of `10⁻¹²`. -/
example : ∃ env c, safeEps env.platform (some (.real 1e-6)) none none = .ok c ∧
    AccurateNear (logisticK (20 * 5)) (fun tau omega => Real.exp (-tau * omega) / (1 + Real.exp (-20 * omega))) 1e-12
      (if 1e-8 ≤ c.safeEps then 10 else 16) "F" 20 5 (Real.sqrt (20 / 2 * 5)) 1e-6 (2 * 2 ^ (-52 : ℤ))
      (Real.sqrt (20 / 2 * 5) * (2 * |1e-12| + if 1e-8 ≤ c.safeEps then 1e-8 else 4e-14)) none
      (make Fp.exact (computeOf env) "F" 20 5 (some 1e-6) none none none) := by
  obtain ⟨env, c, rule, h1, h2, h3, h4, h5, h6, h7, h8⟩ :=
    inexact_env (show (0 : ℝ) ≤ 1e-12 by norm_num) (by norm_num) true
  exact ⟨env, c, h1, C85_basis env Fp.exact "F" (Or.inl rfl) 20 5 (by norm_num) (by norm_num) rfl (by norm_num)
    (by norm_num) (some 1e-6) none (by simp) c h1 (by norm_num) _ h2 (by positivity) (by norm_num) h3 _ h4 h5 rule h6 h7 h8⟩

end Verif.Props
