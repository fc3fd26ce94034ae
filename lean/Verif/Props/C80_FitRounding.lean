import Verif.Lemmas.RoundingFit
import Verif.Props.C69_NoiseAmplification
/-!
# C80 — rounding errors of evaluating at sampling points and of fitting
-/

namespace Verif.Props
open Verif Verif.Np Verif.Spec Verif.Sampling Verif.Np.NdArray Matrix

/-- A singular value decomposition as it is computed: factors orthonormal up to `δ`, their product the matrix up to
`e` times the largest singular value `smax`, and all singular values positive, decreasing to `smin`. -/
structure ComputedSvd {𝕜 : Type} [RCLike 𝕜] {m n : ℕ} (A u : Matrix (Fin m) (Fin n) 𝕜) (s : Fin n → ℝ)
    (vH : Matrix (Fin n) (Fin n) 𝕜) (δ e smin smax : ℝ) : Prop where
  hδ : 0 ≤ δ
  hδ' : δ ≤ 1 / 10
  he : 0 ≤ e
  he' : e ≤ 1 / 10
  pos : 0 < smin
  anti : Antitone s
  first : ∀ i : Fin n, i.1 = 0 → s i = smax
  last : ∀ i : Fin n, i.1 + 1 = n → s i = smin
  u_orth : OpLe (uᴴ * u - 1) δ
  v_orth : OpLe (vHᴴ * vH - 1) δ
  eq : OpLe (A - u * Matrix.diagonal (fun i => (s i : 𝕜)) * vH) (e * smax)

/-- The triple of arrays is such a decomposition of `A`. -/
def NearSvdOk {𝕜 : Type} [RCLike 𝕜] {m n : ℕ} (A : Matrix (Fin m) (Fin n) 𝕜) (t : Triple 𝕜) (δ e smin smax : ℝ) : Prop :=
  ∃ u s vH, t = ⟨m, n, n, n, n, u, s, vH⟩ ∧ ComputedSvd A u s vH δ e smin smax

/-- Bounds on what rounding does to products of `m × n` matrices and their factors, in norm: `γ` relative, `H` by
underflow. -/
structure SizesOk (g h : ℕ → ℝ) (ε : ℝ) (m n : ℕ) (γ H : ℝ) : Prop where
  gm : Real.sqrt m * g m ≤ γ
  gn : Real.sqrt n * g n ≤ γ
  hγ : γ ≤ 1 / 12
  hε : ε ≤ 1 / 10
  h1 : Real.sqrt m * h n ≤ H
  h2 : Real.sqrt n * h m ≤ H
  h3 : Real.sqrt n * h n ≤ H
  h4 : Real.sqrt n * h 1 ≤ H

section
variable {𝕜 : Type} [RCLike 𝕜] {m n : ℕ} {A u : Matrix (Fin m) (Fin n) 𝕜} {s : Fin n → ℝ}
    {vH : Matrix (Fin n) (Fin n) 𝕜} {δ e smin smax : ℝ}

theorem ComputedSvd.near (c : ComputedSvd A u s vH δ e smin smax) (hn : 0 < n) :
    NearSvd A u s vHᴴ δ (e * smax) smin smax := by
  have hlo : ∀ i, smin ≤ s i := fun i => by
    rw [← c.last ⟨n - 1, by omega⟩ (by simp only; omega)]
    exact c.anti (Fin.le_def.2 (by have := i.2; simp only; omega))
  have hhi : ∀ i, s i ≤ smax := fun i => by
    rw [← c.first ⟨0, hn⟩ rfl]
    exact c.anti (Fin.le_def.2 (Nat.zero_le _))
  have hle : smin ≤ smax := (hlo ⟨0, hn⟩).trans (hhi ⟨0, hn⟩)
  have hmax : 0 < smax := c.pos.trans_le hle
  refine ⟨c.hδ, c.hδ', mul_nonneg c.he hmax.le, ?_, c.pos, hlo, hhi, hle, c.u_orth, ?_, ?_⟩
  · have := mul_le_mul_of_nonneg_right c.he' hmax.le
    linarith
  · rw [Matrix.conjTranspose_conjTranspose]
    exact c.v_orth
  · rw [Matrix.conjTranspose_conjTranspose]
    exact c.eq

end

/-- With non-zero singular values nothing is removed from the factors. -/
theorem keep_all {k : ℕ} (s : Fin k → ℝ) (h : ∀ i, s i ≠ 0) : keep s = List.finRange k := by
  unfold keep
  rw [List.filter_eq_self]
  intro i _
  simpa using h i

theorem keep_get_val {k : ℕ} (s : Fin k → ℝ) (h : ∀ i, s i ≠ 0) (i : Fin (keep s).length) :
    ((keep s).get i).1 = i.1 := by
  have e := keep_all s h
  have : (keep s)[i.1]? = (List.finRange k)[i.1]? := congrArg (fun l : List (Fin k) => l[i.1]?) e
  rw [List.getElem?_eq_getElem i.2, List.getElem?_eq_getElem (by rw [← e]; exact i.2)] at this
  have := Option.some.inj this
  rw [List.get_eq_getElem, this, List.getElem_finRange]
  rfl

theorem decompose_all {m n : ℕ} (A u : Matrix (Fin m) (Fin n) ℂ) (s : Fin n → ℝ) (vH : Matrix (Fin n) (Fin n) ℂ)
    (h : ∀ i, s i ≠ 0) :
    decompose A ⟨m, n, n, n, n, u, s, vH⟩ = .ok ⟨A, n, uᴴ, s, vHᴴ⟩ := by
  have hc : Util.checkSvdResult m n n n n (some (m, n)) = .ok n := by unfold Util.checkSvdResult; simp
  unfold decompose
  rw [dif_pos ⟨hc, ⟨rfl, rfl⟩, rfl, rfl⟩]
  have key : ∀ (r : ℕ) (_ : r = n) (f : Fin r → Fin n), (∀ i, (f i).1 = i.1) →
      (⟨A, r, fun i j => star (u j (f i)), fun i => s (f i), fun j i => star (vH (f i) j)⟩ : DecMat ℂ m n) =
        ⟨A, n, uᴴ, s, vHᴴ⟩ := by
    rintro r rfl f hf
    obtain rfl : f = id := funext fun i => Fin.ext (hf i)
    rfl
  exact congrArg Except.ok (key _ (by rw [keep_all s h, List.length_finRange]) (keep s).get (keep_get_val s h))

theorem splitDecompose_all {m n : ℕ} (A u : Matrix (Fin m) (Fin n) ℂ) (s : Fin n → ℝ) (vT : Matrix (Fin n) (Fin n) ℝ)
    (h : ∀ i, s i ≠ 0) :
    splitDecompose A ⟨m, n, n, n, n, u, s, vT⟩ =
      .ok ⟨A, n, fun i j => (u j i).re, fun i j => (u j i).im, s, fun j i => vT i j⟩ := by
  have hc : Util.checkSvdResult m n n n n (some (m, n)) = .ok n := by unfold Util.checkSvdResult; simp
  unfold splitDecompose
  rw [dif_pos ⟨hc, ⟨rfl, rfl⟩, rfl, rfl⟩]
  have key : ∀ (r : ℕ) (_ : r = n) (f : Fin r → Fin n), (∀ i, (f i).1 = i.1) →
      (⟨A, r, fun i j => (u j (f i)).re, fun i j => (u j (f i)).im, fun i => s (f i), fun j i => vT (f i) j⟩ :
        SplitMat m n) = ⟨A, n, fun i j => (u j i).re, fun i j => (u j i).im, s, fun j i => vT i j⟩ := by
    rintro r rfl f hf
    obtain rfl : f = id := funext fun i => Fin.ext (hf i)
    rfl
  exact congrArg Except.ok (key _ (by rw [keep_all s h, List.length_finRange]) (keep s).get (keep_get_val s h))

/-! ### The computed operations along an axis -/

theorem matmulFl_ok {𝕜 : Type} (F : FlMat 𝕜) {m n : ℕ} (a : Matrix (Fin m) (Fin n) 𝕜) (y : NdArray 𝕜)
    (h0 : 0 < y.ndim) (hy : y.shape[y.ndim - 2]? = some n) :
    ∃ r, matmulFl F a y = .ok r ∧ AppliedAlong (F.mv a) (y.ndim - 2) y r := by
  unfold matmulFl
  rw [if_neg (by omega)]
  split
  · rename_i h1
    rw [show (0 : ℕ) = y.ndim - 2 by omega]
    exact alongAxis_spec _ _ _ hy
  · exact alongAxis_spec _ _ _ hy

theorem divRowsFl_ok {𝕜 : Type} (F : FlMat 𝕜) {k : ℕ} (r : NdArray 𝕜) (s : Fin k → ℝ) (hs : ∀ i, s i ≠ 0)
    (h0 : 0 < r.ndim) (hr : r.shape[r.ndim - 2]? = some k) :
    ∃ q, divRowsFl F r s = .ok q ∧ AppliedAlong (fun v i => F.div (v i) (s i)) (r.ndim - 2) r q := by
  unfold divRowsFl
  rw [if_neg (fun ⟨i, hi⟩ => hs i hi)]
  split
  · exact alongAxis_spec _ _ _ hr
  · rw [show (0 : ℕ) = r.ndim - 2 by omega]
    exact alongAxis_spec _ _ _ hr

theorem addArrFl_ok (F : FlMat ℝ) {α : Type} {p q k : ℕ} {f g : (Fin p → α) → Fin q → ℝ} {x : NdArray α}
    {r1 r2 : NdArray ℝ} (h1 : AppliedAlong f k x r1) (h2 : AppliedAlong g k x r2) :
    ∃ r, addArrFl F r1 r2 = .ok r ∧ AppliedAlong (fun v i => F.add (f v i) (g v i)) k x r := by
  unfold addArrFl
  have hs : r1.shape = r2.shape := h1.shape.trans h2.shape.symm
  rw [dif_pos hs]
  refine ⟨_, rfl, h1.axis, h1.shape, fun idx hidx => ?_⟩
  obtain ⟨i, fx, hi, hfx, hv⟩ := h1.val idx hidx
  obtain ⟨i', fx', hi', hfx', hv'⟩ := h2.val idx (hs ▸ hidx)
  have e1 : i' = i := Fin.ext (Option.some.inj (hi'.symm.trans hi))
  have e2 : fx' = fx := funext fun j => Option.some.inj ((hfx' j).symm.trans (hfx j))
  subst e1 e2
  refine ⟨i', fx', hi, hfx, ?_⟩
  have hb1 : InBounds r1.shape idx := hidx
  have hb2 : InBounds r2.shape idx := hs ▸ hidx
  rw [get?_of_inBounds _ hb1] at hv
  rw [get?_of_inBounds _ hb2, ← hs] at hv'
  rw [get?_of_inBounds _ hidx, List.getElem?_zipWith, hv, hv']

/-- The map of vectors behind the computed `_lstsq`. -/
def fitFl (F : FlMat ℂ) {m n : ℕ} (d : DecMat ℂ m n) (x : Fin m → ℂ) : Fin n → ℂ :=
  F.mv d.v fun i => F.div (F.mv d.uH x i) (d.s i)

/-- The same for the split form. -/
def splitFitFl (F : FlMat ℝ) {m n : ℕ} (d : SplitMat m n) (x : Fin m → ℂ) : Fin n → ℝ :=
  F.mv d.v fun i => F.div (F.add (F.mv d.urealT (fun j => (x j).re) i) (F.mv d.uimagT (fun j => (x j).im) i)) (d.s i)

theorem lstsqOpFl_ok (F : FlMat ℂ) {m n : ℕ} (d : DecMat ℂ m n) (hs : ∀ i, d.s i ≠ 0) (y : NdArray ℂ) (h0 : 0 < y.ndim)
    (hy : y.shape[y.ndim - 2]? = some m) :
    ∃ r, d.lstsqOpFl F y = .ok r ∧ AppliedAlong (fitFl F d) (y.ndim - 2) y r := by
  obtain ⟨r1, h1, a1⟩ := matmulFl_ok F d.uH y h0 hy
  have n1 := ndim_of_applied a1
  obtain ⟨r2, h2, a2⟩ := divRowsFl_ok F r1 d.s hs (by omega) (by rw [n1]; exact a1.axis')
  have n2 := ndim_of_applied a2
  rw [n1] at a2 n2
  obtain ⟨r3, h3, a3⟩ := matmulFl_ok F d.v r2 (by omega) (by rw [n2]; exact a2.axis')
  rw [n2] at a3
  refine ⟨r3, ?_, (a1.comp a2).comp a3⟩
  unfold DecMat.lstsqOpFl
  rw [h1]; simp only; rw [h2]; simp only; rw [h3]

theorem splitLstsqOpFl_ok (F : FlMat ℝ) {m n : ℕ} (d : SplitMat m n) (hs : ∀ i, d.s i ≠ 0) (y : NdArray ℂ)
    (h0 : 0 < y.ndim) (hy : y.shape[y.ndim - 2]? = some m) :
    ∃ r, d.lstsqOpFl F y = .ok r ∧ AppliedAlong (splitFitFl F d) (y.ndim - 2) y r := by
  obtain ⟨r1, h1, a1⟩ := matmulFl_ok F d.urealT (mapArr Complex.re y) h0 hy
  obtain ⟨q1, k1, b1⟩ := matmulFl_ok F d.uimagT (mapArr Complex.im y) h0 hy
  obtain ⟨r2, h2, a2⟩ := addArrFl_ok F (applied_map _ a1) (applied_map _ b1)
  have n2 : r2.ndim = y.ndim := ndim_of_applied a2
  have e : (mapArr Complex.re y).ndim = y.ndim := rfl
  rw [e] at a2
  obtain ⟨r3, h3, a3⟩ := divRowsFl_ok F r2 d.s hs (by omega) (by rw [n2]; exact a2.axis')
  have n3 := ndim_of_applied a3
  rw [n2] at a3 n3
  obtain ⟨r4, h4, a4⟩ := matmulFl_ok F d.v r3 (by omega) (by rw [n3]; exact a3.axis')
  rw [n3] at a4
  refine ⟨r4, ?_, (a2.comp a3).comp a4⟩
  unfold SplitMat.lstsqOpFl
  rw [h1]; simp only; rw [k1]; simp only; rw [h2]; simp only; rw [h3]; simp only; rw [h4]

theorem applied_ofReal {p q k : ℕ} {α : Type} {f : (Fin p → α) → Fin q → ℝ} {x : NdArray α} {r : NdArray ℝ}
    (h : AppliedAlong f k x r) : AppliedAlong (fun v l => (f v l : ℂ)) k x (mapArr Complex.ofReal r) := by
  refine ⟨h.axis, h.shape, fun idx hidx => ?_⟩
  obtain ⟨i, fib, hi, hfib, hv⟩ := h.val idx hidx
  exact ⟨i, fib, hi, hfib, by rw [mapArr_get?, hv]; rfl⟩

/-! ### The theorems -/

/-- Without rounding, the computed operations are those of the model of `sampling.py`. -/
theorem C80_exact {m n : ℕ} :
    (∀ (d : DecMat ℂ m n) x axis, d.matmulAxisFl (FlMat.exact Complex.ofReal) x axis = d.matmulAxis x axis ∧
      d.lstsqFl (FlMat.exact Complex.ofReal) x axis = d.lstsq x axis) ∧
    (∀ (d : SplitMat m n) x axis, d.matmulAxisFl (FlMat.exact Complex.ofReal) x axis = d.matmulAxis x axis ∧
      d.lstsqFl (FlMat.exact id) x axis = d.lstsq x axis) ∧
    ∀ (M : Mat m n) x axis, M.matmulAxisFl (FlMat.exact Complex.ofReal) x axis = M.matmulAxis x axis ∧
      M.lstsqFl (FlMat.exact Complex.ofReal) (FlMat.exact id) x axis = M.lstsq x axis := by
  refine ⟨fun d x axis => ⟨rfl, rfl⟩, fun d x axis => ⟨rfl, rfl⟩, fun M x axis => ?_⟩
  cases M <;> exact ⟨rfl, rfl⟩

/-- `(1 + u)^n` for a small product. -/
theorem dotG_le {u : ℝ} (hu : 0 ≤ u) {D : ℕ → ℕ} {n : ℕ} (h : (D n + 5) * u ≤ 1) : dotG u D n ≤ 2 * ((D n + 5) * u) := by
  unfold dotG
  have h1 : 1 + 5 * u ≤ (1 + u) ^ 5 := by
    have := one_add_mul_le_pow (by linarith : (-2:ℝ) ≤ u) 5
    push_cast at this
    linarith
  have h2 : (1 + 5 * u) * (1 + u) ^ D n ≤ (1 + u) ^ (D n + 5) := by
    rw [pow_add, mul_comm]
    exact mul_le_mul_of_nonneg_left h1 (by positivity)
  have h3 : (1 + u) ^ (D n + 5) ≤ Real.exp ((D n + 5) * u) := by
    have h4 : 1 + u ≤ Real.exp u := by linarith [Real.add_one_le_exp u]
    calc (1 + u) ^ (D n + 5) ≤ Real.exp u ^ (D n + 5) := pow_le_pow_left₀ (by linarith) h4 _
      _ = Real.exp ((D n + 5) * u) := by rw [← Real.exp_nat_mul]; push_cast; rfl
  have hx0 : 0 ≤ ((D n : ℝ) + 5) * u := by positivity
  have h5 : Real.exp ((D n + 5) * u) ≤ 1 + 2 * ((D n + 5) * u) := by
    have := Real.abs_exp_sub_one_le (x := ((D n : ℝ) + 5) * u) (by rw [abs_of_nonneg hx0]; exact h)
    rw [abs_of_nonneg hx0] at this
    linarith [le_abs_self (Real.exp ((D n + 5) * u) - 1)]
  linarith

/-- Dot products of computed products, added in whatever order, satisfy the contract: with at most `D n` additions in a
row for `n` terms, the relative error is `2 (D n + 5) u`. -/
theorem C80_dot {Ar : Kernel.Arith} {u eta : ℝ} (hA : Ar.Ok u eta) (hu : u ≤ 1 / 10)
    {order : ∀ (m n : ℕ), Fin m → SumTree n} {D : ℕ → ℕ} (hord : GoodOrder order D) {cap : ℝ} (hcap : eta * cap ≤ u) :
    (FlMat.complexDot Ar order).Ok (dotG u D) (5 * u) (dotH u eta D) cap ∧
    (FlMat.realDot Ar order).Ok (dotG u D) (5 * u) (dotH u eta D) cap ∧
    ∀ n, (D n + 5) * u ≤ 1 → dotG u D n ≤ 2 * ((D n + 5) * u) :=
  ⟨complexDot_ok hA hu hord hcap, realDot_ok hA hord cap, fun _ h => dotG_le hA.hu h⟩

theorem loop_good : GoodOrder (fun _ n _ => SumTree.loop n) id := by
  intro m n i
  have key : ∀ (l : List (Fin n)) (t : SumTree n),
      (l.foldl (fun t j => SumTree.node t (.leaf j)) t).leaves = t.leaves ++ l ∧
      (l.foldl (fun t j => SumTree.node t (.leaf j)) t).depth = t.depth + l.length := by
    intro l
    induction l with
    | nil => intro t; simp
    | cons j l ih =>
      intro t
      rw [List.foldl_cons]
      obtain ⟨h1, h2⟩ := ih (.node t (.leaf j))
      refine ⟨by rw [h1]; simp [SumTree.leaves], by rw [h2]; simp [SumTree.depth]; omega⟩
  obtain ⟨h1, h2⟩ := key (List.finRange n) .empty
  refine ⟨?_, ?_⟩
  · unfold SumTree.loop
    rw [h1]
    simp [SumTree.leaves]
  · unfold SumTree.loop
    rw [h2]
    simp [SumTree.depth]

section
variable {svds : Svds} {m n : ℕ} {A : Matrix (Fin m) (Fin n) ℂ} {δ e smin smax ε cap γ H : ℝ} {F : FlMat ℂ} {G : FlMat ℝ}
    {g h : ℕ → ℝ}

/-- Evaluation at the sampling points and fit, in floating-point arithmetic, for arrays along any axis: every fibre is
treated alike, by maps `ev` and `fit`.  The fit of data `x` differs from any `c` by at most a multiple of rounding
errors and condition number, relative to `c`, and by the deviation of the data from `A c` over the smallest singular
value.  Fitting what was evaluated gives back the coefficients up to rounding errors times the condition number. -/
theorem C80_full (hn : 0 < n) {t : Triple ℂ} (ht : svds.complex _ _ A = .ok t) (hsvd : NearSvdOk A t δ e smin smax)
    (hF : F.Ok g ε h cap) (hcap : smax ≤ cap) (hz : SizesOk g h ε m n γ H) :
    ∃ (M : Mat m n) (ev : (Fin n → ℂ) → Fin m → ℂ) (fit : (Fin m → ℂ) → Fin n → ℂ),
      fullMatrix svds A = .ok M ∧ M.cond = .ok (smax / smin) ∧
      (∀ c, norm2 (ev c - A *ᵥ c) ≤ 61 / 50 * (γ * smax) * norm2 c + H) ∧
      (∀ c x, norm2 (fit x - c) ≤ 5 * (smax / smin * (δ + e + γ + ε)) * norm2 c + 2 * (norm2 (x - A *ᵥ c) / smin) +
        3 * (H * (1 + 1 / smin))) ∧
      (∀ c, norm2 (fit (ev c) - c) ≤ 8 * (smax / smin * (δ + e + γ + ε)) * norm2 c + 4 * (H * (1 + 1 / smin))) ∧
      (∀ (al : NdArray ℂ) (axis : ℤ) (k : ℕ), ValidAxis axis al.ndim k → al.shape[k]? = some n →
        ∃ v, M.matmulAxisFl F al (some axis) = .ok v ∧ AppliedAlong ev k al v) ∧
      ∀ (ax : NdArray ℂ) (axis : ℤ) (k : ℕ), ValidAxis axis ax.ndim k → ax.shape[k]? = some m →
        ∃ y, M.lstsqFl F G ax (some axis) = .ok y ∧ AppliedAlong fit k ax y := by
  obtain ⟨u, s, vH, rfl, hc⟩ := hsvd
  have N := hc.near hn
  have hs : ∀ i, s i ≠ 0 := fun i => (N.pos i).ne'
  have hd := decompose_all A u s vH hs
  set d : DecMat ℂ m n := ⟨A, n, uᴴ, s, vHᴴ⟩ with hdef
  have hM : fullMatrix svds A = .ok (.full d) := by
    unfold fullMatrix
    rw [ht]
    simp only [hd]
    rfl
  have hmax : 0 < smax := N.hmin.trans_le N.le
  have hmin := N.hmin
  have hH0 : 0 ≤ H := le_trans (mul_nonneg (Real.sqrt_nonneg _) (hF.hh 1)) hz.h4
  have hγ0 : 0 ≤ γ := le_trans (mul_nonneg (Real.sqrt_nonneg _) (hF.hg n)) hz.gn
  have hev : ∀ c, norm2 (F.mv A c - A *ᵥ c) ≤ 61 / 50 * (γ * smax) * norm2 c + H := fun c => by
    have h1 := hF.mv_norm (by positivity) N.opA c
    have h2 := mul_le_mul_of_nonneg_right hz.gn (mul_nonneg (by positivity : 0 ≤ 61 / 50 * smax) (norm2_nonneg c))
    have h3 := hz.h1
    linarith
  have hfit : ∀ c x, norm2 (fitFl F d x - c) ≤ 11 / 5 * (smax / smin * (δ + e + (21 / 10 * γ + ε))) * norm2 c +
      2 * (norm2 (x - A *ᵥ c) / smin) + 13 / 10 * (H / smin + 2 * H) := fun c x => by
    have h1 := hF.mv_norm (by norm_num) N.opUH x
    have h1' : norm2 (F.mv uᴴ x - uᴴ *ᵥ x) ≤ 21 / 20 * γ * norm2 x + H := by
      have := mul_le_mul_of_nonneg_right hz.gm (mul_nonneg (by norm_num : (0:ℝ) ≤ 21 / 20) (norm2_nonneg x))
      have := hz.h2
      linarith
    have h2 := hF.div_norm N.pos (fun i => (N.hi i).trans hcap) (F.mv uᴴ x)
    have h2' := h2.trans (add_le_add_right hz.h4 _)
    have h3 := hF.mv_norm (by norm_num) N.opV fun i => F.div (F.mv uᴴ x i) (s i)
    have h3' : norm2 (F.mv vHᴴ (fun i => F.div (F.mv uᴴ x i) (s i)) - vHᴴ *ᵥ fun i => F.div (F.mv uᴴ x i) (s i)) ≤
        21 / 20 * γ * norm2 (fun i => F.div (F.mv uᴴ x i) (s i)) + H := by
      have := mul_le_mul_of_nonneg_right hz.gn (mul_nonneg (by norm_num : (0:ℝ) ≤ 21 / 20)
        (norm2_nonneg (fun i => F.div (F.mv uᴴ x i) (s i))))
      have := hz.h3
      linarith
    have hγ' := hz.hγ
    have k := N.fit_error (by positivity) (by linarith) hH0 hF.hε hz.hε hH0 (by positivity) (by linarith) hH0 h1' h2' h3' c
    rw [mul_div_assoc, div_self hmax.ne', mul_one] at k
    calc norm2 (fitFl F d x - c) ≤ _ := k
      _ = _ := by ring
  refine ⟨.full d, F.mv A, fitFl F d, hM, ?_, hev, fun c x => ?_, fun c => ?_, fun al axis k hk hx => ?_,
    fun x axis k hk hx => ?_⟩
  · show condOf s = _
    unfold condOf
    rw [dif_pos hn, hc.first ⟨0, hn⟩ rfl, hc.last ⟨n - 1, _⟩ (by simp only; omega)]
  · have := hfit c x
    have k0 := mul_nonneg (div_nonneg hmax.le hmin.le) (norm2_nonneg c)
    have k1 := mul_nonneg hc.hδ k0
    have k2 := mul_nonneg hc.he k0
    have k3 := mul_nonneg hγ0 k0
    have k4 := mul_nonneg hF.hε k0
    have k5 : 0 ≤ H / smin := div_nonneg hH0 hmin.le
    have e1 : 3 * (H * (1 + 1 / smin)) = 3 * H + 3 * (H / smin) := by ring
    rw [e1]
    linarith
  · have h1 := hfit c (F.mv A c)
    have h2 : norm2 (F.mv A c - A *ᵥ c) / smin ≤ 61 / 50 * (γ * (smax / smin * norm2 c)) + H / smin := by
      rw [div_le_iff₀ hmin]
      refine (hev c).trans (le_of_eq ?_)
      field_simp
    have k0 := mul_nonneg (div_nonneg hmax.le hmin.le) (norm2_nonneg c)
    have k1 := mul_nonneg hc.hδ k0
    have k2 := mul_nonneg hc.he k0
    have k3 := mul_nonneg hγ0 k0
    have k4 := mul_nonneg hF.hε k0
    have k5 : 0 ≤ H / smin := div_nonneg hH0 hmin.le
    have e1 : 4 * (H * (1 + 1 / smin)) = 4 * H + 4 * (H / smin) := by ring
    rw [e1]
    linarith
  · exact matop_spec (F.mv A) _ (fun y h0 hy => matmulFl_ok F A y h0 hy) al (normalizeAxis_iff.2 hk) hx
  · exact matop_spec (fitFl F d) _ (fun y h0 hy => lstsqOpFl_ok F d hs y h0 hy) x (normalizeAxis_iff.2 hk) hx

/-- Products with the two parts of `u` add up to the product with the stacked matrix. -/
theorem stack_product {off : ℕ} (u : Matrix (Fin (m + (m - off))) (Fin n) ℝ) (x : Fin m → ℂ) :
    ((fun i j => u ⟨j.1, by omega⟩ i : Matrix (Fin n) (Fin m) ℝ) *ᵥ fun j => (x j).re) +
      ((fun i j => if h : j.1 < off then 0 else u ⟨m + (j.1 - off), by omega⟩ i : Matrix (Fin n) (Fin m) ℝ) *ᵥ
        fun j => (x j).im) = uᴴ *ᵥ stackVec off x := by
  funext i
  simp only [Pi.add_apply, Matrix.mulVec, dotProduct, Matrix.conjTranspose_apply, star_trivial]
  rw [sum_stack, ← Finset.sum_add_distrib, ← Finset.sum_add_distrib]
  refine Finset.sum_congr rfl fun j _ => ?_
  unfold stackVec
  simp only [dif_pos j.2]
  by_cases hj : j.1 < off
  · simp [hj]
  · have : (⟨off + (j.1 - off), by omega⟩ : Fin m) = j := Fin.ext (by simp; omega)
    simp [hj, this]

theorem norm2_mono_sq {𝕜 𝕜' : Type} [RCLike 𝕜] [RCLike 𝕜'] {ι ι' : Type} [Fintype ι] [Fintype ι'] {x : ι → 𝕜} {y : ι' → 𝕜'}
    (h : sqNorm x ≤ sqNorm y) : norm2 x ≤ norm2 y := Real.sqrt_le_sqrt h

/-- The real parts, and the imaginary parts which count, are no larger than the stacked vector. -/
theorem norm2_parts (off : ℕ) (x : Fin m → ℂ) : norm2 (fun j => (x j).re) ≤ norm2 (stackVec off x) ∧
    norm2 (fun j : Fin m => if j.1 < off then 0 else (x j).im) ≤ norm2 (stackVec off x) := by
  have key : sqNorm (stackVec off x) = sqNorm (fun j => (x j).re) + sqNorm (fun j : Fin m => if j.1 < off then 0 else (x j).im) := by
    have h := sq_stack off x
    have h2 : sqNorm x = sqNorm (fun j => (x j).re) + sqNorm (fun j => (x j).im) := by
      unfold sqNorm
      rw [← Finset.sum_add_distrib]
      refine Finset.sum_congr rfl fun j _ => ?_
      rw [Complex.sq_norm, Complex.normSq_apply, Real.norm_eq_abs, Real.norm_eq_abs, sq_abs, sq_abs]
      ring
    have h3 : sqNorm (fun j => (x j).im) = sqNorm (fun j : Fin m => if j.1 < off then 0 else (x j).im) +
        ∑ j : Fin m, if j.1 < off then (x j).im ^ 2 else 0 := by
      unfold sqNorm
      rw [← Finset.sum_add_distrib]
      refine Finset.sum_congr rfl fun j _ => ?_
      by_cases hj : j.1 < off
      · simp only [if_pos hj, norm_zero, Real.norm_eq_abs, sq_abs]
        ring
      · simp only [if_neg hj, add_zero]
    linarith
  have p1 := sq_nonneg' (fun j => (x j).re)
  have p2 := sq_nonneg' (fun j : Fin m => if j.1 < off then 0 else (x j).im)
  exact ⟨norm2_mono_sq (by linarith), norm2_mono_sq (by linarith)⟩

/-- The real and imaginary rows of the factor `u` of the stacked matrix, as `_urealT` and `_uimagT`. -/
def splitOf {off : ℕ} (A : Matrix (Fin m) (Fin n) ℂ) (u : Matrix (Fin (m + (m - off))) (Fin n) ℝ) (s : Fin n → ℝ)
    (vH : Matrix (Fin n) (Fin n) ℝ) : SplitMat m n :=
  ⟨A, n, fun i j => u ⟨j.1, by omega⟩ i, fun i j => if h : j.1 < off then 0 else u ⟨m + (j.1 - off), by omega⟩ i, s, vHᴴ⟩

theorem splitFit_bound {off : ℕ} {u : Matrix (Fin (m + (m - off))) (Fin n) ℝ} {s : Fin n → ℝ}
    {vH : Matrix (Fin n) (Fin n) ℝ} (N : NearSvd (stacked off A) u s vHᴴ δ (e * smax) smin smax) (hG : G.Ok g ε h cap)
    (hcap : smax ≤ cap) (hz : SizesOk g h ε m n γ H) (c : Fin n → ℝ) (x : Fin m → ℂ) :
    norm2 (splitFitFl G (splitOf A u s vH) x - c) ≤
      11 / 5 * (smax / smin * (δ + e + (84 / 25 * γ + 41 / 20 * ε))) * norm2 c +
      2 * (norm2 (x - A *ᵥ fun l => (c l : ℂ)) / smin) + 13 / 10 * (11 / 5 * (H / smin) + 2 * H) := by
  set Ur : Matrix (Fin n) (Fin m) ℝ := fun i j => u ⟨j.1, by omega⟩ i with hUr
  set Ui : Matrix (Fin n) (Fin m) ℝ := fun i j => if h : j.1 < off then 0 else u ⟨m + (j.1 - off), by omega⟩ i with hUi
  have hstack : ∀ x : Fin m → ℂ, (Ur *ᵥ fun j => (x j).re) + (Ui *ᵥ fun j => (x j).im) = uᴴ *ᵥ stackVec off x :=
    fun x => stack_product u x
  have hmax : 0 < smax := N.hmin.trans_le N.le
  have hmin := N.hmin
  have hH0 : 0 ≤ H := le_trans (mul_nonneg (Real.sqrt_nonneg _) (hG.hh 1)) hz.h4
  have hγ0 : 0 ≤ γ := le_trans (mul_nonneg (Real.sqrt_nonneg _) (hG.hg n)) hz.gn
  have hnst : ∀ x : Fin m → ℂ, norm2 (stackVec off x) ≤ norm2 x := fun x => norm2_mono_sq (sqNorm_stack_le off x)
  have hUr' : OpLe Ur (21 / 20) := fun w => by
    have h1 := hstack fun j => (w j : ℂ)
    simp only [Complex.ofReal_re, Complex.ofReal_im] at h1
    have h2 : (Ui *ᵥ fun _ => (0:ℝ)) = 0 := Matrix.mulVec_zero Ui
    rw [h2, add_zero] at h1
    rw [show Ur *ᵥ w = uᴴ *ᵥ stackVec off fun j => (w j : ℂ) from h1]
    refine (N.opUH _).trans (mul_le_mul_of_nonneg_left ((hnst _).trans (norm2_mono_sq (le_of_eq ?_))) (by norm_num))
    simp [sqNorm]
  have hUi' : OpLe Ui (21 / 20) := fun w => by
    have h1 := hstack fun j => (⟨0, w j⟩ : ℂ)
    simp only at h1
    have h2 : (Ur *ᵥ fun _ => (0:ℝ)) = 0 := Matrix.mulVec_zero Ur
    rw [h2, zero_add] at h1
    rw [show Ui *ᵥ w = uᴴ *ᵥ stackVec off fun j => (⟨0, w j⟩ : ℂ) from h1]
    refine (N.opUH _).trans (mul_le_mul_of_nonneg_left ((hnst _).trans (norm2_mono_sq (le_of_eq ?_))) (by norm_num))
    unfold sqNorm
    refine Finset.sum_congr rfl fun j _ => ?_
    rw [Complex.sq_norm, Complex.normSq_apply, Real.norm_eq_abs, sq_abs]
    ring
  have hγ' := hz.hγ
  have hε' := hz.hε
  have hε0 := hG.hε
  set X := stackVec off x with hX
  set r := G.mv Ur fun j => (x j).re with hr
  set q := G.mv Ui fun j => (x j).im with hq
  obtain ⟨np1, np2⟩ := norm2_parts off x
  have h1 : norm2 (r - Ur *ᵥ fun j => (x j).re) ≤ 21 / 20 * γ * norm2 X + H := by
    have k1 := hG.mv_norm (by norm_num) hUr' fun j => (x j).re
    have k2 := mul_le_mul_of_nonneg_right hz.gm (mul_nonneg (by norm_num : (0:ℝ) ≤ 21 / 20) (norm2_nonneg fun j => (x j).re))
    have k3 := mul_le_mul_of_nonneg_left np1 (by positivity : 0 ≤ 21 / 20 * γ)
    have := hz.h2
    linarith
  have h2 : norm2 (q - Ui *ᵥ fun j => (x j).im) ≤ 21 / 20 * γ * norm2 X + H := by
    have k1 := hG.mv_norm_cols (by norm_num) hUi'.cols (fun j => (x j).im)
      (fun j : Fin m => if j.1 < off then 0 else (x j).im) (fun i j => by
        by_cases hj : j.1 < off
        · simp [hUi, hj]
        · simp [hj])
    have k2 := mul_le_mul_of_nonneg_right hz.gm (mul_nonneg (by norm_num : (0:ℝ) ≤ 21 / 20)
      (norm2_nonneg fun j : Fin m => if j.1 < off then 0 else (x j).im))
    have k3 := mul_le_mul_of_nonneg_left np2 (by positivity : 0 ≤ 21 / 20 * γ)
    have := hz.h2
    linarith
  have h3 : norm2 (r + q - uᴴ *ᵥ X) ≤ 21 / 10 * γ * norm2 X + 2 * H := by
    rw [← hstack x, add_sub_add_comm]
    refine (norm2_add_le _ _).trans ?_
    linarith
  have h4 : norm2 (r + q) ≤ 21 / 20 * norm2 X + (21 / 10 * γ * norm2 X + 2 * H) :=
    (norm2_le_add _ (uᴴ *ᵥ X)).trans (add_le_add (N.opUH X) h3)
  have h5 := hG.add_norm r q
  have hX0 := norm2_nonneg X
  have h6 : norm2 ((fun i => G.add (r i) (q i)) - uᴴ *ᵥ X) ≤ (231 / 100 * γ + 21 / 20 * ε) * norm2 X + 11 / 5 * H := by
    refine (norm2_sub_le _ (r + q) _).trans ?_
    have k1 := mul_le_mul_of_nonneg_left h4 hε0
    have k2 : ε * (21 / 10 * γ * norm2 X + 2 * H) ≤ 1 / 10 * (21 / 10 * γ * norm2 X + 2 * H) :=
      mul_le_mul_of_nonneg_right hε' (by positivity)
    linarith
  have h7 := hG.div_norm N.pos (fun i => (N.hi i).trans hcap) fun i => G.add (r i) (q i)
  have h7' := h7.trans (add_le_add_right hz.h4 _)
  have h8 := hG.mv_norm (by norm_num) N.opV fun i => G.div (G.add (r i) (q i)) (s i)
  have h8' : norm2 (G.mv vHᴴ (fun i => G.div (G.add (r i) (q i)) (s i)) -
      vHᴴ *ᵥ fun i => G.div (G.add (r i) (q i)) (s i)) ≤
      21 / 20 * γ * norm2 (fun i => G.div (G.add (r i) (q i)) (s i)) + H := by
    have := mul_le_mul_of_nonneg_right hz.gn (mul_nonneg (by norm_num : (0:ℝ) ≤ 21 / 20)
      (norm2_nonneg (fun i => G.div (G.add (r i) (q i)) (s i))))
    have := hz.h3
    linarith
  have k := N.fit_error (by positivity) (by linarith) (by positivity) hε0 hε' hH0 (by positivity) (by linarith) hH0 h6
    h7' h8' c
  rw [mul_div_assoc, div_self hmax.ne', mul_one] at k
  have hdat : norm2 (X - stacked off A *ᵥ c) ≤ norm2 (x - A *ᵥ fun l => (c l : ℂ)) := by
    rw [norm2_sub_comm, hX, ← stack_mulVec, norm2_sub_comm x]
    exact hnst _
  have hdat' := div_le_div_of_nonneg_right hdat hmin.le
  calc norm2 (splitFitFl G (splitOf A u s vH) x - c) ≤ _ := k
    _ ≤ 11 / 5 * (smax / smin * (δ + e + (231 / 100 * γ + 21 / 20 * ε + ε + 21 / 20 * γ))) * norm2 c +
        2 * (norm2 (x - A *ᵥ fun l => (c l : ℂ)) / smin) + 13 / 10 * (11 / 5 * H / smin + H + H) := by linarith
    _ = _ := by ring

/-- The same for positive-only Matsubara sampling, where coefficients are real and the fit is a real one.  The row of
the frequency zero, if there, must be real. -/
theorem C80_split (hn : 0 < n) {hasZero : Bool} (hrow : ZeroRowReal A hasZero) {t : Triple ℝ}
    (ht : svds.real _ _ (stacked (offsetImag hasZero) A) = .ok t)
    (hsvd : NearSvdOk (stacked (offsetImag hasZero) A) t δ e smin smax)
    (hF : F.Ok g ε h cap) (hG : G.Ok g ε h cap) (hcap : smax ≤ cap) (hz : SizesOk g h ε m n γ H) :
    ∃ (M : Mat m n) (ev : (Fin n → ℂ) → Fin m → ℂ) (fit : (Fin m → ℂ) → Fin n → ℝ),
      splitMatrix svds A hasZero = .ok M ∧ M.cond = .ok (smax / smin) ∧
      (∀ c : Fin n → ℝ, norm2 (ev (fun l => c l) - A *ᵥ fun l => (c l : ℂ)) ≤ 61 / 50 * (γ * smax) * norm2 c + H) ∧
      (∀ (c : Fin n → ℝ) x, norm2 (fit x - c) ≤ 8 * (smax / smin * (δ + e + γ + ε)) * norm2 c +
        2 * (norm2 (x - A *ᵥ fun l => (c l : ℂ)) / smin) + 3 * (H * (1 + 1 / smin))) ∧
      (∀ c : Fin n → ℝ, norm2 (fit (ev fun l => c l) - c) ≤ 10 * (smax / smin * (δ + e + γ + ε)) * norm2 c +
        5 * (H * (1 + 1 / smin))) ∧
      (∀ (al : NdArray ℂ) (axis : ℤ) (k : ℕ), ValidAxis axis al.ndim k → al.shape[k]? = some n →
        ∃ v, M.matmulAxisFl F al (some axis) = .ok v ∧ AppliedAlong ev k al v) ∧
      ∀ (ax : NdArray ℂ) (axis : ℤ) (k : ℕ), ValidAxis axis ax.ndim k → ax.shape[k]? = some m →
        ∃ y, M.lstsqFl F G ax (some axis) = .ok y ∧ AppliedAlong (fun v l => (fit v l : ℂ)) k ax y := by
  obtain ⟨u, s, vH, rfl, hc⟩ := hsvd
  have N := hc.near hn
  have hs : ∀ i, s i ≠ 0 := fun i => (N.pos i).ne'
  have hM : splitMatrix svds A hasZero = .ok (.split (splitOf A u s vH)) := by
    unfold splitMatrix splitComplex splitOff
    rw [ht]
    dsimp only
    rw [dif_pos rfl]
    exact congrArg (Except.map Mat.split) (splitDecompose_all A (fun i j => ⟨u ⟨i.1, by omega⟩ j,
      if hi : i.1 < offsetImag hasZero then 0 else u ⟨m + (i.1 - offsetImag hasZero), by omega⟩ j⟩) s vH hs)
  have hmax : 0 < smax := N.hmin.trans_le N.le
  have hmin := N.hmin
  have hH0 : 0 ≤ H := le_trans (mul_nonneg (Real.sqrt_nonneg _) (hF.hh 1)) hz.h4
  have hγ0 : 0 ≤ γ := le_trans (mul_nonneg (Real.sqrt_nonneg _) (hF.hg n)) hz.gn
  have hcols : ∀ j : Fin n, norm2 (A *ᵥ Pi.single j 1) ≤ 61 / 50 * smax := fun j => by
    have h1 := sqNorm_stacked hrow (Pi.single j 1)
    have h2 : (fun l => ((Pi.single j 1 : Fin n → ℝ) l : ℂ)) = Pi.single j 1 := by
      funext l
      by_cases hl : l = j
      · subst hl; simp
      · simp [hl]
    rw [h2] at h1
    have h3 := N.opA.cols j
    unfold norm2 at h3 ⊢
    rw [h1]
    exact h3
  have hev : ∀ c : Fin n → ℝ, norm2 (F.mv A (fun l => (c l : ℂ)) - A *ᵥ fun l => (c l : ℂ)) ≤
      61 / 50 * (γ * smax) * norm2 c + H := fun c => by
    have h1 := hF.mv_norm_cols (by positivity) hcols (fun l => (c l : ℂ)) c (fun i j => by simp)
    have h2 := mul_le_mul_of_nonneg_right hz.gn (mul_nonneg (by positivity : 0 ≤ 61 / 50 * smax) (norm2_nonneg c))
    have h3 := hz.h1
    linarith
  have hfit := splitFit_bound N hG hcap hz
  set d := splitOf A u s vH with hdef
  refine ⟨.split d, F.mv A, splitFitFl G d, hM, ?_, hev, fun c x => ?_, fun c => ?_, fun al axis k hk hx => ?_,
    fun x axis k hk hx => ?_⟩
  · show condOf s = _
    unfold condOf
    rw [dif_pos hn, hc.first ⟨0, hn⟩ rfl, hc.last ⟨n - 1, _⟩ (by simp only; omega)]
  · have := hfit c x
    have k0 := mul_nonneg (div_nonneg hmax.le hmin.le) (norm2_nonneg c)
    have k1 := mul_nonneg hc.hδ k0
    have k2 := mul_nonneg hc.he k0
    have k3 := mul_nonneg hγ0 k0
    have k4 := mul_nonneg hF.hε k0
    have k5 : 0 ≤ H / smin := div_nonneg hH0 hmin.le
    have e1 : 3 * (H * (1 + 1 / smin)) = 3 * H + 3 * (H / smin) := by ring
    rw [e1]
    linarith
  · have h1 := hfit c (F.mv A fun l => (c l : ℂ))
    have h2 : norm2 (F.mv A (fun l => (c l : ℂ)) - A *ᵥ fun l => (c l : ℂ)) / smin ≤
        61 / 50 * (γ * (smax / smin * norm2 c)) + H / smin := by
      rw [div_le_iff₀ hmin]
      refine (hev c).trans (le_of_eq ?_)
      field_simp
    have k0 := mul_nonneg (div_nonneg hmax.le hmin.le) (norm2_nonneg c)
    have k1 := mul_nonneg hc.hδ k0
    have k2 := mul_nonneg hc.he k0
    have k3 := mul_nonneg hγ0 k0
    have k4 := mul_nonneg hF.hε k0
    have k5 : 0 ≤ H / smin := div_nonneg hH0 hmin.le
    have e1 : 5 * (H * (1 + 1 / smin)) = 5 * H + 5 * (H / smin) := by ring
    rw [e1]
    linarith
  · exact matop_spec (F.mv A) _ (fun y h0 hy => matmulFl_ok F A y h0 hy) al (normalizeAxis_iff.2 hk) hx
  · obtain ⟨y, hy, ha⟩ := matop_spec (splitFitFl G d) _ (fun y h0 hy => splitLstsqOpFl_ok G d hs y h0 hy) x
      (normalizeAxis_iff.2 hk) hx
    refine ⟨mapArr Complex.ofReal y, ?_, applied_ofReal ha⟩
    show ((matopAlongAxis (d.lstsqOpFl G) x (some axis)).map (mapArr Complex.ofReal)) = _
    rw [hy]
    rfl

end

/-- Arithmetic in which sums and products come out too large by one unit of the last place. -/
noncomputable def tooLarge (u : ℝ) : Kernel.Arith :=
  { Kernel.Arith.exact with
    add := fun a b => (a + b) * (1 + u)
    mul := fun a b => a * b * (1 + u) }

theorem tooLarge_ok {u : ℝ} (hu : 0 ≤ u) : (tooLarge u).Ok u 0 := by
  have h := Kernel.exact_ok u 0 hu le_rfl
  refine { h with add := fun a b => le_of_eq ?_, mul := fun a b => le_of_eq ?_ }
  · show |(a + b) * (1 + u) - (a + b)| = u * |a + b|
    rw [show (a + b) * (1 + u) - (a + b) = u * (a + b) by ring, abs_mul, abs_of_nonneg hu]
  · show |a * b * (1 + u) - a * b| = u * |a * b| + 0
    rw [show a * b * (1 + u) - a * b = u * (a * b) by ring, abs_mul, abs_of_nonneg hu, add_zero]

/-- The SVD of the example is off by one percent in the first singular value. -/
noncomputable def exSvds : Svds where
  complex := fun _ _ _ => .ok ⟨2, 2, 2, 2, 2, 1, ![2, 1], 1⟩
  real := fun _ _ _ => .error .valueError

theorem exNear : NearSvdOk (Matrix.diagonal ![2.02, 1] : Matrix (Fin 2) (Fin 2) ℂ) ⟨2, 2, 2, 2, 2, 1, ![2, 1], 1⟩ 0 0.01 1 2 := by
  refine ⟨1, ![2, 1], 1, rfl, le_rfl, by norm_num, by norm_num, by norm_num, by norm_num, ?_, ?_, ?_, ?_, ?_, ?_⟩
  · intro i j hij
    fin_cases i <;> fin_cases j <;> simp_all <;> norm_num
  · intro i hi
    fin_cases i
    · rfl
    · simp at hi
  · intro i hi
    fin_cases i
    · simp at hi
    · rfl
  · intro x
    simp [norm2_zero]
  · intro x
    simp [norm2_zero]
  · have e : (Matrix.diagonal ![2.02, 1] : Matrix (Fin 2) (Fin 2) ℂ) - 1 * Matrix.diagonal (fun i => ((![2, 1] i : ℝ) : ℂ)) * 1 =
        Matrix.diagonal ![0.02, 0] := by
      ext i j
      fin_cases i <;> fin_cases j <;> simp <;> norm_num
    have := opLe_diagonal (𝕜 := ℂ) (d := ![0.02, 0]) (c := 0.02) (by norm_num) (fun i => by
      have h2 : ‖(0.02 : ℂ)‖ = 0.02 := by
        rw [show (0.02 : ℂ) = ((0.02 : ℝ) : ℂ) by norm_num, Complex.norm_real, Real.norm_eq_abs]
        norm_num
      fin_cases i
      · exact h2.le
      · show ‖(0:ℂ)‖ ≤ 0.02
        rw [norm_zero]
        norm_num)
    rw [show (0.01 * 2 : ℝ) = 0.02 by norm_num]
    exact (congrArg (fun B => OpLe B 0.02) e).mpr this

/-- A concrete case: coefficients come back up to 18 percent and a few rounding errors, where the SVD is off by one
percent and the condition number is two. -/
example : ∃ (M : Mat 2 2) (ev : (Fin 2 → ℂ) → Fin 2 → ℂ) (fit : (Fin 2 → ℂ) → Fin 2 → ℂ),
    fullMatrix exSvds (Matrix.diagonal ![2.02, 1]) = .ok M ∧ M.cond = .ok 2 ∧
    ∀ c, norm2 (fit (ev c) - c) ≤ 0.18 * norm2 c := by
  set u : ℝ := 1 / 2 ^ 53 with hu
  have hu0 : 0 ≤ u := by positivity
  obtain ⟨hF, -, hg⟩ := C80_dot (tooLarge_ok hu0) (by rw [hu]; norm_num) loop_good (cap := 2) (by rw [zero_mul]; exact hu0)
  have hg2 := hg 2 (by rw [hu]; norm_num)
  have hsq : Real.sqrt ((2:ℕ):ℝ) ≤ 2 := by
    rw [Real.sqrt_le_left (by norm_num)]
    norm_num
  have hgg : Real.sqrt ((2:ℕ):ℝ) * dotG u id 2 ≤ 1 / 1000 := by
    refine (mul_le_mul hsq hg2 (dotG_nonneg hu0 _ _) (by norm_num)).trans ?_
    rw [hu]
    norm_num
  have hz : SizesOk (dotG u id) (dotH u 0 id) (5 * u) 2 2 (1 / 1000) 0 := by
    refine ⟨hgg, hgg, by norm_num, by rw [hu]; norm_num, ?_, ?_, ?_, ?_⟩ <;> simp [dotH]
  obtain ⟨M, ev, fit, hM, hcond, -, -, h5, -⟩ := C80_full (svds := exSvds) (G := FlMat.exact id) (by norm_num) rfl exNear hF le_rfl hz
  refine ⟨M, ev, fit, hM, by rw [hcond]; norm_num, fun c => (h5 c).trans ?_⟩
  rw [zero_mul, mul_zero, add_zero]
  refine mul_le_mul_of_nonneg_right ?_ (norm2_nonneg c)
  rw [hu]
  norm_num

end Verif.Props
