import Verif.Lemmas.SveCompute
import Verif.Lemmas.FiniteTemp
import Verif.Lemmas.Discretise
import Verif.Props.C32_Symmetrized
import Verif.Props.C53_Precision
/-!
# C65: `sve.compute` as a whole
-/

namespace Verif.Props
open Verif Verif.Sve Verif.Gauss Verif.Kernel Verif.Spec Verif.Poly Verif.Svd Verif.FiniteTemp Verif.SveCompute Polynomial

/-! ## Specification -/

/-- What is asked of the factors of a matrix in any case: orthonormal columns, singular values that are non-negative and
do not increase, not all of them zero for a non-zero matrix.  (The 'fast' strategy returns such factors of an
approximation if the rank exceeds the hint.) -/
structure IsThin {m n : ℕ} (A : Matrix (Fin m) (Fin n) ℝ) (f : Factors ℝ m n) : Prop where
  u_orth : f.u.transpose * f.u = 1
  v_orth : f.v.transpose * f.v = 1
  nonneg : ∀ i, 0 ≤ f.s i
  anti : Antitone f.s
  nonzero : A ≠ 0 → ∃ i, 0 < f.s i

/-- The SVD routine returns such factors for all matrices that are not empty. -/
def SvdOk (libs : Libs ℝ) (dd : Bool) (strategy : String) : Prop :=
  ∀ m n (A : Matrix (Fin m) (Fin n) ℝ) (hint : ℕ), 0 < m → 0 < n → 0 < hint →
    ∃ f w, Svd.compute libs dd A (some hint) strategy = .ok (f, w) ∧ IsThin A f

/-- Nodes and weights of a quadrature rule on `[a, 1]`: nodes strictly inside and increasing, positive weights, exact to
degree `2n - 2`. -/
structure NodesOn (a : ℝ) (n : ℕ) {m : ℕ} (x w : Fin m → ℝ) : Prop where
  mono : StrictMono x
  inside : ∀ i, a < x i ∧ x i < 1
  wpos : ∀ i, 0 < w i
  exact : ∀ p : ℝ[X], p.natDegree ≤ 2 * n - 2 → ∑ i, w i * p.eval (x i) = ∫ t in a..1, p.eval t

/-- The function `k` describes the symmetrised kernels of the kernel object `K`: it is centrosymmetric, inside the square
`0 < x, y < 1` calling the symmetrised kernels with arrays and the distances from the edges gives `k(x, y) ± k(x, -y)`, the sum is not zero
on all nodes (of order `n`), and the hinted grids are symmetric. -/
structure DescribesHalf (K : Kern) (k : ℝ → ℝ → ℝ) (eps : ℝ) (n : ℕ) : Prop where
  centro : K.centro = true
  symm : ∀ x y, k (-x) (-y) = k x y
  even : ∀ (mx my : ℕ) (x wx : Fin mx → ℝ) (y wy : Fin my → ℝ), NodesOn 0 n x wx → NodesOn 0 n y wy → 0 < mx → 0 < my →
    ∃ i j, k (x i) (y j) + k (x i) (-y j) ≠ 0
  inner : ∀ sign : ℝ, sign = 1 ∨ sign = -1 → ∀ ι : Type, ∃ obj, (K.symmetrized sign).obj ι = .ok obj ∧
    ∀ a, InQuarter a → (∀ i, 0 < a.x i ∧ a.x i < 1 ∧ 0 < a.y i ∧ a.y i < 1) → EdgesRed a → (∃ p, a.xMinus = some p) →
      a.xScalar = false → a.yScalar = false → obj.call a = .ok fun i => k (a.x i) (a.y i) + sign * k (a.x i) (-a.y i)
  ngauss : (K.full.hints eps).ngauss = if 1e-8 ≤ eps then 10 else 16
  nsvals : 0 < (K.full.hints eps).nsvals
  gridX : ∃ g, (K.full.hints eps).segX = .ok g ∧ SymGrid g
  gridY : ∃ g, (K.full.hints eps).segY = .ok g ∧ SymGrid g
  reduced : ∀ sign, (K.symmetrized sign).hints eps = reducedHints (K.full.hints eps)

/-- The function `k` describes the kernel object `K`: it is centrosymmetric and positive, calling `K` and its
symmetrised kernels with arrays gives `k(x, y)` and `k(x, y) ± k(x, -y)`, and the hinted grids are symmetric. -/
structure Describes (K : Kern) (k : ℝ → ℝ → ℝ) (eps : ℝ) : Prop where
  centro : K.centro = true
  symm : ∀ x y, k (-x) (-y) = k x y
  pos : ∀ x y, |x| ≤ 1 → |y| ≤ 1 → 0 < k x y
  full : ∀ ι : Type, ∃ obj, K.full.obj ι = .ok obj ∧ ∀ a, InSquare a → EdgesOk a → a.yScalar = false →
    obj.call a = .ok fun i => k (a.x i) (a.y i)
  half : ∀ sign : ℝ, sign = 1 ∨ sign = -1 → ∀ ι : Type, ∃ obj, (K.symmetrized sign).obj ι = .ok obj ∧
    ∀ a, InQuarter a → EdgesRed a → a.xScalar = false → a.yScalar = false →
      obj.call a = .ok fun i => k (a.x i) (a.y i) + sign * k (a.x i) (-a.y i)
  ngauss : (K.full.hints eps).ngauss = if 1e-8 ≤ eps then 10 else 16
  nsvals : 0 < (K.full.hints eps).nsvals
  gridX : ∃ g, (K.full.hints eps).segX = .ok g ∧ SymGrid g
  gridY : ∃ g, (K.full.hints eps).segY = .ok g ∧ SymGrid g
  reduced : ∀ sign, (K.symmetrized sign).hints eps = reducedHints (K.full.hints eps)

/-- On the inside the symmetrised kernels are described as well. -/
theorem Describes.inside {K : Kern} {k : ℝ → ℝ → ℝ} {eps : ℝ} (h : Describes K k eps) (n : ℕ) : DescribesHalf K k eps n where
  centro := h.centro
  symm := h.symm
  even mx my x wx y wy h1 h2 h3 h4 := by
    obtain ⟨a1, a2⟩ := h1.inside ⟨0, h3⟩
    obtain ⟨b1, b2⟩ := h2.inside ⟨0, h4⟩
    exact ⟨⟨0, h3⟩, ⟨0, h4⟩, (add_pos (h.pos _ _ (abs_le.2 ⟨by linarith, a2.le⟩) (abs_le.2 ⟨by linarith, b2.le⟩))
      (h.pos _ _ (abs_le.2 ⟨by linarith, a2.le⟩) (abs_le.2 ⟨by linarith, by linarith⟩))).ne'⟩
  inner sign hs ι := by
    obtain ⟨obj, h1, h2⟩ := h.half sign hs ι
    exact ⟨obj, h1, fun a h3 _ h4 _ => h2 a h3 h4⟩
  ngauss := h.ngauss
  nsvals := h.nsvals
  gridX := h.gridX
  gridY := h.gridY
  reduced := h.reduced

/-- The matrix of the function `H` on the nodes, scaled by the roots of the weights. -/
noncomputable def nodeMatrix (H : ℝ → ℝ → ℝ) {m n : ℕ} (x wx : Fin m → ℝ) (y wy : Fin n → ℝ) : Matrix (Fin m) (Fin n) ℝ :=
  Matrix.of fun i j => H (x i) (y j) * Real.sqrt (wx i) * Real.sqrt (wy j)

/-- The error of the first `m` terms of the expansion at the point `(x, y)`. -/
noncomputable def resid (k : ℝ → ℝ → ℝ) (r : SveResult) (m : ℕ) (x y : ℝ) : ℝ :=
  k x y - ∑ l with l.1 < m, r.s l * fn r.u l x * fn r.v l y

/-- `r` is a singular value expansion of `k` on the nodes, up to `dropped`: orthonormal functions, the equations of
singular functions with sums over the nodes in place of the integrals, and for any number of terms the squared error is
the sum of the squares of the omitted singular values. -/
structure NodeSve (k : ℝ → ℝ → ℝ) (r : SveResult) {X Y : Type} [Fintype X] [Fintype Y] (x wx : X → ℝ) (y wy : Y → ℝ)
    (dropped : List ℝ) : Prop where
  uorth : ∀ l m, ∑ i, wx i * fn r.u l (x i) * fn r.u m (x i) = if l = m then 1 else 0
  vorth : ∀ l m, ∑ j, wy j * fn r.v l (y j) * fn r.v m (y j) = if l = m then 1 else 0
  right : ∀ l i, ∑ j, wy j * k (x i) (y j) * fn r.v l (y j) = r.s l * fn r.u l (x i)
  left : ∀ l j, ∑ i, wx i * k (x i) (y j) * fn r.u l (x i) = r.s l * fn r.v l (y j)
  error : ∀ m, ∑ i, ∑ j, wx i * wy j * resid k r m (x i) (y j) ^ 2 =
    (dropped.map (· ^ 2)).sum + ∑ l with m ≤ l.1, r.s l ^ 2

/-- The properties of a singular value expansion on `[-1, 1] × [-1, 1]`: positive singular values that do not increase,
orthonormal functions, `u[l](1) > 0`. -/
structure IsSve (r : SveResult) : Prop where
  spos : ∀ l, 0 < r.s l
  anti : Antitone r.s
  uwf : r.u.WF
  vwf : r.v.WF
  umin : r.u.xmin = -1
  umax : r.u.xmax = 1
  vmin : r.v.xmin = -1
  vmax : r.v.xmax = 1
  ulen : ∀ i l, (r.u.coef i l).length = r.u.polyorder
  upo : 1 ≤ r.u.polyorder
  uorth : Orthonormal r.u (-1) 1
  vorth : Orthonormal r.v (-1) 1
  gauge : ∀ l, 0 < fn r.u l 1

/-- `kept` are the values to be kept of `all`, `dropped` the others: kept values exceed `cutoff` times the largest one and
all dropped ones; no more than `nSv` are kept; and a dropped value does not exceed the cut-off, or more than `nSv` values
are at least as large. -/
structure Selected (all : List ℝ) (cutoff : ℝ) (nSv : Option ℕ) (kept dropped : List ℝ) : Prop where
  perm : (kept ++ dropped).Perm all
  above : ∀ top, IsGreatest {t | t ∈ all} top → ∀ t ∈ kept, cutoff * top < t
  below : ∀ top, IsGreatest {t | t ∈ all} top → ∀ t ∈ dropped,
    t ≤ cutoff * top ∨ ∃ n ∈ nSv, n < all.countP fun t' => decide (t ≤ t')
  order : ∀ t ∈ dropped, ∀ t' ∈ kept, t < t'
  most : ∀ n ∈ nSv, kept.length ≤ n

/-- Every function is even or odd (away from finitely many points), as recorded in `symm`. -/
def SveParity (r : SveResult) : Prop :=
  ∃ g : List ℝ, ∀ l, (r.u.symm l = 1 ∨ r.u.symm l = -1) ∧ r.v.symm l = r.u.symm l ∧
    ∀ x, |x| < 1 → x ∉ g → fn r.u l (-x) = r.u.symm l * fn r.u l x ∧ fn r.v l (-x) = r.u.symm l * fn r.v l x

/-- The functions are piecewise polynomials with `n` coefficients on the hinted segments, and sums over the nodes are
integrals for products of such functions. -/
def OnSegments (h : Hints) (n : ℕ) (r : SveResult) {X Y : Type} [Fintype X] [Fintype Y] (x wx : X → ℝ) (y wy : Y → ℝ) : Prop :=
  ∃ gx gy, h.segX = .ok gx ∧ h.segY = .ok gy ∧ SymGrid gx ∧ SymGrid gy ∧ ExactOn gx n x wx ∧ ExactOn gy n y wy ∧
    ∀ l, PiecewisePoly gx (n - 1) (fn r.u l) ∧ PiecewisePoly gy (n - 1) (fn r.v l)

/-! ## The discretisation -/

/-- A sampling object on `[a, 1] × [a, 1]`. -/
structure GoodSampling (sv : Sampling) (a : ℝ) (n : ℕ) (gx gy : List ℝ) : Prop where
  rule : GoodRule sv.rule
  order : sv.rule.x.length = n
  nGauss : sv.nGauss = n
  segX : sv.segX = gx
  segY : sv.segY = gy
  px : sv.rule.piecewise sv.segX = .ok sv.gaussX
  py : sv.rule.piecewise sv.segY = .ok sv.gaussY
  gridX : GridFromTo a 1 gx
  gridY : GridFromTo a 1 gy
  lt : a < 1

theorem two_le {a : ℝ} (h : a < 1) {g : List ℝ} (hg : GridFromTo a 1 g) : 2 ≤ g.length := by
  match g, hg with
  | [], hg => exact absurd hg.first (by simp)
  | [t], hg =>
    have h1 := hg.first
    have h2 := hg.last
    simp only [List.head?_cons, List.getLast?_singleton, Option.some.injEq] at h1 h2
    linarith
  | _ :: _ :: _, _ => simp

theorem piecewise_exists {r : Rule} (hr : GoodRule r) {a : ℝ} (h : a < 1) {g : List ℝ} (hg : GridFromTo a 1 g) :
    ∃ q, r.piecewise g = .ok q := by
  match g, two_le h hg, hg with
  | s :: t :: l, _, hg =>
    obtain ⟨q, hq, -⟩ := C23_piecewise r hr.sound s t l hg.sorted
    exact ⟨q, hq⟩

theorem samplingInit_ok {legendre : ℕ → PyM Rule} {n : ℕ} {r : Rule} (hleg : legendre n = .ok r) (hr : GoodRule r)
    (hn : r.x.length = n) {h : Hints} {gx gy : List ℝ} (hx : h.segX = .ok gx) (hy : h.segY = .ok gy) {a : ℝ} (ha : a < 1)
    (Gx : GridFromTo a 1 gx) (Gy : GridFromTo a 1 gy) {nGauss : Option ℕ} (hng : nGauss.getD h.ngauss = n) :
    ∃ sv, samplingInit legendre h nGauss = .ok sv ∧ GoodSampling sv a n gx gy ∧ sv.nsvals = h.nsvals := by
  obtain ⟨qx, hqx⟩ := piecewise_exists hr ha Gx
  obtain ⟨qy, hqy⟩ := piecewise_exists hr ha Gy
  refine ⟨⟨n, h.nsvals, r, gx, gy, qx, qy⟩, ?_, ⟨hr, hn, rfl, rfl, rfl, hqx, hqy, Gx, Gy, ha⟩, rfl⟩
  unfold samplingInit
  simp only [hng, hleg, hx, hy, hqx, hqy]

theorem nodes_facts {r q : Rule} (hr : GoodRule r) {a : ℝ} (h : a < 1) {g : List ℝ} (hg : GridFromTo a 1 g)
    (hq : r.piecewise g = .ok q) : q.a = a ∧ q.b = 1 ∧ Sound q ∧ 0 < q.x.length ∧
      NodesOn a r.x.length q.x.get (fun i : Fin q.x.length => (q.w[i.1]?).getD 0) := by
  have h2 := two_le h hg
  obtain ⟨hs, ha, hb, hw, hlen, hex⟩ := piecewise_facts hr hg.sorted h2 hq
  have ha' : q.a = a := by rw [hg.first] at ha; exact Option.some.inj ha
  have hb' : q.b = 1 := by rw [hg.last] at hb; exact Option.some.inj hb
  refine ⟨ha', hb', hs, ?_, ?_, ?_, ?_, ?_⟩
  · rw [hlen]
    exact Nat.mul_pos (by omega) hr.pos
  · intro i j hij
    exact (List.pairwise_iff_getElem.1 hs.sorted) i j i.2 j.2 hij
  · intro i
    have := hs.inside _ (List.get_mem q.x i)
    rwa [ha', hb'] at this
  · intro i
    have hi : i.1 < q.w.length := by rw [← hs.len]; exact i.2
    simp only [List.getElem?_eq_getElem hi, Option.getD_some]
    exact hw _ (List.getElem_mem _)
  · intro p hp
    have := hex (fun t => p.eval t) (fun _ _ _ => ⟨p, hp, fun _ _ _ => rfl⟩)
    rw [ha', hb'] at this
    rw [← this]
    unfold quad
    rw [show List.zipWith (fun x w => w * p.eval x) q.x q.w =
      List.ofFn (fun i : Fin q.x.length => (q.w[i.1]?).getD 0 * p.eval (q.x.get i)) from ?_, List.sum_ofFn]
    apply List.ext_getElem
    · simp [hs.len]
    · intro i h1 h2
      have hi : i < q.w.length := by
        rw [List.length_zipWith] at h1; omega
      simp [List.getElem?_eq_getElem hi]

theorem gaussArgs_half {sv : Sampling} {n : ℕ} {gx gy : List ℝ} (G : GoodSampling sv 0 n gx gy) :
    InQuarter (gaussArgs sv.gaussX sv.gaussY) ∧ EdgesRed (gaussArgs sv.gaussX sv.gaussY) := by
  obtain ⟨xa, xb, xs, -, xn⟩ := nodes_facts G.rule G.lt (G.segX ▸ G.gridX) G.px
  obtain ⟨ya, yb, ys, -, yn⟩ := nodes_facts G.rule G.lt (G.segY ▸ G.gridY) G.py
  refine ⟨fun i => ⟨(xn.inside i.1).1.le, (xn.inside i.1).2.le, (yn.inside i.2).1.le, (yn.inside i.2).2.le⟩, ?_, ?_⟩
  · refine ⟨_, rfl, fun i => ?_⟩
    rw [xs.forward, xa]
    simp [gaussArgs]
  · rintro p hp i
    cases hp
    simp only [gaussArgs]
    rw [xs.backward, xb]
    simp

theorem gaussArgs_full {sv : Sampling} {n : ℕ} {gx gy : List ℝ} (G : GoodSampling sv (-1) n gx gy) :
    InSquare (gaussArgs sv.gaussX sv.gaussY) ∧ EdgesOk (gaussArgs sv.gaussX sv.gaussY) := by
  obtain ⟨xa, xb, xs, -, xn⟩ := nodes_facts G.rule G.lt (G.segX ▸ G.gridX) G.px
  obtain ⟨ya, yb, ys, -, yn⟩ := nodes_facts G.rule G.lt (G.segY ▸ G.gridY) G.py
  refine ⟨fun i => ⟨(xn.inside i.1).1.le, (xn.inside i.1).2.le, (yn.inside i.2).1.le, (yn.inside i.2).2.le⟩, ?_, ?_⟩
  · rintro p hp i
    cases hp
    simp only [gaussArgs]
    rw [xs.forward, xa]
    simp
  · rintro p hp i
    cases hp
    simp only [gaussArgs]
    rw [xs.backward, xb]
    simp

/-- Weights of a rule as function. -/
noncomputable def wts (q : Rule) : Fin q.x.length → ℝ := fun i => (q.w[i.1]?).getD 0

theorem solve_ok (env : Env) (c : Choice) (hsvd : SvdOk env.libs (decide (c.dtype = .ddouble)) c.strategy) {hint : ℤ}
    (hh : 0 < hint) (K : Plain) (sv : Sampling) (H : ℝ → ℝ → ℝ) (hx : 0 < sv.gaussX.x.length)
    (hy : 0 < sv.gaussY.x.length)
    (hK : ∃ obj, K.obj _ = .ok obj ∧ obj.call (gaussArgs sv.gaussX sv.gaussY) =
      .ok fun i => H (sv.gaussX.x.get i.1) (sv.gaussY.x.get i.2)) :
    ∃ f w, Svd.compute env.libs (decide (c.dtype = .ddouble))
        (nodeMatrix H sv.gaussX.x.get (wts sv.gaussX) sv.gaussY.x.get (wts sv.gaussY)) (some hint.toNat) c.strategy =
        .ok (f, w) ∧
      IsThin (nodeMatrix H sv.gaussX.x.get (wts sv.gaussX) sv.gaussY.x.get (wts sv.gaussY)) f ∧
      solve env c hint K sv = .ok (blockOf f) := by
  obtain ⟨obj, h1, h2⟩ := hK
  obtain ⟨f, w, h3, h4⟩ := hsvd _ _ (nodeMatrix H sv.gaussX.x.get (wts sv.gaussX) sv.gaussY.x.get (wts sv.gaussY))
    hint.toNat hx hy (by omega)
  refine ⟨f, w, h3, h4, ?_⟩
  unfold solve
  rw [h1]
  simp only [matrix, h2]
  have h5 : Svd.compute env.libs (decide (c.dtype = .ddouble)) (Matrix.of fun i j =>
      (fun i : Fin sv.gaussX.x.length × Fin sv.gaussY.x.length => H (sv.gaussX.x.get i.1) (sv.gaussY.x.get i.2) *
        Real.sqrt ((sv.gaussX.w[i.1.1]?).getD 0) * Real.sqrt ((sv.gaussY.w[i.2.1]?).getD 0)) (i, j))
      (some hint.toNat) c.strategy = .ok (f, w) := h3
  simp only at h5
  rw [h5]

/-! ## Truncation -/

theorem truncate_selected {α β : Type} (blocks : List (Block α β)) (cutoff : ℝ) (nSv : Option ℕ)
    (hs : ∀ b ∈ blocks, b.s.Pairwise (· ≥ ·)) (h0 : 0 ≤ cutoff) (h1 : cutoff ≤ 1) (hne : allS blocks ≠ []) :
    ∃ out P, truncate blocks cutoff (nSv.map fun n : ℕ => PyNum.int n) = .ok out ∧
      List.Forall₂ (KeptPrefix P) blocks out ∧
      Selected (allS blocks) cutoff nSv (allS out)
        ((blocks.zip out).map fun p => p.1.s.drop p.2.s.length).flatten := by
  obtain ⟨out, top, h2, h3, h4, h5, h6⟩ := C34_truncate blocks cutoff nSv hs h0 h1 hne
  have hpre : ∀ b b', (b, b') ∈ blocks.zip out → KeptPrefix (Keep (allS blocks) top cutoff nSv) b b' := by
    clear h2 h3 h5 h6
    intro b b' hb
    generalize Keep (allS blocks) top cutoff nSv = P at h4
    clear hs hne
    induction h4 with
    | nil => cases hb
    | cons h _ ih =>
      rw [List.zip_cons_cons] at hb
      rcases List.mem_cons.1 hb with hb | hb
      · cases hb; exact h
      · exact ih hb
  have hmem : ∀ t ∈ allS out, Keep (allS blocks) top cutoff nSv t := by
    intro t ht
    obtain ⟨l, hl, ht⟩ := List.mem_flatten.1 ht
    obtain ⟨b', hb', rfl⟩ := List.mem_map.1 hl
    obtain ⟨i, hi, rfl⟩ := List.mem_iff_getElem.1 hb'
    have hi' : i < blocks.length := by rw [h4.length_eq]; exact hi
    obtain ⟨k, -, e, -, hk, -⟩ := hpre blocks[i] out[i] (List.mem_iff_getElem.2 ⟨i, by
      rw [List.length_zip]; omega, by simp⟩)
    exact hk t (e ▸ ht)
  have hdrop : ∀ t ∈ ((blocks.zip out).map fun p => p.1.s.drop p.2.s.length).flatten,
      ¬ Keep (allS blocks) top cutoff nSv t := by
    intro t ht
    obtain ⟨l, hl, ht⟩ := List.mem_flatten.1 ht
    obtain ⟨⟨b, b'⟩, hb, rfl⟩ := List.mem_map.1 hl
    obtain ⟨k, -, e, -, -, hk⟩ := hpre b b' hb
    refine hk t ?_
    simp only at ht
    rw [e, List.length_take] at ht
    rcases Nat.le_total k b.s.length with h | h
    · rwa [min_eq_left h] at ht
    · rw [min_eq_right h, List.drop_of_length_le le_rfl] at ht
      cases ht
  refine ⟨out, _, h2, h4, ?_, ?_, ?_, ?_, h5⟩
  · clear h2 h3 h5 h6 hmem hdrop hpre
    generalize Keep (allS blocks) top cutoff nSv = P at h4
    clear hs hne
    induction h4 with
    | nil => exact List.Perm.refl _
    | @cons b b' bs bs' h _ ih =>
      obtain ⟨k, -, e, -⟩ := h
      have hb : b.s = b'.s ++ b.s.drop b'.s.length := by
        conv_lhs => rw [← List.take_append_drop k b.s, ← e]
        congr 1
        rw [e, List.length_take]
        rcases Nat.le_total k b.s.length with h | h
        · rw [min_eq_left h]
        · rw [min_eq_right h, List.drop_of_length_le h, List.drop_of_length_le le_rfl]
      simp only [allS, List.map_cons, List.flatten_cons, List.zip_cons_cons] at ih ⊢
      conv_rhs => rw [hb]
      rw [List.append_assoc, List.append_assoc]
      refine List.Perm.append_left _ ?_
      rw [← List.append_assoc]
      refine (List.Perm.append_right _ List.perm_append_comm).trans ?_
      rw [List.append_assoc]
      exact List.Perm.append_left _ ih
  · intro top' htop t ht
    rw [htop.unique h3]
    exact (hmem t ht).1
  · intro top' htop t ht
    rw [htop.unique h3]
    by_contra hc
    push Not at hc
    exact hdrop t ht hc
  · intro t ht t' ht'
    obtain ⟨l, hl, ht⟩ := List.mem_flatten.1 ht
    obtain ⟨⟨b, b'⟩, hb, rfl⟩ := List.mem_map.1 hl
    exact h6 t' ht' b b' hb t ht

theorem blockOf_sorted {m n : ℕ} {f : Factors ℝ m n} (h : Antitone f.s) : (blockOf f).s.Pairwise (· ≥ ·) := by
  rw [blockOf, List.pairwise_ofFn]
  intro i j hij
  exact h hij.le

theorem truncate_two {m n m' n' : ℕ} {fe : Factors ℝ m n} {fo : Factors ℝ m' n'} (he : Antitone fe.s)
    (ho : Antitone fo.s) (cutoff : ℝ) (nSv : Option ℕ) (h0 : 0 ≤ cutoff) (h1 : cutoff ≤ 1) (hne : 0 < fe.k) :
    ∃ be bo P, truncate [blockOf fe, blockOf fo] cutoff (nSv.map fun n : ℕ => PyNum.int n) = .ok [be, bo] ∧
      Kept fe P be ∧ Kept fo P bo ∧
      Selected (List.ofFn fe.s ++ List.ofFn fo.s) cutoff nSv (be.s ++ bo.s)
        ((List.ofFn fe.s).drop be.s.length ++ (List.ofFn fo.s).drop bo.s.length) := by
  have hall : allS [blockOf fe, blockOf fo] = List.ofFn fe.s ++ List.ofFn fo.s := by simp [allS, blockOf]
  obtain ⟨out, P, h2, h3, h4⟩ := truncate_selected [blockOf fe, blockOf fo] cutoff nSv (by
    intro b hb
    simp only [List.mem_cons, List.not_mem_nil, or_false] at hb
    rcases hb with rfl | rfl
    · exact blockOf_sorted he
    · exact blockOf_sorted ho) h0 h1 (by
    rw [hall]
    intro h
    have := congrArg List.length h
    simp at this
    omega)
  cases h3 with
  | cons ha hrest =>
    cases hrest with
    | cons hb hrest =>
      cases hrest
      rename_i be bo
      refine ⟨be, bo, P, h2, (kept_of_prefix ha).1, (kept_of_prefix hb).1, ?_⟩
      rw [hall] at h4
      simpa [allS, blockOf] using h4

theorem truncate_one {m n : ℕ} {f : Factors ℝ m n} (hf : Antitone f.s) (cutoff : ℝ) (nSv : Option ℕ)
    (h0 : 0 ≤ cutoff) (h1 : cutoff ≤ 1) (hne : 0 < f.k) :
    ∃ b P, truncate [blockOf f] cutoff (nSv.map fun n : ℕ => PyNum.int n) = .ok [b] ∧ Kept f P b ∧
      Selected (List.ofFn f.s) cutoff nSv b.s ((List.ofFn f.s).drop b.s.length) := by
  have hall : allS [blockOf f] = List.ofFn f.s := by simp [allS, blockOf]
  obtain ⟨out, P, h2, h3, h4⟩ := truncate_selected [blockOf f] cutoff nSv (by
    intro b hb
    simp only [List.mem_cons, List.not_mem_nil, or_false] at hb
    subst hb
    exact blockOf_sorted hf) h0 h1 (by
    rw [hall]
    intro h
    have := congrArg List.length h
    simp at this
    omega)
  cases h3 with
  | cons ha hrest =>
    cases hrest
    rename_i b
    refine ⟨b, P, h2, (kept_of_prefix ha).1, ?_⟩
    rw [hall] at h4
    simpa [allS, blockOf] using h4

/-! ## Post-processing of a kept block -/

/-- The function built from column `c` of `f` vanishes at 1: the piecewise polynomial of order `n` on the segments
`segs` with the values `f.u[i, c] / sqrt(w[i])` at the nodes. -/
def Vanishing {m n' : ℕ} (f : Factors ℝ m n') (x w : Fin m → ℝ) (segs : List ℝ) (n : ℕ) : Prop :=
  ∃ (κ : Type) (p : PPoly κ) (l : κ) (c : Fin f.k), Shape p segs n ∧
    (∀ i, fn p l (x i) = f.u i c / Real.sqrt (w i)) ∧ fn p l 1 = 0

theorem post_kept {sv : Sampling} {a : ℝ} {n : ℕ} {gx gy : List ℝ} (G : GoodSampling sv a n gx gy)
    {f : Factors ℝ sv.gaussX.x.length sv.gaussY.x.length} (hu : f.u.transpose * f.u = 1) (hv : f.v.transpose * f.v = 1)
    {P : ℝ → Prop} {b : Block (List ℝ) (List ℝ)} (hb : Kept f P b) :
    (postprocess sv (fun l : Fin b.s.length => column b.u l) b.s.get (fun l => column b.v l) = .error .nanResult ∧
      Vanishing f sv.gaussX.x.get (wts sv.gaussX) gx n) ∨
    ∃ res, postprocess sv (fun l : Fin b.s.length => column b.u l) b.s.get (fun l => column b.v l) = .ok res ∧
      res.s = b.s.get ∧ Shape res.u gx n ∧ Shape res.v gy n ∧ Orthonormal res.u a 1 ∧ Orthonormal res.v a 1 ∧
      (∀ l, 0 < fn res.u l 1) ∧
      ∀ l, ∃ g : ℝ, (g = 1 ∨ g = -1) ∧
        (∀ i, fn res.u l (sv.gaussX.x.get i) = g * (f.u i (l.castLE hb.len) / Real.sqrt (wts sv.gaussX i))) ∧
        ∀ j, fn res.v l (sv.gaussY.x.get j) = g * (f.v j (l.castLE hb.len) / Real.sqrt (wts sv.gaussY j)) := by
  have Gx : GridFromTo a 1 sv.segX := G.segX ▸ G.gridX
  have Gy : GridFromTo a 1 sv.segY := G.segY ▸ G.gridY
  obtain ⟨xa, xb, xs, -, xn⟩ := nodes_facts G.rule G.lt Gx G.px
  obtain ⟨ya, yb, ys, -, yn⟩ := nodes_facts G.rule G.lt Gy G.py
  have hul : ∀ l : Fin b.s.length, (column b.u l).length = sv.gaussX.x.length := fun l => by
    rw [hb.u l, List.length_ofFn]
  have hvl : ∀ l : Fin b.s.length, (column b.v l).length = sv.gaussY.x.length := fun l => by
    rw [hb.v l, List.length_ofFn]
  have hinj : ∀ l m : Fin b.s.length, l.castLE hb.len = m.castLE hb.len ↔ l = m := fun l m =>
    (Fin.castLE_injective hb.len).eq_iff
  rcases post_ok sv G.px G.py G.rule (G.order.trans G.nGauss.symm) Gx.sorted Gy.sorted (two_le G.lt Gx)
    (two_le G.lt Gy) Gx.last (fun l : Fin b.s.length => column b.u l) b.s.get (fun l => column b.v l) hul hvl
    (by intro l m; rw [hb.u l, hb.u m, dot_ofFn, orth_entry hu]; simp only [hinj])
    (by intro l m; rw [hb.v l, hb.v m, dot_ofFn, orth_entry hv]; simp only [hinj]) with
    ⟨h1, p, l, h2, h3, h4⟩ | ⟨res, h1, h2, h3, h4, h5, h6, h7, h8⟩
  · left
    refine ⟨h1, _, p, l, l.castLE hb.len, ?_, ?_, h4⟩
    · rw [← G.segX, ← G.nGauss]; exact h2
    · intro i
      have hw : i.1 < sv.gaussX.w.length := by rw [← xs.len]; exact i.2
      rw [List.get_eq_getElem, node_value h3 i.1 i.2 (by rw [hul]; exact i.2) hw]
      simp only [hb.u l, List.getElem_ofFn, wts, List.getElem?_eq_getElem hw, Option.getD_some]
  · right
    refine ⟨res, h1, h2, ?_, ?_, ?_, ?_, h7, ?_⟩
    · rw [← G.segX, ← G.nGauss]; exact h3
    · rw [← G.segY, ← G.nGauss]; exact h4
    · rw [← xa, ← xb]; exact h5
    · rw [← ya, ← yb]; exact h6
    · intro l
      obtain ⟨g, hg, hx, hy⟩ := h8 l
      refine ⟨g, hg, fun i => ?_, fun j => ?_⟩
      · rw [hx]
        simp only [wts, List.get_eq_getElem, hb.u l, List.getElem_ofFn, Fin.val_cast]
      · rw [hy]
        simp only [wts, List.get_eq_getElem, hb.v l, List.getElem_ofFn, Fin.val_cast]

/-! ## Gauge and coefficients of the merged functions -/

/-- Piecewise polynomials that are proportional near 1 are so at 1. -/
theorem fn_at_one {κ κ' : Type} {p : PPoly κ} {h : PPoly κ'} (hp : p.WF) (hh : h.WF) (p1 : p.xmax = 1) (h1 : h.xmax = 1)
    (segs : List ℝ) (l : κ) (m : κ') (c : ℝ)
    (e : ∀ x, 0 < x → x < 1 → x ∉ segs → fn p l x = c * fn h m x) : fn p l 1 = c * fn h m 1 := by
  have key : ∀ {κ : Type} {p : PPoly κ}, p.WF → p.xmax = 1 → ∀ l, ∃ (P : ℝ[X]) (t : ℝ), t < 1 ∧
      ∀ x, t ≤ x → x ≤ 1 → fn p l x = P.eval x := by
    intro κ p hp p1 l
    obtain ⟨i, hi⟩ := hp.exists_inSeg (x := 1) (by rw [← p1]; exact hp.xmin_lt_xmax.le) p1.ge
    have hlast : (i : ℕ) + 1 = p.nseg := by
      rcases hi.2 with h | h
      · exfalso
        have : p.knots i.succ ≤ p.xmax := hp.mono.monotone (Fin.le_last _)
        linarith
      · exact h.1
    have hk : p.knots i.succ = 1 := by
      rw [← p1]
      show p.knots i.succ = p.knots (Fin.last p.nseg)
      congr 1
      ext
      simpa using hlast
    refine ⟨p.seg l i, p.knots i.castSucc, ?_, ?_⟩
    · rw [← hk]; exact hp.mono Fin.castSucc_lt_succ
    · intro x h1 h2
      refine fn_seg hp ⟨h1, ?_⟩ l
      rcases lt_or_eq_of_le h2 with h | h
      · left; rw [hk]; exact h
      · right; exact ⟨hlast, by rw [h, p1]⟩
  obtain ⟨P, t, ht, hP⟩ := key hp p1 l
  obtain ⟨Q, t', ht', hQ⟩ := key hh h1 m
  have hPQ : P = C c * Q := by
    apply Polynomial.eq_of_infinite_eval_eq
    have hinf : ((Set.Ioo (max (max t t') 0) 1) \ {x | x ∈ segs}).Infinite :=
      (Set.Ioo_infinite (by simp [ht, ht'])).diff (List.finite_toSet segs)
    refine hinf.mono ?_
    rintro x ⟨⟨h2, h3⟩, h4⟩
    rw [max_lt_iff, max_lt_iff] at h2
    simp only [Set.mem_setOf_eq, eval_mul, eval_C]
    rw [← hP x h2.1.1.le h3.le, ← hQ x h2.1.2.le h3.le]
    exact e x h2.2 h3 h4
  rw [hP 1 ht.le le_rfl, hQ 1 ht'.le le_rfl, hPQ, eval_mul, eval_C]

theorem extend_shape {ke ko : ℕ} {even : PPoly (Fin ke)} {odd : PPoly (Fin ko)} {sort signs segs}
    {p : PPoly (Fin (ke + ko))} (h : extendParity even odd sort signs segs = .ok p) {n : ℕ}
    (he : ∀ i l, (even.coef i l).length = n) (ho : ∀ i l, (odd.coef i l).length = n) (hpo : even.polyorder = n) :
    p.polyorder = n ∧ ∀ i l, (p.coef i l).length = n := by
  unfold extendParity at h
  split at h
  · cases h
  · rename_i hns
    rw [not_or, not_not, not_not] at hns
    have hlen : ∀ i, i < even.nseg → ∀ l, (merged (coefAt even i) (coefAt odd i) sort l).length = n := by
      intro i hi l
      unfold merged
      generalize sort l = m
      refine Fin.addCases (fun a => ?_) (fun a => ?_) m
      · rw [Fin.append_left, coefAt_eq even hi, he]
      · rw [Fin.append_right, coefAt_eq odd (hns.1 ▸ hi), ho]
    simp only [PPoly.ctor] at h
    split at h
    · split at h
      · cases h
        refine ⟨hpo, ?_⟩
        intro i l
        change Fin (even.nseg + even.nseg) at i
        simp only
        split
        · rw [List.length_mapIdx, List.length_map, hlen _ (by omega)]
        · rw [List.length_map, hlen _ (by omega)]
      · cases h
    · cases h

theorem extend_knots {ke ko : ℕ} {even : PPoly (Fin ke)} {odd : PPoly (Fin ko)} {sort signs segs}
    {p : PPoly (Fin (ke + ko))} (h : extendParity even odd sort signs segs = .ok p) :
    p.nseg = segs.length - 1 ∧ ∀ (i : ℕ) (hi : i < p.nseg + 1), some (p.knots ⟨i, hi⟩) = segs[i]? := by
  unfold extendParity at h
  split at h
  · cases h
  · simp only [PPoly.ctor] at h
    split at h
    · rename_i hlen
      split at h
      · cases h
        refine ⟨by simp only; omega, fun i hi => ?_⟩
        simp only [List.get_eq_getElem, Fin.val_cast]
        rw [List.getElem?_eq_getElem]
      · cases h
    · cases h

theorem Shape.piecewise {κ : Type} {p : PPoly κ} {g : List ℝ} {n : ℕ} (h : Shape p g n) (l : κ) :
    PiecewisePoly g (n - 1) (fn p l) := by
  intro a b hab
  obtain ⟨i, ha, hb⟩ := adjacent_get hab
  have hi : i + 1 < g.length := by
    by_contra h'
    rw [List.getElem?_eq_none (by omega)] at hb
    cases hb
  have hin : i < p.nseg := by rw [h.nseg]; omega
  have k1 := h.knots i (by omega)
  have k2 := h.knots (i + 1) (by omega)
  rw [ha, Option.some.injEq] at k1
  rw [hb, Option.some.injEq] at k2
  refine ⟨p.seg l ⟨i, hin⟩, ?_, fun t h1 h2 => ?_⟩
  · have := segPoly_natDegree (p.knots (Fin.castSucc ⟨i, hin⟩)) (p.knots (Fin.succ ⟨i, hin⟩)) (p.coef ⟨i, hin⟩ l)
    rw [h.coef] at this
    exact this
  · refine fn_seg h.wf (i := ⟨i, hin⟩) ⟨?_, Or.inl ?_⟩ l
    · exact (le_of_eq k1).trans h1.le
    · exact h2.trans_le (le_of_eq k2.symm)

theorem adjacent_drop {g : List ℝ} {m : ℕ} {a b : ℝ} (h : Roots.Adjacent (g.drop m) a b) : Roots.Adjacent g a b := by
  obtain ⟨l1, l2, h⟩ := h
  exact ⟨g.take m ++ l1, l2, by rw [List.append_assoc, ← h, List.take_append_drop]⟩

theorem adjacent_neg {g : List ℝ} (hg : g.map (- ·) = g.reverse) {a b : ℝ} (h : Roots.Adjacent g a b) :
    Roots.Adjacent g (-b) (-a) := by
  obtain ⟨l1, l2, h⟩ := h
  have e : g = (g.map (- ·)).reverse := by rw [hg, List.reverse_reverse]
  refine ⟨(l2.map (- ·)).reverse, (l1.map (- ·)).reverse, ?_⟩
  rw [e, h]
  simp

/-- The composite rule on `[a, 1]`, for piecewise polynomials. -/
theorem rule_exact {r q : Rule} (hr : GoodRule r) {a : ℝ} (h : a < 1) {g : List ℝ} (hg : GridFromTo a 1 g)
    (hq : r.piecewise g = .ok q) {f : ℝ → ℝ} (hf : PiecewisePoly g (2 * r.x.length - 2) f) :
    ∑ i, wts q i * f (q.x.get i) = ∫ t in a..1, f t := by
  obtain ⟨hs, ha, hb, hw, hlen, hex⟩ := piecewise_facts hr hg.sorted (two_le h hg) hq
  have ha' : q.a = a := by rw [hg.first] at ha; exact Option.some.inj ha
  have hb' : q.b = 1 := by rw [hg.last] at hb; exact Option.some.inj hb
  have := hex f hf
  rw [ha', hb'] at this
  rw [← this]
  unfold quad
  rw [show List.zipWith (fun x w => w * f x) q.x q.w =
    List.ofFn (fun i : Fin q.x.length => (q.w[i.1]?).getD 0 * f (q.x.get i)) from ?_, List.sum_ofFn]
  · rfl
  · apply List.ext_getElem
    · simp [hs.len]
    · intro i h1 h2
      have hi : i < q.w.length := by
        rw [List.length_zipWith] at h1; omega
      simp [List.getElem?_eq_getElem hi]

/-- The nodes of one half together with their mirror images. -/
theorem exact_mirror {r q : Rule} (hr : GoodRule r) {g : List ℝ} (Sg : SymGrid g) {m : ℕ} (hg : GridFromTo 0 1 (g.drop m))
    (hq : r.piecewise (g.drop m) = .ok q) :
    ExactOn g r.x.length (Sum.elim q.x.get fun i => -q.x.get i) (Sum.elim (wts q) (wts q)) := by
  obtain ⟨-, -, -, -, hn⟩ := nodes_facts hr one_pos hg hq
  refine ⟨?_, ?_, fun f hf => ?_⟩
  · rintro (i | i) <;> exact (hn.wpos i).le
  · rintro (i | i)
    · have := hn.inside i
      exact abs_le.2 ⟨by simp only [Sum.elim_inl]; linarith, this.2.le⟩
    · have := hn.inside i
      exact abs_le.2 ⟨by simp only [Sum.elim_inr]; linarith, by simp only [Sum.elim_inr]; linarith⟩
  · have h1 := rule_exact hr one_pos hg hq (f := f) fun a b hab => hf a b (adjacent_drop hab)
    have h2 := rule_exact hr one_pos hg hq (f := fun t => f (-t)) fun a b hab => by
      obtain ⟨p, hp, he⟩ := hf _ _ (adjacent_neg Sg.symm (adjacent_drop hab))
      refine ⟨p.comp (-X), ?_, fun t h3 h4 => ?_⟩
      · rw [natDegree_comp, natDegree_neg, natDegree_X, mul_one]
        exact hp
      · change f (-t) = _
        rw [he (-t) (by linarith) (by linarith)]
        simp
    have hi : IntervalIntegrable f MeasureTheory.volume (-1) 1 := by
      rw [intervalIntegrable_iff_integrableOn_Ioc_of_le (by norm_num)]
      exact (piecewise_memLp Sg.toGridFromTo hf).integrable (by norm_num)
    rw [Fintype.sum_sum_type]
    simp only [Sum.elim_inl, Sum.elim_inr]
    rw [h1, h2, intervalIntegral.integral_comp_neg (f := f), neg_zero, add_comm]
    refine intervalIntegral.integral_add_adjacent_intervals (hi.mono_set ?_) (hi.mono_set ?_)
    · rw [Set.uIcc_of_le (by norm_num), Set.uIcc_of_le (by norm_num)]
      exact Set.Icc_subset_Icc_right (by norm_num)
    · rw [Set.uIcc_of_le (by norm_num), Set.uIcc_of_le (by norm_num)]
      exact Set.Icc_subset_Icc_left (by norm_num)

/-- The nodes of the whole interval. -/
theorem exact_full {r q : Rule} (hr : GoodRule r) {g : List ℝ} (hg : GridFromTo (-1) 1 g) (hq : r.piecewise g = .ok q) :
    ExactOn g r.x.length q.x.get (wts q) := by
  obtain ⟨-, -, -, -, hn⟩ := nodes_facts hr (by norm_num) hg hq
  exact ⟨fun i => (hn.wpos i).le, fun i => abs_le.2 ⟨(hn.inside i).1.le, (hn.inside i).2.le⟩,
    fun f hf => rule_exact hr (by norm_num) hg hq hf⟩

/-! ## The error at the nodes -/

theorem block_error {mx my : ℕ} {H : ℝ → ℝ → ℝ} {x wx : Fin mx → ℝ} {y wy : Fin my → ℝ} {f : Factors ℝ mx my}
    (hf : IsSvdFactors (nodeMatrix H x wx y wy) f) (hwx : ∀ i, 0 < wx i) (hwy : ∀ j, 0 < wy j) {P : ℝ → Prop}
    {b : Block (List ℝ) (List ℝ)} (hb : Kept f P b) {u v : Fin b.s.length → ℝ → ℝ}
    (hval : ∀ l, ∃ g : ℝ, (g = 1 ∨ g = -1) ∧ (∀ i, u l (x i) = g * (f.u i (l.castLE hb.len) / Real.sqrt (wx i))) ∧
      ∀ j, v l (y j) = g * (f.v j (l.castLE hb.len) / Real.sqrt (wy j))) :
    ∑ i, ∑ j, wx i * wy j * (H (x i) (y j) - ∑ l, b.s.get l * u l (x i) * v l (y j)) ^ 2 =
      (((List.ofFn f.s).drop b.s.length).map (· ^ 2)).sum := by
  have hprod : ∀ l i j, u l (x i) * v l (y j) = f.u i (l.castLE hb.len) / Real.sqrt (wx i) *
      (f.v j (l.castLE hb.len) / Real.sqrt (wy j)) := by
    intro l i j
    obtain ⟨g, hg, h1, h2⟩ := hval l
    rw [h1, h2]
    rcases hg with rfl | rfl <;> ring
  rw [← kept_error hf hb.len]
  refine Finset.sum_congr rfl fun i _ => Finset.sum_congr rfl fun j _ => ?_
  have hx0 : Real.sqrt (wx i) ≠ 0 := (Real.sqrt_pos.2 (hwx i)).ne'
  have hy0 : Real.sqrt (wy j) ≠ 0 := (Real.sqrt_pos.2 (hwy j)).ne'
  have e : nodeMatrix H x wx y wy i j - ∑ l : Fin b.s.length, f.s (l.castLE hb.len) * f.u i (l.castLE hb.len) *
      f.v j (l.castLE hb.len) = Real.sqrt (wx i) * Real.sqrt (wy j) *
        (H (x i) (y j) - ∑ l, b.s.get l * u l (x i) * v l (y j)) := by
    rw [mul_sub, Finset.mul_sum]
    congr 1
    · simp only [nodeMatrix, Matrix.of_apply]; ring
    · refine Finset.sum_congr rfl fun l _ => ?_
      rw [mul_assoc (b.s.get l), hprod, hb.s l]
      field_simp
  rw [e, mul_pow, mul_pow, Real.sq_sqrt (hwx i).le, Real.sq_sqrt (hwy j).le]

/-- The equations of singular functions, with sums over the nodes in place of the integrals. -/
theorem block_equations {mx my : ℕ} {H : ℝ → ℝ → ℝ} {x wx : Fin mx → ℝ} {y wy : Fin my → ℝ} {f : Factors ℝ mx my}
    (hf : IsSvdFactors (nodeMatrix H x wx y wy) f) (hwx : ∀ i, 0 < wx i) (hwy : ∀ j, 0 < wy j) {P : ℝ → Prop}
    {b : Block (List ℝ) (List ℝ)} (hb : Kept f P b) {u v : Fin b.s.length → ℝ → ℝ}
    (hval : ∀ l, ∃ g : ℝ, (g = 1 ∨ g = -1) ∧ (∀ i, u l (x i) = g * (f.u i (l.castLE hb.len) / Real.sqrt (wx i))) ∧
      ∀ j, v l (y j) = g * (f.v j (l.castLE hb.len) / Real.sqrt (wy j))) (l : Fin b.s.length) :
    (∀ i, ∑ j, wy j * H (x i) (y j) * v l (y j) = b.s.get l * u l (x i)) ∧
      ∀ j, ∑ i, wx i * H (x i) (y j) * u l (x i) = b.s.get l * v l (y j) := by
  obtain ⟨g, hg, h1, h2⟩ := hval l
  set c := l.castLE hb.len
  have hA : ∀ i j, H (x i) (y j) * Real.sqrt (wx i) * Real.sqrt (wy j) = ∑ c, f.s c * f.u i c * f.v j c := by
    intro i j
    have := congrFun (congrFun hf.eq i) j
    rw [Matrix.mul_apply] at this
    simp only [nodeMatrix, Matrix.of_apply] at this
    rw [this]
    refine Finset.sum_congr rfl fun c _ => ?_
    rw [Matrix.mul_diagonal, Matrix.transpose_apply]
    ring
  have hAv : ∀ i, ∑ j, H (x i) (y j) * Real.sqrt (wx i) * Real.sqrt (wy j) * f.v j c = f.s c * f.u i c := by
    intro i
    simp only [hA, Finset.sum_mul]
    rw [Finset.sum_comm]
    have : ∀ c', ∑ j, f.s c' * f.u i c' * f.v j c' * f.v j c = if c' = c then f.s c' * f.u i c' else 0 := by
      intro c'
      rw [← mul_one (f.s c' * f.u i c'), ← mul_zero (f.s c' * f.u i c'), ← mul_ite, ← orth_entry hf.v_orth,
        Finset.mul_sum]
      exact Finset.sum_congr rfl fun j _ => by ring
    simp only [this, Finset.sum_ite_eq', Finset.mem_univ, if_true]
  have hAu : ∀ j, ∑ i, H (x i) (y j) * Real.sqrt (wx i) * Real.sqrt (wy j) * f.u i c = f.s c * f.v j c := by
    intro j
    simp only [hA, Finset.sum_mul]
    rw [Finset.sum_comm]
    have : ∀ c', ∑ i, f.s c' * f.u i c' * f.v j c' * f.u i c = if c' = c then f.s c' * f.v j c' else 0 := by
      intro c'
      rw [← mul_one (f.s c' * f.v j c'), ← mul_zero (f.s c' * f.v j c'), ← mul_ite, ← orth_entry hf.u_orth,
        Finset.mul_sum]
      exact Finset.sum_congr rfl fun j _ => by ring
    simp only [this, Finset.sum_ite_eq', Finset.mem_univ, if_true]
  constructor
  · intro i
    have hx0 : Real.sqrt (wx i) ≠ 0 := (Real.sqrt_pos.2 (hwx i)).ne'
    rw [h1, hb.s, mul_left_comm, ← mul_div_assoc, ← hAv, Finset.sum_div, Finset.mul_sum]
    refine Finset.sum_congr rfl fun j _ => ?_
    have hy0 : Real.sqrt (wy j) ≠ 0 := (Real.sqrt_pos.2 (hwy j)).ne'
    have hy1 := Real.mul_self_sqrt (hwy j).le
    rw [h2]
    field_simp
    linear_combination (- g * H (x i) (y j) * f.v j c) * hy1
  · intro j
    have hy0 : Real.sqrt (wy j) ≠ 0 := (Real.sqrt_pos.2 (hwy j)).ne'
    rw [h2, hb.s, mul_left_comm, ← mul_div_assoc, ← hAu, Finset.sum_div, Finset.mul_sum]
    refine Finset.sum_congr rfl fun i _ => ?_
    have hx0 : Real.sqrt (wx i) ≠ 0 := (Real.sqrt_pos.2 (hwx i)).ne'
    have hx1 := Real.mul_self_sqrt (hwx i).le
    rw [h1]
    field_simp
    linear_combination (- g * H (x i) (y j) * f.u i c) * hx1

theorem block_disc {mx my : ℕ} {H : ℝ → ℝ → ℝ} {x wx : Fin mx → ℝ} {y wy : Fin my → ℝ} {f : Factors ℝ mx my}
    (hf : IsSvdFactors (nodeMatrix H x wx y wy) f) (hwx : ∀ i, 0 < wx i) (hwy : ∀ j, 0 < wy j) {P : ℝ → Prop}
    {b : Block (List ℝ) (List ℝ)} (hb : Kept f P b) {u v : Fin b.s.length → ℝ → ℝ}
    (hval : ∀ l, ∃ g : ℝ, (g = 1 ∨ g = -1) ∧ (∀ i, u l (x i) = g * (f.u i (l.castLE hb.len) / Real.sqrt (wx i))) ∧
      ∀ j, v l (y j) = g * (f.v j (l.castLE hb.len) / Real.sqrt (wy j))) :
    DiscSve (fun i j => H (x i) (y j)) wx wy b.s.get (fun l i => u l (x i)) (fun l j => v l (y j)) := by
  have orth : ∀ {m : ℕ} (w : Fin m → ℝ) (F : Matrix (Fin m) (Fin f.k) ℝ) (φ : Fin b.s.length → Fin m → ℝ),
      (∀ i, 0 < w i) → F.transpose * F = 1 → (∀ l, ∃ g : ℝ, (g = 1 ∨ g = -1) ∧
        ∀ i, φ l i = g * (F i (l.castLE hb.len) / Real.sqrt (w i))) →
      ∀ l l', ∑ i, w i * φ l i * φ l' i = if l = l' then 1 else 0 := by
    intro m w F φ hw hF hφ l l'
    obtain ⟨g, hg, h1⟩ := hφ l
    obtain ⟨g', hg', h2⟩ := hφ l'
    have e : ∑ i, w i * φ l i * φ l' i = g * g' * if l.castLE hb.len = l'.castLE hb.len then 1 else 0 := by
      rw [← orth_entry hF, Finset.mul_sum]
      refine Finset.sum_congr rfl fun i _ => ?_
      have hx0 : Real.sqrt (w i) ≠ 0 := (Real.sqrt_pos.2 (hw i)).ne'
      have hx1 := Real.mul_self_sqrt (hw i).le
      rw [h1, h2]
      field_simp
      linear_combination (- g * g' * F i (l.castLE hb.len) * F i (l'.castLE hb.len)) * hx1
    rw [e]
    simp only [(Fin.castLE_injective hb.len).eq_iff]
    by_cases hl : l = l'
    · subst hl
      have : φ l = φ l := rfl
      have hgg : g * g' = 1 ∨ ∀ i, F i (l.castLE hb.len) = 0 := by
        by_cases h3 : ∀ i, F i (l.castLE hb.len) = 0
        · exact Or.inr h3
        · left
          push Not at h3
          obtain ⟨i, hi⟩ := h3
          have h4 := (h1 i).symm.trans (h2 i)
          have h5 : F i (l.castLE hb.len) / Real.sqrt (w i) ≠ 0 := div_ne_zero hi (Real.sqrt_pos.2 (hw i)).ne'
          have h6 := mul_right_cancel₀ h5 h4
          rw [← h6]
          rcases hg with rfl | rfl <;> norm_num
      rcases hgg with h3 | h3
      · simp [h3]
      · have h4 := orth_entry hF (l.castLE hb.len) (l.castLE hb.len)
        simp [h3] at h4
    · simp [hl]
  refine ⟨orth wx f.u _ hwx hf.u_orth fun l => (hval l).imp fun g h => ⟨h.1, h.2.1⟩,
    orth wy f.v _ hwy hf.v_orth fun l => (hval l).imp fun g h => ⟨h.1, h.2.2⟩,
    fun l => (block_equations hf hwx hwy hb hval l).1, fun l => (block_equations hf hwx hwy hb hval l).2⟩

/-- From relations on the nodes to the specification. -/
theorem NodeSve.of_disc {k : ℝ → ℝ → ℝ} {r : SveResult} {X Y : Type} [Fintype X] [Fintype Y] {x wx : X → ℝ} {y wy : Y → ℝ}
    {d : List ℝ} (h : DiscSve (fun i j => k (x i) (y j)) wx wy r.s (fun l i => fn r.u l (x i)) (fun l j => fn r.v l (y j)))
    (hE : ∑ i, ∑ j, wx i * wy j * (k (x i) (y j) - ∑ l, r.s l * fn r.u l (x i) * fn r.v l (y j)) ^ 2 =
      (d.map (· ^ 2)).sum) : NodeSve k r x wx y wy d where
  uorth := h.uorth
  vorth := h.vorth
  right := h.right
  left := h.left
  error m := by
    have h1 := h.tail hE (Finset.univ.filter fun l : Fin r.n => l.1 < m)
    simp only [resid]
    rw [h1]
    congr 1
    refine Finset.sum_congr ?_ fun _ _ => rfl
    ext l
    simp

theorem nodeMatrix_ne_of {mx my : ℕ} {H : ℝ → ℝ → ℝ} {x wx : Fin mx → ℝ} {y wy : Fin my → ℝ}
    (hwx : ∀ i, 0 < wx i) (hwy : ∀ j, 0 < wy j) (hH : ∃ i j, H (x i) (y j) ≠ 0) : nodeMatrix H x wx y wy ≠ 0 := by
  intro h
  obtain ⟨i, j, hij⟩ := hH
  have := congrFun (congrFun h i) j
  simp only [nodeMatrix, Matrix.of_apply, Matrix.zero_apply] at this
  exact mul_ne_zero (mul_ne_zero hij (Real.sqrt_pos.2 (hwx i)).ne') (Real.sqrt_pos.2 (hwy j)).ne' this

theorem nodeMatrix_ne {mx my : ℕ} {H : ℝ → ℝ → ℝ} {x wx : Fin mx → ℝ} {y wy : Fin my → ℝ} (hx : 0 < mx) (hy : 0 < my)
    (hwx : ∀ i, 0 < wx i) (hwy : ∀ j, 0 < wy j) (hH : ∀ i j, 0 < H (x i) (y j)) : nodeMatrix H x wx y wy ≠ 0 :=
  nodeMatrix_ne_of hwx hwy ⟨⟨0, hx⟩, ⟨0, hy⟩, (hH _ _).ne'⟩

theorem pos_of_selected {all : List ℝ} {t : ℝ} {kept d : List ℝ} (h : Selected all t none kept d) (ht : t < 1)
    {s : ℝ} (hs : s ∈ all) (hpos : 0 < s) : 0 < kept.length := by
  by_contra hc
  have hk : kept = [] := List.length_eq_zero_iff.1 (by omega)
  obtain ⟨top, htop⟩ : ∃ top, IsGreatest {t | t ∈ all} top := by
    obtain ⟨m, hm⟩ := Option.ne_none_iff_exists'.1 (mt List.max?_eq_none_iff.1 (List.ne_nil_of_mem hs))
    obtain ⟨h1, h2⟩ := List.max?_eq_some_iff.1 hm
    exact ⟨m, h1, fun t ht => h2 t ht⟩
  have h1 : top ∈ d := by
    have := h.perm.mem_iff.2 htop.1
    rw [hk] at this
    simpa using this
  obtain h2 | ⟨_, hn, -⟩ := h.below top htop top h1
  swap
  · cases hn
  have h3 : s ≤ top := htop.2 hs
  nlinarith

theorem selected_pos {all : List ℝ} {t : ℝ} {n : Option ℕ} {kept d : List ℝ} (h : Selected all t n kept d) (ht : 0 ≤ t)
    (hall : ∀ s ∈ all, 0 ≤ s) : ∀ s ∈ kept, 0 < s := by
  intro s hs
  have hne : s ∈ all := h.perm.mem_iff.1 (List.mem_append_left _ hs)
  obtain ⟨m, hm⟩ := Option.ne_none_iff_exists'.1 (mt List.max?_eq_none_iff.1 (List.ne_nil_of_mem hne))
  obtain ⟨h1, h2⟩ := List.max?_eq_some_iff.1 hm
  exact lt_of_le_of_lt (mul_nonneg ht (hall m h1)) (h.above m ⟨h1, fun t ht => h2 t ht⟩ s hs)

theorem Selected.congr {all : List ℝ} {t : ℝ} {n : Option ℕ} {kept kept' d : List ℝ} (h : Selected all t n kept d)
    (hp : kept'.Perm kept) : Selected all t n kept' d where
  perm := (hp.append_right d).trans h.perm
  above := fun top htop s hs => h.above top htop s (hp.mem_iff.1 hs)
  below := h.below
  order := fun s hs s' hs' => h.order s hs s' (hp.mem_iff.1 hs')
  most := fun n hn => by rw [hp.length_eq]; exact h.most n hn

/-- Values of the merged expansion in terms of those of the two halves. -/
theorem merged_sums {ke ko : ℕ} (argsort : (Fin (ke + ko) → ℝ) → Fin (ke + ko) → Fin (ke + ko))
    (hsort : ArgsortOk argsort) (even : Result (Fin ke)) (odd : Result (Fin ko)) (segX segY : List ℝ)
    (nx ny : ℕ) (hgx : FullGrid segX nx 1) (hgy : FullGrid segY ny 1)
    (heu : HalfOf even.u segX nx) (hou : HalfOf odd.u segX nx) (hev : HalfOf even.v segY ny)
    (hov : HalfOf odd.v segY ny) (hpu : even.u.polyorder = odd.u.polyorder)
    (hpv : even.v.polyorder = odd.v.polyorder) {res : Result (Fin (ke + ko))}
    (hres : mergeParity argsort even odd segX segY = .ok res) {x y : ℝ}
    (hx : 0 < x ∧ x < 1 ∧ x ∉ segX) (hy : 0 < y ∧ y < 1 ∧ y ∉ segY) {Se So : ℝ}
    (hE : ∑ l, even.s l * fn even.u l x * fn even.v l y = Se)
    (hO : ∑ l, odd.s l * fn odd.u l x * fn odd.v l y = So) :
    ∑ l, res.s l * fn res.u l x * fn res.v l y = (Se + So) / 2 ∧
    ∑ l, res.s l * fn res.u l x * fn res.v l (-y) = (Se - So) / 2 ∧
    ∑ l, res.s l * fn res.u l (-x) * fn res.v l y = (Se - So) / 2 ∧
    ∑ l, res.s l * fn res.u l (-x) * fn res.v l (-y) = (Se + So) / 2 := by
  set K : ℝ → ℝ → ℝ := fun x y => if 0 < x * y then (Se + So) / 2 else (Se - So) / 2 with hK
  have e1 : K x y = (Se + So) / 2 := if_pos (mul_pos hx.1 hy.1)
  have e2 : K x (-y) = (Se - So) / 2 := if_neg (by have := mul_pos hx.1 hy.1; rw [mul_neg]; linarith)
  have e3 : K (-x) y = (Se - So) / 2 := if_neg (by have := mul_pos hx.1 hy.1; rw [neg_mul]; linarith)
  have hsym : ∀ x y, K (-x) (-y) = K x y := fun x y => by simp only [hK, neg_mul_neg]
  obtain ⟨res', hres', h⟩ := C37_values argsort hsort even odd segX segY nx ny 1 1 hgx hgy one_pos one_pos heu hou hev hov
    hpu hpv K hsym x y hx hy (by rw [hE, e1, e2]; ring) (by rw [hO, e1, e2]; ring)
  have : res' = res := Except.ok.inj (hres'.symm.trans hres)
  subst this
  exact ⟨(h x y (Or.inl rfl) (Or.inl rfl)).trans e1, (h x (-y) (Or.inl rfl) (Or.inr rfl)).trans e2,
    (h (-x) y (Or.inr rfl) (Or.inl rfl)).trans e3, (h (-x) (-y) (Or.inr rfl) (Or.inr rfl)).trans ((hsym x y).trans e1)⟩

/-! ## The theorems -/

/-- The cut-off in use: the given one, or twice the machine epsilon of the working precision. -/
def CutoffIs (p : Platform) (d : Dtype) (given : Option ℝ) (t : ℝ) : Prop :=
  given = some t ∨ given = none ∧ ∃ e, p.finfoEps d = .ok e ∧ t = 2 * e

theorem cutoffOf_eq {p : Platform} {d : Dtype} {given : Option ℝ} {t : ℝ} (h : CutoffIs p d given t) :
    cutoffOf p d given = .ok t := by
  rcases h with rfl | ⟨rfl, e, he, rfl⟩
  · rfl
  · simp only [cutoffOf, he]
    rfl

/-- `compute` for a centrosymmetric kernel, with the resolution of the functions.  The last part holds for any symmetric
function whose values on the nodes are the product of the factors. -/
theorem compute_centrosymm (env : Env) (K : Kern) (k : ℝ → ℝ → ℝ) (eps : Option Flt) (cutoff : Option ℝ) (nSv nGauss : Option ℕ)
    (work : Option Dtype) (sveStrat : Option Strat) (hstrat : sveStrat = none ∨ sveStrat = some .centrosymm)
    (svdStrat : Option String) (c : Choice) (hc : safeEps env.platform eps work svdStrat = .ok c)
    (hK : DescribesHalf K k c.safeEps (nGauss.getD (if 1e-8 ≤ c.safeEps then 10 else 16))) (t : ℝ)
    (ht : CutoffIs env.platform c.dtype cutoff t) (h0 : 0 ≤ t) (h1 : t ≤ 1)
    (hsvd : SvdOk env.libs (decide (c.dtype = .ddouble)) c.strategy) (hsort : ∀ k, ArgsortOk (env.argsort k))
    (n : ℕ) (hn : n = nGauss.getD (if 1e-8 ≤ c.safeEps then 10 else 16)) (rule : Rule) (hleg : env.legendre n = .ok rule)
    (hr : GoodRule rule) (hrn : rule.x.length = n) :
    ∃ (mx my : ℕ) (x wx : Fin mx → ℝ) (y wy : Fin my → ℝ) (hint : ℕ) (fe : Factors ℝ mx my) (we : List Warning)
      (fo : Factors ℝ mx my) (wo : List Warning),
      NodesOn 0 n x wx ∧ NodesOn 0 n y wy ∧ (K.full.hints c.safeEps).nsvals ≤ 2 * (hint : ℤ) ∧
      Svd.compute env.libs (decide (c.dtype = .ddouble)) (nodeMatrix (fun x y => k x y + k x (-y)) x wx y wy) (some hint)
        c.strategy = .ok (fe, we) ∧
      Svd.compute env.libs (decide (c.dtype = .ddouble)) (nodeMatrix (fun x y => k x y - k x (-y)) x wx y wy) (some hint)
        c.strategy = .ok (fo, wo) ∧
      ((SveCompute.compute env K eps cutoff (nSv.map fun n : ℕ => PyNum.int n) nGauss work sveStrat svdStrat = .error .nanResult ∧
        ∃ g, ((K.symmetrized 1).hints c.safeEps).segX = .ok g ∧ (Vanishing fe x wx g n ∨ Vanishing fo x wx g n)) ∨
      ∃ r d, SveCompute.compute env K eps cutoff (nSv.map fun n : ℕ => PyNum.int n) nGauss work sveStrat svdStrat = .ok r ∧
        r.eps = some c.safeEps ∧ IsSve r ∧ SveParity r ∧
        Selected (List.ofFn fe.s ++ List.ofFn fo.s) t nSv (List.ofFn r.s) d ∧
        (nSv = none → t < 1 → 0 < r.n) ∧
        OnSegments (K.full.hints c.safeEps) n r (Sum.elim x fun i => -x i) (Sum.elim wx wx) (Sum.elim y fun j => -y j) (Sum.elim wy wy) ∧
        ∀ k : ℝ → ℝ → ℝ, (∀ x y, k (-x) (-y) = k x y) →
          IsSvdFactors (nodeMatrix (fun x y => k x y + k x (-y)) x wx y wy) fe →
          IsSvdFactors (nodeMatrix (fun x y => k x y - k x (-y)) x wx y wy) fo →
          NodeSve k r (Sum.elim x fun i => -x i) (Sum.elim wx wx) (Sum.elim y fun j => -y j) (Sum.elim wy wy) d) := by
  obtain ⟨gx, hgx, Sx⟩ := hK.gridX
  obtain ⟨gy, hgy, Sy⟩ := hK.gridY
  obtain ⟨nx, Fx, ex⟩ := C37_grid gx Sx
  obtain ⟨ny, Fy, ey⟩ := C37_grid gy Sy
  obtain ⟨Gx, memx⟩ : GridFromTo 0 1 (gx.drop nx) ∧ ∀ t, t ∈ gx → 0 < t → t ∈ gx.drop nx := by
    obtain ⟨h, h2, h3, h4⟩ := C33_half gx 1 Sx.sorted Sx.symm Sx.last
    rw [ex] at h2; cases h2; exact ⟨h3, fun t h5 h6 => (h4 t).2 (Or.inr ⟨h5, h6⟩)⟩
  obtain ⟨Gy, memy⟩ : GridFromTo 0 1 (gy.drop ny) ∧ ∀ t, t ∈ gy → 0 < t → t ∈ gy.drop ny := by
    obtain ⟨h, h2, h3, h4⟩ := C33_half gy 1 Sy.sorted Sy.symm Sy.last
    rw [ey] at h2; cases h2; exact ⟨h3, fun t h5 h6 => (h4 t).2 (Or.inr ⟨h5, h6⟩)⟩
  have hsegX : (reducedHints (K.full.hints c.safeEps)).segX = .ok (gx.drop nx) := by
    simp only [reducedHints, hgx, halfSegments, ex]
  have hsegY : (reducedHints (K.full.hints c.safeEps)).segY = .ok (gy.drop ny) := by
    simp only [reducedHints, hgy, halfSegments, ey]
  obtain ⟨sv, hsv, G, hns⟩ := samplingInit_ok hleg hr hrn hsegX hsegY one_pos Gx Gy (nGauss := nGauss) (by
    rw [hn]; simp only [reducedHints, hK.ngauss])
  have hns : sv.nsvals = ((K.full.hints c.safeEps).nsvals + 1) / 2 := hns
  have hns0 := hK.nsvals
  obtain ⟨xa, xb, xs, xl, xn⟩ := nodes_facts G.rule G.lt (G.segX ▸ G.gridX) G.px
  obtain ⟨ya, yb, ys, yl, yn⟩ := nodes_facts G.rule G.lt (G.segY ▸ G.gridY) G.py
  rw [G.order] at xn yn
  obtain ⟨hq, he⟩ := gaussArgs_half G
  have hsol : ∀ sign : ℝ, sign = 1 ∨ sign = -1 → _ := fun sign hsign =>
    solve_ok env c hsvd (hint := sv.nsvals) (by omega) (K.symmetrized sign) sv (fun x y => k x y + sign * k x (-y)) xl yl
      (by
        obtain ⟨obj, h2, h3⟩ := hK.inner sign hsign (Fin sv.gaussX.x.length × Fin sv.gaussY.x.length)
        exact ⟨obj, h2, h3 _ hq (fun i => ⟨(xn.inside i.1).1, (xn.inside i.1).2, (yn.inside i.2).1, (yn.inside i.2).2⟩) he
          ⟨_, rfl⟩ rfl rfl⟩)
  obtain ⟨fe, we, hfe, te, se⟩ := hsol 1 (Or.inl rfl)
  obtain ⟨fo, wo, hfo, to', so⟩ := hsol (-1) (Or.inr rfl)
  have hHe : (fun x y => k x y + 1 * k x (-y)) = fun x y => k x y + k x (-y) := by
    funext x y; ring
  have hHo : (fun x y => k x y + -1 * k x (-y)) = fun x y => k x y - k x (-y) := by
    funext x y; ring
  rw [hHe] at hfe te
  rw [hHo] at hfo to'
  obtain ⟨i0, hi0⟩ := te.nonzero (nodeMatrix_ne_of xn.wpos yn.wpos
    (hK.even _ _ _ _ _ _ (hn ▸ xn) (hn ▸ yn) xl yl))
  obtain ⟨be, bo, P, htr, kbe, kbo, hsel⟩ := truncate_two te.anti to'.anti t nSv h0 h1 (Fin.pos i0)
  refine ⟨_, _, sv.gaussX.x.get, wts sv.gaussX, sv.gaussY.x.get, wts sv.gaussY, sv.nsvals.toNat, fe, we, fo, wo, xn, yn,
    by omega, hfe, hfo, ?_⟩
  have hstart : SveCompute.compute env K eps cutoff (nSv.map fun n : ℕ => PyNum.int n) nGauss work sveStrat svdStrat =
      match centrosymmPostprocess (env.argsort _) sv sv (fun l : Fin be.s.length => column be.u l) be.s.get
                (fun l => column be.v l) (fun l : Fin bo.s.length => column bo.u l) bo.s.get
                (fun l => column bo.v l) (K.full.hints c.safeEps) with
            | .error e => .error e
            | .ok r => .ok ⟨be.s.length + bo.s.length, r.u, r.s, r.v, some c.safeEps⟩ := by
    unfold SveCompute.compute
    simp only [hc, cutoffOf_eq ht, hK.centro, if_true]
    have h2 : sveStrat.getD Strat.centrosymm = Strat.centrosymm := by rcases hstrat with rfl | rfl <;> rfl
    rw [h2]
    simp only [computeCentrosymm, hK.reduced, hsv, max_self, se, so, htr]
    rfl
  rw [hstart]
  unfold centrosymmPostprocess
  rcases post_kept G te.u_orth te.v_orth kbe with ⟨h2, h3⟩ | ⟨re, h2, re1, re2, re3, re4, re5, re6, re7⟩
  · left
    rw [h2]
    exact ⟨rfl, gx.drop nx, by rw [hK.reduced]; exact hsegX, Or.inl h3⟩
  rcases post_kept G to'.u_orth to'.v_orth kbo with ⟨h3, h4⟩ | ⟨ro, h3, ro1, ro2, ro3, ro4, ro5, ro6, ro7⟩
  · left
    rw [h2, h3]
    exact ⟨rfl, gx.drop nx, by rw [hK.reduced]; exact hsegX, Or.inr h4⟩
  right
  rw [h2, h3, hgx, hgy]
  simp only
  have hpu : re.u.polyorder = ro.u.polyorder := re2.order.trans ro2.order.symm
  have hpv : re.v.polyorder = ro.v.polyorder := re3.order.trans ro3.order.symm
  have heu := re2.half Fx.len
  have hou := ro2.half Fx.len
  have hev := re3.half Fy.len
  have hov := ro3.half Fy.len
  obtain ⟨res, hres, σ, sign, hbij, hsg, hs, hanti, hsu, hsv', hWu, hWv, u1, u2, v1, v2, hu, hv, hparu, hparv, ou, ov, -⟩ :=
    C37_recombine (env.argsort _) (hsort _) re ro gx gy nx ny 1 1 Fx Fy one_pos one_pos heu hou hev hov hpu hpv
  rw [hres]
  have hext : ∃ so si, extendParity re.u ro.u so si gx = .ok res.u := by
    have := hres
    unfold mergeParity at this
    simp only at this
    split at this
    · cases this
    · rename_i p hp
      split at this
      · cases this
      · cases this
        exact ⟨_, _, hp⟩
  obtain ⟨so', si', hext⟩ := hext
  obtain ⟨po, hlen⟩ := extend_shape hext re2.coef ro2.coef re2.order
  have hextv : ∃ so si, extendParity re.v ro.v so si gy = .ok res.v := by
    have := hres
    unfold mergeParity at this
    simp only at this
    split at this
    · cases this
    · split at this
      · cases this
      · rename_i p hp
        cases this
        exact ⟨_, _, hp⟩
  obtain ⟨so2, si2, hextv⟩ := hextv
  obtain ⟨pov, hlenv⟩ := extend_shape hextv re3.coef ro3.coef re3.order
  obtain ⟨ku, ku'⟩ := extend_knots hext
  obtain ⟨kv, kv'⟩ := extend_knots hextv
  have hperm : (List.ofFn res.s).Perm (be.s ++ bo.s) := by
    have e1 : res.s = Fin.append be.s.get bo.s.get ∘ σ := by
      funext l
      rw [hs, re1, ro1]
      rfl
    have e2 : List.ofFn (Fin.append be.s.get bo.s.get) = be.s ++ bo.s := by
      rw [List.ofFn_add]
      simp only [Fin.append_left', Fin.append_right, Fin.append_left]
      simp [List.ofFn_get]
    rw [← e2, e1]
    exact Equiv.Perm.ofFn_comp_perm (Equiv.ofBijective σ hbij) _
  have hnonneg : ∀ s ∈ List.ofFn fe.s ++ List.ofFn fo.s, 0 ≤ s := by
    intro s hs
    rcases List.mem_append.1 hs with h | h
    · obtain ⟨i, rfl⟩ := (List.mem_ofFn' _ _).1 h
      exact te.nonneg i
    · obtain ⟨i, rfl⟩ := (List.mem_ofFn' _ _).1 h
      exact to'.nonneg i
  have hsel' := hsel.congr hperm
  refine ⟨_, _, rfl, rfl, ⟨?_, hanti, hWu, hWv, u1, u2, v1, v2, ?_, ?_, ou re4 ro4, ov re5 ro5, ?_⟩, ?_, hsel', ?_, ?_, ?_⟩
  · intro l
    exact selected_pos hsel' h0 hnonneg _ ((List.mem_ofFn' _ _).2 ⟨l, rfl⟩)
  · intro i l
    simp only
    rw [hlen, po]
  · simp only
    rw [po, ← hrn]
    exact hr.pos
  · intro l
    simp only
    have hxm : ∀ {κ : Type} {p : PPoly κ}, Shape p (gx.drop nx) n → p.xmax = 1 := by
      intro κ p hp
      have h4 := hp.knots p.nseg (by omega)
      have h5 := Gx.last
      rw [List.getLast?_eq_getElem?, ← hp.nseg, ← h4] at h5
      exact Option.some.inj h5
    have hs2 : 0 < 1 / Real.sqrt 2 := by positivity
    have hul := hu l
    generalize σ l = m at hul
    revert hul
    refine Fin.addCases (fun a hul => ?_) (fun a hul => ?_) m
    · simp only [Fin.append_left] at hul
      rw [fn_at_one hWu re2.wf u2 (hxm re2) gx l a (1 / Real.sqrt 2) (fun x h4 h5 h6 => by rw [hul x h4 h5 h6]; ring)]
      exact mul_pos hs2 (re6 a)
    · simp only [Fin.append_right] at hul
      rw [fn_at_one hWu ro2.wf u2 (hxm ro2) gx l a (1 / Real.sqrt 2) (fun x h4 h5 h6 => by rw [hul x h4 h5 h6]; ring)]
      exact mul_pos hs2 (ro6 a)
  · refine ⟨gx ++ gy, fun l => ⟨?_, ?_, ?_⟩⟩
    · simp only
      rw [hsu, hsg]
      split
      · exact Or.inl rfl
      · exact Or.inr rfl
    · simp only
      rw [hsu, hsv']
    · intro x h4 h5
      rw [List.mem_append, not_or] at h5
      simp only [hsu]
      exact ⟨hparu l x h4 h5.1, hparv l x h4 h5.2⟩
  · intro h4 h5
    subst h4
    have := pos_of_selected hsel' h5 (List.mem_append_left _ ((List.mem_ofFn' _ _).2 ⟨i0, rfl⟩)) hi0
    simpa using this
  · have hrn' : sv.rule.x.length = n := G.order
    refine ⟨gx, gy, hgx, hgy, Sx, Sy, ?_, ?_, fun l => ⟨?_, ?_⟩⟩
    · have := exact_mirror G.rule Sx Gx (G.segX ▸ G.px)
      rwa [hrn'] at this
    · have := exact_mirror G.rule Sy Gy (G.segY ▸ G.py)
      rwa [hrn'] at this
    · exact Shape.piecewise ⟨hWu, ku, ku', po, hlen⟩ l
    · exact Shape.piecewise ⟨hWv, kv, kv', pov, hlenv⟩ l
  · intro k ksymm hE hO
    have offx : ∀ i, sv.gaussX.x.get i ∉ gx := by
      intro i hi
      have h4 := piecewise_off G.rule (G.segX ▸ G.gridX.sorted) (G.segX ▸ two_le G.lt G.gridX) G.px _ (List.get_mem _ i)
      rw [G.segX] at h4
      exact h4 (memx _ hi (xn.inside i).1)
    have offy : ∀ i, sv.gaussY.x.get i ∉ gy := by
      intro i hi
      have h4 := piecewise_off G.rule (G.segY ▸ G.gridY.sorted) (G.segY ▸ two_le G.lt G.gridY) G.py _ (List.get_mem _ i)
      rw [G.segY] at h4
      exact h4 (memy _ hi (yn.inside i).1)
    have hk3 : ∀ x y, k (-x) y = k x (-y) := fun x y => by rw [← ksymm, neg_neg]
    refine NodeSve.of_disc ?_ ?_
    · refine DiscSve.merge (block_disc hE xn.wpos yn.wpos kbe re7) (block_disc hO xn.wpos yn.wpos kbo ro7) _
        (fun i j => rfl) (fun i j => rfl) (fun i j => hk3 _ _) (fun i j => ksymm _ _) res.s _ _ σ hbij.1 sign hsg ?_ ?_ ?_ ?_ ?_
      · intro l
        rw [hs, re1, ro1]
      · intro l i
        simp only [Sum.elim_inl]
        rw [hu l _ (xn.inside i).1 (xn.inside i).2 (offx i)]
        congr 1
        generalize σ l = m
        refine Fin.addCases (fun a => ?_) (fun a => ?_) m <;> simp
      · intro l i
        exact hparu l _ (by rw [abs_of_pos (xn.inside i).1]; exact (xn.inside i).2) (offx i)
      · intro l j
        simp only [Sum.elim_inl]
        rw [hv l _ (yn.inside j).1 (yn.inside j).2 (offy j)]
        congr 1
        generalize σ l = m
        refine Fin.addCases (fun a => ?_) (fun a => ?_) m <;> simp
      · intro l j
        exact hparv l _ (by rw [abs_of_pos (yn.inside j).1]; exact (yn.inside j).2) (offy j)
    rw [List.map_append, List.sum_append, ← block_error hE xn.wpos yn.wpos kbe re7,
      ← block_error hO xn.wpos yn.wpos kbo ro7, ← Finset.sum_add_distrib, Fintype.sum_sum_type, ← Finset.sum_add_distrib]
    refine Finset.sum_congr rfl fun i _ => ?_
    rw [← Finset.sum_add_distrib, Fintype.sum_sum_type, ← Finset.sum_add_distrib, ← Finset.sum_add_distrib]
    refine Finset.sum_congr rfl fun j _ => ?_
    obtain ⟨m1, m2, m3, m4⟩ := merged_sums (env.argsort _) (hsort _) re ro gx gy nx ny Fx Fy heu hou hev hov hpu hpv hres
      (x := sv.gaussX.x.get i) (y := sv.gaussY.x.get j) ⟨(xn.inside i).1, (xn.inside i).2, offx i⟩
      ⟨(yn.inside j).1, (yn.inside j).2, offy j⟩ rfl rfl
    simp only [Sum.elim_inl, Sum.elim_inr]
    rw [m1, m2, m3, m4, ksymm, hk3, re1, ro1]
    ring

/-- `compute` for a centrosymmetric kernel.  The even and odd parts of the kernel on the Gauss nodes of the upper right
quarter are decomposed.  Unless one of the singular functions vanishes at 1, the result is an expansion with all
properties of `IsSve`; every function is even or odd; the singular values are those above the cut-off; and if the SVDs
are exact, it is the expansion of the kernel on all nodes (with both signs of either coordinate), up to the dropped
singular values. -/
theorem C65_centrosymm (env : Env) (K : Kern) (k : ℝ → ℝ → ℝ) (eps : Option Flt) (cutoff : Option ℝ) (nSv nGauss : Option ℕ)
    (work : Option Dtype) (sveStrat : Option Strat) (hstrat : sveStrat = none ∨ sveStrat = some .centrosymm)
    (svdStrat : Option String) (c : Choice) (hc : safeEps env.platform eps work svdStrat = .ok c)
    (hK : Describes K k c.safeEps) (t : ℝ) (ht : CutoffIs env.platform c.dtype cutoff t) (h0 : 0 ≤ t) (h1 : t ≤ 1)
    (hsvd : SvdOk env.libs (decide (c.dtype = .ddouble)) c.strategy) (hsort : ∀ k, ArgsortOk (env.argsort k))
    (n : ℕ) (hn : n = nGauss.getD (if 1e-8 ≤ c.safeEps then 10 else 16)) (rule : Rule) (hleg : env.legendre n = .ok rule)
    (hr : GoodRule rule) (hrn : rule.x.length = n) :
    ∃ (mx my : ℕ) (x wx : Fin mx → ℝ) (y wy : Fin my → ℝ) (hint : ℕ) (fe : Factors ℝ mx my) (we : List Warning)
      (fo : Factors ℝ mx my) (wo : List Warning),
      NodesOn 0 n x wx ∧ NodesOn 0 n y wy ∧ (K.full.hints c.safeEps).nsvals ≤ 2 * (hint : ℤ) ∧
      Svd.compute env.libs (decide (c.dtype = .ddouble)) (nodeMatrix (fun x y => k x y + k x (-y)) x wx y wy) (some hint)
        c.strategy = .ok (fe, we) ∧
      Svd.compute env.libs (decide (c.dtype = .ddouble)) (nodeMatrix (fun x y => k x y - k x (-y)) x wx y wy) (some hint)
        c.strategy = .ok (fo, wo) ∧
      ((SveCompute.compute env K eps cutoff (nSv.map fun n : ℕ => PyNum.int n) nGauss work sveStrat svdStrat = .error .nanResult ∧
        ∃ g, ((K.symmetrized 1).hints c.safeEps).segX = .ok g ∧ (Vanishing fe x wx g n ∨ Vanishing fo x wx g n)) ∨
      ∃ r d, SveCompute.compute env K eps cutoff (nSv.map fun n : ℕ => PyNum.int n) nGauss work sveStrat svdStrat = .ok r ∧
        r.eps = some c.safeEps ∧ IsSve r ∧ SveParity r ∧
        Selected (List.ofFn fe.s ++ List.ofFn fo.s) t nSv (List.ofFn r.s) d ∧
        (nSv = none → t < 1 → 0 < r.n) ∧
        (IsSvdFactors (nodeMatrix (fun x y => k x y + k x (-y)) x wx y wy) fe →
          IsSvdFactors (nodeMatrix (fun x y => k x y - k x (-y)) x wx y wy) fo →
          NodeSve k r (Sum.elim x fun i => -x i) (Sum.elim wx wx) (Sum.elim y fun j => -y j) (Sum.elim wy wy) d)) := by
  obtain ⟨mx, my, x, wx, y, wy, hint, fe, we, fo, wo, a1, a2, a3, a4, a5, h | ⟨r, d, b1, b2, b3, b4, b5, b6, -, b7⟩⟩ :=
    compute_centrosymm env K k eps cutoff nSv nGauss work sveStrat hstrat svdStrat c hc (hK.inside _) t ht h0 h1 hsvd hsort n hn
      rule hleg hr hrn
  · exact ⟨mx, my, x, wx, y, wy, hint, fe, we, fo, wo, a1, a2, a3, a4, a5, Or.inl h⟩
  · exact ⟨mx, my, x, wx, y, wy, hint, fe, we, fo, wo, a1, a2, a3, a4, a5, Or.inr ⟨r, d, b1, b2, b3, b4, b5, b6, b7 k hK.symm⟩⟩

/-- `compute` with `sve_strat=SamplingSVE`, with the resolution of the functions. -/
theorem compute_sampling (env : Env) (K : Kern) (k : ℝ → ℝ → ℝ) (eps : Option Flt) (cutoff : Option ℝ) (nSv nGauss : Option ℕ)
    (work : Option Dtype) (svdStrat : Option String) (c : Choice) (hc : safeEps env.platform eps work svdStrat = .ok c)
    (hK : Describes K k c.safeEps) (t : ℝ) (ht : CutoffIs env.platform c.dtype cutoff t) (h0 : 0 ≤ t) (h1 : t ≤ 1)
    (hsvd : SvdOk env.libs (decide (c.dtype = .ddouble)) c.strategy)
    (n : ℕ) (hn : n = nGauss.getD (if 1e-8 ≤ c.safeEps then 10 else 16)) (rule : Rule) (hleg : env.legendre n = .ok rule)
    (hr : GoodRule rule) (hrn : rule.x.length = n) :
    ∃ (mx my : ℕ) (x wx : Fin mx → ℝ) (y wy : Fin my → ℝ) (hint : ℕ) (f : Factors ℝ mx my) (w : List Warning),
      NodesOn (-1) n x wx ∧ NodesOn (-1) n y wy ∧ (K.full.hints c.safeEps).nsvals = hint ∧
      Svd.compute env.libs (decide (c.dtype = .ddouble)) (nodeMatrix k x wx y wy) (some hint) c.strategy = .ok (f, w) ∧
      ((SveCompute.compute env K eps cutoff (nSv.map fun n : ℕ => PyNum.int n) nGauss work (some .sampling) svdStrat =
          .error .nanResult ∧ ∃ g, (K.full.hints c.safeEps).segX = .ok g ∧ Vanishing f x wx g n) ∨
      ∃ r d, SveCompute.compute env K eps cutoff (nSv.map fun n : ℕ => PyNum.int n) nGauss work (some .sampling) svdStrat =
          .ok r ∧ r.eps = some c.safeEps ∧ IsSve r ∧ Selected (List.ofFn f.s) t nSv (List.ofFn r.s) d ∧
        (nSv = none → t < 1 → 0 < r.n) ∧
        OnSegments (K.full.hints c.safeEps) n r x wx y wy ∧
        ∀ k : ℝ → ℝ → ℝ, IsSvdFactors (nodeMatrix k x wx y wy) f → NodeSve k r x wx y wy d) := by
  obtain ⟨gx, hgx, Sx⟩ := hK.gridX
  obtain ⟨gy, hgy, Sy⟩ := hK.gridY
  obtain ⟨sv, hsv, G, hns⟩ := samplingInit_ok hleg hr hrn hgx hgy (by norm_num : (-1 : ℝ) < 1) Sx.toGridFromTo
    Sy.toGridFromTo (nGauss := nGauss) (by rw [hn, hK.ngauss])
  have hns0 := hK.nsvals
  obtain ⟨xa, xb, xs, xl, xn⟩ := nodes_facts G.rule G.lt (G.segX ▸ G.gridX) G.px
  obtain ⟨ya, yb, ys, yl, yn⟩ := nodes_facts G.rule G.lt (G.segY ▸ G.gridY) G.py
  rw [G.order] at xn yn
  obtain ⟨hq, he⟩ := gaussArgs_full G
  obtain ⟨f, w, hf, tf, sf⟩ := solve_ok env c hsvd (hint := sv.nsvals) (by omega) K.full sv k xl yl (by
    obtain ⟨obj, h2, h3⟩ := hK.full (Fin sv.gaussX.x.length × Fin sv.gaussY.x.length)
    exact ⟨obj, h2, h3 _ hq he rfl⟩)
  obtain ⟨i0, hi0⟩ := tf.nonzero (nodeMatrix_ne xl yl xn.wpos yn.wpos fun i j =>
    hK.pos _ _ (abs_le.2 ⟨(xn.inside i).1.le, (xn.inside i).2.le⟩) (abs_le.2 ⟨(yn.inside j).1.le, (yn.inside j).2.le⟩))
  obtain ⟨b, P, htr, kb, hsel⟩ := truncate_one tf.anti t nSv h0 h1 (Fin.pos i0)
  refine ⟨_, _, sv.gaussX.x.get, wts sv.gaussX, sv.gaussY.x.get, wts sv.gaussY, sv.nsvals.toNat, f, w, xn, yn,
    by omega, hf, ?_⟩
  have hstart : SveCompute.compute env K eps cutoff (nSv.map fun n : ℕ => PyNum.int n) nGauss work (some .sampling)
      svdStrat = match postprocess sv (fun l : Fin b.s.length => column b.u l) b.s.get (fun l => column b.v l) with
        | .error e => .error e
        | .ok r => .ok ⟨b.s.length, r.u, r.s, r.v, some c.safeEps⟩ := by
    unfold SveCompute.compute
    simp only [hc, cutoffOf_eq ht, Option.getD_some, computeSampling, hsv, sf, htr]
    rfl
  rw [hstart]
  rcases post_kept G tf.u_orth tf.v_orth kb with ⟨h2, h3⟩ | ⟨r, h2, r1, r2, r3, r4, r5, r6, r7⟩
  · left
    rw [h2]
    exact ⟨rfl, gx, hgx, h3⟩
  right
  rw [h2]
  have hends : ∀ {κ : Type} {p : PPoly κ} {g : List ℝ}, SymGrid g → Shape p g n → p.xmin = -1 ∧ p.xmax = 1 := by
    intro κ p g hg hp
    have h4 := hp.knots p.nseg (by omega)
    have h5 := hg.last
    have h6 := hp.knots 0 (by omega)
    have h7 := hg.first
    rw [List.getLast?_eq_getElem?, ← hp.nseg, ← h4] at h5
    rw [List.head?_eq_getElem?, ← h6] at h7
    exact ⟨Option.some.inj h7, Option.some.inj h5⟩
  have hlist : List.ofFn r.s = b.s := by rw [r1]; exact List.ofFn_get _
  have hnonneg : ∀ s ∈ List.ofFn f.s, 0 ≤ s := by
    intro s hs
    obtain ⟨i, rfl⟩ := (List.mem_ofFn' _ _).1 hs
    exact tf.nonneg i
  refine ⟨_, _, rfl, rfl, ⟨?_, ?_, r2.wf, r3.wf, (hends Sx r2).1, (hends Sx r2).2, (hends Sy r3).1, (hends Sy r3).2, ?_, ?_,
    r4, r5, r6⟩, by simpa only [hlist] using hsel, ?_, ?_, ?_⟩
  · intro l
    exact selected_pos hsel h0 hnonneg _ (by simp only [r1]; exact List.get_mem _ _)
  · intro l m hlm
    simp only [r1, kb.s]
    exact tf.anti (by exact hlm)
  · intro i l
    simp only
    rw [r2.coef, r2.order]
  · simp only
    rw [r2.order, ← hrn]
    exact hr.pos
  · intro h4 h5
    subst h4
    exact pos_of_selected hsel h5 ((List.mem_ofFn' _ _).2 ⟨i0, rfl⟩) hi0
  · have hrn' : sv.rule.x.length = n := G.order
    refine ⟨gx, gy, hgx, hgy, Sx, Sy, ?_, ?_, fun l => ⟨r2.piecewise l, r3.piecewise l⟩⟩
    · have := exact_full G.rule Sx.toGridFromTo (G.segX ▸ G.px)
      rwa [hrn'] at this
    · have := exact_full G.rule Sy.toGridFromTo (G.segY ▸ G.py)
      rwa [hrn'] at this
  · intro k hE
    refine NodeSve.of_disc ?_ ?_
    · have := block_disc hE xn.wpos yn.wpos kb r7
      simp only [r1]
      exact this
    · rw [← block_error hE xn.wpos yn.wpos kb r7]
      simp only [r1]

/-- The same with `sve_strat=SamplingSVE`, which does not use the symmetry: the kernel itself is decomposed on the nodes of
the whole square. -/
theorem C65_sampling (env : Env) (K : Kern) (k : ℝ → ℝ → ℝ) (eps : Option Flt) (cutoff : Option ℝ) (nSv nGauss : Option ℕ)
    (work : Option Dtype) (svdStrat : Option String) (c : Choice) (hc : safeEps env.platform eps work svdStrat = .ok c)
    (hK : Describes K k c.safeEps) (t : ℝ) (ht : CutoffIs env.platform c.dtype cutoff t) (h0 : 0 ≤ t) (h1 : t ≤ 1)
    (hsvd : SvdOk env.libs (decide (c.dtype = .ddouble)) c.strategy)
    (n : ℕ) (hn : n = nGauss.getD (if 1e-8 ≤ c.safeEps then 10 else 16)) (rule : Rule) (hleg : env.legendre n = .ok rule)
    (hr : GoodRule rule) (hrn : rule.x.length = n) :
    ∃ (mx my : ℕ) (x wx : Fin mx → ℝ) (y wy : Fin my → ℝ) (hint : ℕ) (f : Factors ℝ mx my) (w : List Warning),
      NodesOn (-1) n x wx ∧ NodesOn (-1) n y wy ∧ (K.full.hints c.safeEps).nsvals = hint ∧
      Svd.compute env.libs (decide (c.dtype = .ddouble)) (nodeMatrix k x wx y wy) (some hint) c.strategy = .ok (f, w) ∧
      ((SveCompute.compute env K eps cutoff (nSv.map fun n : ℕ => PyNum.int n) nGauss work (some .sampling) svdStrat =
          .error .nanResult ∧ ∃ g, (K.full.hints c.safeEps).segX = .ok g ∧ Vanishing f x wx g n) ∨
      ∃ r d, SveCompute.compute env K eps cutoff (nSv.map fun n : ℕ => PyNum.int n) nGauss work (some .sampling) svdStrat =
          .ok r ∧ r.eps = some c.safeEps ∧ IsSve r ∧ Selected (List.ofFn f.s) t nSv (List.ofFn r.s) d ∧
        (nSv = none → t < 1 → 0 < r.n) ∧
        (IsSvdFactors (nodeMatrix k x wx y wy) f →
          NodeSve k r x wx y wy d)) := by
  obtain ⟨mx, my, x, wx, y, wy, hint, f, w, a1, a2, a3, a4, h | ⟨r, d, b1, b2, b3, b4, b5, -, b6⟩⟩ :=
    compute_sampling env K k eps cutoff nSv nGauss work svdStrat c hc hK t ht h0 h1 hsvd n hn rule hleg hr hrn
  · exact ⟨mx, my, x, wx, y, wy, hint, f, w, a1, a2, a3, a4, Or.inl h⟩
  · exact ⟨mx, my, x, wx, y, wy, hint, f, w, a1, a2, a3, a4, Or.inr ⟨r, d, b1, b2, b3, b4, b5, b6 k⟩⟩

/-! ## The kernels and libraries meet the hypotheses -/

/-- The logistic kernel. -/
theorem C65_logistic (lam eps : ℝ) (hl : 0 < lam) : Describes (logisticKern lam) (logisticK lam) eps where
  centro := rfl
  symm x y := (C30_properties lam x y).1
  pos x y hx _ := ((C30_properties lam x y).2 hl.le (abs_le.1 hx).1 (abs_le.1 hx).2).1
  full ι := ⟨_, rfl, fun a h1 h2 _ => C30_logistic lam a h1 h2⟩
  half sign hs ι := by
    obtain ⟨K, h1, h2⟩ := C32_logistic_partial (ι := ι) lam sign hs
    exact ⟨K, h1, fun a h3 h4 h5 h6 => h2 a h3 h4 (by simp [h5])⟩
  ngauss := rfl
  nsvals := by
    have := (C33_nsvals lam).1
    show 0 < logisticNsvals lam
    omega
  gridX := (C33_grids lam hl).1
  gridY := (C33_grids lam hl).2.1
  reduced _ := rfl

/-- `k` is the regularized Bose kernel up to a relative error of `1e-200` close to `y = 0`, and exact for
`|Λ y| ≥ 1e-200` and for `y = 0` (the limit). -/
def IsBose (lam : ℝ) (k : ℝ → ℝ → ℝ) : Prop := ∀ x y, |x| ≤ 1 → |y| ≤ 1 →
  (1e-200 ≤ |lam * y| → k x y = boseK lam x y) ∧ (y = 0 → k x y = 1 / lam) ∧
    (y ≠ 0 → |k x y - boseK lam x y| ≤ 1e-200 * boseK lam x y)

/-- The regularized Bose kernel. -/
theorem C65_bose (lam eps : ℝ) (hl : 0 < lam) : ∃ k, IsBose lam k ∧ Describes (boseKern lam) k eps := by
  set k : ℝ → ℝ → ℝ := fun x y =>
    boseCompute Real.exp (fun t => Real.exp t - 1) lam ((1 + x) / 2) ((1 - x) / 2) (lam * y) with hk
  have hcall : ∀ {ι : Type} (b : Args ι), b.yScalar = false → InSquare b → EdgesOk b →
      (bose lam).call b = .ok fun i => k (b.x i) (b.y i) := by
    intro ι b hb h1 h2
    simp only [bose, boseWith, check_ok h1, hb, Bool.false_eq_true, if_false, uv_eq h2, hk]
  have hpt : ∀ x y, |x| ≤ 1 → |y| ≤ 1 → 0 < k x y ∧ (1e-200 ≤ |lam * y| → k x y = boseK lam x y) ∧
      (y = 0 → k x y = 1 / lam) ∧ (y ≠ 0 → |k x y - boseK lam x y| ≤ 1e-200 * boseK lam x y) := by
    intro x y hx hy
    rw [abs_le] at hx hy
    have hsq : InSquare (⟨fun _ : Unit => x, fun _ => y, none, none, false, false⟩ : Args Unit) :=
      fun _ => ⟨hx.1, hx.2, hy.1, hy.2⟩
    have hed : EdgesOk (⟨fun _ : Unit => x, fun _ => y, none, none, false, false⟩ : Args Unit) :=
      ⟨fun p hp => (by cases hp), fun p hp => (by cases hp)⟩
    obtain ⟨kk, h1, h2, h3⟩ := C31_bose_partial lam hl _ rfl hsq hed
    rw [hcall _ rfl hsq hed] at h1
    cases h1
    exact ⟨h2 (), h3 ()⟩
  refine ⟨k, fun x y hx hy => (hpt x y hx hy).2, ⟨rfl, ?_, fun x y hx hy => (hpt x y hx hy).1,
    fun ι => ⟨_, rfl, fun a h1 h2 h3 => hcall a h3 h1 h2⟩, ?_, rfl, ?_, (C33_grids lam hl).2.2.1, (C33_grids lam hl).2.2.2,
    fun _ => rfl⟩⟩
  · intro x y
    simp only [hk, boseCompute]
    rw [mul_neg, abs_neg]
    rcases lt_trichotomy (lam * y) 0 with h | h | h
    · rw [if_pos (show -(lam * y) ≥ 0 by linarith), if_neg (show ¬ lam * y ≥ 0 by linarith)]
      ring_nf
    · rw [h]
      simp
    · rw [if_neg (show ¬ -(lam * y) ≥ 0 by linarith), if_pos (show lam * y ≥ 0 by linarith)]
      ring_nf
  · intro sign hs ι
    obtain ⟨K, h1, h2⟩ := C32_bose_partial (ι := ι) lam sign hl hs
    refine ⟨K, h1, fun a h3 h4 h5 h6 => ?_⟩
    obtain ⟨kp, km, h7, h8, h9⟩ := h2 a h3 h4 h6
    have hsq1 : InSquare { a with xPlus := none, xMinus := none } := fun i =>
      ⟨by have := (h3 i).1; simp only; linarith, (h3 i).2.1, by have := (h3 i).2.2.1; simp only; linarith, (h3 i).2.2.2⟩
    have hsq2 : InSquare { a with xPlus := none, xMinus := none, y := fun i => - a.y i } := fun i =>
      ⟨by have := (h3 i).1; simp only; linarith, (h3 i).2.1, by have := (h3 i).2.2.2; simp only; linarith,
        by have := (h3 i).2.2.1; simp only; linarith⟩
    have hed : ∀ y : ι → ℝ, EdgesOk { a with xPlus := none, xMinus := none, y := y } := by
      intro y; constructor <;> · intro p hp; cases hp
    have hc1 := hcall { a with xPlus := none, xMinus := none } h6 hsq1 (hed a.y)
    have hc2 := hcall { a with xPlus := none, xMinus := none, y := fun i => - a.y i } h6 hsq2 (hed _)
    rw [hc1] at h7
    rw [hc2] at h8
    cases h7
    cases h8
    exact h9
  · have := (C33_nsvals lam).2.1
    show 0 < boseNsvals lam
    omega

theorem IsSvdFactors.thin {m n : ℕ} {A : Matrix (Fin m) (Fin n) ℝ} {f : Factors ℝ m n} (h : IsSvdFactors A f) :
    IsThin A f where
  u_orth := h.u_orth
  v_orth := h.v_orth
  nonneg := h.nonneg
  anti := h.anti
  nonzero := by
    intro hA
    by_contra hc
    push Not at hc
    apply hA
    have h0 : f.s = 0 := funext fun i => le_antisymm (hc i) (h.nonneg i)
    rw [h.eq, h0]
    simp

/-- With correct libraries every strategy but 'fast' in double precision gives exact factors, whatever the hint. -/
theorem C65_libs {libs : Libs ℝ} (h : LibsOk libs) (dd : Bool) (strategy : String)
    (hs : strategy = "default" ∨ strategy = "accurate" ∨
      (strategy = "fast" ∧ dd = true ∧ libs.xprec ≠ none)) :
    SvdOk libs dd strategy ∧ ∀ m n (A : Matrix (Fin m) (Fin n) ℝ) hint f w, 0 < m → 0 < n →
      Svd.compute libs dd A hint strategy = .ok (f, w) → IsSvdFactors A f := by
  have key : ∀ m n (A : Matrix (Fin m) (Fin n) ℝ) hint, 0 < m → 0 < n →
      ∃ f w, Svd.compute libs dd A hint strategy = .ok (f, w) ∧ IsSvdFactors A f := by
    intro m n A hint hm hn
    have h1 : Svd.compute libs dd A hint strategy = Svd.compute libs dd A none strategy := by
      apply C52_hint
      rcases hs with rfl | rfl | ⟨rfl, h2, h3⟩
      · left; decide
      · left; decide
      · right; exact ⟨h2, h3⟩
    obtain ⟨f, w, h2, h3, -⟩ := C52_strategies h dd A hm hn none (by simp) strategy (by tauto)
    exact ⟨f, w, h1.trans h2, h3⟩
  constructor
  · intro m n A hint hm hn _
    obtain ⟨f, w, h1, h2⟩ := key m n A (some hint) hm hn
    exact ⟨f, w, h1, h2.thin⟩
  · intro m n A hint f w hm hn h1
    obtain ⟨f', w', h2, h3⟩ := key m n A hint hm hn
    rw [h1] at h2
    cases h2
    exact h3

/-- Concrete environments meet all hypotheses: ideal libraries, with or without xprec, for the kernels of the package. -/
example (xprec : Bool) : ∃ (env : Env) (c : Choice) (rule : Rule),
    safeEps env.platform (some (.real 1e-6)) none none = .ok c ∧
    CutoffIs env.platform c.dtype none (2 * 2 ^ (-52 : ℤ)) ∧ SvdOk env.libs (decide (c.dtype = .ddouble)) c.strategy ∧
    (∀ k, ArgsortOk (env.argsort k)) ∧ env.legendre 10 = .ok rule ∧ GoodRule rule ∧ rule.x.length = 10 ∧
    10 = (none : Option ℕ).getD (if 1e-8 ≤ c.safeEps then 10 else 16) := by
  obtain ⟨eig, diff, sub, r, h1, h2, h3, h4⟩ := C25_exists 9
  have hg := C36_goodRule (Nat.succ_pos 9) h1 h2 h3 h4
  refine ⟨⟨fun _ => .ok r, idealLibs xprec true, exPlatform xprec, fun k s => Tuple.sort s⟩, ⟨1e-8, .float64, "fast", false⟩, r,
    ?_, Or.inr ⟨rfl, _, rfl, rfl⟩, ?_, fun k s => ⟨(Tuple.sort s).bijective, Tuple.monotone_sort s⟩, rfl, hg, h2, ?_⟩
  · have h5 : ¬ ((1e-6 : ℝ) < 1e-8) := by norm_num
    simp [safeEps, chooseDtype, safeEpsOf, Flt.lt, h5]
  · intro m n A hint _ _ _
    refine ⟨idealFactors A, [], ?_, (idealFactors_ok A).thin⟩
    unfold Svd.compute idealLibs
    cases xprec <;> rfl
  · simp

end Verif.Props
