import Verif.Model.Sve
import Verif.Props.C28_Collocation
import Verif.Lemmas.Piecewise
import Verif.Lemmas.SegPoly
import Mathlib.LinearAlgebra.Lagrange
/-!
# C36, C38: the sampling SVE and the gauge
-/

namespace Verif.Props
open Verif Verif.Sve Verif.Gauss Verif.Spec Verif.Poly Polynomial

/-- The collocation matrix interpolates: the Legendre sum with the coefficients `m @ vals` takes the values
`vals` at the nodes. -/
theorem collocation_interp (r : Rule) (hn : 0 < r.x.length) (hs : r.x.Pairwise (· < ·))
    (hex : ExactTo r.x r.w (-1) 1 (2 * r.x.length - 2)) :
    ∃ m, legendreCollocation r none = .ok m ∧ m.length = r.x.length ∧
      ∀ vals : List ℝ, vals.length = r.x.length → r.x.map (legendreSum (matMul m vals)) = vals := by
  obtain ⟨m, h1, h2, h3⟩ := C28_collocation r none hn hex
  refine ⟨m, h1, h2, ?_⟩
  intro vals hv
  have hinj : Set.InjOn (fun i : Fin r.x.length => r.x.get i) (Finset.univ : Finset (Fin r.x.length)) := by
    intro i _ j _ hij
    have := hs.imp (fun h => ne_of_lt h)
    exact (List.nodup_iff_injective_get.1 this) hij
  set f := Lagrange.interpolate Finset.univ (fun i : Fin r.x.length => r.x.get i)
    (fun i => vals.get (i.cast hv.symm)) with hf
  have hdeg : f.degree < ((none : Option ℕ).getD r.x.length : ℕ) := by
    have := Lagrange.degree_interpolate_lt (fun i : Fin r.x.length => vals.get (i.cast hv.symm)) hinj
    rw [Finset.card_univ, Fintype.card_fin] at this
    exact this
  have hval : r.x.map (fun t => f.eval t) = vals := by
    apply List.ext_getElem
    · simp [hv]
    · intro i hi hi'
      rw [List.getElem_map]
      have hi : i < r.x.length := by simpa using hi
      have := Lagrange.eval_interpolate_at_node (fun i : Fin r.x.length => vals.get (i.cast hv.symm)) hinj
        (Finset.mem_univ (⟨i, hi⟩ : Fin r.x.length))
      exact this
  obtain ⟨m', c, h4, h5, h6, h7⟩ := C28_polynomial r none hn hex f hdeg
  have hmm : m' = m := Except.ok.inj (h4.symm.trans h1)
  subst hmm
  rw [hval] at h5
  have : matMul m' vals = c := h5
  rw [this]
  conv_rhs => rw [← hval]
  exact List.map_congr_left fun t _ => (h7 t).symm

/-- Lists cut into pieces of length `n` and glued together again. -/
theorem flatten_chunks (n : ℕ) : ∀ (M : List (List ℝ)) (vals : List ℝ), vals.length = M.length * n →
    (∀ i (hi : i < M.length), M[i] = chunk n i vals) → M.flatten = vals
  | [], vals, h, _ => by
    have : vals = [] := List.length_eq_zero_iff.1 (by simpa using h)
    simp [this]
  | a :: M, vals, h, hM => by
    have h0 := hM 0 (by simp)
    have ih := flatten_chunks n M (vals.drop n) (by
      rw [List.length_drop, h, List.length_cons, Nat.add_mul, Nat.one_mul, Nat.add_sub_cancel]) (by
      intro i hi
      have := hM (i + 1) (by simpa using hi)
      simp only [List.getElem_cons_succ] at this
      rw [this]
      unfold chunk
      rw [List.drop_drop, Nat.add_mul, Nat.one_mul, Nat.add_comm])
    rw [List.flatten_cons, ih]
    simp only [List.getElem_cons_zero, chunk, Nat.zero_mul, List.drop_zero] at h0
    rw [h0, List.take_append_drop]

/-- Nodes and weights of a subdivided rule. -/
theorem piecewise_nodes {r q : Rule} {edges : List ℝ} (h : r.piecewise edges = .ok q) (he : 2 ≤ edges.length) :
    q.x = ((edges.dropLast.zip edges.tail).map fun p => (r.reseat p.1 p.2).x).flatten ∧
      q.w = ((edges.dropLast.zip edges.tail).map fun p => (r.reseat p.1 p.2).w).flatten := by
  unfold Rule.piecewise at h
  simp only at h
  split at h
  · set rules := (edges.dropLast.zip edges.tail).map fun p => r.reseat p.1 p.2 with hr
    have hne : rules ≠ [] := by
      intro h0
      have : rules.length = 0 := by rw [h0]; rfl
      rw [hr, List.length_map, List.length_zip, List.length_dropLast, List.length_tail] at this
      omega
    unfold Rule.join at h
    rw [List.head?_eq_some_head hne, List.getLast?_eq_some_getLast hne] at h
    simp only at h
    rw [joinLoop_ok] at h
    · simp only [Except.ok.injEq] at h
      subst h
      simp only [List.map_map, Function.comp_def, hr, and_self]
    · intro s hs
      rw [List.head?_eq_some_head hne, Option.mem_some_iff] at hs
      rw [hs]
    · exact segs_connected r edges
  · cases h

theorem segFun_scaled (a b : ℝ) (hab : a < b) (c : List ℝ) (x : ℝ) :
    segFun a b (c.map (· * Real.sqrt (0.5 * (b - a)))) x = legendreSum c ((2 * x - (a + b)) / (b - a)) := by
  unfold segFun
  rw [legendreSum_eq_series, series_map_mul, eval_mul, eval_C, ← mul_assoc, ← Real.sqrt_mul (by
    apply div_nonneg <;> linarith), legendreSum_eq_series]
  have : b - a ≠ 0 := by linarith
  rw [show 2 / (b - a) * (0.5 * (b - a)) = 1 by field_simp; norm_num, Real.sqrt_one, one_mul]

theorem reseat_nodes {r : Rule} (ha : r.a = -1) (hb : r.b = 1) (a b : ℝ) (hab : a < b) (g : ℝ → ℝ) :
    (r.reseat a b).x.map (fun x => g ((2 * x - (a + b)) / (b - a))) = r.x.map g := by
  unfold Rule.reseat
  simp only [ha, hb, List.map_map]
  apply List.map_congr_left
  intro t _
  simp only [Function.comp]
  congr 1
  have : b - a ≠ 0 := by linarith
  field_simp
  ring

/-- A successful construction from strictly increasing knots is well-formed. -/
theorem ctor_WF {κ : Type} {n ncoef : ℕ} (coef : Fin n → κ → List ℝ) (knots : List ℝ)
    (hlen : knots.length = n + 1) (hpos : 0 < n) (hs : knots.Pairwise (· < ·)) (symm) :
    ∃ p, PPoly.ctor n ncoef coef knots none symm = .ok p ∧ p.WF ∧ ∃ hn : p.nseg = n,
      p.polyorder = ncoef ∧ p.symm = symm.getD (fun _ => 0) ∧
      (∀ (i : ℕ) (hi : i < p.nseg + 1), some (p.knots ⟨i, hi⟩) = knots[i]?) ∧
      ∀ (i : ℕ) (hi : i < p.nseg), p.coef ⟨i, hi⟩ = coef ⟨i, hn ▸ hi⟩ := by
  unfold PPoly.ctor
  have hmono : StrictMono fun j : Fin (n + 1) => knots.get (j.cast hlen.symm) := by
    intro i j hij
    exact (List.pairwise_iff_getElem.1 hs) i j (by omega) (by omega) hij
  rw [dif_pos hlen]
  simp only
  rw [if_pos (fun i => (hmono (Fin.castSucc_lt_succ)).le)]
  refine ⟨_, rfl, ⟨hpos, hmono, fun i => rfl⟩, rfl, rfl, rfl, ?_, fun i hi => rfl⟩
  intro i hi
  simp only [List.get_eq_getElem, Fin.cast_mk]
  rw [List.getElem?_eq_getElem]

/-- Scalar product of two vectors. -/
noncomputable def dot (a b : List ℝ) : ℝ := (List.zipWith (· * ·) a b).sum

theorem quad_dot (f g : ℝ → ℝ) : ∀ x w a b : List ℝ, (∀ t ∈ w, 0 < t) → a.length = w.length →
    b.length = w.length → x.length = w.length →
    x.map f = List.zipWith (fun a t => a / Real.sqrt t) a w →
    x.map g = List.zipWith (fun a t => a / Real.sqrt t) b w →
    quad x w (fun t => f t * g t) = dot a b
  | [], [], [], [], _, _, _, _, _, _ => by simp [quad, dot]
  | x :: xs, w :: ws, a :: as, b :: bs, hw, h1, h2, h3, h4, h5 => by
    simp only [List.map_cons, List.zipWith_cons_cons, List.cons.injEq] at h4 h5
    have ih := quad_dot f g xs ws as bs (fun t ht => hw t (List.mem_cons_of_mem _ ht))
      (by simpa using h1) (by simpa using h2) (by simpa using h3) h4.2 h5.2
    unfold quad dot at ih ⊢
    simp only [List.zipWith_cons_cons, List.sum_cons, ih, h4.1, h5.1]
    have hw0 : 0 < w := hw w (by simp)
    have := Real.mul_self_sqrt hw0.le
    have h0 : Real.sqrt w ≠ 0 := (Real.sqrt_pos.2 hw0).ne'
    congr 1
    field_simp
    rw [pow_two, this]
    ring
  | [], _ :: _, _, _, _, _, _, h, _, _ => by simp at h
  | _ :: _, [], _, _, _, _, _, h, _, _ => by simp at h
  | _ :: _, _ :: _, [], _, _, h, _, _, _, _ => by simp at h
  | _ :: _, _ :: _, _ :: _, [], _, _, h, _, _, _ => by simp at h
  | [], [], _ :: _, _, _, h, _, _, _, _ => by simp at h
  | [], [], [], _ :: _, _, _, h, _, _, _ => by simp at h

/-- What the theorems need of the Gauss rule: sound on `[-1, 1]`, positive weights, exact to degree
`2n - 2`.  Every Gauss-Legendre rule satisfies this (`C25_legendre`). -/
structure GoodRule (r : Rule) : Prop where
  sound : Sound r
  a : r.a = -1
  b : r.b = 1
  pos : 0 < r.x.length
  exact : ExactTo r.x r.w (-1) 1 (2 * r.x.length - 2)
  wpos : ∀ t ∈ r.w, 0 < t

theorem piecewise_facts {r q : Rule} (hr : GoodRule r) {segs : List ℝ} (hs : segs.Pairwise (· < ·))
    (h2 : 2 ≤ segs.length) (hq : r.piecewise segs = .ok q) :
    Sound q ∧ some q.a = segs.head? ∧ some q.b = segs.getLast? ∧ (∀ t ∈ q.w, 0 < t) ∧
      q.x.length = (segs.length - 1) * r.x.length ∧
      ∀ f, PiecewisePoly segs (2 * r.x.length - 2) f → quad q.x q.w f = ∫ t in q.a..q.b, f t := by
  match segs, h2 with
  | a :: b :: l, _ =>
    obtain ⟨q', hq', h1, h2, h3, h4, h5⟩ := C23_piecewise r hr.sound a b l hs
    have : q' = q := Except.ok.inj (hq'.symm.trans hq)
    subst this
    refine ⟨h1, by rw [h2]; rfl, by rw [h3]; simp, ?_, ?_, ?_⟩
    · have hrep : ∀ t ∈ (List.replicate (l.length + 1) r.w).flatten, 0 < t := by
        intro t ht
        obtain ⟨w, hw, ht⟩ := List.mem_flatten.1 ht
        rw [(List.mem_replicate.1 hw).2] at ht
        exact hr.wpos t ht
      generalize (List.replicate (l.length + 1) r.w).flatten = W at h4 hrep
      clear hq hq' h5 h1
      generalize q'.w = w at h4
      induction h4 with
      | nil => simp
      | cons hab _ ih =>
        intro t ht
        rcases List.mem_cons.1 ht with rfl | ht
        · have := hrep _ (List.mem_cons_self)
          rw [sign_pos this] at hab
          exact sign_eq_one_iff.1 hab.symm
        · exact ih (fun t ht => hrep t (List.mem_cons_of_mem _ ht)) t ht
    · rw [h1.len, ← h4.length_eq, List.length_flatten]
      simp [hr.sound.len]
    · intro f hf
      exact h5 _ f (by rw [hr.a, hr.b]; exact hr.exact) hf

theorem adjacent_get {segs : List ℝ} {a b : ℝ} (h : Roots.Adjacent segs a b) :
    ∃ i, segs[i]? = some a ∧ segs[i + 1]? = some b := by
  obtain ⟨l1, l2, rfl⟩ := h
  exact ⟨l1.length, by simp, by simp⟩

/-- The functions constructed from arbitrary vectors `u` (columns, one entry per Gauss node): they live on
the whole interval, take the value `u[i] / sqrt(w[i])` at node `i`, and the integral of a product is the scalar
product of the vectors. -/
theorem C36_functions {κ : Type} (r q : Rule) (hr : GoodRule r) (segs : List ℝ) (hs : segs.Pairwise (· < ·))
    (h2 : 2 ≤ segs.length) (hq : r.piecewise segs = .ok q) (cmat : List (List ℝ))
    (hc : legendreCollocation r none = .ok cmat) (u : κ → List ℝ) (hu : ∀ l, (u l).length = q.x.length) :
    ∃ p, singularFunctions r.x.length cmat segs q.w u = .ok p ∧ p.WF ∧ p.xmin = q.a ∧ p.xmax = q.b ∧
      (∀ t ∈ q.x, ∃ v, p.call t = .ok v) ∧
      (∀ l, q.x.map (fn p l) = List.zipWith (fun a t => a / Real.sqrt t) (u l) q.w) ∧
      ∀ l m, ∫ t in q.a..q.b, fn p l t * fn p m t = dot (u l) (u m) := by
  obtain ⟨hsq, hqa, hqb, hqw, hqlen, hquad⟩ := piecewise_facts hr hs h2 hq
  obtain ⟨hqx, -⟩ := piecewise_nodes hq h2
  obtain ⟨cmat', hc', hcl, hint⟩ := collocation_interp r hr.pos hr.sound.sorted hr.exact
  have : cmat' = cmat := Except.ok.inj (hc'.symm.trans hc)
  subst this
  set n := r.x.length with hn
  set ux := fun l => List.zipWith (fun a t => a / Real.sqrt t) (u l) q.w with hux
  have huxlen : ∀ l, (ux l).length = (segs.length - 1) * n := by
    intro l
    simp only [hux, List.length_zipWith, hu, ← hsq.len, min_self, hqlen]
  obtain ⟨p, hp, hWF, hns, hpo, -, hkn, hco⟩ := ctor_WF (n := segs.length - 1) (ncoef := n)
    (fun i (l : κ) => (matMul cmat' (chunk n i (ux l))).map
        (· * Real.sqrt (0.5 * ((segs[i.1 + 1]?).getD 0 - (segs[i.1]?).getD 0))))
    segs (by omega) (by omega) hs none
  have hseg : ∀ (i : ℕ) (hi : i < p.nseg) (l : κ) (x : ℝ), p.knots ⟨i, by omega⟩ < x →
      x < p.knots ⟨i + 1, by omega⟩ → fn p l x = legendreSum (matMul cmat' (chunk n i (ux l)))
        ((2 * x - (p.knots ⟨i, by omega⟩ + p.knots ⟨i + 1, by omega⟩)) /
          (p.knots ⟨i + 1, by omega⟩ - p.knots ⟨i, by omega⟩)) := by
    intro i hi l x h1 h2
    rw [fn_eq hWF l (i := ⟨i, hi⟩) h1 h2, hco i hi]
    simp only
    rw [← hkn i (by omega), ← hkn (i + 1) (by omega), Option.getD_some, Option.getD_some]
    exact segFun_scaled _ _ (hWF.mono (by rw [Fin.lt_def]; simp)) _ _
  have hpieces : ∀ (i : ℕ) (hi : i < p.nseg), ∃ hi' : i < (segs.dropLast.zip segs.tail).length,
      (segs.dropLast.zip segs.tail)[i] = (p.knots ⟨i, by omega⟩, p.knots ⟨i + 1, by omega⟩) := by
    intro i hi
    have hi' : i < (segs.dropLast.zip segs.tail).length := by
      rw [List.length_zip, List.length_dropLast, List.length_tail]; omega
    refine ⟨hi', ?_⟩
    have e1 := hkn i (by omega)
    have e2 := hkn (i + 1) (by omega)
    rw [List.getElem?_eq_getElem (by omega), Option.some.injEq] at e1 e2
    rw [List.getElem_zip, List.getElem_dropLast, List.getElem_tail, e1, e2]
  have hlenz : (segs.dropLast.zip segs.tail).length = p.nseg := by
    rw [List.length_zip, List.length_dropLast, List.length_tail]; omega
  have hlt : ∀ (i : ℕ) (hi : i < p.nseg), p.knots ⟨i, by omega⟩ < p.knots ⟨i + 1, by omega⟩ := by
    intro i hi
    exact hWF.mono (by rw [Fin.lt_def]; simp)
  have hvals : ∀ l, q.x.map (fn p l) = ux l := by
    intro l
    rw [hqx, List.map_flatten]
    apply flatten_chunks n
    · rw [huxlen]; simp
    · intro i hi
      have hi' : i < p.nseg := by
        rw [← hlenz]; simpa using hi
      obtain ⟨hz, hz'⟩ := hpieces i hi'
      rw [List.getElem_map, List.getElem_map, hz']
      simp only
      have hin := (reseat_sound hr.sound (hlt i hi')).inside
      have e : (r.reseat (p.knots ⟨i, by omega⟩) (p.knots ⟨i + 1, by omega⟩)).x.map (fn p l) =
          (r.reseat (p.knots ⟨i, by omega⟩) (p.knots ⟨i + 1, by omega⟩)).x.map (fun x =>
            legendreSum (matMul cmat' (chunk n i (ux l)))
            ((2 * x - (p.knots ⟨i, by omega⟩ + p.knots ⟨i + 1, by omega⟩)) /
              (p.knots ⟨i + 1, by omega⟩ - p.knots ⟨i, by omega⟩))) := by
        apply List.map_congr_left
        intro x hx
        exact hseg i hi' l x (hin x hx).1 (hin x hx).2
      rw [e, reseat_nodes hr.a hr.b _ _ (hlt i hi')]
      apply hint
      unfold chunk
      rw [List.length_take, List.length_drop, huxlen, ← hns]
      have : i * n + n ≤ p.nseg * n := by
        have := Nat.mul_le_mul_right n (Nat.succ_le_of_lt hi')
        rwa [Nat.succ_mul] at this
      omega
  have hxmin : p.xmin = q.a := by
    have := hkn 0 (by omega)
    rw [← List.head?_eq_getElem?, ← hqa] at this
    exact Option.some.inj this
  have hxmax : p.xmax = q.b := by
    have := hkn p.nseg (by omega)
    rw [List.getLast?_eq_getElem?, ← hns] at hqb
    exact Option.some.inj (this.trans hqb.symm)
  refine ⟨p, ?_, hWF, hxmin, hxmax, ?_, hvals, ?_⟩
  · unfold singularFunctions
    rw [if_neg, if_neg]
    · exact hp
    · rintro ⟨l, hl⟩
      exact hl (by rw [hu, hqlen])
    · rintro ⟨t, h1, h2⟩
      exact absurd (hqw t h1) (not_lt.2 h2)
  · intro t ht
    obtain ⟨h1, h2⟩ := hsq.inside t ht
    obtain ⟨i, hi⟩ := hWF.exists_inSeg (x := t) (by rw [hxmin]; exact h1.le) (by rw [hxmax]; exact h2.le)
    exact ⟨_, PPoly.call_eq hWF hi⟩
  · intro l m
    rw [← hquad, quad_dot (fn p l) (fn p m) q.x q.w (u l) (u m) hqw (by rw [hu, hsq.len])
      (by rw [hu, hsq.len]) hsq.len (hvals l) (hvals m)]
    intro a b hab
    obtain ⟨i, h3, h4⟩ := adjacent_get hab
    have hi : i + 1 < segs.length := by
      by_contra hc
      rw [List.getElem?_eq_none (by omega)] at h4
      cases h4
    have hi' : i < p.nseg := by omega
    rw [← hkn i (by omega), Option.some.injEq] at h3
    rw [← hkn (i + 1) (by omega), Option.some.injEq] at h4
    refine ⟨p.seg l ⟨i, hi'⟩ * p.seg m ⟨i, hi'⟩, ?_, ?_⟩
    · have hd : ∀ l, (p.seg l ⟨i, hi'⟩).natDegree ≤ n - 1 := by
        intro l
        unfold PPoly.seg
        refine (segPoly_natDegree _ _ _).trans ?_
        rw [hco i hi']
        simp only [matMul, List.length_map, hcl, le_refl]
      have := natDegree_mul_le (p := p.seg l ⟨i, hi'⟩) (q := p.seg m ⟨i, hi'⟩)
      have := hd l
      have := hd m
      omega
    · intro t h5 h6
      have hin : p.InSeg ⟨i, hi'⟩ t := by
        refine ⟨?_, Or.inl ?_⟩
        · show p.knots ⟨i, by omega⟩ ≤ t
          rw [h3]; exact h5.le
        · show t < p.knots ⟨i + 1, by omega⟩
          rw [h4]; exact h6
      simp only [eval_mul, fn_seg hWF hin]

/-! ## C38 -/

theorem legendreSum_map_mul (c : List ℝ) (g t : ℝ) : legendreSum (c.map (· * g)) t = legendreSum c t * g := by
  rw [legendreSum_eq_series, series_map_mul, eval_mul, eval_C, legendreSum_eq_series, mul_comm]

/-- Multiplying the coefficients multiplies the values. -/
theorem call_scaled {κ : Type} (p : PPoly κ) (g : κ → ℝ) (x : ℝ) :
    ({ p with coef := fun i l => (p.coef i l).map (· * g l) } : PPoly κ).call x =
      (p.call x).map fun val l => val l * g l := by
  unfold PPoly.call
  have : ({ p with coef := fun i l => (p.coef i l).map (· * g l) } : PPoly κ).split x = p.split x := rfl
  rw [this]
  cases h : p.split x with
  | error e => rfl
  | ok it =>
    obtain ⟨i, xt⟩ := it
    simp only [Except.map]
    congr 1
    funext l
    rw [legval_eq_sum, legval_eq_sum, legendreSum_map_mul]
    show _ * p.norm i = _
    ring

theorem fn_scaled {κ : Type} (p : PPoly κ) (g : κ → ℝ) (l : κ) (x : ℝ) :
    fn ({ p with coef := fun i l => (p.coef i l).map (· * g l) } : PPoly κ) l x = fn p l x * g l := by
  unfold fn
  rw [call_scaled]
  cases p.call x with
  | error e => simp [Except.map]
  | ok v => rfl

/-- If no `u[l]` vanishes at 1, canonicalisation succeeds, makes all `u[l](1)` positive, changes nothing but the
signs, and leaves every product `u[l](x) v[l](y)` unchanged. -/
theorem C38_canonicalize {κ : Type} (u v : PPoly κ) (val : κ → ℝ) (h : u.call 1 = .ok val)
    (h0 : ∀ l, val l ≠ 0) :
    ∃ u' v', canonicalize u v = .ok (u', v') ∧ (∃ val', u'.call 1 = .ok val' ∧ ∀ l, 0 < val' l) ∧
      (∀ l x y, fn u' l x * fn v' l y = fn u l x * fn v l y) ∧
      (∀ l, (∀ x, fn u' l x = fn u l x) ∧ (∀ y, fn v' l y = fn v l y) ∨
        (∀ x, fn u' l x = - fn u l x) ∧ (∀ y, fn v' l y = - fn v l y)) ∧
      (u.WF → u'.WF) ∧ (v.WF → v'.WF) ∧ u'.xmin = u.xmin ∧ u'.xmax = u.xmax ∧ v'.xmin = v.xmin ∧
      v'.xmax = v.xmax ∧ u'.nseg = u.nseg ∧ v'.nseg = v.nseg ∧ u'.polyorder = u.polyorder ∧
      v'.polyorder = v.polyorder := by
  set g : κ → ℝ := fun l => ((SignType.sign (val l) : SignType) : ℝ) with hg
  have hg1 : ∀ l, (0 < val l ∧ g l = 1) ∨ (val l < 0 ∧ g l = -1) := by
    intro l
    rcases lt_trichotomy (val l) 0 with h | h | h
    · right; refine ⟨h, ?_⟩; simp [hg, sign_neg h]
    · exact absurd h (h0 l)
    · left; refine ⟨h, ?_⟩; simp [hg, sign_pos h]
  refine ⟨{ u with coef := fun i l => (u.coef i l).map (· * (1 / g l)) },
    { v with coef := fun i l => (v.coef i l).map (· * g l) }, ?_, ?_, ?_, ?_, ?_, ?_, rfl, rfl, rfl, rfl,
    rfl, rfl, rfl, rfl⟩
  · unfold canonicalize
    rw [h]
    simp only
    rw [if_neg (by rintro ⟨l, hl⟩; exact h0 l hl)]
  · refine ⟨_, by rw [call_scaled, h]; rfl, ?_⟩
    intro l
    rcases hg1 l with ⟨h1, h2⟩ | ⟨h1, h2⟩ <;> simp only [h2] <;> linarith
  · intro l x y
    rw [fn_scaled u (fun l => 1 / g l), fn_scaled]
    rcases hg1 l with ⟨h1, h2⟩ | ⟨h1, h2⟩ <;> simp only [h2] <;> ring
  · intro l
    rcases hg1 l with ⟨h1, h2⟩ | ⟨h1, h2⟩
    · left
      refine ⟨fun x => ?_, fun y => ?_⟩
      · rw [fn_scaled u (fun l => 1 / g l), h2]; ring
      · rw [fn_scaled, h2]; ring
    · right
      refine ⟨fun x => ?_, fun y => ?_⟩
      · rw [fn_scaled u (fun l => 1 / g l), h2]; ring
      · rw [fn_scaled, h2]; ring
  · exact fun h => ⟨h.pos, h.mono, h.dx_eq⟩
  · exact fun h => ⟨h.pos, h.mono, h.dx_eq⟩

/-- If some `u[l]` vanishes at 1, its coefficients are divided by zero. -/
theorem C38_vanishing {κ : Type} (u v : PPoly κ) (val : κ → ℝ) (h : u.call 1 = .ok val) (l : κ)
    (h0 : val l = 0) : canonicalize u v = .error .nanResult := by
  unfold canonicalize
  rw [h]
  simp only
  rw [if_pos ⟨l, h0⟩]

/-- `u(x) = sqrt(3/2) x` on `[-1, 1]` (which has definite sign at 1) meets the hypotheses. -/
example : ∃ val, exPoly.call 1 = .ok val ∧ ∀ l, val l ≠ 0 := by
  have hin : exPoly.InSeg (⟨0, Nat.one_pos⟩ : Fin 1) 1 := by
    refine ⟨?_, Or.inr ⟨rfl, rfl⟩⟩
    show (-1 : ℝ) ≤ 1
    norm_num
  refine ⟨_, PPoly.call_eq exPoly_WF hin, ?_⟩
  intro l
  show segFun (-1) 1 [0, 1] 1 ≠ 0
  unfold segFun legendreSum
  rw [show (∑ k : Fin ([0, 1] : List ℝ).length, ([0, 1] : List ℝ).get k *
    (legendre k).eval ((2 * 1 - (-1 + 1)) / (1 - -1))) = 1 from ?_]
  · norm_num
  · refine (Fin.sum_univ_two _).trans ?_
    simp [legendre]
    norm_num

/-! ## C36 -/

/-- An exact singular value decomposition of the matrix `A`, given by columns: orthonormal left and right
vectors and `A[i,j] = ∑ₗ s[l] u[i,l] v[j,l]`. -/
structure ExactSVD {nx ny : ℕ} {κ : Type} [Fintype κ] [DecidableEq κ] (A : Fin nx × Fin ny → ℝ)
    (u : κ → List ℝ) (s : κ → ℝ) (v : κ → List ℝ) : Prop where
  ulen : ∀ l, (u l).length = nx
  vlen : ∀ l, (v l).length = ny
  uorth : ∀ l m, dot (u l) (u m) = if l = m then 1 else 0
  vorth : ∀ l m, dot (v l) (v m) = if l = m then 1 else 0
  expand : ∀ i : Fin nx × Fin ny, A i = ∑ l, s l *
    (u l).get (i.1.cast (ulen l).symm) * (v l).get (i.2.cast (vlen l).symm)

/-- Orthonormal functions on `[a, b]`. -/
def Orthonormal {κ : Type} [DecidableEq κ] (p : PPoly κ) (a b : ℝ) : Prop :=
  ∀ l m, ∫ t in a..b, fn p l t * fn p m t = if l = m then 1 else 0

theorem node_value {p : PPoly κ} {q : Rule} {l : κ} {u : List ℝ} (h : q.x.map (fn p l) =
    List.zipWith (fun a t => a / Real.sqrt t) u q.w) (i : ℕ) (hi : i < q.x.length) (hu : i < u.length)
    (hw : i < q.w.length) : fn p l q.x[i] = u[i] / Real.sqrt q.w[i] := by
  have := congrArg (·[i]?) h
  simp only [List.getElem?_map, List.getElem?_eq_getElem hi, Option.map_some] at this
  rw [List.getElem?_eq_getElem (by rw [List.length_zipWith]; omega), List.getElem_zipWith] at this
  exact Option.some.inj this

/-- The sampling SVE with a Gauss rule that is exact, an exact SVD of the matrix, and segments that end at
`x = 1`: unless some `u[l](1)` is zero, the result has orthonormal `u` and `v`, positive `u[l](1)`, the singular
values of the matrix, and reproduces the kernel values at all pairs of Gauss nodes. -/
theorem C36_sampling {κ : Type} [Fintype κ] [DecidableEq κ] (legendre : ℕ → PyM Rule) (hints : Hints)
    (nGauss : Option ℕ) (sv : Sampling) (h : samplingInit legendre hints nGauss = .ok sv)
    (hr : GoodRule sv.rule) (hn : sv.rule.x.length = sv.nGauss)
    (hx2 : 2 ≤ sv.segX.length) (hy2 : 2 ≤ sv.segY.length) (hx1 : sv.segX.getLast? = some 1)
    (K : Kernel.KernelObj (Fin sv.gaussX.x.length × Fin sv.gaussY.x.length))
    (k) (hK : K.call (gaussArgs sv.gaussX sv.gaussY) = .ok k)
    (A) (hA : matrix sv K = .ok A) (u : κ → List ℝ) (s : κ → ℝ) (v : κ → List ℝ) (hsvd : ExactSVD A u s v) :
    (postprocess sv u s v = .error .nanResult ∧ ∃ cmat p l, legendreCollocation sv.rule none = .ok cmat ∧
      singularFunctions sv.nGauss cmat sv.segX sv.gaussX.w u = .ok p ∧ fn p l 1 = 0) ∨
    ∃ res, postprocess sv u s v = .ok res ∧ res.s = s ∧ res.u.WF ∧ res.v.WF ∧
      some res.u.xmin = sv.segX.head? ∧ res.u.xmax = 1 ∧ some res.v.xmin = sv.segY.head? ∧
      some res.v.xmax = sv.segY.getLast? ∧
      Orthonormal res.u res.u.xmin res.u.xmax ∧ Orthonormal res.v res.v.xmin res.v.xmax ∧
      (∀ l, 0 < fn res.u l 1) ∧
      ∀ i : Fin sv.gaussX.x.length × Fin sv.gaussY.x.length,
        k i = ∑ l, s l * fn res.u l (sv.gaussX.x.get i.1) * fn res.v l (sv.gaussY.x.get i.2) := by
  -- unpack the construction
  have hgx : sv.rule.piecewise sv.segX = .ok sv.gaussX ∧ sv.rule.piecewise sv.segY = .ok sv.gaussY := by
    unfold samplingInit at h
    simp only at h
    split at h
    · cases h
    · split at h
      · cases h
      · split at h
        · cases h
        · split at h
          · cases h
          · rename_i hp1
            split at h
            · cases h
            · rename_i hp2
              cases h
              exact ⟨hp1, hp2⟩
  obtain ⟨hpx, hpy⟩ := hgx
  have hsx : sv.segX.Pairwise (· < ·) := by
    by_contra hc
    rw [(C24_piecewise sv.rule sv.segX).2 hc] at hpx
    cases hpx
  have hsy : sv.segY.Pairwise (· < ·) := by
    by_contra hc
    rw [(C24_piecewise sv.rule sv.segY).2 hc] at hpy
    cases hpy
  obtain ⟨cmat, hc, -⟩ := collocation_interp sv.rule hr.pos hr.sound.sorted hr.exact
  obtain ⟨pu, hpu, hWu, hu1, hu2, -, huv, hui⟩ :=
    C36_functions sv.rule sv.gaussX hr sv.segX hsx hx2 hpx cmat hc u hsvd.ulen
  obtain ⟨pv, hpv, hWv, hv1, hv2, -, hvv, hvi⟩ :=
    C36_functions sv.rule sv.gaussY hr sv.segY hsy hy2 hpy cmat hc v hsvd.vlen
  obtain ⟨sqx, hxa, hxb, hxw, -, -⟩ := piecewise_facts hr hsx hx2 hpx
  obtain ⟨sqy, hya, hyb, hyw, -, -⟩ := piecewise_facts hr hsy hy2 hpy
  have hb1 : sv.gaussX.b = 1 := by rw [hx1] at hxb; exact Option.some.inj hxb
  obtain ⟨j, hj⟩ := hWu.exists_inSeg (x := 1) (by rw [← hb1, ← hu2]; exact hWu.xmin_lt_xmax.le)
    (by rw [hu2, hb1])
  have hcall := PPoly.call_eq hWu hj
  set val : κ → ℝ := fun l => segFun (pu.knots j.castSucc) (pu.knots j.succ) (pu.coef j l) 1
  unfold postprocess
  rw [hc]
  simp only
  rw [hn] at hpu hpv
  rw [hpu, hpv]
  simp only
  by_cases hz : ∃ l, val l = 0
  · obtain ⟨l, hl⟩ := hz
    left
    rw [C38_vanishing pu pv val hcall l hl]
    exact ⟨rfl, cmat, pu, l, rfl, hpu, by simp only [fn, hcall]; exact hl⟩
  · right
    obtain ⟨u', v', hcan, ⟨val', hval', hpos⟩, hprod, hsign, hwu, hwv, e1, e2, e3, e4, -⟩ :=
      C38_canonicalize pu pv val hcall (fun l hl => hz ⟨l, hl⟩)
    rw [hcan]
    refine ⟨_, rfl, rfl, hwu hWu, hwv hWv, ?_, ?_, ?_, ?_, ?_, ?_, ?_, ?_⟩
    · simp only; rw [e1, hu1, hxa]
    · simp only; rw [e2, hu2, hb1]
    · simp only; rw [e3, hv1, hya]
    · simp only; rw [e4, hv2, hyb]
    · intro l m
      simp only
      rw [e1, e2, hu1, hu2, ← hsvd.uorth, ← hui]
      by_cases hlm : l = m
      · subst hlm
        rcases hsign l with ⟨h1, -⟩ | ⟨h1, -⟩ <;> simp [h1]
      · rw [hui, hsvd.uorth, if_neg hlm]
        have h0 : ∫ t in sv.gaussX.a..sv.gaussX.b, fn pu l t * fn pu m t = 0 := by
          rw [hui, hsvd.uorth, if_neg hlm]
        rcases hsign l with ⟨h1, -⟩ | ⟨h1, -⟩ <;> rcases hsign m with ⟨h2, -⟩ | ⟨h2, -⟩ <;>
          simp [h1, h2, h0]
    · intro l m
      simp only
      rw [e3, e4, hv1, hv2, ← hsvd.vorth, ← hvi]
      by_cases hlm : l = m
      · subst hlm
        rcases hsign l with ⟨-, h1⟩ | ⟨-, h1⟩ <;> simp [h1]
      · rw [hvi, hsvd.vorth, if_neg hlm]
        have h0 : ∫ t in sv.gaussY.a..sv.gaussY.b, fn pv l t * fn pv m t = 0 := by
          rw [hvi, hsvd.vorth, if_neg hlm]
        rcases hsign l with ⟨-, h1⟩ | ⟨-, h1⟩ <;> rcases hsign m with ⟨-, h2⟩ | ⟨-, h2⟩ <;>
          simp [h1, h2, h0]
    · intro l
      simp only [fn, hval']
      exact hpos l
    · intro i
      have hi1 : i.1.1 < sv.gaussX.w.length := by rw [← sqx.len]; exact i.1.2
      have hi2 : i.2.1 < sv.gaussY.w.length := by rw [← sqy.len]; exact i.2.2
      have hexp := hsvd.expand i
      unfold matrix at hA
      rw [hK] at hA
      simp only [Except.ok.injEq] at hA
      subst hA
      simp only [List.getElem?_eq_getElem hi1, List.getElem?_eq_getElem hi2, Option.getD_some] at hexp
      have p1 : 0 < Real.sqrt sv.gaussX.w[i.1.1] := Real.sqrt_pos.2 (hxw _ (List.getElem_mem _))
      have p2 : 0 < Real.sqrt sv.gaussY.w[i.2.1] := Real.sqrt_pos.2 (hyw _ (List.getElem_mem _))
      have hk : k i = (∑ l, s l * (u l).get (i.1.cast (hsvd.ulen l).symm) *
          (v l).get (i.2.cast (hsvd.vlen l).symm)) /
          (Real.sqrt sv.gaussX.w[i.1.1] * Real.sqrt sv.gaussY.w[i.2.1]) := by
        rw [← hexp]
        field_simp
      rw [hk, Finset.sum_div]
      apply Finset.sum_congr rfl
      intro l _
      simp only
      rw [mul_assoc (s l) (fn u' l _), hprod]
      simp only [List.get_eq_getElem, Fin.val_cast]
      rw [node_value (huv l) i.1.1 i.1.2 (by rw [hsvd.ulen]; exact i.1.2) hi1,
        node_value (hvv l) i.2.1 i.2.2 (by rw [hsvd.vlen]; exact i.2.2) hi2]
      field_simp

/-- The Gauss-Legendre rules of `_gauss.legendre` meet the requirements, and exist for every order. -/
theorem C36_goodRule {eig diff sub} {n : ℕ} {r : Rule} (hn : 0 < n) (h : legendreRule eig diff sub n = .ok r)
    (hlen : r.x.length = n) (hasc : r.x.Pairwise (· < ·)) (hroot : ∀ t ∈ r.x, (legendre n).eval t = 0) :
    GoodRule r := by
  obtain ⟨h1, h2, h3, h4, h5⟩ := C25_legendre hn h hlen hasc hroot
  refine ⟨h3, h4, h5, by omega, fun p hp => h1 p ?_, h2⟩
  rw [hlen] at hp
  omega

/-- With such a rule and sorted segments the construction succeeds. -/
example (n : ℕ) : ∃ (legendre : ℕ → PyM Rule) (sv : Sampling),
    samplingInit legendre ⟨n + 1, 0, .ok [-1, 0, 1], .ok [-1, 0.5, 1]⟩ none = .ok sv ∧ GoodRule sv.rule ∧
      sv.rule.x.length = sv.nGauss ∧ 2 ≤ sv.segX.length ∧ 2 ≤ sv.segY.length ∧
      sv.segX.getLast? = some 1 := by
  obtain ⟨eig, diff, sub, r, h1, h2, h3, h4⟩ := C25_exists n
  have hg := C36_goodRule (Nat.succ_pos n) h1 h2 h3 h4
  obtain ⟨qx, hqx⟩ := (C24_piecewise r [-1, 0, 1]).1 (by simp)
  obtain ⟨qy, hqy⟩ := (C24_piecewise r [-1, 0.5, 1]).1 (by simp; norm_num)
  refine ⟨fun _ => .ok r, ⟨n + 1, 0, r, [-1, 0, 1], [-1, 0.5, 1], qx, qy⟩, ?_, hg, h2, by simp, by simp, rfl⟩
  simp only [samplingInit, hqx, hqy, Option.getD_none]

/-- An exact decomposition of a matrix with one column. -/
example : ExactSVD (nx := 2) (ny := 1) (κ := Unit) (fun i => if i.1 = 0 then 3 else 4)
    (fun _ => [0.6, 0.8]) (fun _ => 5) (fun _ => [1]) := by
  refine ⟨fun _ => rfl, fun _ => rfl, ?_, ?_, ?_⟩
  · intro l m; simp [dot]; norm_num
  · intro l m; simp [dot]
  · rintro ⟨i, j⟩
    fin_cases i <;> fin_cases j <;> simp <;> norm_num

end Verif.Props
