import Verif.Model.SveCompute
import Verif.Props.C36_Sampling
import Verif.Props.C37_Parity
import Verif.Props.C34_Truncate
import Verif.Props.C52_SvdStrategies
/-!
# Lemmas about `sve.compute`
-/

namespace Verif.Props
open Verif Verif.Sve Verif.Gauss Verif.Spec Verif.Poly Verif.Svd Verif.SveCompute Polynomial

/-- The nodes of a subdivided rule avoid the edges. -/
theorem piecewise_off {r q : Rule} (hr : GoodRule r) {segs : List ℝ} (hs : segs.Pairwise (· < ·))
    (h2 : 2 ≤ segs.length) (hq : r.piecewise segs = .ok q) : ∀ t ∈ q.x, t ∉ segs := by
  intro t ht hseg
  rw [(piecewise_nodes hq h2).1] at ht
  obtain ⟨l, hl, ht⟩ := List.mem_flatten.1 ht
  obtain ⟨p, hp, rfl⟩ := List.mem_map.1 hl
  obtain ⟨i, hi, rfl⟩ := List.mem_iff_getElem.1 hp
  have hi' : i + 1 < segs.length := by
    rw [List.length_zip, List.length_dropLast, List.length_tail] at hi; omega
  simp only [List.getElem_zip, List.getElem_dropLast, List.getElem_tail] at ht
  have hlt : ∀ j k (hj : j < segs.length) (hk : k < segs.length), j < k → segs[j] < segs[k] :=
    fun j k hj hk h => (List.pairwise_iff_getElem.1 hs) j k hj hk h
  have hin := (reseat_sound hr.sound (hlt i (i + 1) (by omega) hi' (by omega))).inside t ht
  change segs[i] < t ∧ t < segs[i + 1] at hin
  obtain ⟨j, hj, rfl⟩ := List.mem_iff_getElem.1 hseg
  rcases Nat.lt_or_ge i j with h | h
  · rcases Nat.eq_or_lt_of_le (Nat.succ_le_of_lt h) with h' | h'
    · subst h'
      exact lt_irrefl _ hin.2
    · exact lt_asymm hin.2 (hlt _ _ _ _ h')
  · rcases Nat.eq_or_lt_of_le h with h' | h'
    · subst h'
      exact lt_irrefl _ hin.1
    · exact lt_asymm hin.1 (hlt _ _ _ _ h')

/-- Segments, order and number of coefficients of a piecewise polynomial. -/
structure Shape {κ : Type} (p : PPoly κ) (segs : List ℝ) (n : ℕ) : Prop where
  wf : p.WF
  nseg : p.nseg = segs.length - 1
  knots : ∀ (i : ℕ) (hi : i < p.nseg + 1), some (p.knots ⟨i, hi⟩) = segs[i]?
  order : p.polyorder = n
  coef : ∀ i l, (p.coef i l).length = n

theorem functions_shape {κ : Type} {n : ℕ} {cmat : List (List ℝ)} (hc : cmat.length = n) {segs w : List ℝ}
    (hs : segs.Pairwise (· < ·)) (h2 : 2 ≤ segs.length) {u : κ → List ℝ} {p : PPoly κ}
    (h : singularFunctions n cmat segs w u = .ok p) : Shape p segs n := by
  unfold singularFunctions at h
  split at h
  · cases h
  · split at h
    · cases h
    · obtain ⟨p', hp, hWF, hns, hpo, -, hkn, hco⟩ := ctor_WF (n := segs.length - 1) (ncoef := n)
        (fun i (l : κ) => (matMul cmat (chunk n i (List.zipWith (fun a t => a / Real.sqrt t) (u l) w))).map
          (· * Real.sqrt (0.5 * ((segs[i.1 + 1]?).getD 0 - (segs[i.1]?).getD 0))))
        segs (by omega) (by omega) hs none
      have : p' = p := Except.ok.inj (hp.symm.trans h)
      subst this
      refine ⟨hWF, hns, hkn, hpo, ?_⟩
      rintro ⟨i, hi⟩ l
      rw [hco i hi]
      simp only [matMul, List.length_map, hc]

theorem canonicalize_shape {κ : Type} {u v u' v' : PPoly κ} (h : canonicalize u v = .ok (u', v')) {sx sy : List ℝ}
    {n : ℕ} (hu : Shape u sx n) (hv : Shape v sy n) : Shape u' sx n ∧ Shape v' sy n := by
  unfold canonicalize at h
  split at h
  · cases h
  · simp only at h
    split at h
    · cases h
    · cases h
      refine ⟨⟨⟨hu.wf.pos, hu.wf.mono, hu.wf.dx_eq⟩, hu.nseg, hu.knots, hu.order, ?_⟩,
        ⟨⟨hv.wf.pos, hv.wf.mono, hv.wf.dx_eq⟩, hv.nseg, hv.knots, hv.order, ?_⟩⟩
      · intro i l
        simpa using hu.coef i l
      · intro i l
        simpa using hv.coef i l

/-- Post-processing of arbitrary orthonormal vectors: either a function vanishes at 1, or there is a result with
orthonormal functions whose values at the Gauss nodes are those of the vectors, up to a common sign. -/
theorem post_ok {κ : Type} [DecidableEq κ] (sv : Sampling) (hpx : sv.rule.piecewise sv.segX = .ok sv.gaussX)
    (hpy : sv.rule.piecewise sv.segY = .ok sv.gaussY) (hr : GoodRule sv.rule) (hn : sv.rule.x.length = sv.nGauss)
    (hsx : sv.segX.Pairwise (· < ·)) (hsy : sv.segY.Pairwise (· < ·))
    (hx2 : 2 ≤ sv.segX.length) (hy2 : 2 ≤ sv.segY.length) (hx1 : sv.segX.getLast? = some 1)
    (u : κ → List ℝ) (s : κ → ℝ) (v : κ → List ℝ) (hul : ∀ l, (u l).length = sv.gaussX.x.length)
    (hvl : ∀ l, (v l).length = sv.gaussY.x.length)
    (huo : ∀ l m, dot (u l) (u m) = if l = m then 1 else 0)
    (hvo : ∀ l m, dot (v l) (v m) = if l = m then 1 else 0) :
    (postprocess sv u s v = .error .nanResult ∧ ∃ p l, Shape p sv.segX sv.nGauss ∧
      sv.gaussX.x.map (fn p l) = List.zipWith (fun a t => a / Real.sqrt t) (u l) sv.gaussX.w ∧ fn p l 1 = 0) ∨
    ∃ res, postprocess sv u s v = .ok res ∧ res.s = s ∧ Shape res.u sv.segX sv.nGauss ∧
      Shape res.v sv.segY sv.nGauss ∧
      Orthonormal res.u sv.gaussX.a sv.gaussX.b ∧ Orthonormal res.v sv.gaussY.a sv.gaussY.b ∧
      (∀ l, 0 < fn res.u l 1) ∧
      ∀ l, ∃ g : ℝ, (g = 1 ∨ g = -1) ∧
        (∀ i : Fin sv.gaussX.x.length, fn res.u l (sv.gaussX.x.get i) =
          g * ((u l).get (i.cast (hul l).symm) / Real.sqrt ((sv.gaussX.w[i.1]?).getD 0))) ∧
        ∀ j : Fin sv.gaussY.x.length, fn res.v l (sv.gaussY.x.get j) =
          g * ((v l).get (j.cast (hvl l).symm) / Real.sqrt ((sv.gaussY.w[j.1]?).getD 0)) := by
  obtain ⟨cmat, hc, hcl, -⟩ := collocation_interp sv.rule hr.pos hr.sound.sorted hr.exact
  obtain ⟨pu, hpu, hWu, hu1, hu2, -, huv, hui⟩ :=
    C36_functions sv.rule sv.gaussX hr sv.segX hsx hx2 hpx cmat hc u hul
  obtain ⟨pv, hpv, hWv, hv1, hv2, -, hvv, hvi⟩ :=
    C36_functions sv.rule sv.gaussY hr sv.segY hsy hy2 hpy cmat hc v hvl
  obtain ⟨sqx, hxa, hxb, hxw, -, -⟩ := piecewise_facts hr hsx hx2 hpx
  obtain ⟨sqy, hya, hyb, hyw, -, -⟩ := piecewise_facts hr hsy hy2 hpy
  have hb1 : sv.gaussX.b = 1 := by rw [hx1] at hxb; exact Option.some.inj hxb
  obtain ⟨j, hj⟩ := hWu.exists_inSeg (x := 1) (by rw [← hb1, ← hu2]; exact hWu.xmin_lt_xmax.le)
    (by rw [hu2, hb1])
  have hcall := PPoly.call_eq hWu hj
  set val : κ → ℝ := fun l => segFun (pu.knots j.castSucc) (pu.knots j.succ) (pu.coef j l) 1
  rw [hn] at hpu hpv
  have hSu := functions_shape (hcl.trans hn) hsx hx2 hpu
  have hSv := functions_shape (hcl.trans hn) hsy hy2 hpv
  unfold postprocess
  rw [hc]
  simp only
  rw [hpu, hpv]
  simp only
  by_cases hz : ∃ l, val l = 0
  · obtain ⟨l, hl⟩ := hz
    left
    rw [C38_vanishing pu pv val hcall l hl]
    exact ⟨rfl, pu, l, hSu, huv l, by simp only [fn, hcall]; exact hl⟩
  · right
    obtain ⟨u', v', hcan, ⟨val', hval', hpos⟩, hprod, hsign, hwu, hwv, e1, e2, e3, e4, -⟩ :=
      C38_canonicalize pu pv val hcall (fun l hl => hz ⟨l, hl⟩)
    obtain ⟨hSu', hSv'⟩ := canonicalize_shape hcan hSu hSv
    rw [hcan]
    refine ⟨_, rfl, rfl, hSu', hSv', ?_, ?_, ?_, ?_⟩
    · intro l m
      simp only
      rw [← huo, ← hui]
      by_cases hlm : l = m
      · subst hlm
        rcases hsign l with ⟨h1, -⟩ | ⟨h1, -⟩ <;> simp [h1]
      · have h0 : ∫ t in sv.gaussX.a..sv.gaussX.b, fn pu l t * fn pu m t = 0 := by
          rw [hui, huo, if_neg hlm]
        rw [h0]
        rcases hsign l with ⟨h1, -⟩ | ⟨h1, -⟩ <;> rcases hsign m with ⟨h2, -⟩ | ⟨h2, -⟩ <;>
          simp [h1, h2, h0]
    · intro l m
      simp only
      rw [← hvo, ← hvi]
      by_cases hlm : l = m
      · subst hlm
        rcases hsign l with ⟨-, h1⟩ | ⟨-, h1⟩ <;> simp [h1]
      · have h0 : ∫ t in sv.gaussY.a..sv.gaussY.b, fn pv l t * fn pv m t = 0 := by
          rw [hvi, hvo, if_neg hlm]
        rw [h0]
        rcases hsign l with ⟨-, h1⟩ | ⟨-, h1⟩ <;> rcases hsign m with ⟨-, h2⟩ | ⟨-, h2⟩ <;>
          simp [h1, h2, h0]
    · intro l
      simp only [fn, hval']
      exact hpos l
    · intro l
      have hx : ∀ i : Fin sv.gaussX.x.length, fn pu l (sv.gaussX.x.get i) =
          (u l).get (i.cast (hul l).symm) / Real.sqrt ((sv.gaussX.w[i.1]?).getD 0) := by
        intro i
        have hwx : i.1 < sv.gaussX.w.length := by rw [← sqx.len]; exact i.2
        rw [List.get_eq_getElem, node_value (huv l) i.1 i.2 (by rw [hul]; exact i.2) hwx, List.getElem?_eq_getElem hwx]
        rfl
      have hy : ∀ j : Fin sv.gaussY.x.length, fn pv l (sv.gaussY.x.get j) =
          (v l).get (j.cast (hvl l).symm) / Real.sqrt ((sv.gaussY.w[j.1]?).getD 0) := by
        intro j
        have hwy : j.1 < sv.gaussY.w.length := by rw [← sqy.len]; exact j.2
        rw [List.get_eq_getElem, node_value (hvv l) j.1 j.2 (by rw [hvl]; exact j.2) hwy, List.getElem?_eq_getElem hwy]
        rfl
      rcases hsign l with ⟨h1, h2⟩ | ⟨h1, h2⟩
      · exact ⟨1, Or.inl rfl, fun i => by simp only [h1, hx]; ring, fun j => by simp only [h2, hy]; ring⟩
      · exact ⟨-1, Or.inr rfl, fun i => by simp only [h1, hx]; ring, fun j => by simp only [h2, hy]; ring⟩

/-- A polynomial on a grid that is half of a full grid. -/
theorem Shape.half {κ : Type} {p : PPoly κ} {g : List ℝ} {n k : ℕ} (hg : g.length = 2 * n + 1)
    (h : Shape p (g.drop n) k) : HalfOf p g n := by
  refine ⟨h.wf, ?_, ?_⟩
  · rw [h.nseg, List.length_drop]; omega
  · intro i hi
    rw [h.knots i hi, List.getElem?_drop]

/-! ## Factors and blocks -/

theorem dot_ofFn {n : ℕ} (a b : Fin n → ℝ) : dot (List.ofFn a) (List.ofFn b) = ∑ i, a i * b i := by
  unfold dot
  rw [show List.zipWith (· * ·) (List.ofFn a) (List.ofFn b) = List.ofFn fun i => a i * b i from ?_, List.sum_ofFn]
  apply List.ext_getElem
  · simp
  · intro i h1 h2
    simp

/-- The part of an SVD that is kept: the first columns. -/
structure Kept {m n : ℕ} (f : Factors ℝ m n) (P : ℝ → Prop) (b : Block (List ℝ) (List ℝ)) : Prop where
  len : b.s.length ≤ f.k
  s : ∀ l : Fin b.s.length, b.s.get l = f.s (l.castLE len)
  u : ∀ l : Fin b.s.length, column b.u l = List.ofFn fun i => f.u i (l.castLE len)
  v : ∀ l : Fin b.s.length, column b.v l = List.ofFn fun j => f.v j (l.castLE len)
  keep : ∀ l : Fin f.k, l.1 < b.s.length ↔ P (f.s l)

theorem kept_of_prefix {m n : ℕ} {f : Factors ℝ m n} {P : ℝ → Prop} {b : Block (List ℝ) (List ℝ)}
    (h : KeptPrefix P (blockOf f) b) : Kept f P b ∧ b.s = (List.ofFn f.s).take b.s.length := by
  obtain ⟨k, hu, hs, hv, h1, h2⟩ := h
  simp only [blockOf] at hu hs hv h1 h2
  have hlen : b.s.length = min k f.k := by rw [hs, List.length_take, List.length_ofFn]
  have hcol : ∀ {d : ℕ} (w : Matrix (Fin d) (Fin f.k) ℝ) (l : ℕ) (hl : l < b.s.length),
      column ((List.ofFn fun l => List.ofFn fun i => w i l).take k) l =
        List.ofFn fun i => w i ⟨l, by omega⟩ := by
    intro d w l hl
    unfold column
    rw [List.getElem?_take_of_lt (by omega), List.getElem?_eq_getElem (by rw [List.length_ofFn]; omega),
      Option.getD_some, List.getElem_ofFn]
  refine ⟨⟨by omega, ?_, ?_, ?_, ?_⟩, ?_⟩
  · rintro ⟨l, hl⟩
    have : b.s[l]? = some (f.s ⟨l, by omega⟩) := by
      rw [hs, List.getElem?_take_of_lt (by omega), List.getElem?_eq_getElem (by rw [List.length_ofFn]; omega),
        List.getElem_ofFn]
    rw [List.getElem?_eq_getElem hl, Option.some.injEq] at this
    exact this
  · rintro ⟨l, hl⟩
    rw [hu]
    exact hcol f.u l hl
  · rintro ⟨l, hl⟩
    rw [hv]
    exact hcol f.v l hl
  · intro l
    constructor
    · intro hl
      apply h1
      refine List.mem_take_iff_getElem.2 ⟨l.1, by rw [List.length_ofFn]; omega, by simp⟩
    · intro hP
      by_contra hc
      refine h2 (f.s l) ?_ hP
      refine List.mem_drop_iff_getElem.2 ⟨l.1 - k, by rw [List.length_ofFn]; omega, ?_⟩
      rw [List.getElem_ofFn]
      congr 1
      ext
      simp only
      omega
  · rw [hlen]
    conv_lhs => rw [hs]
    rcases Nat.le_total k f.k with h | h
    · rw [min_eq_left h]
    · rw [min_eq_right h, List.take_of_length_le (by rw [List.length_ofFn]; exact h),
        List.take_of_length_le (by rw [List.length_ofFn])]

theorem orth_entry {m k : ℕ} {u : Matrix (Fin m) (Fin k) ℝ} (h : u.transpose * u = 1) (l l' : Fin k) :
    ∑ i, u i l * u i l' = if l = l' then 1 else 0 := by
  have := congrFun (congrFun h l) l'
  rwa [Matrix.mul_apply, Matrix.one_apply] at this

/-- Squared norm of a matrix given by orthonormal factors. -/
theorem frobenius {m n k : ℕ} {u : Matrix (Fin m) (Fin k) ℝ} {v : Matrix (Fin n) (Fin k) ℝ}
    (hu : u.transpose * u = 1) (hv : v.transpose * v = 1) (c : Fin k → ℝ) :
    ∑ i, ∑ j, (∑ l, c l * u i l * v j l) ^ 2 = ∑ l, c l ^ 2 := by
  have e : ∀ i j, (∑ l, c l * u i l * v j l) ^ 2 =
      ∑ l, ∑ l', c l * c l' * (u i l * u i l') * (v j l * v j l') := by
    intro i j
    rw [pow_two, Finset.sum_mul_sum]
    exact Finset.sum_congr rfl fun l _ => Finset.sum_congr rfl fun l' _ => by ring
  calc ∑ i, ∑ j, (∑ l, c l * u i l * v j l) ^ 2
      = ∑ i, ∑ j, ∑ l, ∑ l', c l * c l' * (u i l * u i l') * (v j l * v j l') := by simp only [e]
    _ = ∑ l, ∑ l', ∑ i, ∑ j, c l * c l' * (u i l * u i l') * (v j l * v j l') := by
        have h1 : ∀ i, (∑ j, ∑ l, ∑ l', c l * c l' * (u i l * u i l') * (v j l * v j l')) =
            ∑ l, ∑ l', ∑ j, c l * c l' * (u i l * u i l') * (v j l * v j l') := by
          intro i
          rw [Finset.sum_comm]
          exact Finset.sum_congr rfl fun l _ => Finset.sum_comm
        simp only [h1]
        rw [Finset.sum_comm]
        exact Finset.sum_congr rfl fun l _ => Finset.sum_comm
    _ = ∑ l, ∑ l', c l * c l' * (∑ i, u i l * u i l') * (∑ j, v j l * v j l') := by
        refine Finset.sum_congr rfl fun l _ => Finset.sum_congr rfl fun l' _ => ?_
        rw [mul_assoc, Finset.sum_mul_sum, Finset.mul_sum]
        refine Finset.sum_congr rfl fun i _ => ?_
        rw [Finset.mul_sum]
        exact Finset.sum_congr rfl fun j _ => by ring
    _ = ∑ l, c l ^ 2 := by
        simp only [orth_entry hu, orth_entry hv]
        refine Finset.sum_congr rfl fun l _ => ?_
        rw [Finset.sum_eq_single l (fun l' _ h => by rw [if_neg h.symm]; ring) (by simp)]
        simp [pow_two]

theorem sum_castLE {k K : ℕ} (hk : k ≤ K) (g : Fin K → ℝ) :
    ∑ l : Fin k, g (l.castLE hk) = ∑ l, if l.1 < k then g l else 0 := by
  obtain ⟨d, rfl⟩ := Nat.exists_eq_add_of_le hk
  rw [Fin.sum_univ_add]
  simp [Fin.castAdd]

theorem sum_drop {k K : ℕ} (hk : k ≤ K) (s : Fin K → ℝ) :
    (((List.ofFn s).drop k).map (· ^ 2)).sum = ∑ l, if l.1 < k then 0 else s l ^ 2 := by
  obtain ⟨d, rfl⟩ := Nat.exists_eq_add_of_le hk
  rw [Fin.sum_univ_add, List.ofFn_add, List.drop_left' (by simp), List.map_ofFn, List.sum_ofFn]
  simp [Function.comp_def]

/-- The squared error of the kept part is the sum of the squares of the dropped singular values. -/
theorem kept_error {m n : ℕ} {A : Matrix (Fin m) (Fin n) ℝ} {f : Factors ℝ m n} (hf : IsSvdFactors A f) {k : ℕ}
    (hk : k ≤ f.k) :
    ∑ i, ∑ j, (A i j - ∑ l : Fin k, f.s (l.castLE hk) * f.u i (l.castLE hk) * f.v j (l.castLE hk)) ^ 2 =
      (((List.ofFn f.s).drop k).map (· ^ 2)).sum := by
  have hA : ∀ i j, A i j = ∑ l, f.s l * f.u i l * f.v j l := by
    intro i j
    rw [hf.eq, Matrix.mul_apply]
    refine Finset.sum_congr rfl fun l _ => ?_
    rw [Matrix.mul_diagonal, Matrix.transpose_apply]
    ring
  have e : ∀ i j, A i j - ∑ l : Fin k, f.s (l.castLE hk) * f.u i (l.castLE hk) * f.v j (l.castLE hk) =
      ∑ l, (if l.1 < k then 0 else f.s l) * f.u i l * f.v j l := by
    intro i j
    rw [hA, sum_castLE hk (fun l => f.s l * f.u i l * f.v j l), ← Finset.sum_sub_distrib]
    refine Finset.sum_congr rfl fun l _ => ?_
    split <;> ring
  simp only [e]
  rw [frobenius hf.u_orth hf.v_orth, sum_drop hk]
  refine Finset.sum_congr rfl fun l _ => ?_
  split <;> simp

/-! ## Expansions on finitely many nodes -/

/-- The relations of a singular value expansion with sums over weighted nodes in place of integrals. -/
structure DiscSve {X Y : Type} [Fintype X] [Fintype Y] (k : X → Y → ℝ) (wx : X → ℝ) (wy : Y → ℝ) {N : ℕ} (s : Fin N → ℝ)
    (u : Fin N → X → ℝ) (v : Fin N → Y → ℝ) : Prop where
  uorth : ∀ l m, ∑ i, wx i * u l i * u m i = if l = m then 1 else 0
  vorth : ∀ l m, ∑ j, wy j * v l j * v m j = if l = m then 1 else 0
  right : ∀ l i, ∑ j, wy j * k i j * v l j = s l * u l i
  left : ∀ l j, ∑ i, wx i * k i j * u l i = s l * v l j

/-- The squared error of a partial expansion. -/
theorem DiscSve.error {X Y : Type} [Fintype X] [Fintype Y] {k : X → Y → ℝ} {wx : X → ℝ} {wy : Y → ℝ} {N : ℕ}
    {s : Fin N → ℝ} {u : Fin N → X → ℝ} {v : Fin N → Y → ℝ} (h : DiscSve k wx wy s u v) (S : Finset (Fin N)) :
    ∑ i, ∑ j, wx i * wy j * (k i j - ∑ l ∈ S, s l * u l i * v l j) ^ 2 =
      ∑ i, ∑ j, wx i * wy j * k i j ^ 2 - ∑ l ∈ S, s l ^ 2 := by
  have h1 : ∀ l, ∑ i, ∑ j, wx i * wy j * (k i j * (u l i * v l j)) = s l := by
    intro l
    have : ∀ i, ∑ j, wx i * wy j * (k i j * (u l i * v l j)) = s l * (wx i * u l i * u l i) := by
      intro i
      rw [show s l * (wx i * u l i * u l i) = wx i * u l i * (s l * u l i) by ring, ← h.right, Finset.mul_sum]
      exact Finset.sum_congr rfl fun j _ => by ring
    simp only [this]
    rw [← Finset.mul_sum, h.uorth, if_pos rfl, mul_one]
  have h2 : ∀ l m, ∑ i, ∑ j, wx i * wy j * ((u l i * v l j) * (u m i * v m j)) = if l = m then 1 else 0 := by
    intro l m
    have : ∀ i, ∑ j, wx i * wy j * ((u l i * v l j) * (u m i * v m j)) =
        (wx i * u l i * u m i) * ∑ j, wy j * v l j * v m j := by
      intro i
      rw [Finset.mul_sum]
      exact Finset.sum_congr rfl fun j _ => by ring
    simp only [this]
    rw [← Finset.sum_mul, h.uorth, h.vorth]
    split <;> simp
  have e : ∀ i j, wx i * wy j * (k i j - ∑ l ∈ S, s l * u l i * v l j) ^ 2 = wx i * wy j * k i j ^ 2 -
      2 * ∑ l ∈ S, s l * (wx i * wy j * (k i j * (u l i * v l j))) +
      ∑ l ∈ S, ∑ m ∈ S, s l * s m * (wx i * wy j * ((u l i * v l j) * (u m i * v m j))) := by
    intro i j
    have e1 : (∑ l ∈ S, s l * u l i * v l j) ^ 2 = ∑ l ∈ S, ∑ m ∈ S, s l * s m * ((u l i * v l j) * (u m i * v m j)) := by
      rw [sq, Finset.sum_mul_sum]
      exact Finset.sum_congr rfl fun l _ => Finset.sum_congr rfl fun m _ => by ring
    have e2 : ∑ l ∈ S, ∑ m ∈ S, s l * s m * (wx i * wy j * ((u l i * v l j) * (u m i * v m j))) =
        wx i * wy j * (∑ l ∈ S, s l * u l i * v l j) ^ 2 := by
      rw [e1, Finset.mul_sum]
      refine Finset.sum_congr rfl fun l _ => ?_
      rw [Finset.mul_sum]
      exact Finset.sum_congr rfl fun m _ => by ring
    have e3 : ∑ l ∈ S, s l * (wx i * wy j * (k i j * (u l i * v l j))) =
        wx i * wy j * k i j * ∑ l ∈ S, s l * u l i * v l j := by
      rw [Finset.mul_sum]
      exact Finset.sum_congr rfl fun l _ => by ring
    rw [e2, e3]
    ring
  have swap1 : ∑ i, ∑ j, ∑ l ∈ S, s l * (wx i * wy j * (k i j * (u l i * v l j))) = ∑ l ∈ S, s l ^ 2 := by
    have : ∀ i, ∑ j, ∑ l ∈ S, s l * (wx i * wy j * (k i j * (u l i * v l j))) =
        ∑ l ∈ S, s l * ∑ j, wx i * wy j * (k i j * (u l i * v l j)) := by
      intro i
      rw [Finset.sum_comm]
      exact Finset.sum_congr rfl fun l _ => (Finset.mul_sum _ _ _).symm
    simp only [this]
    rw [Finset.sum_comm]
    refine Finset.sum_congr rfl fun l _ => ?_
    rw [← Finset.mul_sum, h1, sq]
  have swap2 : ∑ i, ∑ j, ∑ l ∈ S, ∑ m ∈ S, s l * s m * (wx i * wy j * ((u l i * v l j) * (u m i * v m j))) =
      ∑ l ∈ S, s l ^ 2 := by
    have : ∀ i, ∑ j, ∑ l ∈ S, ∑ m ∈ S, s l * s m * (wx i * wy j * ((u l i * v l j) * (u m i * v m j))) =
        ∑ l ∈ S, ∑ m ∈ S, s l * s m * ∑ j, wx i * wy j * ((u l i * v l j) * (u m i * v m j)) := by
      intro i
      rw [Finset.sum_comm]
      refine Finset.sum_congr rfl fun l _ => ?_
      rw [Finset.sum_comm]
      exact Finset.sum_congr rfl fun m _ => (Finset.mul_sum _ _ _).symm
    simp only [this]
    rw [Finset.sum_comm]
    refine Finset.sum_congr rfl fun l hl => ?_
    rw [Finset.sum_comm]
    have : ∀ m ∈ S, ∑ i, s l * s m * ∑ j, wx i * wy j * ((u l i * v l j) * (u m i * v m j)) =
        if l = m then s l ^ 2 else 0 := by
      intro m _
      rw [← Finset.mul_sum, h2]
      split
      · rename_i hlm; subst hlm; ring
      · ring
    rw [Finset.sum_congr rfl this, Finset.sum_ite_eq, if_pos hl]
  simp only [e, Finset.sum_add_distrib, Finset.sum_sub_distrib, ← Finset.mul_sum]
  rw [swap1, swap2]
  ring

/-- The sum of all squares is that of an exact SVD. -/
theorem DiscSve.tail {X Y : Type} [Fintype X] [Fintype Y] {k : X → Y → ℝ} {wx : X → ℝ} {wy : Y → ℝ} {N : ℕ}
    {s : Fin N → ℝ} {u : Fin N → X → ℝ} {v : Fin N → Y → ℝ} (h : DiscSve k wx wy s u v) {D : ℝ}
    (hD : ∑ i, ∑ j, wx i * wy j * (k i j - ∑ l, s l * u l i * v l j) ^ 2 = D) (S : Finset (Fin N)) :
    ∑ i, ∑ j, wx i * wy j * (k i j - ∑ l ∈ S, s l * u l i * v l j) ^ 2 = D + ∑ l ∈ Sᶜ, s l ^ 2 := by
  have h1 := h.error Finset.univ
  rw [hD] at h1
  rw [h.error, ← Finset.sum_add_sum_compl S (fun l => s l ^ 2)] at *
  linarith

/-- Even and odd parts merged: nodes with both signs, functions extended with their parity. -/
theorem DiscSve.merge {X Y : Type} [Fintype X] [Fintype Y] {a b : X → Y → ℝ} {wx : X → ℝ} {wy : Y → ℝ} {ke ko : ℕ}
    {se : Fin ke → ℝ} {ue : Fin ke → X → ℝ} {ve : Fin ke → Y → ℝ} {so : Fin ko → ℝ} {uo : Fin ko → X → ℝ}
    {vo : Fin ko → Y → ℝ} (he : DiscSve (fun i j => a i j + b i j) wx wy se ue ve)
    (ho : DiscSve (fun i j => a i j - b i j) wx wy so uo vo) (k : X ⊕ X → Y ⊕ Y → ℝ)
    (k1 : ∀ i j, k (.inl i) (.inl j) = a i j) (k2 : ∀ i j, k (.inl i) (.inr j) = b i j)
    (k3 : ∀ i j, k (.inr i) (.inl j) = b i j) (k4 : ∀ i j, k (.inr i) (.inr j) = a i j)
    (s : Fin (ke + ko) → ℝ) (u : Fin (ke + ko) → X ⊕ X → ℝ) (v : Fin (ke + ko) → Y ⊕ Y → ℝ)
    (σ : Fin (ke + ko) → Fin (ke + ko)) (hσ : Function.Injective σ) (sign : Fin (ke + ko) → ℝ)
    (hsg : ∀ l, sign l = if (σ l).1 < ke then 1 else -1) (hs : ∀ l, s l = Fin.append se so (σ l))
    (hu : ∀ l i, u l (.inl i) = Fin.append ue uo (σ l) i / Real.sqrt 2) (hu' : ∀ l i, u l (.inr i) = sign l * u l (.inl i))
    (hv : ∀ l j, v l (.inl j) = Fin.append ve vo (σ l) j / Real.sqrt 2) (hv' : ∀ l j, v l (.inr j) = sign l * v l (.inl j)) :
    DiscSve k (Sum.elim wx wx) (Sum.elim wy wy) s u v := by
  have h2 : Real.sqrt 2 * Real.sqrt 2 = 2 := Real.mul_self_sqrt (by norm_num)
  have h20 : Real.sqrt 2 ≠ 0 := by positivity
  have hcase : ∀ l, (∃ c : Fin ke, σ l = Fin.castAdd ko c ∧ sign l = 1) ∨ ∃ c : Fin ko, σ l = Fin.natAdd ke c ∧ sign l = -1 := by
    intro l
    have hl := hsg l
    revert hl
    generalize σ l = m
    refine Fin.addCases (fun c hl => ?_) (fun c hl => ?_) m
    · exact Or.inl ⟨c, rfl, by simpa using hl⟩
    · exact Or.inr ⟨c, rfl, by simpa using hl⟩
  have orth : ∀ {Z : Type} [Fintype Z] (w : Z → ℝ) (fe : Fin ke → Z → ℝ) (fo : Fin ko → Z → ℝ) (f : Fin (ke + ko) → Z ⊕ Z → ℝ),
      (∀ l m, ∑ i, w i * fe l i * fe m i = if l = m then 1 else 0) →
      (∀ l m, ∑ i, w i * fo l i * fo m i = if l = m then 1 else 0) →
      (∀ l i, f l (.inl i) = Fin.append fe fo (σ l) i / Real.sqrt 2) → (∀ l i, f l (.inr i) = sign l * f l (.inl i)) →
      ∀ l m, ∑ i, Sum.elim w w i * f l i * f m i = if l = m then 1 else 0 := by
    intro Z _ w fe fo f h3 h4 h5 h6 l m
    have e : ∑ i, Sum.elim w w i * f l i * f m i = (1 + sign l * sign m) / 2 *
        ∑ i, w i * Fin.append fe fo (σ l) i * Fin.append fe fo (σ m) i := by
      rw [Fintype.sum_sum_type, Finset.mul_sum, ← Finset.sum_add_distrib]
      refine Finset.sum_congr rfl fun i _ => ?_
      simp only [Sum.elim_inl, Sum.elim_inr, h6, h5]
      field_simp
      rw [sq, h2]
      ring
    rw [e]
    have hlm : (l = m) ↔ σ l = σ m := hσ.eq_iff.symm
    rcases hcase l with ⟨c, hc, s1⟩ | ⟨c, hc, s1⟩ <;> rcases hcase m with ⟨c', hc', s2⟩ | ⟨c', hc', s2⟩ <;>
      rw [hc, hc'] at hlm <;> rw [hc, hc', s1, s2]
    · simp only [Fin.append_left, h3]
      have : l = m ↔ c = c' := by rw [hlm]; simp [Fin.ext_iff]
      simp only [this]
      split <;> norm_num
    · have : ¬ l = m := by rw [hlm, Fin.ext_iff, Fin.val_castAdd, Fin.val_natAdd]; omega
      rw [if_neg this]
      norm_num
    · have : ¬ l = m := by rw [hlm, Fin.ext_iff, Fin.val_castAdd, Fin.val_natAdd]; omega
      rw [if_neg this]
      norm_num
    · simp only [Fin.append_right, h4]
      have : l = m ↔ c = c' := by rw [hlm]; simp [Fin.ext_iff]
      simp only [this]
      split <;> norm_num
  refine ⟨orth wx ue uo u he.uorth ho.uorth hu hu', orth wy ve vo v he.vorth ho.vorth hv hv', ?_, ?_⟩
  · intro l
    have key : ∀ i, ∑ j, wy j * (a i j + sign l * b i j) * v l (.inl j) = s l * u l (.inl i) := by
      intro i
      simp only [hv, hu, hs]
      rcases hcase l with ⟨c, hc, s1⟩ | ⟨c, hc, s1⟩ <;> rw [hc, s1]
      · simp only [Fin.append_left]
        rw [← mul_div_assoc, ← he.right, Finset.sum_div]
        exact Finset.sum_congr rfl fun j _ => by ring
      · simp only [Fin.append_right]
        rw [← mul_div_assoc, ← ho.right, Finset.sum_div]
        exact Finset.sum_congr rfl fun j _ => by ring
    have hsq : sign l * sign l = 1 := by rw [hsg]; split <;> norm_num
    rintro (i | i)
    · rw [← key, Fintype.sum_sum_type, ← Finset.sum_add_distrib]
      refine Finset.sum_congr rfl fun j _ => ?_
      simp only [Sum.elim_inl, Sum.elim_inr, k1, k2, hv']
      ring
    · rw [hu', mul_left_comm, ← key, Fintype.sum_sum_type, ← Finset.sum_add_distrib, Finset.mul_sum]
      refine Finset.sum_congr rfl fun j _ => ?_
      simp only [Sum.elim_inl, Sum.elim_inr, k3, k4, hv']
      linear_combination (- wy j * b i j * v l (.inl j)) * hsq
  · intro l
    have key : ∀ j, ∑ i, wx i * (a i j + sign l * b i j) * u l (.inl i) = s l * v l (.inl j) := by
      intro j
      simp only [hv, hu, hs]
      rcases hcase l with ⟨c, hc, s1⟩ | ⟨c, hc, s1⟩ <;> rw [hc, s1]
      · simp only [Fin.append_left]
        rw [← mul_div_assoc, ← he.left, Finset.sum_div]
        exact Finset.sum_congr rfl fun j _ => by ring
      · simp only [Fin.append_right]
        rw [← mul_div_assoc, ← ho.left, Finset.sum_div]
        exact Finset.sum_congr rfl fun j _ => by ring
    have hsq : sign l * sign l = 1 := by rw [hsg]; split <;> norm_num
    rintro (j | j)
    · rw [← key, Fintype.sum_sum_type, ← Finset.sum_add_distrib]
      refine Finset.sum_congr rfl fun i _ => ?_
      simp only [Sum.elim_inl, Sum.elim_inr, k1, k3, hu']
      ring
    · rw [hv', mul_left_comm, ← key, Fintype.sum_sum_type, ← Finset.sum_add_distrib, Finset.mul_sum]
      refine Finset.sum_congr rfl fun i _ => ?_
      simp only [Sum.elim_inl, Sum.elim_inr, k2, k4, hu']
      linear_combination (- wx i * b i j * u l (.inl i)) * hsq

end Verif.Props
