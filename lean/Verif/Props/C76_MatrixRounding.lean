import Verif.Lemmas.RoundingMatrix
import Verif.Props.C75_Rounding
import Verif.Props.C65_SveCompute
/-!
# C76: Quadrature rules and the matrix of the kernel in floating-point arithmetic

The arithmetic satisfies `Arith.Ok u eta` (see C75) with `eta ≤ u^2`.  `ts` and `ws` are the true nodes and weights on
`[-1, 1]`, `edges` are the edges of the segments as given.
-/

namespace Verif.Props
open Verif Verif.Kernel Verif.Spec Verif.Gauss Verif.Sve

/-- The computed rule `r` on `[-1, 1]` has the nodes `ts` and weights `ws` up to relative errors `d`, relative to the
distance from the ends of the interval for the nodes. -/
structure RuleNear (r : Rule) (ts ws : List ℝ) (d : ℝ) : Prop where
  a : r.a = -1
  b : r.b = 1
  x : List.Forall₂ (fun x t => |x - t| ≤ d * (1 + t) ∧ |x - t| ≤ d * (1 - t)) r.x ts
  w : List.Forall₂ (fun w W => |w - W| ≤ d * W) r.w ws
  fwd : List.Forall₂ (fun z t => |z - (1 + t)| ≤ d * (1 + t)) r.xForward ts
  bwd : List.Forall₂ (fun z t => |z - (1 - t)| ≤ d * (1 - t)) r.xBackward ts

/-- The edges ascend and are all on one side of zero or include it; the nodes of all segments are resolved. -/
structure Resolved (u r : ℝ) (ts ws edges : List ℝ) : Prop where
  asc : edges.Pairwise (· < ·)
  unit : ∀ e ∈ edges, |e| ≤ 1
  side : ∀ p ∈ edges.zip edges.tail, 0 ≤ p.1 ∨ p.2 ≤ 0
  inside : ∀ t ∈ ts, |t| ≤ 1
  wpos : ∀ W ∈ ws, 0 ≤ W ∧ W ≤ 2
  sep : ∀ p ∈ edges.zip edges.tail, ∀ t ∈ ts, 12 * u ≤ (p.2 - p.1) / 2 * (1 + t) ∧ 12 * u ≤ (p.2 - p.1) / 2 * (1 - t)
  wsep : ∀ p ∈ edges.zip edges.tail, ∀ W ∈ ws, 12 * u ≤ (p.2 - p.1) / 2 * W
  rel : ∀ t ∈ ts, 44 * u ≤ r * (1 + t) ∧ 44 * u ≤ r * (1 - t)

/-- The nodes of the composite rule, in order. -/
noncomputable def compositeNodes (ts edges : List ℝ) : List ℝ :=
  ((edges.zip edges.tail).map fun p => ts.map fun t => (p.2 - p.1) / 2 * t + (p.2 + p.1) / 2).flatten

/-- The weights of the composite rule. -/
noncomputable def compositeWeights (ws edges : List ℝ) : List ℝ :=
  ((edges.zip edges.tail).map fun p => ws.map fun W => (p.2 - p.1) / 2 * W).flatten

/-- The computed rule `q` has the nodes `X` and weights `W` up to relative errors `e`, also for the distances of the nodes
from the ends; the nodes stay in the interval, the exact nodes are not closer to zero than `12 u`. -/
structure GridNear (q : Rule) (X W : List ℝ) (u e : ℝ) : Prop where
  x : List.Forall₂ (fun x X => |x - X| ≤ e * |X| ∧ (q.a ≤ x ∧ x ≤ q.b) ∧ (q.a ≤ X ∧ X ≤ q.b) ∧ 12 * u ≤ |X|) q.x X
  w : List.Forall₂ (fun w W => |w - W| ≤ e * W ∧ 12 * u ≤ W) q.w W
  fwd : List.Forall₂ (fun z X => |z - (X - q.a)| ≤ e * (X - q.a)) q.xForward X
  bwd : List.Forall₂ (fun z X => |z - (q.b - X)| ≤ e * (q.b - X)) q.xBackward X

theorem segments_zip : ∀ l : List ℝ, segments l = l.zip l.tail
  | [] => rfl
  | [_] => rfl
  | a :: b :: l => by
    rw [segments, segments_zip (b :: l)]
    rfl

theorem forall₂_mem {α β : Type} {R : α → β → Prop} {P : β → Prop} : ∀ {l : List α} {m : List β}, List.Forall₂ R l m →
    (∀ t ∈ m, P t) → List.Forall₂ (fun x t => R x t ∧ P t) l m
  | _, _, .nil, _ => .nil
  | _, _, .cons h hl, hp => .cons ⟨h, hp _ (by simp)⟩ (forall₂_mem hl fun t ht => hp t (by simp [ht]))

theorem segments_between {a : ℝ} : ∀ {l : List ℝ} {eN : ℝ}, (a :: l).Pairwise (· < ·) → (a :: l).getLast? = some eN →
    ∀ p ∈ segments (a :: l), a ≤ p.1 ∧ p.2 ≤ eN := by
  intro l eN h hN p hp
  obtain ⟨-, h1, h2⟩ := segments_mem h p hp
  constructor
  · rcases List.mem_cons.1 h1 with h1 | h1
    · exact h1.ge
    · exact ((List.pairwise_cons.1 h).1 _ h1).le
  · have hlast : ∀ (m : List ℝ), m.Pairwise (· < ·) → m.getLast? = some eN → ∀ z ∈ m, z ≤ eN := by
      intro m hm hmN z hz
      obtain ⟨m', rfl⟩ : ∃ m', m = m' ++ [eN] := List.getLast?_eq_some_iff.1 hmN
      rcases List.mem_append.1 hz with hz | hz
      · exact ((List.pairwise_append.1 hm).2.2 z hz eN (by simp)).le
      · exact (List.mem_singleton.1 hz).le
    exact hlast _ h hN _ h2

theorem joinLoopFl_exact (a b : ℝ) : ∀ (l : List Rule) (prev : ℝ), joinLoopFl Arith.exact a b prev l = joinLoop a b prev l
  | [], _ => rfl
  | c :: l, prev => by
    rw [joinLoopFl, joinLoop, joinLoopFl_exact a b l]
    rfl

/-- In real arithmetic these are the functions of `Model/Gauss.lean` and `Model/Sve.lean`. -/
theorem C76_exact (R : Rule) (edges : List ℝ) : R.piecewiseFl Arith.exact edges = R.piecewise edges := by
  have hj : ∀ l, Rule.joinFl Arith.exact l = Rule.join l := by
    intro l
    unfold Rule.joinFl Rule.join
    simp only [joinLoopFl_exact]
    rfl
  unfold Rule.piecewiseFl Rule.piecewise
  simp only [hj]
  rfl

/-- The same for the matrix of each of the kernels. -/
theorem C76_exact_matrix (lam : ℝ) (sv : Sampling)
    (h : (∀ x ∈ sv.gaussX.x, -1 ≤ x ∧ x ≤ 1) ∧ ∀ y ∈ sv.gaussY.x, -1 ≤ y ∧ y ≤ 1) :
    matrix sv (logistic lam) =
      matrixFl Arith.exact Real.sqrt (-1) (callFull (logisticFl Arith.exact lam)) sv.gaussX sv.gaussY ∧
    matrix sv (bose lam) =
      matrixFl Arith.exact Real.sqrt (-1) (callFull (boseFl Arith.exact lam)) sv.gaussX sv.gaussY := by
  have hd : ∀ i, |(gaussArgs sv.gaussX sv.gaussY).x i| ≤ 1 ∧ |(gaussArgs sv.gaussX sv.gaussY).y i| ≤ 1 := fun i =>
    ⟨abs_le.2 (h.1 _ (List.get_mem _ _)), abs_le.2 (h.2 _ (List.get_mem _ _))⟩
  obtain ⟨h1, h2⟩ := C75_exact_objects lam (gaussArgs sv.gaussX sv.gaussY) hd
  unfold matrixFl matrix
  rw [if_pos h, if_pos h, h1, h2 rfl]
  exact ⟨rfl, rfl⟩

/-- The same for the symmetrised kernels. -/
theorem C76_exact_reduced (lam : ℝ) (sv : Sampling)
    (h : (∀ x ∈ sv.gaussX.x, 0 ≤ x ∧ x ≤ 1) ∧ ∀ y ∈ sv.gaussY.x, 0 ≤ y ∧ y ≤ 1)
    {K : KernelObj (Fin sv.gaussX.x.length × Fin sv.gaussY.x.length)} :
    (K.call = reducedCall (logistic lam) 1 → matrix sv K =
      matrixFl Arith.exact Real.sqrt 0 (callHalf (reducedFl Arith.exact (logisticFl Arith.exact lam) 1)) sv.gaussX
        sv.gaussY) ∧
    (K.call = logisticOddCall (logistic lam) lam (-1) → matrix sv K =
      matrixFl Arith.exact Real.sqrt 0 (callHalf (logisticOddFl Arith.exact lam (-1))) sv.gaussX sv.gaussY) ∧
    (K.call = reducedCall (bose lam) 1 → matrix sv K =
      matrixFl Arith.exact Real.sqrt 0 (callHalf (reducedFl Arith.exact (boseFl Arith.exact lam) 1)) sv.gaussX
        sv.gaussY) ∧
    (K.call = boseOddCall (bose lam) lam (-1) → matrix sv K =
      matrixFl Arith.exact Real.sqrt 0 (callHalf (boseOddFl Arith.exact lam (-1))) sv.gaussX sv.gaussY) := by
  have hd : ∀ i, 0 ≤ (gaussArgs sv.gaussX sv.gaussY).x i ∧ (gaussArgs sv.gaussX sv.gaussY).x i ≤ 1 ∧
      0 ≤ (gaussArgs sv.gaussX sv.gaussY).y i ∧ (gaussArgs sv.gaussX sv.gaussY).y i ≤ 1 := fun i =>
    ⟨(h.1 _ (List.get_mem _ _)).1, (h.1 _ (List.get_mem _ _)).2, h.2 _ (List.get_mem _ _)⟩
  obtain ⟨h1, h2, -, -⟩ := C75_exact_reduced lam 1 (gaussArgs sv.gaussX sv.gaussY) hd rfl rfl
  obtain ⟨-, -, h3, h4⟩ := C75_exact_reduced lam (-1) (gaussArgs sv.gaussX sv.gaussY) hd rfl rfl
  unfold matrixFl matrix
  simp only [if_pos h]
  refine ⟨fun hK => ?_, fun hK => ?_, fun hK => ?_, fun hK => ?_⟩
  · rw [hK, h1]
    rfl
  · rw [hK, h3]
    rfl
  · rw [hK, h2]
    rfl
  · rw [hK, h4]
    rfl

/-- `piecewise` in real arithmetic: the composite rule. -/
theorem C76_exact_grid {R : Rule} (ha : R.a = -1) (hb : R.b = 1) (hf : R.xForward = R.x.map fun t => 1 + t)
    (hw : R.xBackward = R.x.map fun t => 1 - t) {a b eN : ℝ} {l : List ℝ} (h : (a :: b :: l).Pairwise (· < ·))
    (hN : (b :: l).getLast? = some eN) :
    R.piecewise (a :: b :: l) = .ok ⟨compositeNodes R.x (a :: b :: l), compositeWeights R.w (a :: b :: l),
      (compositeNodes R.x (a :: b :: l)).map (fun x => x - a), (compositeNodes R.x (a :: b :: l)).map (fun x => eN - x),
      a, eN⟩ := by
  rw [← C76_exact, piecewiseFl_eq _ _ h hN]
  unfold compositeNodes compositeWeights
  rw [← segments_zip, List.map_flatten, List.map_flatten, List.map_map, List.map_map]
  unfold Rule.reseatFl
  simp only [ha, hb, hf, hw, Arith.exact, List.map_map]
  congr 4 <;> funext p
  · refine List.map_congr_left fun t _ => ?_
    ring
  · refine List.map_congr_left fun t _ => ?_
    ring
  · simp only [Function.comp_apply, List.map_map]
    refine List.map_congr_left fun t _ => ?_
    simp only [Function.comp_apply]
    ring
  · simp only [Function.comp_apply, List.map_map]
    refine List.map_congr_left fun t _ => ?_
    simp only [Function.comp_apply]
    ring

/-- `piecewise`: all numbers of the computed rule are those of the composite rule up to the relative error `d + r`;
nodes stay inside the interval.  In particular `x_forward` and `x_backward` give the distances from the ends of the
interval to that relative accuracy, however close to the ends the nodes are. -/
theorem C76_piecewise {A : Arith} {u eta d r : ℝ} (hA : A.Ok u eta) (hu : u ≤ 1 / 1000) (he : eta ≤ u ^ 2) (hd0 : 0 ≤ d)
    (hd : d ≤ 1 / 100) (hr : 22 * u ≤ r) {R : Rule} {ts ws : List ℝ} (hR : RuleNear R ts ws d) {a b eN : ℝ} {l : List ℝ}
    (hE : Resolved u r ts ws (a :: b :: l)) (hN : (b :: l).getLast? = some eN) :
    ∃ q, R.piecewiseFl A (a :: b :: l) = .ok q ∧ q.a = a ∧ q.b = eN ∧
      GridNear q (compositeNodes ts (a :: b :: l)) (compositeWeights ws (a :: b :: l)) u (d + r) := by
  have hu0 := hA.hu
  have hr0 : 0 ≤ r := by linarith
  have hr9 : 9 * u ≤ r := by linarith
  refine ⟨_, piecewiseFl_eq A R hE.asc hN, rfl, rfl, ?_⟩
  have hN' : (a :: b :: l).getLast? = some eN := by rw [List.getLast?_cons_cons, hN]
  have hbet := segments_between hE.asc hN'
  have hmem := segments_mem hE.asc
  obtain ⟨-, hunit, hside, hin, hwpos, hsep, hwsep, hrel⟩ := hE
  unfold compositeNodes compositeWeights
  rw [← segments_zip] at hside hsep hwsep ⊢
  have hscale : ∀ p ∈ segments (a :: b :: l), 6 * u ≤ (p.2 - p.1) / 2 →
      Rel (5 * u) (A.div (A.sub p.2 p.1) (A.sub R.b R.a)) ((p.2 - p.1) / 2) := by
    intro p _ h6
    rw [hR.a, hR.b]
    exact scaling_error hA hu he rfl h6
  have h6of : ∀ p ∈ segments (a :: b :: l), ∀ t ∈ ts, 6 * u ≤ (p.2 - p.1) / 2 := by
    intro p hp t ht
    have h1 := hsep p hp t ht
    have h2 := (hmem p hp).1
    obtain ⟨t1, t2⟩ := abs_le.1 (hin t ht)
    nlinarith
  refine ⟨?_, ?_, ?_, ?_⟩
  · refine forall₂_flatten fun p hp => ?_
    show List.Forall₂ _ (R.x.map _) _
    rw [List.forall₂_map_left_iff, List.forall₂_map_right_iff]
    refine (forall₂_mem (P := fun t => t ∈ ts) hR.x fun t ht => ht).imp ?_
    rintro x t ⟨⟨hx1, hx2⟩, ht⟩
    have h6 := h6of p hp t ht
    have hs := hscale p hp h6
    have hp12 := (hmem p hp).1
    obtain ⟨s1, s2⟩ := hsep p hp t ht
    obtain ⟨t1, t2⟩ := abs_le.1 (hin t ht)
    obtain ⟨b1, b2⟩ := hbet p hp
    have hs0 : 0 ≤ (p.2 - p.1) / 2 := by linarith
    have hdd : ∀ e, |x - t| ≤ e → e ≤ 1 / 50 →
        |A.add (A.mul (A.div (A.sub p.2 p.1) (A.sub R.b R.a)) (A.sub x (A.div (A.add R.b R.a) 2)))
          (A.div (A.add p.2 p.1) 2) - ((p.2 - p.1) / 2 * t + (p.2 + p.1) / 2)| ≤
          (p.2 - p.1) / 2 * e + 11 * u * max |p.1| |p.2| := by
      intro e h1 h2
      have h3 := node_error hA hu he (b := p.2) (a := p.1) (t := t) (x := x) (d := e) rfl hs h6 (hin t ht) h1 h2
        (le_max_left |p.1| |p.2|) (le_max_right _ _)
      rw [hR.a, hR.b] at h3 ⊢
      exact h3
    have hm1 : max |p.1| |p.2| ≤ 1 := max_le (hunit _ (hmem p hp).2.1) (hunit _ (hmem p hp).2.2)
    have hum : 11 * u * max |p.1| |p.2| ≤ 11 * u := mul_le_of_le_one_right (by linarith) hm1
    have n1 := hdd _ hx1 (by nlinarith)
    have n2 := hdd _ hx2 (by nlinarith)
    have n3 := hdd (min (d * (1 + t)) (d * (1 - t))) (le_min hx1 hx2) ((min_le_left _ _).trans (by nlinarith))
    obtain ⟨r1, r2⟩ := hrel t ht
    have hdl : (p.2 - p.1) / 2 * (d * (1 + t)) ≤ 1 / 100 * ((p.2 - p.1) / 2 * (1 + t)) := by
      have := mul_le_mul_of_nonneg_right hd (mul_nonneg hs0 (by linarith : 0 ≤ 1 + t))
      linarith
    have hdr : (p.2 - p.1) / 2 * (d * (1 - t)) ≤ 1 / 100 * ((p.2 - p.1) / 2 * (1 - t)) := by
      have := mul_le_mul_of_nonneg_right hd (mul_nonneg hs0 (by linarith : 0 ≤ 1 - t))
      linarith
    refine ⟨?_, ⟨?_, ?_⟩, ⟨?_, ?_⟩, ?_⟩
    · exact node_rel (u := u) (d := min (d * (1 + t)) (d * (1 - t))) rfl hs0 (hin t ht) rfl hu0 hd0 n3 rfl
        (min_le_left _ _) (min_le_right _ _) r1 r2 (hside p hp) hr0
    · have := (abs_le.1 n1).1
      linarith
    · have := (abs_le.1 n2).2
      linarith
    · linarith
    · linarith
    · rcases hside p hp with h0 | h0
      · refine le_trans ?_ (le_abs_self _)
        linarith
      · refine le_trans ?_ (neg_le_abs _)
        linarith
  · refine forall₂_flatten fun p hp => ?_
    show List.Forall₂ _ (R.w.map _) _
    rw [List.forall₂_map_left_iff, List.forall₂_map_right_iff]
    have hW := forall₂_mem (P := fun W => W ∈ ws) hR.w fun t ht => ht
    refine hW.imp ?_
    rintro w W ⟨hw, hWm⟩
    obtain ⟨hW0, hW2⟩ := hwpos W hWm
    have hsm := hwsep p hp W hWm
    have hp12 := (hmem p hp).1
    have hs0 : 0 ≤ (p.2 - p.1) / 2 := by linarith
    have h6 : 6 * u ≤ (p.2 - p.1) / 2 := by nlinarith
    have hw' : Kernel.Rel d w W := by
      unfold Kernel.Rel
      rwa [abs_of_nonneg hW0]
    have h1 := rescaled_error hA hu he hd0 hd (hscale p hp h6) hw' hsm hs0 hW0
    have h3 := h1.mono (by linarith : d + 72 / 10 * u ≤ d + r)
    unfold Kernel.Rel at h3
    have hnn : 0 ≤ (p.2 - p.1) / 2 * W := mul_nonneg hs0 hW0
    rw [abs_of_nonneg hnn] at h3
    exact ⟨h3, hsm⟩
  · refine forall₂_flatten fun p hp => ?_
    show List.Forall₂ _ ((R.xForward.map _).map _) _
    rw [List.map_map, List.forall₂_map_left_iff, List.forall₂_map_right_iff]
    refine (forall₂_mem (P := fun t => t ∈ ts) hR.fwd fun t ht => ht).imp ?_
    rintro z t ⟨hz, ht⟩
    have h6 := h6of p hp t ht
    obtain ⟨s1, s2⟩ := hsep p hp t ht
    obtain ⟨t1, t2⟩ := abs_le.1 (hin t ht)
    obtain ⟨b1, b2⟩ := hbet p hp
    have hp12 := (hmem p hp).1
    have hs0 : 0 ≤ (p.2 - p.1) / 2 := by linarith
    have hz' : Rel d z (1 + t) := by
      unfold Kernel.Rel
      rwa [abs_of_nonneg (by linarith : 0 ≤ 1 + t)]
    have h1 := rescaled_error hA hu he hd0 hd (hscale p hp h6) hz' s1 hs0 (by linarith)
    have h2 := shifted_error hA hu hd0 hd h1 (mul_nonneg hs0 (by linarith)) (by linarith : 0 ≤ p.1 - a)
    have hX : (p.2 - p.1) / 2 * t + (p.2 + p.1) / 2 - a = (p.2 - p.1) / 2 * (1 + t) + (p.1 - a) := by ring
    have h3 := h2.mono (by linarith : d + 9 * u ≤ d + r)
    unfold Kernel.Rel at h3
    have hnn : 0 ≤ (p.2 - p.1) / 2 * (1 + t) + (p.1 - a) := by linarith
    rw [abs_of_nonneg hnn] at h3
    rw [hX]
    exact h3
  · refine forall₂_flatten fun p hp => ?_
    show List.Forall₂ _ ((R.xBackward.map _).map _) _
    rw [List.map_map, List.forall₂_map_left_iff, List.forall₂_map_right_iff]
    refine (forall₂_mem (P := fun t => t ∈ ts) hR.bwd fun t ht => ht).imp ?_
    rintro z t ⟨hz, ht⟩
    have h6 := h6of p hp t ht
    obtain ⟨s1, s2⟩ := hsep p hp t ht
    obtain ⟨t1, t2⟩ := abs_le.1 (hin t ht)
    obtain ⟨b1, b2⟩ := hbet p hp
    have hp12 := (hmem p hp).1
    have hs0 : 0 ≤ (p.2 - p.1) / 2 := by linarith
    have hz' : Rel d z (1 - t) := by
      unfold Kernel.Rel
      rwa [abs_of_nonneg (by linarith : 0 ≤ 1 - t)]
    have h1 := rescaled_error hA hu he hd0 hd (hscale p hp h6) hz' s2 hs0 (by linarith)
    have h2 := shifted_error hA hu hd0 hd h1 (mul_nonneg hs0 (by linarith)) (by linarith : 0 ≤ eN - p.2)
    have hX : eN - ((p.2 - p.1) / 2 * t + (p.2 + p.1) / 2) = (p.2 - p.1) / 2 * (1 - t) + (eN - p.2) := by ring
    have h3 := h2.mono (by linarith : d + 9 * u ≤ d + r)
    unfold Kernel.Rel at h3
    have hnn : 0 ≤ (p.2 - p.1) / 2 * (1 - t) + (eN - p.2) := by linarith
    rw [abs_of_nonneg hnn] at h3
    rw [hX]
    exact h3

theorem forall₂_getElem? {α β : Type} {R : α → β → Prop} {l : List α} {m : List β} (h : List.Forall₂ R l m) {i : ℕ} {b : β}
    (hb : m[i]? = some b) : ∃ a, l[i]? = some a ∧ R a b := by
  induction h generalizing i with
  | nil => simp at hb
  | cons h hl ih =>
    cases i with
    | zero =>
      simp only [List.getElem?_cons_zero, Option.some.injEq] at hb ⊢
      exact ⟨_, rfl, hb ▸ h⟩
    | succ i => exact ih hb

/-- Every entry of the matrix of a kernel which is computed up to `c e` from computed nodes. -/
theorem matrix_near {A : Arith} {u eta e : ℝ} (hA : A.Ok u eta) (heta : eta ≤ u ^ 2) (hue : 22 * u ≤ e) (he : e ≤ 1 / 64)
    {rt : ℝ → ℝ} (hrt : ∀ w, 0 ≤ w → |rt w - Real.sqrt w| ≤ u * Real.sqrt w)
    {call : ℝ → ℝ → ℝ → ℝ → ℝ} {K : ℝ → ℝ → ℝ} {lo c B C : ℝ} (hc : 0 ≤ c) (hC : 11 / 10 * c + 5 / 2 * B + 1 / 10 ≤ C)
    {gx gy : Rule} {X WX Y WY : List ℝ} (hx : GridNear gx X WX u e) (hy : GridNear gy Y WY u e)
    (hxa : lo ≤ gx.a) (hxb : gx.b ≤ 1) (hya : lo ≤ gy.a) (hyb : gy.b ≤ 1)
    (hk : ∀ x X xf xb y Y, |x - X| ≤ e * |X| → gx.a ≤ X → X ≤ gx.b → |xf - (X - gx.a)| ≤ e * (X - gx.a) →
      |xb - (gx.b - X)| ≤ e * (gx.b - X) → |y - Y| ≤ e * |Y| → lo ≤ y → y ≤ 1 → lo ≤ Y → Y ≤ 1 → 12 * u ≤ |Y| →
      |call x y xf xb - K X Y| ≤ c * e ∧ |K X Y| ≤ B) :
    ∃ M, matrixFl A rt lo call gx gy = .ok M ∧ X.length = gx.x.length ∧ Y.length = gy.x.length ∧
      ∀ i j Xi Wi Yj Wj, X[i.1]? = some Xi → WX[i.1]? = some Wi → Y[j.1]? = some Yj → WY[j.1]? = some Wj →
        |M (i, j) - K Xi Yj * Real.sqrt Wi * Real.sqrt Wj| ≤ C * e * (Real.sqrt Wi * Real.sqrt Wj) := by
  have hu0 := hA.hu
  have hmem : ∀ {q : Rule} {N W : List ℝ}, GridNear q N W u e → ∀ x ∈ q.x, q.a ≤ x ∧ x ≤ q.b := by
    intro q N W h x hxm
    obtain ⟨n, hn⟩ := List.mem_iff_getElem?.1 hxm
    obtain ⟨z, -, hz⟩ := forall₂_getElem? (List.Forall₂.flip h.x) hn
    exact hz.2.1
  have hdom : (∀ x ∈ gx.x, lo ≤ x ∧ x ≤ 1) ∧ ∀ y ∈ gy.x, lo ≤ y ∧ y ≤ 1 :=
    ⟨fun x h => ⟨hxa.trans (hmem hx x h).1, (hmem hx x h).2.trans hxb⟩,
      fun y h => ⟨hya.trans (hmem hy y h).1, (hmem hy y h).2.trans hyb⟩⟩
  refine ⟨_, if_pos hdom, hx.x.length_eq.symm, hy.x.length_eq.symm, ?_⟩
  intro i j Xi Wi Yj Wj hXi hWi hYj hWj
  obtain ⟨x, hxi, hx1, -, hx2, -⟩ := forall₂_getElem? hx.x hXi
  obtain ⟨w, hwi, hw1, hw2⟩ := forall₂_getElem? hx.w hWi
  obtain ⟨f, hfi, hf⟩ := forall₂_getElem? hx.fwd hXi
  obtain ⟨b, hbi, hb⟩ := forall₂_getElem? hx.bwd hXi
  obtain ⟨y, hyi, hy1, hy2, hy3, hy4⟩ := forall₂_getElem? hy.x hYj
  obtain ⟨v, hvi, hv1, hv2⟩ := forall₂_getElem? hy.w hWj
  have hgx : gx.x.get i = x := by
    rw [List.getElem?_eq_getElem i.2] at hxi
    exact Option.some.inj hxi
  have hgy : gy.x.get j = y := by
    rw [List.getElem?_eq_getElem j.2] at hyi
    exact Option.some.inj hyi
  obtain ⟨k1, k2⟩ := hk x Xi f b y Yj hx1 hx2.1 hx2.2 hf hb hy1 (hya.trans hy2.1) (hy2.2.trans hyb) (hya.trans hy3.1)
    (hy3.2.trans hyb) hy4
  have hW0 : 0 ≤ Wi := by linarith
  have hV0 : 0 ≤ Wj := by linarith
  have hroot : ∀ {w W : ℝ}, 0 ≤ W → |w - W| ≤ e * W → Kernel.Rel u (rt w) (Real.sqrt w) := by
    intro w W h0 h1
    unfold Kernel.Rel
    rw [abs_of_nonneg (Real.sqrt_nonneg _)]
    refine hrt w ?_
    have := (abs_le.1 h1).1
    nlinarith
  have hr1 := hroot hW0 hw1
  have hr2 := hroot hV0 hv1
  have hrel : ∀ {w W : ℝ}, 0 ≤ W → |w - W| ≤ e * W → Kernel.Rel e w W := by
    intro w W h0 h1
    unfold Kernel.Rel
    rwa [abs_of_nonneg h0]
  have hfin := entry_error hA heta hue he hc k1 k2 hw2 hv2 (hrel hW0 hw1) (hrel hV0 hv1) hr1 hr2
  simp only [hgx, hgy, hfi, hbi, hwi, hvi, Option.getD_some]
  refine hfin.trans (mul_le_mul_of_nonneg_right (mul_le_mul_of_nonneg_right hC (by linarith)) (by positivity))

theorem matrix_consts {A : Arith} {u eta e lam : ℝ} (hA : A.Ok u eta) (heta : eta ≤ u ^ 2) (hue : 22 * u ≤ e)
    (hl : 0 ≤ lam) (hsm : 64 * (1 + lam) * (e + eta) ≤ 1) :
    0 ≤ e ∧ 64 * (1 + lam) * e ≤ 1 ∧ e ≤ 1 / 64 ∧ (1 + lam) * eta ≤ e / 1000 := by
  have hu0 := hA.hu
  have h0 := hA.heta
  have he0 : 0 ≤ e := by linarith
  have hm1 : 64 * (1 + lam) * e ≤ 1 := by nlinarith [mul_nonneg (by linarith : 0 ≤ 64 * (1 + lam)) h0]
  have he64 : e ≤ 1 / 64 := by nlinarith [mul_nonneg hl he0]
  have hleta : (1 + lam) * eta ≤ e / 1000 := by
    have h1 : (1 + lam) * eta ≤ (1 + lam) * (u * u) := mul_le_mul_of_nonneg_left (by linarith [sq u]) (by linarith)
    have h2 : (1 + lam) * u * u ≤ (1 + lam) * e * u :=
      mul_le_mul_of_nonneg_right (mul_le_mul_of_nonneg_left (by linarith) (by linarith)) hu0
    have h3 : (1 + lam) * e * u ≤ 1 / 64 * u := mul_le_mul_of_nonneg_right (by linarith) hu0
    linarith
  exact ⟨he0, hm1, he64, hleta⟩

/-- The matrix of the logistic kernel: the weights make the sum of the squares of the bounds `(31 e)^2` times the area. -/
theorem C76_logistic {A : Arith} {u eta e lam : ℝ} (hA : A.Ok u eta) (heta : eta ≤ u ^ 2) (hue : 22 * u ≤ e)
    (hl : 0 ≤ lam) (hsm : 64 * (1 + lam) * (e + eta) ≤ 1)
    {rt : ℝ → ℝ} (hrt : ∀ w, 0 ≤ w → |rt w - Real.sqrt w| ≤ u * Real.sqrt w)
    {gx gy : Rule} {X WX Y WY : List ℝ} (hx : GridNear gx X WX u e) (hy : GridNear gy Y WY u e)
    (hxa : gx.a = -1) (hxb : gx.b = 1) (hya : gy.a = -1) (hyb : gy.b = 1) :
    ∃ M, matrixFl A rt (-1) (callFull (logisticFl A lam)) gx gy = .ok M ∧ X.length = gx.x.length ∧
      Y.length = gy.x.length ∧
      ∀ i j Xi Wi Yj Wj, X[i.1]? = some Xi → WX[i.1]? = some Wi → Y[j.1]? = some Yj → WY[j.1]? = some Wj →
        |M (i, j) - logisticK lam Xi Yj * Real.sqrt Wi * Real.sqrt Wj| ≤ 31 * e * (Real.sqrt Wi * Real.sqrt Wj) := by
  obtain ⟨he0, hm1, he64, hleta⟩ := matrix_consts hA heta hue hl hsm
  refine matrix_near hA heta hue he64 hrt (c := 251 / 10) (B := 1) (by norm_num) (by norm_num) hx hy hxa.ge hxb.le hya.ge
    hyb.le ?_
  intro x X xf xb y Y _ hX1 hX2 hf hb hyY hy1 hy2 hY1 hY2 _
  rw [hxa, sub_neg_eq_add] at hf
  rw [hxb] at hb
  rw [hxa] at hX1
  rw [hxb] at hX2
  have hXa : |X| ≤ 1 := abs_le.2 ⟨hX1, hX2⟩
  have hA' : A.Ok e eta := hA.mono (by linarith)
  have h1 := (C75_logistic hA' (x := x) (xp := some xf) (xm := some xb) (y := y) hl hsm hXa (abs_le.2 ⟨hy1, hy2⟩)
    (by
      simp only [Option.getD_some]
      rw [add_comm 1 X]
      nlinarith) (by
      simp only [Option.getD_some]
      nlinarith)).2
  have h2 := logistic_lip hl hXa (abs_le.2 ⟨hY1, hY2⟩) hyY he0 hm1
  obtain ⟨h3, h4⟩ := logistic_le_one (X := X) (y := Y) hl hXa
  refine ⟨?_, by rw [abs_of_nonneg h3]; exact h4⟩
  refine (abs_sub_le _ (logisticK lam X y) _).trans ?_
  show |logisticFl A lam x y (some xf) (some xb) - _| + _ ≤ _
  linarith

/-- The even logistic kernel on `[0, 1] x [0, 1]`. -/
theorem C76_logistic_even {A : Arith} {u eta e lam : ℝ} (hA : A.Ok u eta) (heta : eta ≤ u ^ 2) (hue : 22 * u ≤ e)
    (hl : 0 ≤ lam) (hsm : 64 * (1 + lam) * (e + eta) ≤ 1)
    {rt : ℝ → ℝ} (hrt : ∀ w, 0 ≤ w → |rt w - Real.sqrt w| ≤ u * Real.sqrt w)
    {gx gy : Rule} {X WX Y WY : List ℝ} (hx : GridNear gx X WX u e) (hy : GridNear gy Y WY u e)
    (hxa : gx.a = 0) (hxb : gx.b = 1) (hya : gy.a = 0) (hyb : gy.b = 1) :
    ∃ M, matrixFl A rt 0 (callHalf (reducedFl A (logisticFl A lam) 1)) gx gy = .ok M ∧
      X.length = gx.x.length ∧ Y.length = gy.x.length ∧
      ∀ i j Xi Wi Yj Wj, X[i.1]? = some Xi → WX[i.1]? = some Wi → Y[j.1]? = some Yj → WY[j.1]? = some Wj →
        |M (i, j) - (logisticK lam Xi Yj + logisticK lam Xi (-Yj)) * Real.sqrt Wi * Real.sqrt Wj| ≤
          65 * e * (Real.sqrt Wi * Real.sqrt Wj) := by
  obtain ⟨he0, hm1, he64, hleta⟩ := matrix_consts hA heta hue hl hsm
  refine matrix_near (K := fun X Y => logisticK lam X Y + logisticK lam X (-Y)) hA heta hue he64 hrt (c := 541 / 10)
    (B := 2) (by norm_num) (by norm_num) hx hy hxa.ge hxb.le hya.ge hyb.le ?_
  intro x X xf xb y Y hxX hX1 hX2 hf hb hyY hy1 hy2 hY1 hY2 hY12
  rw [hxa, sub_zero] at hf
  rw [hxb] at hb
  rw [hxa] at hX1
  rw [hxb] at hX2
  have hXa : |X| ≤ 1 := abs_le.2 ⟨by linarith, hX2⟩
  have hYa : |Y| ≤ 1 := abs_le.2 ⟨by linarith, hY2⟩
  have hA' : A.Ok e eta := hA.mono (by linarith)
  have hp : |xf - X| ≤ e * (1 + X) := by linarith
  have hm : |(some xb).getD (A.sub 1 x) - (1 - X)| ≤ 3 * e * (1 - X) := by
    simp only [Option.getD_some]
    have := mul_nonneg he0 (by linarith : 0 ≤ 1 - X)
    linarith
  have hyY' : |(-y) - (-Y)| ≤ e * |-Y| := by
    rw [abs_neg, neg_sub_neg, abs_sub_comm]
    exact hyY
  have l1 := logistic_lip hl hXa hYa hyY he0 hm1
  have l2 := logistic_lip hl hXa (by rwa [abs_neg]) hyY' he0 hm1
  obtain ⟨p1, p2⟩ := logistic_le_one (X := X) (y := Y) hl hXa
  obtain ⟨p3, p4⟩ := logistic_le_one (X := X) (y := -Y) hl hXa
  obtain ⟨l3, l4⟩ := abs_le.1 l1
  obtain ⟨l5, l6⟩ := abs_le.1 l2
  have h1 := C75_logistic_reduced hA' (x := x) (y := y) (xm := some xb) hl hsm hX1 hX2 hy1 hy2 hp hm (sign := 1)
    (Or.inl rfl)
  rw [one_mul] at h1
  refine ⟨?_, abs_le.2 ⟨by linarith, by linarith⟩⟩
  show |reducedFl A (logisticFl A lam) 1 x y xf (some xb) - _| ≤ _
  obtain ⟨h2, h3⟩ := abs_le.1 h1
  exact abs_le.2 ⟨by linarith, by linarith⟩

/-- The odd logistic kernel. -/
theorem C76_logistic_odd {A : Arith} {u eta e lam : ℝ} (hA : A.Ok u eta) (heta : eta ≤ u ^ 2) (hue : 22 * u ≤ e)
    (hl : 0 ≤ lam) (hsm : 64 * (1 + lam) * (e + eta) ≤ 1) (he4 : e ≤ 1e-4)
    {rt : ℝ → ℝ} (hrt : ∀ w, 0 ≤ w → |rt w - Real.sqrt w| ≤ u * Real.sqrt w)
    {gx gy : Rule} {X WX Y WY : List ℝ} (hx : GridNear gx X WX u e) (hy : GridNear gy Y WY u e)
    (hxa : gx.a = 0) (hxb : gx.b = 1) (hya : gy.a = 0) (hyb : gy.b = 1) :
    ∃ M, matrixFl A rt 0 (callHalf (logisticOddFl A lam (-1))) gx gy = .ok M ∧
      X.length = gx.x.length ∧ Y.length = gy.x.length ∧
      ∀ i j Xi Wi Yj Wj, X[i.1]? = some Xi → WX[i.1]? = some Wi → Y[j.1]? = some Yj → WY[j.1]? = some Wj →
        |M (i, j) - (logisticK lam Xi Yj - logisticK lam Xi (-Yj)) * Real.sqrt Wi * Real.sqrt Wj| ≤
          120 * e * (Real.sqrt Wi * Real.sqrt Wj) := by
  obtain ⟨he0, hm1, he64, hleta⟩ := matrix_consts hA heta hue hl hsm
  have hu0 := hA.hu
  refine matrix_near (K := fun X Y => logisticK lam X Y - logisticK lam X (-Y)) hA heta hue he64 hrt (c := 1061 / 10)
    (B := 1) (by norm_num) (by norm_num) hx hy hxa.ge hxb.le hya.ge hyb.le ?_
  intro x X xf xb y Y hxX hX1 hX2 hf hb hyY hy1 hy2 hY1 hY2 hY12
  rw [hxa, sub_zero] at hf
  rw [hxb] at hb
  rw [hxa] at hX1
  rw [hxb] at hX2
  have hXa : |X| ≤ 1 := abs_le.2 ⟨by linarith, hX2⟩
  have hYa : |Y| ≤ 1 := abs_le.2 ⟨by linarith, hY2⟩
  have hA' : A.Ok e eta := hA.mono (by linarith)
  have hp : |xf - X| ≤ e * (1 + X) := by linarith
  have hm : |(some xb).getD (A.sub 1 x) - (1 - X)| ≤ 3 * e * (1 - X) := by
    simp only [Option.getD_some]
    have := mul_nonneg he0 (by linarith : 0 ≤ 1 - X)
    linarith
  have hyY' : |(-y) - (-Y)| ≤ e * |-Y| := by
    rw [abs_neg, neg_sub_neg, abs_sub_comm]
    exact hyY
  have l1 := logistic_lip hl hXa hYa hyY he0 hm1
  have l2 := logistic_lip hl hXa (by rwa [abs_neg]) hyY' he0 hm1
  obtain ⟨p1, p2⟩ := logistic_le_one (X := X) (y := Y) hl hXa
  obtain ⟨p3, p4⟩ := logistic_le_one (X := X) (y := -Y) hl hXa
  obtain ⟨l3, l4⟩ := abs_le.1 l1
  obtain ⟨l5, l6⟩ := abs_le.1 l2
  have hx3 : |x - X| ≤ 3 * e * X := by
    rw [abs_of_nonneg hX1] at hxX
    have := mul_nonneg he0 hX1
    linarith
  have h1 := (C75_logistic_odd hA' (x := x) (y := y) (xm := some xb) hl hsm he4 (by nlinarith) hX1 hX2 hy1 hy2 hx3 hp hm
    rfl).1
  refine ⟨?_, abs_le.2 ⟨by linarith, by linarith⟩⟩
  show |logisticOddFl A lam (-1) x y xf (some xb) - _| ≤ _
  obtain ⟨h2, h3⟩ := abs_le.1 h1
  exact abs_le.2 ⟨by linarith, by linarith⟩

/-- The regularised Bose kernel; the exact nodes of the frequency are not zero. -/
theorem C76_bose {A : Arith} {u eta e lam : ℝ} (hA : A.Ok u eta) (heta : eta ≤ u ^ 2) (hue : 22 * u ≤ e) (hu0 : 0 < u)
    (hl : 0 < lam) (hsm : 64 * (1 + lam) * (e + eta) ≤ 1) (hu1 : 1e-199 ≤ e) (heu : eta ≤ 1e-201 * e)
    (hel : (1 + lam) ^ 2 * eta ≤ u)
    {rt : ℝ → ℝ} (hrt : ∀ w, 0 ≤ w → |rt w - Real.sqrt w| ≤ u * Real.sqrt w)
    {gx gy : Rule} {X WX Y WY : List ℝ} (hx : GridNear gx X WX u e) (hy : GridNear gy Y WY u e)
    (hxa : gx.a = (-1)) (hxb : gx.b = 1) (hya : gy.a = (-1)) (hyb : gy.b = 1) :
    ∃ M, matrixFl A rt (-1) (callFull (boseFl A lam)) gx gy = .ok M ∧
      X.length = gx.x.length ∧ Y.length = gy.x.length ∧
      ∀ i j Xi Wi Yj Wj, X[i.1]? = some Xi → WX[i.1]? = some Wi → Y[j.1]? = some Yj → WY[j.1]? = some Wj →
        |M (i, j) - boseK lam Xi Yj * Real.sqrt Wi * Real.sqrt Wj| ≤
          31 * (1 + 1 / lam) * e * (Real.sqrt Wi * Real.sqrt Wj) := by
  obtain ⟨he0, hm1, he64, hleta⟩ := matrix_consts hA heta hue hl.le hsm
  have h0 := hA.heta
  have hS : 1 ≤ 1 + 1 / lam := by
    have := div_pos one_pos hl
    linarith
  have hle : lam * eta ≤ e := by nlinarith
  have hS2 : ((1 + lam) ^ 2 * (1 + 1 / lam)) * eta ≤ e / 22 * (1 + 1 / lam) := by
    have := mul_le_mul_of_nonneg_right (hel.trans (by linarith : u ≤ e / 22)) (by linarith : 0 ≤ 1 + 1 / lam)
    linarith
  have heS : e ≤ e * (1 + 1 / lam) := le_mul_of_one_le_right he0 hS
  refine matrix_near (K := fun X Y => boseK lam X Y) hA heta hue he64 hrt (c := 25 * (1 + 1 / lam))
    (B := 1 + 1 / lam) (by linarith) (by linarith) hx hy hxa.ge hxb.le hya.ge hyb.le ?_
  intro x X xf xb y Y _ hX1 hX2 hf hb hyY hy1 hy2 hY1 hY2 hY12
  rw [hxa, sub_neg_eq_add] at hf
  rw [hxb] at hb
  rw [hxa] at hX1
  rw [hxb] at hX2
  have hXa : |X| ≤ 1 := abs_le.2 ⟨hX1, hX2⟩
  have hYa : |Y| ≤ 1 := abs_le.2 ⟨hY1, hY2⟩
  have hA' : A.Ok e eta := hA.mono (by linarith)
  have hYne : Y ≠ 0 := by
    rintro rfl
    rw [abs_zero] at hY12
    linarith
  have h1 := (C75_bose hA' (x := x) (xp := some xf) (xm := some xb) (y := y) hl hsm hu1 heu hle hXa
    (abs_le.2 ⟨hy1, hy2⟩)
    (by
      simp only [Option.getD_some]
      rw [add_comm 1 X]
      nlinarith) (by
      simp only [Option.getD_some]
      nlinarith) (K := boseT lam X y) rfl).2
  have h2 := bose_lip hl hXa hYa hyY he0 hm1
  have h3 := bose_le hl hXa hYa
  have h4 := boseT_pos hl X Y
  have hT : boseT lam X Y = boseK lam X Y := if_neg hYne
  rw [hT] at h2 h3 h4
  refine ⟨?_, by rw [abs_of_pos h4]; exact h3⟩
  refine (abs_sub_le _ (boseT lam X y) _).trans ?_
  show |boseFl A lam x y (some xf) (some xb) - _| + _ ≤ _
  linarith

/-- The even Bose kernel. -/
theorem C76_bose_even {A : Arith} {u eta e lam : ℝ} (hA : A.Ok u eta) (heta : eta ≤ u ^ 2) (hue : 22 * u ≤ e) (hu0 : 0 < u)
    (hl : 0 < lam) (hsm : 64 * (1 + lam) * (e + eta) ≤ 1) (hu1 : 1e-199 ≤ e) (heu : eta ≤ 1e-201 * e)
    (hel : (1 + lam) ^ 2 * eta ≤ u)
    {rt : ℝ → ℝ} (hrt : ∀ w, 0 ≤ w → |rt w - Real.sqrt w| ≤ u * Real.sqrt w)
    {gx gy : Rule} {X WX Y WY : List ℝ} (hx : GridNear gx X WX u e) (hy : GridNear gy Y WY u e)
    (hxa : gx.a = 0) (hxb : gx.b = 1) (hya : gy.a = 0) (hyb : gy.b = 1) :
    ∃ M, matrixFl A rt 0 (callHalf (reducedFl A (boseFl A lam) 1)) gx gy = .ok M ∧
      X.length = gx.x.length ∧ Y.length = gy.x.length ∧
      ∀ i j Xi Wi Yj Wj, X[i.1]? = some Xi → WX[i.1]? = some Wi → Y[j.1]? = some Yj → WY[j.1]? = some Wj →
        |M (i, j) - (boseK lam Xi Yj + boseK lam Xi (-Yj)) * Real.sqrt Wi * Real.sqrt Wj| ≤
          66 * (1 + 1 / lam) * e * (Real.sqrt Wi * Real.sqrt Wj) := by
  obtain ⟨he0, hm1, he64, hleta⟩ := matrix_consts hA heta hue hl.le hsm
  have h0 := hA.heta
  have hS : 1 ≤ 1 + 1 / lam := by
    have := div_pos one_pos hl
    linarith
  have hle : lam * eta ≤ e := by nlinarith
  have hS2 : ((1 + lam) ^ 2 * (1 + 1 / lam)) * eta ≤ e / 22 * (1 + 1 / lam) := by
    have := mul_le_mul_of_nonneg_right (hel.trans (by linarith : u ≤ e / 22)) (by linarith : 0 ≤ 1 + 1 / lam)
    linarith
  have heS : e ≤ e * (1 + 1 / lam) := le_mul_of_one_le_right he0 hS
  refine matrix_near (K := fun X Y => boseK lam X Y + boseK lam X (-Y)) hA heta hue he64 hrt (c := 55 * (1 + 1 / lam))
    (B := 2 * (1 + 1 / lam)) (by linarith) (by linarith) hx hy hxa.ge hxb.le hya.ge hyb.le ?_
  intro x X xf xb y Y hxX hX1 hX2 hf hb hyY hy1 hy2 hY1 hY2 hY12
  rw [hxa, sub_zero] at hf
  rw [hxb] at hb
  rw [hxa] at hX1
  rw [hxb] at hX2
  have hXa : |X| ≤ 1 := abs_le.2 ⟨by linarith, hX2⟩
  have hYa : |Y| ≤ 1 := abs_le.2 ⟨by linarith, hY2⟩
  have hA' : A.Ok e eta := hA.mono (by linarith)
  have hp : |xf - X| ≤ e * (1 + X) := by linarith
  have hm : |(some xb).getD (A.sub 1 x) - (1 - X)| ≤ 3 * e * (1 - X) := by
    simp only [Option.getD_some]
    have := mul_nonneg he0 (by linarith : 0 ≤ 1 - X)
    linarith
  have hyY' : |(-y) - (-Y)| ≤ e * |-Y| := by
    rw [abs_neg, neg_sub_neg, abs_sub_comm]
    exact hyY
  have hYne : Y ≠ 0 := by
    rintro rfl
    rw [abs_zero] at hY12
    linarith
  have hY0 : 0 < Y := lt_of_le_of_ne hY1 (Ne.symm hYne)
  have hy0 : 0 < y := by
    rw [abs_of_pos hY0] at hyY
    have := (abs_le.1 hyY).1
    have := mul_le_mul_of_nonneg_right he64 hY0.le
    linarith
  have hT : ∀ z : ℝ, z ≠ 0 → boseT lam X z = boseK lam X z := fun z hz => if_neg hz
  have l1 := bose_lip hl hXa hYa hyY he0 hm1
  have l2 := bose_lip hl hXa (by rwa [abs_neg]) hyY' he0 hm1
  have p1 := boseT_pos hl X Y
  have p2 := bose_le hl hXa hYa
  have p3 := boseT_pos hl X (-Y)
  have p4 := bose_le hl hXa (by rwa [abs_neg] : |-Y| ≤ 1)
  rw [hT _ hYne] at l1 p1 p2
  rw [hT _ (neg_ne_zero.2 hYne)] at l2 p3 p4
  rw [hT _ hy0.ne'] at l1
  rw [hT _ (neg_ne_zero.2 hy0.ne')] at l2
  obtain ⟨l3, l4⟩ := abs_le.1 l1
  obtain ⟨l5, l6⟩ := abs_le.1 l2
  have h1 := C75_bose_reduced hA' (x := x) (y := y) (xm := some xb) hl hsm hu1 heu hle hX1 hX2 hy0 hy2 hp hm (sign := 1)
    (Or.inl rfl)
  rw [one_mul] at h1
  refine ⟨?_, abs_le.2 ⟨by linarith, by linarith⟩⟩
  show |reducedFl A (boseFl A lam) 1 x y xf (some xb) - _| ≤ _
  obtain ⟨h2, h3⟩ := abs_le.1 h1
  exact abs_le.2 ⟨by linarith, by linarith⟩

/-- The odd Bose kernel. -/
theorem C76_bose_odd {A : Arith} {u eta e lam : ℝ} (hA : A.Ok u eta) (heta : eta ≤ u ^ 2) (hue : 22 * u ≤ e) (hu0 : 0 < u)
    (hl : 0 < lam) (hsm : 64 * (1 + lam) * (e + eta) ≤ 1) (hu1 : 1e-199 ≤ e) (heu : eta ≤ 1e-240 * e)
    (hel : (1 + lam) ^ 2 * eta ≤ u) (he4 : e ≤ 1e-4)
    {rt : ℝ → ℝ} (hrt : ∀ w, 0 ≤ w → |rt w - Real.sqrt w| ≤ u * Real.sqrt w)
    {gx gy : Rule} {X WX Y WY : List ℝ} (hx : GridNear gx X WX u e) (hy : GridNear gy Y WY u e)
    (hxa : gx.a = 0) (hxb : gx.b = 1) (hya : gy.a = 0) (hyb : gy.b = 1) :
    ∃ M, matrixFl A rt 0 (callHalf (boseOddFl A lam (-1))) gx gy = .ok M ∧
      X.length = gx.x.length ∧ Y.length = gy.x.length ∧
      ∀ i j Xi Wi Yj Wj, X[i.1]? = some Xi → WX[i.1]? = some Wi → Y[j.1]? = some Yj → WY[j.1]? = some Wj →
        |M (i, j) - (boseK lam Xi Yj - boseK lam Xi (-Yj)) * Real.sqrt Wi * Real.sqrt Wj| ≤
          128 * (1 + 1 / lam) * e * (Real.sqrt Wi * Real.sqrt Wj) := by
  obtain ⟨he0, hm1, he64, hleta⟩ := matrix_consts hA heta hue hl.le hsm
  have h0 := hA.heta
  have hS : 1 ≤ 1 + 1 / lam := by
    have := div_pos one_pos hl
    linarith
  have hle : lam * eta ≤ e := by nlinarith
  have hS2 : ((1 + lam) ^ 2 * (1 + 1 / lam)) * eta ≤ e / 22 * (1 + 1 / lam) := by
    have := mul_le_mul_of_nonneg_right (hel.trans (by linarith : u ≤ e / 22)) (by linarith : 0 ≤ 1 + 1 / lam)
    linarith
  have heS : e ≤ e * (1 + 1 / lam) := le_mul_of_one_le_right he0 hS
  refine matrix_near (K := fun X Y => boseK lam X Y - boseK lam X (-Y)) hA heta hue he64 hrt (c := 111 * (1 + 1 / lam))
    (B := 2 * (1 + 1 / lam)) (by linarith) (by linarith) hx hy hxa.ge hxb.le hya.ge hyb.le ?_
  intro x X xf xb y Y hxX hX1 hX2 hf hb hyY hy1 hy2 hY1 hY2 hY12
  rw [hxa, sub_zero] at hf
  rw [hxb] at hb
  rw [hxa] at hX1
  rw [hxb] at hX2
  have hXa : |X| ≤ 1 := abs_le.2 ⟨by linarith, hX2⟩
  have hYa : |Y| ≤ 1 := abs_le.2 ⟨by linarith, hY2⟩
  have hA' : A.Ok e eta := hA.mono (by linarith)
  have hp : |xf - X| ≤ e * (1 + X) := by linarith
  have hm : |(some xb).getD (A.sub 1 x) - (1 - X)| ≤ 3 * e * (1 - X) := by
    simp only [Option.getD_some]
    have := mul_nonneg he0 (by linarith : 0 ≤ 1 - X)
    linarith
  have hyY' : |(-y) - (-Y)| ≤ e * |-Y| := by
    rw [abs_neg, neg_sub_neg, abs_sub_comm]
    exact hyY
  have hYne : Y ≠ 0 := by
    rintro rfl
    rw [abs_zero] at hY12
    linarith
  have hY0 : 0 < Y := lt_of_le_of_ne hY1 (Ne.symm hYne)
  have hy0 : 0 < y := by
    rw [abs_of_pos hY0] at hyY
    have := (abs_le.1 hyY).1
    have := mul_le_mul_of_nonneg_right he64 hY0.le
    linarith
  have hT : ∀ z : ℝ, z ≠ 0 → boseT lam X z = boseK lam X z := fun z hz => if_neg hz
  have l1 := bose_lip hl hXa hYa hyY he0 hm1
  have l2 := bose_lip hl hXa (by rwa [abs_neg]) hyY' he0 hm1
  have p1 := boseT_pos hl X Y
  have p2 := bose_le hl hXa hYa
  have p3 := boseT_pos hl X (-Y)
  have p4 := bose_le hl hXa (by rwa [abs_neg] : |-Y| ≤ 1)
  rw [hT _ hYne] at l1 p1 p2
  rw [hT _ (neg_ne_zero.2 hYne)] at l2 p3 p4
  rw [hT _ hy0.ne'] at l1
  rw [hT _ (neg_ne_zero.2 hy0.ne')] at l2
  obtain ⟨l3, l4⟩ := abs_le.1 l1
  obtain ⟨l5, l6⟩ := abs_le.1 l2
  have hx3 : |x - X| ≤ 3 * e * X := by
    rw [abs_of_nonneg hX1] at hxX
    have := mul_nonneg he0 hX1
    linarith
  have h1 := (C75_bose_odd hA' (x := x) (y := y) (xm := some xb) hl hsm hu1 heu hle he4 hX1 hX2 hy0 hy2 hx3 hp hm
    rfl).1
  refine ⟨?_, abs_le.2 ⟨by linarith, by linarith⟩⟩
  show |boseOddFl A lam (-1) x y xf (some xb) - _| ≤ _
  obtain ⟨h2, h3⟩ := abs_le.1 h1
  exact abs_le.2 ⟨by linarith, by linarith⟩

theorem exists_ofFn {n : ℕ} {l : List ℝ} (h : l.length = n) :
    ∃ X : Fin n → ℝ, List.ofFn X = l ∧ ∀ i : Fin n, l[i.1]? = some (X i) := by
  subst h
  exact ⟨l.get, List.ofFn_get l, fun i => List.getElem?_eq_getElem i.2⟩

theorem compositeWeights_sum (ws : List ℝ) : ∀ (l : List ℝ) (a b eN : ℝ), (b :: l).getLast? = some eN →
    (compositeWeights ws (a :: b :: l)).sum = (eN - a) / 2 * ws.sum := by
  intro l
  induction l with
  | nil =>
    intro a b eN h
    obtain rfl : b = eN := by simpa using h
    simp only [compositeWeights, List.tail_cons, List.zip_cons_cons, List.zip_nil_right, List.map_cons, List.map_nil,
      List.flatten_cons, List.flatten_nil, List.append_nil]
    rw [List.sum_map_mul_left, List.map_id']
  | cons c l ih =>
    intro a b eN h
    have h1 := ih b c eN (by rwa [List.getLast?_cons_cons] at h)
    have h2 : compositeWeights ws (a :: b :: c :: l) =
        (ws.map fun W => (b - a) / 2 * W) ++ compositeWeights ws (b :: c :: l) := rfl
    rw [h2, List.sum_append, h1, List.sum_map_mul_left, List.map_id']
    ring

theorem composite_length {ts ws : List ℝ} (h : ts.length = ws.length) (edges : List ℝ) :
    (compositeNodes ts edges).length = (compositeWeights ws edges).length := by
  simp [compositeNodes, compositeWeights, List.length_flatten, Function.comp_def, h]

theorem frobenius_le {m n : ℕ} {E : Fin m → Fin n → ℝ} {W : Fin m → ℝ} {V : Fin n → ℝ} {c : ℝ} (hW : ∀ i, 0 ≤ W i)
    (hV : ∀ j, 0 ≤ V j) (h : ∀ i j, |E i j| ≤ c * (Real.sqrt (W i) * Real.sqrt (V j))) :
    ∑ i, ∑ j, E i j ^ 2 ≤ c ^ 2 * ((∑ i, W i) * ∑ j, V j) := by
  rw [Finset.sum_mul_sum, Finset.mul_sum]
  refine Finset.sum_le_sum fun i _ => ?_
  rw [Finset.mul_sum]
  refine Finset.sum_le_sum fun j _ => ?_
  have h1 := pow_le_pow_left₀ (abs_nonneg _) (h i j) 2
  rw [sq_abs, mul_pow, mul_pow, Real.sq_sqrt (hW i), Real.sq_sqrt (hV j)] at h1
  exact h1

/-- `SamplingSVE` with the rule `R` and the given segments computes the matrix of the kernel `call`, and it differs in the
Frobenius norm by at most `err` from that of the function `K` with the exact nodes and weights of the composite rule. -/
def SamplingWithin (A : Arith) (rt : ℝ → ℝ) (lo : ℝ) (call : ℝ → ℝ → ℝ → ℝ → ℝ) (K : ℝ → ℝ → ℝ) (R : Rule)
    (ts ws ex ey : List ℝ) (err : ℝ) : Prop :=
  ∃ gx gy M, R.piecewiseFl A ex = .ok gx ∧ R.piecewiseFl A ey = .ok gy ∧ matrixFl A rt lo call gx gy = .ok M ∧
    ∃ X W : Fin gx.x.length → ℝ, ∃ Y V : Fin gy.x.length → ℝ,
      List.ofFn X = compositeNodes ts ex ∧ List.ofFn W = compositeWeights ws ex ∧
      List.ofFn Y = compositeNodes ts ey ∧ List.ofFn V = compositeWeights ws ey ∧
      ∑ i, ∑ j, (M (i, j) - nodeMatrix K X W Y V i j) ^ 2 ≤ err ^ 2

theorem sampling_within {A : Arith} {u eta d r lo C : ℝ} (hA : A.Ok u eta) (hu : u ≤ 1 / 1000) (heta : eta ≤ u ^ 2)
    (hd0 : 0 ≤ d) (hd : d ≤ 1 / 100) (hr : 22 * u ≤ r) {rt : ℝ → ℝ} {R : Rule} {ts ws : List ℝ}
    (hR : RuleNear R ts ws d) (hlen : ts.length = ws.length) (hws : ws.sum = 2)
    {bx byy : ℝ} {lx ly : List ℝ} (hX : Resolved u r ts ws (lo :: bx :: lx)) (hY : Resolved u r ts ws (lo :: byy :: ly))
    (hX1 : (bx :: lx).getLast? = some 1) (hY1 : (byy :: ly).getLast? = some 1)
    {call : ℝ → ℝ → ℝ → ℝ → ℝ} {K : ℝ → ℝ → ℝ}
    (hm : ∀ {gx gy : Rule} {X WX Y WY : List ℝ}, GridNear gx X WX u (d + r) → GridNear gy Y WY u (d + r) →
      gx.a = lo → gx.b = 1 → gy.a = lo → gy.b = 1 →
      ∃ M, matrixFl A rt lo call gx gy = .ok M ∧ X.length = gx.x.length ∧ Y.length = gy.x.length ∧
      ∀ i j Xi Wi Yj Wj, X[i.1]? = some Xi → WX[i.1]? = some Wi → Y[j.1]? = some Yj → WY[j.1]? = some Wj →
        |M (i, j) - K Xi Yj * Real.sqrt Wi * Real.sqrt Wj| ≤ C * (Real.sqrt Wi * Real.sqrt Wj)) :
    SamplingWithin A rt lo call K R ts ws (lo :: bx :: lx) (lo :: byy :: ly) (C * (1 - lo)) := by
  have hu0 := hA.hu
  obtain ⟨gx, hgx, hxa, hxb, hx⟩ := C76_piecewise hA hu heta hd0 hd hr hR hX hX1
  obtain ⟨gy, hgy, hya, hyb, hy⟩ := C76_piecewise hA hu heta hd0 hd hr hR hY hY1
  obtain ⟨M, hM, lx', ly', hent⟩ := hm hx hy hxa hxb hya hyb
  obtain ⟨X, hX2, hX3⟩ := exists_ofFn lx'
  obtain ⟨Y, hY2, hY3⟩ := exists_ofFn ly'
  obtain ⟨W, hW2, hW3⟩ := exists_ofFn ((composite_length hlen _).symm.trans lx')
  obtain ⟨V, hV2, hV3⟩ := exists_ofFn ((composite_length hlen _).symm.trans ly')
  refine ⟨gx, gy, M, hgx, hgy, hM, X, W, Y, V, hX2, hW2, hY2, hV2, ?_⟩
  have hW0 : ∀ i, 0 ≤ W i := fun i => by
    obtain ⟨w, -, -, h⟩ := forall₂_getElem? hx.w (hW3 i)
    linarith
  have hV0 : ∀ j, 0 ≤ V j := fun j => by
    obtain ⟨w, -, -, h⟩ := forall₂_getElem? hy.w (hV3 j)
    linarith
  have h1 := frobenius_le hW0 hV0 fun i j => hent i j _ _ _ _ (hX3 i) (hW3 i) (hY3 j) (hV3 j)
  have hs1 : ∑ i, W i = 1 - lo := by
    rw [← List.sum_ofFn, hW2, compositeWeights_sum ws _ _ _ _ hX1, hws]
    ring
  have hs2 : ∑ j, V j = 1 - lo := by
    rw [← List.sum_ofFn, hV2, compositeWeights_sum ws _ _ _ _ hY1, hws]
    ring
  rw [hs1, hs2] at h1
  refine h1.trans (le_of_eq ?_)
  ring

/-- From the rule on `[-1, 1]` to the matrices of the logistic kernel: the error of the matrix which `SamplingSVE` computes
is a small multiple of `e = d + r`, whatever the cutoff, the number of segments and the size of the matrix are.
`ex`, `ey` are segments of `[-1, 1]` and `fx`, `fy` of `[0, 1]`, for the even and the odd kernel of `CentrosymmSVE`. -/
theorem C76_sampling {A : Arith} {u eta d r lam : ℝ} (hA : A.Ok u eta) (hu : u ≤ 1 / 1000) (heta : eta ≤ u ^ 2)
    (hd0 : 0 ≤ d) (hd : d ≤ 1 / 100) (hr : 22 * u ≤ r) (hl : 0 ≤ lam) (hsm : 64 * (1 + lam) * (d + r + eta) ≤ 1)
    {rt : ℝ → ℝ} (hrt : ∀ w, 0 ≤ w → |rt w - Real.sqrt w| ≤ u * Real.sqrt w)
    {R : Rule} {ts ws : List ℝ} (hR : RuleNear R ts ws d) (hlen : ts.length = ws.length) (hws : ws.sum = 2)
    {bx byy : ℝ} {lx ly : List ℝ} (hX1 : (bx :: lx).getLast? = some 1) (hY1 : (byy :: ly).getLast? = some 1) :
    (Resolved u r ts ws (-1 :: bx :: lx) → Resolved u r ts ws (-1 :: byy :: ly) →
      SamplingWithin A rt (-1) (callFull (logisticFl A lam)) (logisticK lam) R ts ws (-1 :: bx :: lx) (-1 :: byy :: ly)
        (62 * (d + r))) ∧
    (Resolved u r ts ws (0 :: bx :: lx) → Resolved u r ts ws (0 :: byy :: ly) →
      SamplingWithin A rt 0 (callHalf (reducedFl A (logisticFl A lam) 1))
        (fun x y => logisticK lam x y + logisticK lam x (-y)) R ts ws (0 :: bx :: lx) (0 :: byy :: ly) (65 * (d + r))) ∧
    (Resolved u r ts ws (0 :: bx :: lx) → Resolved u r ts ws (0 :: byy :: ly) → d + r ≤ 1e-4 →
      SamplingWithin A rt 0 (callHalf (logisticOddFl A lam (-1)))
        (fun x y => logisticK lam x y - logisticK lam x (-y)) R ts ws (0 :: bx :: lx) (0 :: byy :: ly)
        (120 * (d + r))) := by
  refine ⟨fun h1 h2 => ?_, fun h1 h2 => ?_, fun h1 h2 h4 => ?_⟩
  · have := sampling_within (K := logisticK lam) (C := 31 * (d + r)) hA hu heta hd0 hd hr (rt := rt) hR hlen hws h1 h2 hX1 hY1
      fun hx hy a b c d => C76_logistic hA heta (by linarith) hl hsm hrt hx hy a b c d
    rwa [show 31 * (d + r) * (1 - -1) = 62 * (d + r) by ring] at this
  · have := sampling_within (K := fun x y => logisticK lam x y + logisticK lam x (-y)) (C := 65 * (d + r)) hA hu heta hd0 hd hr
      (rt := rt) hR hlen hws h1 h2 hX1 hY1
      fun hx hy a b c d => C76_logistic_even hA heta (by linarith) hl hsm hrt hx hy a b c d
    rwa [sub_zero, mul_one] at this
  · have := sampling_within (K := fun x y => logisticK lam x y - logisticK lam x (-y)) (C := 120 * (d + r)) hA hu heta hd0 hd hr
      (rt := rt) hR hlen hws h1 h2 hX1 hY1
      fun hx hy a b c d => C76_logistic_odd hA heta (by linarith) hl hsm h4 hrt hx hy a b c d
    rwa [sub_zero, mul_one] at this

/-- The same for the regularised Bose kernel; all bounds have the factor `1 + 1/Λ`. -/
theorem C76_sampling_bose {A : Arith} {u eta d r lam : ℝ} (hA : A.Ok u eta) (hu : u ≤ 1 / 1000) (heta : eta ≤ u ^ 2)
    (hd0 : 0 ≤ d) (hd : d ≤ 1 / 100) (hr : 22 * u ≤ r) (hu0 : 0 < u) (hl : 0 < lam)
    (hsm : 64 * (1 + lam) * (d + r + eta) ≤ 1) (hu1 : 1e-199 ≤ d + r) (heu : eta ≤ 1e-240 * (d + r))
    (hel : (1 + lam) ^ 2 * eta ≤ u)
    {rt : ℝ → ℝ} (hrt : ∀ w, 0 ≤ w → |rt w - Real.sqrt w| ≤ u * Real.sqrt w)
    {R : Rule} {ts ws : List ℝ} (hR : RuleNear R ts ws d) (hlen : ts.length = ws.length) (hws : ws.sum = 2)
    {bx byy : ℝ} {lx ly : List ℝ} (hX1 : (bx :: lx).getLast? = some 1) (hY1 : (byy :: ly).getLast? = some 1) :
    (Resolved u r ts ws (-1 :: bx :: lx) → Resolved u r ts ws (-1 :: byy :: ly) →
      SamplingWithin A rt (-1) (callFull (boseFl A lam)) (boseK lam) R ts ws (-1 :: bx :: lx) (-1 :: byy :: ly)
        (62 * (1 + 1 / lam) * (d + r))) ∧
    (Resolved u r ts ws (0 :: bx :: lx) → Resolved u r ts ws (0 :: byy :: ly) →
      SamplingWithin A rt 0 (callHalf (reducedFl A (boseFl A lam) 1))
        (fun x y => boseK lam x y + boseK lam x (-y)) R ts ws (0 :: bx :: lx) (0 :: byy :: ly)
        (66 * (1 + 1 / lam) * (d + r))) ∧
    (Resolved u r ts ws (0 :: bx :: lx) → Resolved u r ts ws (0 :: byy :: ly) → d + r ≤ 1e-4 →
      SamplingWithin A rt 0 (callHalf (boseOddFl A lam (-1)))
        (fun x y => boseK lam x y - boseK lam x (-y)) R ts ws (0 :: bx :: lx) (0 :: byy :: ly)
        (128 * (1 + 1 / lam) * (d + r))) := by
  have hdr : 0 ≤ d + r := by linarith
  have heu' : eta ≤ 1e-201 * (d + r) := heu.trans (mul_le_mul_of_nonneg_right (by norm_num) hdr)
  refine ⟨fun h1 h2 => ?_, fun h1 h2 => ?_, fun h1 h2 h4 => ?_⟩
  · have := sampling_within (K := boseK lam) (C := 31 * (1 + 1 / lam) * (d + r)) hA hu heta hd0 hd hr (rt := rt) hR hlen hws h1
      h2 hX1 hY1 fun hx hy a b c d => C76_bose hA heta (by linarith) hu0 hl hsm hu1 heu' hel hrt hx hy a b c d
    rwa [show 31 * (1 + 1 / lam) * (d + r) * (1 - -1) = 62 * (1 + 1 / lam) * (d + r) by ring] at this
  · have := sampling_within (K := fun x y => boseK lam x y + boseK lam x (-y)) (C := 66 * (1 + 1 / lam) * (d + r)) hA hu heta hd0
      hd hr (rt := rt) hR hlen hws h1 h2 hX1 hY1
      fun hx hy a b c d => C76_bose_even hA heta (by linarith) hu0 hl hsm hu1 heu' hel hrt hx hy a b c d
    rwa [sub_zero, mul_one] at this
  · have := sampling_within (K := fun x y => boseK lam x y - boseK lam x (-y)) (C := 128 * (1 + 1 / lam) * (d + r)) hA hu heta hd0
      hd hr (rt := rt) hR hlen hws h1 h2 hX1 hY1
      fun hx hy a b c d => C76_bose_odd hA heta (by linarith) hu0 hl hsm hu1 heu hel h4 hrt hx hy a b c d
    rwa [sub_zero, mul_one] at this

/-- Non-vacuity: two nodes per segment, two segments. -/
theorem resolved_two : Resolved 1e-16 1e-14 [-1 / 2, 1 / 2] [1, 1] [-1, 0, 1] where
  asc := by norm_num
  unit := by simp
  side := by simp
  inside := by
    intro t ht
    simp only [List.mem_cons, List.not_mem_nil, or_false] at ht
    rcases ht with rfl | rfl <;> rw [abs_le] <;> norm_num
  wpos := by norm_num
  sep := by
    intro p hp t ht
    simp only [List.tail_cons, List.zip_cons_cons, List.zip_nil_right, List.mem_cons, List.not_mem_nil, or_false] at hp ht
    rcases hp with rfl | rfl <;> rcases ht with rfl | rfl <;> norm_num
  wsep := by
    intro p hp t ht
    simp only [List.tail_cons, List.zip_cons_cons, List.zip_nil_right, List.mem_cons, List.not_mem_nil, or_false] at hp ht
    rcases hp with rfl | rfl <;> rcases ht with rfl | rfl <;> norm_num
  rel := by
    intro t ht
    simp only [List.mem_cons, List.not_mem_nil, or_false] at ht
    rcases ht with rfl | rfl <;> norm_num

theorem near_two : RuleNear ⟨[-1 / 2, 1 / 2], [1, 1], [1 / 2, 3 / 2], [3 / 2, 1 / 2], -1, 1⟩ [-1 / 2, 1 / 2] [1, 1] 0 := by
  constructor <;> norm_num

/-- With an arithmetic which rounds. -/
example : SamplingWithin (absorbing 1e-16) Real.sqrt (-1) (callFull (logisticFl (absorbing 1e-16) 1000)) (logisticK 1000)
    ⟨[-1 / 2, 1 / 2], [1, 1], [1 / 2, 3 / 2], [3 / 2, 1 / 2], -1, 1⟩ [-1 / 2, 1 / 2] [1, 1] [-1, 0, 1] [-1, 0, 1]
    (62 * (0 + 1e-14)) :=
  (C76_sampling (absorbing_ok (u := 1e-16) (eta := 1e-200) (by norm_num) (by norm_num)) (by norm_num) (by norm_num) le_rfl
    (by norm_num) (by norm_num) (by norm_num) (by norm_num)
    (fun w _ => by rw [sub_self, abs_zero]; have := Real.sqrt_nonneg w; positivity) near_two rfl (by norm_num) rfl rfl).1
    resolved_two resolved_two

end Verif.Props
