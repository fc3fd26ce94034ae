import Verif.Lemmas.RelError
import Verif.Model.GaussFl
import Mathlib.Data.List.Forall2
/-! Errors of quadrature rules in floating-point arithmetic. -/

namespace Verif.Kernel
open Verif.Gauss

section Segment
variable {A : Arith} {u eta a b s t d : ℝ}

/-- The factor of `reseat`. -/
theorem scaling_error (hA : A.Ok u eta) (hu : u ≤ 1 / 1000) (he : eta ≤ u ^ 2) (hs : s = (b - a) / 2) (h6 : 6 * u ≤ s) :
    Rel (5 * u) (A.div (A.sub b a) (A.sub 1 (-1))) s := by
  have hu0 := hA.hu
  have h1 := hA.rel_sub b a
  have h2 := hA.rel_sub 1 (-1)
  rw [show (1 : ℝ) - -1 = 2 by norm_num] at h2
  have h3 := h1.div h2 (by linarith) hu0
  rw [← hs] at h3
  have huu : u * u ≤ u * (1 / 1000) := mul_le_mul_of_nonneg_left hu hu0
  have h3' : Rel (22 / 10 * u) (A.sub b a / A.sub 1 (-1)) s := h3.mono (by nlinarith)
  have hs0 : 0 ≤ s := by linarith
  have hpos : s / 2 ≤ |A.sub b a / A.sub 1 (-1)| := by
    have h4 := h3'
    unfold Rel at h4
    rw [abs_of_nonneg hs0] at h4
    have h5 := (_root_.abs_le.1 h4).1
    have h6 := le_abs_self (A.sub b a / A.sub 1 (-1))
    have : 22 / 10 * u * s ≤ 1 / 2 * s := mul_le_mul_of_nonneg_right (by linarith) hs0
    linarith
  have hne : A.sub 1 (-1) ≠ 0 := by
    intro h0
    unfold Rel at h2
    rw [h0] at h2
    norm_num at h2
    linarith
  have h7 := hA.rel_div hne (by
    have := mul_le_mul_of_nonneg_left hpos hu0
    have := mul_le_mul_of_nonneg_left h6 hu0
    nlinarith : eta ≤ u * |A.sub b a / A.sub 1 (-1)|)
  exact (h3'.trans h7 (by linarith)).mono (by nlinarith)

/-- Rescaled quantities of `reseat`. -/
theorem rescaled_error (hA : A.Ok u eta) (hu : u ≤ 1 / 1000) (he : eta ≤ u ^ 2) (hd0 : 0 ≤ d) (hd : d ≤ 1 / 100)
    {z Z s' : ℝ} (hs' : Rel (5 * u) s' s) (hz : Rel d z Z) (hsm : 12 * u ≤ s * Z) (hs : 0 ≤ s) (hZ : 0 ≤ Z) :
    Rel (d + 72 / 10 * u) (A.mul z s') (s * Z) := by
  have hu0 := hA.hu
  have huu : u * u ≤ u * (1 / 1000) := mul_le_mul_of_nonneg_left hu hu0
  have hud : u * d ≤ u * (1 / 100) := mul_le_mul_of_nonneg_left hd hu0
  have h1 := hz.mul hs' (by linarith)
  have h1' : Rel (d + 51 / 10 * u) (z * s') (s * Z) := by
    rw [mul_comm s Z]
    exact h1.mono (by nlinarith)
  have hP : 0 ≤ s * Z := mul_nonneg hs hZ
  have h2 : s * Z / 2 ≤ |z * s'| := by
    have h4 := h1'
    unfold Rel at h4
    rw [abs_of_nonneg hP] at h4
    have h5 := (_root_.abs_le.1 h4).1
    have h6 := le_abs_self (z * s')
    have : (d + 51 / 10 * u) * (s * Z) ≤ 1 / 2 * (s * Z) := mul_le_mul_of_nonneg_right (by linarith) hP
    linarith
  have h3 := hA.rel_mul (by
    have := mul_le_mul_of_nonneg_left h2 hu0
    have := mul_le_mul_of_nonneg_left hsm hu0
    nlinarith : eta ≤ u * |z * s'|)
  exact (h1'.trans h3 (by linarith)).mono (by nlinarith)

/-- Distances from the ends of all segments. -/
theorem shifted_error (hA : A.Ok u eta) (hu : u ≤ 1 / 1000) (hd0 : 0 ≤ d) (hd : d ≤ 1 / 100) {z Z p q : ℝ}
    (hz : Rel (d + 72 / 10 * u) z Z) (hZ : 0 ≤ Z) (hpq : 0 ≤ p - q) :
    Rel (d + 9 * u) (A.add z (A.sub p q)) (Z + (p - q)) := by
  have hu0 := hA.hu
  have huu : u * u ≤ u * (1 / 1000) := mul_le_mul_of_nonneg_left hu hu0
  have hud : u * d ≤ u * (1 / 100) := mul_le_mul_of_nonneg_left hd hu0
  have h1 := hz.add ((hA.rel_sub p q).mono (by linarith)) hZ hpq
  exact (h1.trans (hA.rel_add _ _) hu0).mono (by nlinarith)

/-- The nodes of `reseat`. -/
theorem node_error (hA : A.Ok u eta) (hu : u ≤ 1 / 1000) (he : eta ≤ u ^ 2) {s' x m : ℝ} (hs : s = (b - a) / 2)
    (hs' : Rel (5 * u) s' s) (h6 : 6 * u ≤ s) (ht : |t| ≤ 1) (hx : |x - t| ≤ d) (hd : d ≤ 1 / 50) (ha : |a| ≤ m)
    (hb : |b| ≤ m) :
    |A.add (A.mul s' (A.sub x (A.div (A.add 1 (-1)) 2))) (A.div (A.add b a) 2) - (s * t + (b + a) / 2)| ≤
      s * d + 11 * u * m := by
  have hu0 := hA.hu
  have he0 := hA.heta
  have hs0 : 0 ≤ s := by linarith
  have hd0 : 0 ≤ d := (abs_nonneg _).trans hx
  have hsm : s ≤ m := by
    have := le_abs_self b
    have := neg_abs_le a
    rw [hs]
    linarith
  have hm0 : 0 ≤ m := hs0.trans hsm
  have hue : eta ≤ u * (1 / 1000) := by nlinarith
  have hum : eta ≤ u * m * (1 / 6) := by nlinarith
  have hz0 : A.add 1 (-1) = 0 := by
    have := hA.add 1 (-1)
    norm_num at this
    exact this
  rw [hz0]
  have hm1 := hA.div 0 2 (by norm_num)
  rw [zero_div, abs_zero, mul_zero, zero_add, sub_zero] at hm1
  set m0 := A.div 0 2 with hm0'
  -- x - m0
  have hz := hA.sub x m0
  set z := A.sub x m0
  have hxm : |x - m0| ≤ 1 + d + eta := by
    have h1 : x - m0 = t + (x - t) + -m0 := by ring
    rw [h1]
    refine (abs_add_le _ _).trans ?_
    rw [abs_neg]
    have := abs_add_le t (x - t)
    linarith
  have hzt : |z - t| ≤ d + 11 / 10 * u := by
    have h1 : z - t = (z - (x - m0)) + (x - t) + -m0 := by ring
    rw [h1]
    refine (abs_add_le _ _).trans ?_
    rw [abs_neg]
    have h2 := abs_add_le (z - (x - m0)) (x - t)
    have h3 := mul_le_mul_of_nonneg_left hxm hu0
    have h4 : u * (1 + d + eta) ≤ u * (1 + 1 / 50 + 1 / 1000) :=
      mul_le_mul_of_nonneg_left (by linarith [mul_le_mul_of_nonneg_right hu (by norm_num : (0 : ℝ) ≤ 1 / 1000)]) hu0
    linarith
  have hzabs : |z| ≤ 103 / 100 := by
    have h1 : z = t + (z - t) := by ring
    rw [h1]
    refine (abs_add_le _ _).trans ?_
    linarith
  -- s' * z
  have hp := hA.mul s' z
  set p := A.mul s' z
  have hs'' := hs'
  unfold Rel at hs''
  rw [abs_of_nonneg hs0] at hs''
  have hs'abs : |s'| ≤ 101 / 100 * s := by
    have := hs'.abs_le
    rw [abs_of_nonneg hs0] at this
    refine this.trans (mul_le_mul_of_nonneg_right (by linarith) hs0)
  have hprod : |s' * z| ≤ 105 / 100 * s := by
    rw [abs_mul]
    calc |s'| * |z| ≤ 101 / 100 * s * (103 / 100) := mul_le_mul hs'abs hzabs (abs_nonneg _) (by positivity)
      _ ≤ 105 / 100 * s := by linarith
  have hpt : |p - s * t| ≤ s * d + 74 / 10 * (u * m) + eta := by
    have h1 : p - s * t = (p - s' * z) + (s' - s) * z + s * (z - t) := by ring
    rw [h1]
    refine (abs_add_le _ _).trans ?_
    have h2 := abs_add_le (p - s' * z) ((s' - s) * z)
    have h3 : |(s' - s) * z| ≤ 5 * u * s * (103 / 100) := by
      rw [abs_mul]
      exact mul_le_mul hs'' hzabs (abs_nonneg _) (by positivity)
    have h4 : |s * (z - t)| ≤ s * (d + 11 / 10 * u) := by
      rw [abs_mul, abs_of_nonneg hs0]
      exact mul_le_mul_of_nonneg_left hzt hs0
    have h5 := mul_le_mul_of_nonneg_left hprod hu0
    have h6 := mul_le_mul_of_nonneg_left hsm hu0
    linarith
  -- (b + a) / 2
  have hc := hA.add b a
  set c := A.add b a
  have hcabs : |b + a| ≤ 2 * m := (abs_add_le _ _).trans (by linarith)
  have hc1 : |c - (b + a)| ≤ 2 * (u * m) := hc.trans (by
    have := mul_le_mul_of_nonneg_left hcabs hu0
    linarith)
  have humm : u * (u * m) ≤ 1 / 1000 * (u * m) := mul_le_mul_of_nonneg_right hu (mul_nonneg hu0 hm0)
  have hm' := hA.div c 2 (by norm_num)
  set mu := A.div c 2
  have hc2 : |c / 2| ≤ m + u * m := by
    rw [abs_div, abs_two]
    have h1 : c = (c - (b + a)) + (b + a) := by ring
    have h2 : |c| ≤ 2 * (u * m) + 2 * m := by
      rw [h1]
      exact (abs_add_le _ _).trans (by linarith)
    linarith
  have hmu : |mu - (b + a) / 2| ≤ 201 / 100 * (u * m) + eta := by
    have h1 : mu - (b + a) / 2 = (mu - c / 2) + (c - (b + a)) / 2 := by ring
    rw [h1]
    refine (abs_add_le _ _).trans ?_
    rw [abs_div (c - (b + a)), abs_two]
    have h2 := mul_le_mul_of_nonneg_left hc2 hu0
    linarith
  -- the sum
  have hf := hA.add p mu
  set f := A.add p mu
  have hsum : |p + mu - (s * t + (b + a) / 2)| ≤ s * d + 98 / 10 * (u * m) := by
    rw [add_sub_add_comm]
    refine (abs_add_le _ _).trans ?_
    linarith
  have hX : |s * t + (b + a) / 2| ≤ m := by
    have h1 : s * t + (b + a) / 2 = b * ((1 + t) / 2) + a * ((1 - t) / 2) := by rw [hs]; ring
    obtain ⟨t1, t2⟩ := abs_le.1 ht
    rw [h1]
    refine (abs_add_le _ _).trans ?_
    rw [abs_mul, abs_mul, abs_of_nonneg (by linarith : 0 ≤ (1 + t) / 2), abs_of_nonneg (by linarith : 0 ≤ (1 - t) / 2)]
    have h2 := mul_le_mul_of_nonneg_right hb (by linarith : 0 ≤ (1 + t) / 2)
    have h3 := mul_le_mul_of_nonneg_right ha (by linarith : 0 ≤ (1 - t) / 2)
    nlinarith
  have hsabs : |p + mu| ≤ 105 / 100 * m := by
    have h1 : p + mu = (p + mu - (s * t + (b + a) / 2)) + (s * t + (b + a) / 2) := by ring
    rw [h1]
    refine (abs_add_le _ _).trans ?_
    have h2 : s * d ≤ m * (1 / 50) := mul_le_mul hsm hd hd0 hm0
    have h3 : u * m ≤ 1 / 1000 * m := mul_le_mul_of_nonneg_right hu hm0
    linarith
  have h1 : f - (s * t + (b + a) / 2) = (f - (p + mu)) + (p + mu - (s * t + (b + a) / 2)) := by ring
  rw [h1]
  refine (abs_add_le _ _).trans ?_
  have h2 := mul_le_mul_of_nonneg_left hsabs hu0
  linarith

/-- The nodes of `reseat`, if the segment does not contain zero in its interior: relative error. -/
theorem node_rel {x X r e m : ℝ} (hs : s = (b - a) / 2) (hs0 : 0 ≤ s) (ht : |t| ≤ 1) (hX : X = s * t + (b + a) / 2)
    (hu0 : 0 ≤ u) (he0 : 0 ≤ e)
    (h : |x - X| ≤ s * d + 11 * u * m) (hm : m = max |a| |b|)
    (hd1 : d ≤ e * (1 + t)) (hd2 : d ≤ e * (1 - t)) (hr1 : 44 * u ≤ r * (1 + t)) (hr2 : 44 * u ≤ r * (1 - t))
    (hside : 0 ≤ a ∨ b ≤ 0) (hr0 : 0 ≤ r) : Rel (e + r) x X := by
  obtain ⟨t1, t2⟩ := abs_le.1 ht
  unfold Rel
  refine h.trans ?_
  rcases hside with ha | hb
  · have hb0 : 0 ≤ b := by linarith
    have hmb : m = b := by
      rw [hm, abs_of_nonneg ha, abs_of_nonneg hb0, max_eq_right (by linarith)]
    have hX1 : s * (1 + t) ≤ X := by rw [hX, hs]; linarith
    have hX2 : b * (1 + t) / 4 ≤ X := by
      have h1 : X - b * (1 + t) / 4 = b * (1 + t) / 4 + a * (1 - t) / 2 := by rw [hX, hs]; ring
      have := mul_nonneg hb0 (by linarith : 0 ≤ 1 + t)
      have := mul_nonneg ha (by linarith : 0 ≤ 1 - t)
      linarith
    have hX0 : 0 ≤ X := (mul_nonneg hs0 (by linarith)).trans hX1
    rw [abs_of_nonneg hX0, hmb]
    have h3 : s * d ≤ e * X := by
      calc s * d ≤ s * (e * (1 + t)) := mul_le_mul_of_nonneg_left hd1 hs0
        _ = e * (s * (1 + t)) := by ring
        _ ≤ e * X := mul_le_mul_of_nonneg_left hX1 he0
    have h4 : 11 * u * b ≤ r * X := by
      calc 11 * u * b = 44 * u * (b / 4) := by ring
        _ ≤ r * (1 + t) * (b / 4) := mul_le_mul_of_nonneg_right hr1 (by linarith)
        _ = r * (b * (1 + t) / 4) := by ring
        _ ≤ r * X := mul_le_mul_of_nonneg_left hX2 hr0
    linarith
  · have ha0 : a ≤ 0 := by linarith
    have hma : m = -a := by
      rw [hm, abs_of_nonpos ha0, abs_of_nonpos hb, max_eq_left (by linarith)]
    have hX1 : s * (1 - t) ≤ -X := by rw [hX, hs]; linarith
    have hX2 : -a * (1 - t) / 4 ≤ -X := by
      have h1 : -X - -a * (1 - t) / 4 = -a * (1 - t) / 4 + -b * (1 + t) / 2 := by rw [hX, hs]; ring
      have := mul_nonneg (by linarith : 0 ≤ -a) (by linarith : 0 ≤ 1 - t)
      have := mul_nonneg (by linarith : 0 ≤ -b) (by linarith : 0 ≤ 1 + t)
      linarith
    have hX0 : 0 ≤ -X := (mul_nonneg hs0 (by linarith)).trans hX1
    rw [abs_of_nonpos (by linarith), hma]
    have h3 : s * d ≤ e * -X := by
      calc s * d ≤ s * (e * (1 - t)) := mul_le_mul_of_nonneg_left hd2 hs0
        _ = e * (s * (1 - t)) := by ring
        _ ≤ e * -X := mul_le_mul_of_nonneg_left hX1 he0
    have h4 : 11 * u * -a ≤ r * -X := by
      calc 11 * u * -a = 44 * u * (-a / 4) := by ring
        _ ≤ r * (1 - t) * (-a / 4) := mul_le_mul_of_nonneg_right hr2 (by linarith)
        _ = r * (-a * (1 - t) / 4) := by ring
        _ ≤ r * -X := mul_le_mul_of_nonneg_left hX2 hr0
    linarith

end Segment

theorem forall₂_flatten {α β γ : Type} {R : β → γ → Prop} {f : α → List β} {g : α → List γ} :
    ∀ {l : List α}, (∀ p ∈ l, List.Forall₂ R (f p) (g p)) → List.Forall₂ R (l.map f).flatten (l.map g).flatten
  | [], _ => by simp
  | p :: l, h => by
    rw [List.map_cons, List.map_cons, List.flatten_cons, List.flatten_cons]
    exact List.rel_append (h p (by simp)) (forall₂_flatten fun q hq => h q (by simp [hq]))

/-- Segments between consecutive edges. -/
def segments : List ℝ → List (ℝ × ℝ)
  | a :: b :: l => (a, b) :: segments (b :: l)
  | _ => []

theorem segments_eq : ∀ l : List ℝ, l.dropLast.zip l.tail = segments l
  | [] => rfl
  | [_] => rfl
  | a :: b :: l => by
    have := segments_eq (b :: l)
    simp only [List.tail_cons] at this
    rw [List.dropLast_cons_of_ne_nil (by simp), List.tail_cons, List.zip_cons_cons, segments, ← this]

theorem segments_mem : ∀ {l : List ℝ}, l.Pairwise (· < ·) → ∀ p ∈ segments l, p.1 < p.2 ∧ p.1 ∈ l ∧ p.2 ∈ l
  | [], _, p, hp => by cases hp
  | [_], _, p, hp => by cases hp
  | a :: b :: l, h, p, hp => by
    rw [segments, List.mem_cons] at hp
    rcases hp with rfl | hp
    · exact ⟨(List.pairwise_cons.1 h).1 b (by simp), by simp, by simp⟩
    · obtain ⟨h1, h2, h3⟩ := segments_mem (List.pairwise_cons.1 h).2 p hp
      exact ⟨h1, by simp [h2], by simp [h3]⟩

theorem joinLoopFl_eq (A : Arith) (r : Rule) (e0 eN : ℝ) : ∀ (l : List ℝ) (prev : ℝ),
    joinLoopFl A e0 eN prev ((segments (prev :: l)).map fun p => r.reseatFl A p.1 p.2) =
      .ok ((segments (prev :: l)).map fun p => ((r.reseatFl A p.1 p.2).x, (r.reseatFl A p.1 p.2).w,
        (r.reseatFl A p.1 p.2).xForward.map (A.add · (A.sub p.1 e0)),
        (r.reseatFl A p.1 p.2).xBackward.map (A.add · (A.sub eN p.2))))
  | [], prev => rfl
  | b :: l, prev => by
    rw [segments, List.map_cons, List.map_cons, joinLoopFl, if_neg (by simp [Rule.reseatFl])]
    have := joinLoopFl_eq A r e0 eN l b
    rw [show (r.reseatFl A prev b).b = b from rfl, this]
    rfl

theorem segments_last (f : ℝ × ℝ → Rule) (hf : ∀ p, (f p).b = p.2) : ∀ (l : List ℝ) (a b : ℝ),
    ∃ q, ((segments (a :: b :: l)).map f).getLast? = some q ∧ some q.b = (b :: l).getLast?
  | [], a, b => ⟨f (a, b), rfl, by rw [hf]; rfl⟩
  | c :: l, a, b => by
    obtain ⟨q, h1, h2⟩ := segments_last f hf l b c
    refine ⟨q, ?_, ?_⟩
    · rw [segments, List.map_cons]
      rw [segments, List.map_cons] at h1 ⊢
      rw [List.getLast?_cons_cons, h1]
    · rw [h2, List.getLast?_cons_cons]

/-- `piecewise` on ascending edges. -/
theorem piecewiseFl_eq (A : Arith) (r : Rule) {a b eN : ℝ} {l : List ℝ} (h : (a :: b :: l).Pairwise (· < ·))
    (hN : (b :: l).getLast? = some eN) :
    r.piecewiseFl A (a :: b :: l) = .ok ⟨((segments (a :: b :: l)).map fun p => (r.reseatFl A p.1 p.2).x).flatten,
      ((segments (a :: b :: l)).map fun p => (r.reseatFl A p.1 p.2).w).flatten,
      ((segments (a :: b :: l)).map fun p => (r.reseatFl A p.1 p.2).xForward.map (A.add · (A.sub p.1 a))).flatten,
      ((segments (a :: b :: l)).map fun p => (r.reseatFl A p.1 p.2).xBackward.map (A.add · (A.sub eN p.2))).flatten,
      a, eN⟩ := by
  unfold Rule.piecewiseFl
  rw [segments_eq]
  simp only
  rw [if_pos]
  swap
  · rw [List.all_eq_true]
    intro p hp
    exact decide_eq_true (segments_mem h p hp).1
  unfold Rule.joinFl
  obtain ⟨q, h1, h2⟩ := segments_last (fun p => r.reseatFl A p.1 p.2) (fun _ => rfl) l a b
  rw [h1]
  have h3 : ((segments (a :: b :: l)).map fun p => r.reseatFl A p.1 p.2).head? = some (r.reseatFl A a b) := rfl
  rw [h3]
  have h4 : q.b = eN := by
    rw [hN] at h2
    exact Option.some.inj h2
  simp only
  rw [show (r.reseatFl A a b).a = a from rfl, h4, joinLoopFl_eq]
  simp only [List.map_map]
  rfl

end Verif.Kernel
