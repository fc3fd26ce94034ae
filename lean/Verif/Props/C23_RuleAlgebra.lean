import Verif.Model.Gauss
import Verif.Lemmas.Quadrature
import Mathlib.Data.Sign.Basic
/-!
# C23, C24: reseating, scaling, joining and subdividing quadrature rules
-/

namespace Verif.Props
open Verif Verif.Gauss Verif.Spec Polynomial Verif.Roots

/-- A sound rule: as many weights as nodes, nodes strictly ascending and strictly inside `(a, b)`,
`x_forward` and `x_backward` are the distances to the edges. -/
structure Sound (r : Rule) : Prop where
  len : r.x.length = r.w.length
  ab : r.a < r.b
  sorted : r.x.Pairwise (· < ·)
  inside : ∀ t ∈ r.x, r.a < t ∧ t < r.b
  forward : r.xForward = r.x.map (· - r.a)
  backward : r.xBackward = r.x.map (r.b - ·)

/-- Same signs, entry by entry. -/
def SameSigns (w w' : List ℝ) : Prop := List.Forall₂ (fun u v => SignType.sign u = SignType.sign v) w w'

theorem sameSigns_mul (w : List ℝ) {c : ℝ} (hc : 0 < c) : SameSigns w (w.map (· * c)) := by
  unfold SameSigns
  induction w with
  | nil => simp
  | cons a w ih => simp [sign_mul, sign_pos hc, ih]

theorem reseat_sound {r : Rule} (h : Sound r) {a b : ℝ} (hab : a < b) : Sound (r.reseat a b) := by
  have hr := h.ab
  have hs : 0 < (b - a) / (r.b - r.a) := div_pos (by linarith) (by linarith)
  have hne : r.b - r.a ≠ 0 := by linarith
  have e1 : (b - a) / (r.b - r.a) * (r.b - r.a) = b - a := by field_simp
  refine ⟨by simpa [Rule.reseat] using h.len, hab, ?_, ?_, ?_, ?_⟩
  · simp only [Rule.reseat]
    rw [List.pairwise_map]
    exact h.sorted.imp fun hxy => by
      have := mul_lt_mul_of_pos_left hxy hs
      rw [mul_sub, mul_sub]
      linarith
  · simp only [Rule.reseat]
    intro t ht
    obtain ⟨x, hx, rfl⟩ := List.mem_map.1 ht
    obtain ⟨h1, h2⟩ := h.inside x hx
    have h1' := mul_lt_mul_of_pos_left h1 hs
    have h2' := mul_lt_mul_of_pos_left h2 hs
    have e2 : (b - a) / (r.b - r.a) * ((r.b + r.a) / 2) =
      ((b - a) / (r.b - r.a) * r.b + (b - a) / (r.b - r.a) * r.a) / 2 := by ring
    rw [mul_sub] at e1
    rw [mul_sub, e2]
    constructor <;> linarith
  · simp only [Rule.reseat, h.forward, List.map_map]
    apply List.map_congr_left
    intro x _
    simp only [Function.comp]
    field_simp
    ring
  · simp only [Rule.reseat, h.backward, List.map_map]
    apply List.map_congr_left
    intro x _
    simp only [Function.comp]
    field_simp
    ring

theorem reseat_exact {r : Rule} (h : Sound r) {a b : ℝ} (hab : a < b) {d : ℕ}
    (he : ExactTo r.x r.w r.a r.b d) : ExactTo (r.reseat a b).x (r.reseat a b).w a b d := by
  intro p hp
  have hr := h.ab
  set s := (b - a) / (r.b - r.a) with hs
  have hs0 : s ≠ 0 := (div_pos (by linarith) (by linarith)).ne'
  have hne : r.b - r.a ≠ 0 := by linarith
  have e : (fun t => p.eval t) ∘ (fun x => s * (x - (r.b + r.a) / 2) + (b + a) / 2) =
      fun x => (p.comp (C s * X + C ((b + a) / 2 - s * ((r.b + r.a) / 2)))).eval x := by
    funext x
    simp only [Function.comp, eval_comp, eval_add, eval_mul, eval_C, eval_X]
    congr 1
    ring
  simp only [Rule.reseat]
  rw [← hs, quad_map, e, he]
  · simp only [eval_comp, eval_add, eval_mul, eval_C, eval_X]
    rw [intervalIntegral.integral_comp_mul_add (fun t => p.eval t) hs0, smul_eq_mul, ← mul_assoc,
      mul_inv_cancel₀ hs0, one_mul]
    congr 1
    · rw [hs]; field_simp; ring
    · rw [hs]; field_simp; ring
  · refine natDegree_comp_le.trans ?_
    have : (C s * X + C ((b + a) / 2 - s * ((r.b + r.a) / 2))).natDegree ≤ 1 := natDegree_linear_le
    calc p.natDegree * _ ≤ p.natDegree * 1 := Nat.mul_le_mul_left _ this
      _ ≤ d := by omega

/-- Reseating keeps a rule sound, exact to the same degree, and the signs of its weights. -/
theorem C23_reseat (r : Rule) (h : Sound r) (a b : ℝ) (hab : a < b) :
    Sound (r.reseat a b) ∧ (r.reseat a b).a = a ∧ (r.reseat a b).b = b ∧
      SameSigns r.w (r.reseat a b).w ∧
      ∀ d, ExactTo r.x r.w r.a r.b d → ExactTo (r.reseat a b).x (r.reseat a b).w a b d :=
  ⟨reseat_sound h hab, rfl, rfl,
    sameSigns_mul _ (div_pos (by linarith) (by linarith [h.ab])), fun _ he => reseat_exact h hab he⟩

/-- Scaling multiplies every quadrature sum and changes nothing else. -/
theorem C23_scale (r : Rule) (h : Sound r) (c : ℝ) :
    Sound (r.scale c) ∧ (r.scale c).a = r.a ∧ (r.scale c).b = r.b ∧ (r.scale c).x = r.x ∧
      (0 < c → SameSigns r.w (r.scale c).w) ∧
      ∀ f, quad (r.scale c).x (r.scale c).w f = c * quad r.x r.w f := by
  refine ⟨⟨by simpa [Rule.scale] using h.len, h.ab, h.sorted, h.inside, h.forward, h.backward⟩,
    rfl, rfl, rfl, fun hc => sameSigns_mul _ hc, fun f => ?_⟩
  have := quad_map r.x r.w f id c
  simpa [Rule.scale] using this

/-- Every rule starts where the previous one ended. -/
def Connected (rules : List Rule) : Prop := rules.IsChain fun r s => r.b = s.a

theorem joinLoop_ok (a b : ℝ) : ∀ (rules : List Rule) (prev : ℝ),
    (∀ r ∈ rules.head?, r.a = prev) → Connected rules →
    joinLoop a b prev rules = .ok (rules.map fun c => (c.x, c.w, c.xForward.map (· + (c.a - a)),
      c.xBackward.map (· + (b - c.b))))
  | [], _, _, _ => rfl
  | r :: rest, prev, h, hc => by
    have h0 : r.a = prev := h r rfl
    rw [joinLoop, if_neg (by simp [h0])]
    rw [joinLoop_ok a b rest r.b ?_ (List.IsChain.tail hc)]
    · rfl
    · intro s hs
      unfold Connected at hc
      cases rest with
      | nil => simp at hs
      | cons s' rest =>
        simp only [List.head?_cons, Option.mem_def, Option.some.injEq] at hs
        subst hs
        exact (List.isChain_cons_cons.1 hc).1.symm

theorem joinLoop_err (a b : ℝ) : ∀ (rules : List Rule) (prev : ℝ),
    ¬ ((∀ r ∈ rules.head?, r.a = prev) ∧ Connected rules) →
    joinLoop a b prev rules = .error .valueError
  | [], _, h => by exact absurd ⟨by simp, List.IsChain.nil⟩ h
  | r :: rest, prev, h => by
    rw [joinLoop]
    split
    · rfl
    · rename_i h0
      have h0 : r.a = prev := not_not.1 h0
      rw [joinLoop_err a b rest r.b]
      rintro ⟨h1, h2⟩
      apply h
      refine ⟨by simp [h0], ?_⟩
      unfold Connected
      cases rest with
      | nil => exact List.IsChain.singleton _
      | cons s rest => exact List.isChain_cons_cons.2 ⟨(h1 s rfl).symm, h2⟩

/-- `join` refuses rules that do not connect, with ValueError, and accepts all others. -/
theorem C24_join (rules : List Rule) :
    (Connected rules → ∃ r, Rule.join rules = .ok r) ∧
      (¬ Connected rules → Rule.join rules = .error .valueError) := by
  unfold Rule.join
  cases rules with
  | nil => exact ⟨fun _ => ⟨_, rfl⟩, fun h => absurd List.IsChain.nil h⟩
  | cons r0 rest =>
    rw [List.head?_cons, List.getLast?_eq_some_getLast (by simp)]
    simp only
    constructor
    · intro h
      rw [joinLoop_ok _ _ _ _ (by simp) h]
      exact ⟨_, rfl⟩
    · intro h
      rw [joinLoop_err _ _ _ _ (fun h' => h h'.2)]

/-- Sound rules joined: nodes of the joined rule. -/
theorem joined_nodes : ∀ (rules : List Rule) (r0 r1 : Rule), rules.head? = some r0 →
    rules.getLast? = some r1 → (∀ r ∈ rules, Sound r) → Connected rules →
    r0.a < r1.b ∧ ((rules.map (·.x)).flatten).Pairwise (· < ·) ∧
      (∀ t ∈ (rules.map (·.x)).flatten, r0.a < t ∧ t < r1.b) ∧
      (rules.map (·.x)).flatten.length = (rules.map (·.w)).flatten.length ∧
      (∀ f, quad (rules.map (·.x)).flatten (rules.map (·.w)).flatten f =
        (rules.map fun r => quad r.x r.w f).sum) ∧
      ∀ d f, (∀ r ∈ rules, ExactTo r.x r.w r.a r.b d) → PiecewisePoly (r0.a :: rules.map (·.b)) d f →
        (rules.map fun r => quad r.x r.w f).sum = ∫ t in r0.a..r1.b, f t
  | [], _, _, h, _, _, _ => by simp at h
  | r :: [], r0, r1, h0, h1, hs, _ => by
    simp at h0 h1
    subst h0 h1
    have h := hs r (by simp)
    refine ⟨h.ab, by simpa using h.sorted, by simpa using h.inside, by simpa using h.len, by simp, ?_⟩
    intro d f he hf
    obtain ⟨p, hp, hpf⟩ := hf r.a r.b ⟨[], [], rfl⟩
    rw [seg_integral h.ab hpf, ← he r (by simp) p hp]
    simp only [List.map_cons, List.map_nil, List.sum_cons, List.sum_nil, add_zero]
    exact quad_congr fun t ht => hpf t (h.inside t ht).1 (h.inside t ht).2
  | r :: s :: rest, r0, r1, h0, h1, hs, hc => by
    simp only [List.head?_cons, Option.some.injEq] at h0
    subst h0
    rw [List.getLast?_cons_cons] at h1
    have hc' : Connected (s :: rest) := List.IsChain.tail hc
    have hrs : r.b = s.a := (List.isChain_cons_cons.1 hc).1
    obtain ⟨i1, i2, i3, i4, i5, i6⟩ := joined_nodes (s :: rest) s r1 rfl h1
      (fun q hq => hs q (List.mem_cons_of_mem _ hq)) hc'
    have h := hs r (by simp)
    have hab := h.ab
    refine ⟨by linarith, ?_, ?_, ?_, ?_, ?_⟩
    · rw [List.map_cons, List.flatten_cons, List.pairwise_append]
      refine ⟨h.sorted, i2, ?_⟩
      intro x hx y hy
      have := (h.inside x hx).2
      have := (i3 y hy).1
      linarith
    · rw [List.map_cons, List.flatten_cons]
      intro t ht
      rcases List.mem_append.1 ht with ht | ht
      · have := h.inside t ht; constructor <;> linarith
      · have := i3 t ht; constructor <;> linarith
    · rw [List.map_cons (l := s :: rest), List.flatten_cons, List.map_cons (l := s :: rest),
        List.flatten_cons, List.length_append, List.length_append, h.len, i4]
    · intro f
      rw [List.map_cons (l := s :: rest), List.flatten_cons, List.map_cons (l := s :: rest),
        List.flatten_cons, quad_append h.len, i5, List.map_cons (l := s :: rest), List.sum_cons]
    · intro d f he hf
      obtain ⟨p, hp, hpf⟩ := hf r.a r.b ⟨[], _, rfl⟩
      have hf' : PiecewisePoly (s.a :: (s :: rest).map (·.b)) d f := by
        intro x y hxy
        apply hf
        obtain ⟨l1, l2, h⟩ := hxy
        exact ⟨r.a :: l1, l2, by rw [List.map_cons, hrs, h]; rfl⟩
      rw [List.map_cons, List.sum_cons, i6 d f (fun q hq => he q (List.mem_cons_of_mem _ hq)) hf']
      have e1 : quad r.x r.w f = ∫ t in r.a..r.b, f t := by
        rw [seg_integral hab hpf, ← he r (by simp) p hp]
        exact quad_congr fun t ht => hpf t (h.inside t ht).1 (h.inside t ht).2
      have hint : IntervalIntegrable f MeasureTheory.volume s.a r1.b := by
        refine piecewise_integrable (s.a :: (s :: rest).map (·.b)) s.a r1.b d f ?_ hf' rfl ?_
        · exact ascending (s :: rest) s rfl (fun q hq => hs q (List.mem_cons_of_mem _ hq)) hc'
        · rw [List.getLast?_cons, List.getLast?_map, h1]; rfl
      rw [e1, ← hrs, intervalIntegral.integral_add_adjacent_intervals (seg_integrable hab hpf)
        (hrs ▸ hint)]
where
  ascending : ∀ (rules : List Rule) (r0 : Rule), rules.head? = some r0 → (∀ r ∈ rules, Sound r) →
      Connected rules → (r0.a :: rules.map (·.b)).Pairwise (· < ·)
    | [], _, h, _, _ => by simp at h
    | [r], r0, h, hs, _ => by
      simp at h; subst h
      simpa using (hs r (by simp)).ab
    | r :: s :: rest, r0, h, hs, hc => by
      simp only [List.head?_cons, Option.some.injEq] at h
      subst h
      have h' := ascending (s :: rest) s rfl (fun q hq => hs q (List.mem_cons_of_mem _ hq))
        (List.IsChain.tail hc)
      have hrs : r.b = s.a := (List.isChain_cons_cons.1 hc).1
      rw [List.map_cons, hrs, List.pairwise_cons]
      refine ⟨?_, h'⟩
      intro t ht
      have hab := (hs r (by simp)).ab
      rcases List.mem_cons.1 ht with rfl | ht
      · linarith
      · have := (List.pairwise_cons.1 h').1 t ht; linarith

/-- Joining sound rules that connect gives a sound rule on the union, whose quadrature sum is the sum
of the parts; if all rules are exact to degree `d` then the joined rule integrates every piecewise
polynomial of degree at most `d` exactly.  Signs of weights: the weights are just concatenated. -/
theorem C23_join (rules : List Rule) (r0 r1 : Rule) (h0 : rules.head? = some r0)
    (h1 : rules.getLast? = some r1) (hs : ∀ r ∈ rules, Sound r) (hc : Connected rules) :
    ∃ r, Rule.join rules = .ok r ∧ Sound r ∧ r.a = r0.a ∧ r.b = r1.b ∧
      r.w = (rules.map (·.w)).flatten ∧
      (∀ f, quad r.x r.w f = (rules.map fun s => quad s.x s.w f).sum) ∧
      ∀ d f, (∀ s ∈ rules, ExactTo s.x s.w s.a s.b d) → PiecewisePoly (r0.a :: rules.map (·.b)) d f →
        quad r.x r.w f = ∫ t in r.a..r.b, f t := by
  obtain ⟨i1, i2, i3, i4, i5, i6⟩ := joined_nodes rules r0 r1 h0 h1 hs hc
  have hx : ∀ {α : Type} (g : Rule → α) , (rules.map fun c => (c.x, c.w, c.xForward.map (· + (c.a - r0.a)),
      c.xBackward.map (· + (r1.b - c.b)))).map (·.1) = rules.map (·.x) := by simp
  refine ⟨⟨(rules.map (·.x)).flatten, (rules.map (·.w)).flatten, (rules.map (·.x)).flatten.map (· - r0.a),
    (rules.map (·.x)).flatten.map (r1.b - ·), r0.a, r1.b⟩, ?_, ⟨i4, i1, i2, i3, rfl, rfl⟩, rfl, rfl, rfl,
    i5, fun d f he hf => by rw [i5]; exact i6 d f he hf⟩
  unfold Rule.join
  rw [h0, h1]
  simp only
  rw [joinLoop_ok _ _ _ _ (by simp [h0]) hc]
  simp only [List.map_map, Function.comp_def, Except.ok.injEq, Rule.mk.injEq, true_and, and_true]
  rw [List.map_flatten, List.map_flatten, List.map_map, List.map_map]
  constructor
  · congr 1
    apply List.map_congr_left
    intro r hr
    simp only [(hs r hr).forward, List.map_map, Function.comp_def]
    apply List.map_congr_left
    intro t _
    ring
  · congr 1
    apply List.map_congr_left
    intro r hr
    simp only [(hs r hr).backward, List.map_map, Function.comp_def]
    apply List.map_congr_left
    intro t _
    ring

/-- `edges[:-1]` and `edges[1:]` side by side. -/
theorem segs_cons (a b : ℝ) (l : List ℝ) : (a :: b :: l).dropLast.zip (a :: b :: l).tail =
    (a, b) :: (b :: l).dropLast.zip (b :: l).tail := by
  simp [List.dropLast_cons_cons]

theorem segs_all_iff : ∀ edges : List ℝ,
    (∀ p ∈ edges.dropLast.zip edges.tail, p.1 < p.2) ↔ edges.Pairwise (· < ·)
  | [] => by simp
  | [a] => by simp
  | a :: b :: l => by
    rw [segs_cons, List.forall_mem_cons, segs_all_iff (b :: l), List.pairwise_cons (l := b :: l)]
    constructor
    · rintro ⟨h1, h2⟩
      refine ⟨?_, h2⟩
      intro t ht
      rcases List.mem_cons.1 ht with rfl | ht
      · exact h1
      · exact h1.trans ((List.pairwise_cons.1 h2).1 t ht)
    · rintro ⟨h1, h2⟩
      exact ⟨h1 b (by simp), h2⟩

theorem segs_connected (r : Rule) : ∀ edges : List ℝ,
    Connected ((edges.dropLast.zip edges.tail).map fun p => r.reseat p.1 p.2)
  | [] => List.IsChain.nil
  | [a] => List.IsChain.nil
  | [a, b] => List.IsChain.singleton _
  | a :: b :: c :: l => by
    have := segs_connected r (b :: c :: l)
    rw [segs_cons] at this ⊢
    rw [List.map_cons, segs_cons]
    exact List.isChain_cons_cons.2 ⟨rfl, this⟩

theorem segs_edges (r : Rule) (a b : ℝ) (l : List ℝ) :
    (((a :: b :: l).dropLast.zip (a :: b :: l).tail).map fun p => r.reseat p.1 p.2).map (·.b) = b :: l := by
  induction l generalizing a b with
  | nil => rfl
  | cons c l ih => rw [segs_cons, List.map_cons, List.map_cons, ih b c]; rfl

/-- `piecewise` raises ValueError exactly if the edges are not strictly increasing. -/
theorem C24_piecewise (r : Rule) (edges : List ℝ) :
    (edges.Pairwise (· < ·) → ∃ q, r.piecewise edges = .ok q) ∧
      (¬ edges.Pairwise (· < ·) → r.piecewise edges = .error .valueError) := by
  unfold Rule.piecewise
  constructor
  · intro h
    have h' := (segs_all_iff edges).2 h
    simp only
    rw [if_pos (by simpa [List.all_eq_true] using h')]
    exact (C24_join _).1 (segs_connected r edges)
  · intro h
    simp only
    rw [if_neg]
    intro h'
    apply h
    rw [← segs_all_iff]
    simpa [List.all_eq_true] using h'

/-- Subdividing: from a sound rule and strictly increasing edges (at least two) a sound rule on
`[edges[0], edges[-1]]`, with weights of the same signs, that integrates every piecewise polynomial
exactly up to the degree of the original rule. -/
theorem C23_piecewise (r : Rule) (h : Sound r) (a b : ℝ) (l : List ℝ)
    (hp : (a :: b :: l).Pairwise (· < ·)) :
    ∃ q, r.piecewise (a :: b :: l) = .ok q ∧ Sound q ∧ q.a = a ∧ some q.b = (b :: l).getLast? ∧
      SameSigns ((List.replicate (l.length + 1) r.w).flatten) q.w ∧
      ∀ d f, ExactTo r.x r.w r.a r.b d → PiecewisePoly (a :: b :: l) d f →
        quad q.x q.w f = ∫ t in q.a..q.b, f t := by
  set segs := (a :: b :: l).dropLast.zip (a :: b :: l).tail with hsegs
  have hlt := (segs_all_iff _).2 hp
  rw [← hsegs] at hlt
  set rules := segs.map fun p => r.reseat p.1 p.2 with hrules
  have hb : rules.map (·.b) = b :: l := segs_edges r a b l
  have hne : rules ≠ [] := by
    intro h0
    rw [h0] at hb; simp at hb
  have hhead : rules.head? = some (r.reseat a b) := by
    rw [hrules, hsegs, segs_cons]; rfl
  obtain ⟨q, hq, hsound, hqa, hqb, hqw, -, hint⟩ := C23_join rules _ _ hhead
    (List.getLast?_eq_some_getLast hne)
    (by
      intro s hs
      obtain ⟨p, hp, rfl⟩ := List.mem_map.1 hs
      exact reseat_sound h (hlt p hp)) (segs_connected r _)
  refine ⟨q, ?_, hsound, hqa, ?_, ?_, ?_⟩
  · unfold Rule.piecewise
    simp only [← hsegs]
    rw [if_pos (by simpa [List.all_eq_true] using hlt)]
    exact hq
  · rw [hqb, ← hb, List.getLast?_map, List.getLast?_eq_some_getLast hne]; rfl
  · rw [hqw]
    have hlen : segs.length = l.length + 1 := by rw [hsegs]; simp
    rw [← hlen, hrules]
    clear hlen hrules hb hne hhead hq hsound hqa hqb hqw hint hsegs
    clear_value segs
    induction segs with
    | nil => exact List.Forall₂.nil
    | cons p segs ih =>
      rw [List.length_cons, List.replicate_succ, List.flatten_cons, List.map_cons, List.map_cons,
        List.flatten_cons]
      refine List.rel_append ?_ (ih fun p hp => hlt p (List.mem_cons_of_mem _ hp))
      exact (C23_reseat r h p.1 p.2 (hlt p (by simp))).2.2.2.1
  · intro d f he hf
    apply hint d f
    · intro s hs
      obtain ⟨p, hp, rfl⟩ := List.mem_map.1 hs
      exact reseat_exact h (hlt p hp) he
    · rw [hb]; exact hf

/-- Corner case: fewer than two edges give the empty rule on `[-1, 1]`, whatever the edge is. -/
theorem C23_single_edge (r : Rule) (e : ℝ) : r.piecewise [e] = .ok (Rule.new [] [] (-1) 1) := by
  unfold Rule.piecewise
  simp only [List.dropLast_singleton, List.zip_nil_left, List.all_nil, if_true, List.map_nil]
  rfl

/-! Non-vacuity: the midpoint rule. -/

theorem midpoint_sound : Sound (Rule.new [0] [2] (-1) 1) := by
  refine ⟨rfl, by simp [Rule.new], by simp [Rule.new], ?_, rfl, rfl⟩
  simp [Rule.new]

theorem midpoint_exact : ExactTo [0] [2] (-1) 1 1 := by
  intro p hp
  rw [eq_X_add_C_of_natDegree_le_one hp]
  have h1 : IntervalIntegrable (fun t : ℝ => p.coeff 1 * t) MeasureTheory.volume (-1) 1 :=
    (continuous_const.mul continuous_id).intervalIntegrable _ _
  have h2 : IntervalIntegrable (fun _ : ℝ => p.coeff 0) MeasureTheory.volume (-1) 1 :=
    continuous_const.intervalIntegrable _ _
  simp only [quad, eval_add, eval_mul, eval_C, eval_X]
  rw [intervalIntegral.integral_add h1 h2, intervalIntegral.integral_const_mul, integral_id,
    intervalIntegral.integral_const]
  norm_num

example : ∃ q, (Rule.new [0] [2] (-1) 1).piecewise [0, 1, 3] = .ok q ∧ Sound q ∧
    quad q.x q.w (fun t => if t < 1 then t else 5) = ∫ t in q.a..q.b, (if t < 1 then t else 5) := by
  obtain ⟨q, h1, h2, -, -, -, h3⟩ := C23_piecewise _ midpoint_sound 0 1 [3] (by norm_num)
  refine ⟨q, h1, h2, h3 1 _ midpoint_exact ?_⟩
  rintro x y ⟨l1, l2, h⟩
  match l1, h with
  | [], h =>
    simp only [List.nil_append, List.cons.injEq] at h
    obtain ⟨rfl, rfl, -⟩ := h
    exact ⟨X, natDegree_X_le, fun t _ h => by simp [h]⟩
  | [_], h =>
    simp only [List.cons_append, List.nil_append, List.cons.injEq] at h
    obtain ⟨-, rfl, rfl, -⟩ := h
    refine ⟨C 5, by simp, fun t h _ => by simp [not_lt.2 h.le]⟩
  | _ :: _ :: l1, h =>
    simp only [List.cons_append, List.cons.injEq] at h
    have := congrArg List.length h.2.2
    simp at this
    omega

end Verif.Props
