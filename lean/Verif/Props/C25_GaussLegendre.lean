import Verif.Props.C23_RuleAlgebra
import Verif.Props.C26_Recurrence
import Verif.Lemmas.Jacobi
import Mathlib.Algebra.BigOperators.Group.List.Basic
/-!
# C25, C27: Gauss rules from recurrence coefficients
-/

namespace Verif.Props
open Verif Verif.Gauss Verif.Spec Polynomial Verif.GaussQuad Verif.Jacobi

/-! ### Newton polishing -/

/-- `y` results from `x` by `k` corrections `x -= diff`. -/
inductive Polished (diff : List ℝ → PyM (List ℝ)) (sub : ℝ → ℝ → ℝ) : ℕ → List ℝ → List ℝ → Prop
  | zero (x) : Polished diff sub 0 x x
  | step {k x d y} (h : diff x = .ok d) (hy : Polished diff sub k (List.zipWith sub x d) y) :
      Polished diff sub (k + 1) x y

theorem newtonLoop_steps (diff : List ℝ → PyM (List ℝ)) (sub : ℝ → ℝ → ℝ) (n : ℕ) :
    ∀ (prev : ℝ) (x y : List ℝ) (flag : Bool), newtonLoop diff sub n prev x = .ok (y, flag) →
      ∃ k ≤ n, Polished diff sub k x y ∧ (flag = false → k = n) ∧ (flag = true → 1 ≤ k) := by
  induction n with
  | zero =>
    intro prev x y flag h
    simp only [newtonLoop, Except.ok.injEq, Prod.mk.injEq] at h
    obtain ⟨rfl, rfl⟩ := h
    exact ⟨0, le_refl _, .zero _, fun _ => rfl, (fun h => by cases h)⟩
  | succ n ih =>
    intro prev x y flag h
    rw [newtonLoop] at h
    split at h
    · cases h
    · rename_i d hd
      simp only at h
      split at h
      · cases h
      · rename_i cur _
        split at h
        · simp only [Except.ok.injEq, Prod.mk.injEq] at h
          obtain ⟨rfl, rfl⟩ := h
          exact ⟨1, by omega, .step hd (.zero _), (fun h => by cases h), fun _ => le_refl _⟩
        · obtain ⟨k, hk, hp, hf, -⟩ := ih _ _ _ _ h
          exact ⟨k + 1, by omega, .step hd hp, (fun h => by rw [hf h]), fun _ => by omega⟩

/-- What a returned rule looks like. -/
theorem rule_ok {eig diff sub} {alpha bs : List ℝ} {b0 a b : ℝ} {r : Rule}
    (h : ruleFromRecurrence eig diff sub alpha (b0 :: bs) a b = .ok r) :
    newtonLoop (diff alpha ((b - a) :: bs)) sub 5 1 (eig alpha (bs.map Real.sqrt)) = .ok (r.x, true) ∧
    weightsOf alpha ((b - a) :: bs) r.x (b - a) = .ok r.w ∧ r.a = a ∧ r.b = b ∧
    r.xForward = r.x.map (· - a) ∧ r.xBackward = r.x.map (b - ·) := by
  unfold ruleFromRecurrence at h
  simp only at h
  split at h
  · cases h
  · split at h
    · cases h
    · cases h
    · rename_i x hx
      split at h
      · cases h
      · rename_i w hw
        simp only [Except.ok.injEq] at h
        subst h
        exact ⟨hx, hw, rfl, rfl, rfl, rfl⟩

/-- Building a rule performs at most five Newton corrections; the nodes of the returned rule are the
result.  (Part of C27.  The rest of C27, "non-convergence is only a warning", is false: see
`C27_nonconvergence_raises`.) -/
theorem C27_steps_partial {eig diff sub} {alpha bs : List ℝ} {b0 a b : ℝ} {r : Rule}
    (h : ruleFromRecurrence eig diff sub alpha (b0 :: bs) a b = .ok r) :
    ∃ k, 1 ≤ k ∧ k ≤ 5 ∧
      Polished (diff alpha ((b - a) :: bs)) sub k (eig alpha (bs.map Real.sqrt)) r.x := by
  have h1 := (rule_ok h).1
  obtain ⟨k, hk, hp, -, h1⟩ := newtonLoop_steps _ _ _ _ _ _ _ h1
  exact ⟨k, h1 rfl, hk, hp⟩

/-- If the five steps do not end the iteration, no rule is returned: the code fails with
AttributeError while formatting its warning. -/
theorem C27_nonconvergence_raises {eig diff sub} {alpha bs : List ℝ} {b0 a b : ℝ} {y : List ℝ}
    (hpos : ∀ t ∈ (b - a) :: bs, 0 ≤ t)
    (h : newtonLoop (diff alpha ((b - a) :: bs)) sub 5 1 (eig alpha (bs.map Real.sqrt)) = .ok (y, false)) :
    ruleFromRecurrence eig diff sub alpha (b0 :: bs) a b = .error .attributeError := by
  unfold ruleFromRecurrence
  have : ¬ ¬ (((b - a) :: bs).all fun t => decide (t ≥ 0)) = true := by
    simpa using hpos
  simp only [if_neg this, h]

/-- A recurrence with a negative coefficient, the first of which is replaced by the length of the interval, is refused with
NotImplementedError. -/
theorem C27_refused {eig diff sub} {alpha bs : List ℝ} {b0 a b t : ℝ} (ht : t ∈ (b - a) :: bs) (h0 : t < 0) :
    ruleFromRecurrence eig diff sub alpha (b0 :: bs) a b = .error .notImplementedError := by
  unfold ruleFromRecurrence
  simp only
  rw [if_pos]
  intro h
  rw [List.all_eq_true] at h
  have := of_decide_eq_true (h t ht)
  linarith

/-- Concrete case: the ends of the interval exchanged. -/
example : ruleFromRecurrence (fun _ _ => [0]) newtonDiff (· - ·) [0] [2] 1 (-1) = .error .notImplementedError :=
  C27_refused (t := -2) (by norm_num) (by norm_num)

/-- Once the corrections are zero the loop cannot be left by `break`. -/
theorem newtonLoop_zero {diff : List ℝ → PyM (List ℝ)} {sub : ℝ → ℝ → ℝ} (hsub : ∀ t, sub t 0 = t)
    {x : List ℝ} (hx : x ≠ []) (hd : diff x = .ok (x.map fun _ => 0)) (n : ℕ) :
    ∀ prev : ℝ, 0 ≤ prev → newtonLoop diff sub n prev x = .ok (x, false) := by
  have hz : List.zipWith sub x (x.map fun _ => 0) = x := by
    clear hx hd
    induction x with
    | nil => rfl
    | cons t x ih => rw [List.map_cons, List.zipWith_cons_cons, hsub, ih]
  have hm : ((x.map fun _ => (0 : ℝ)).map fun t => |t|).max? = some 0 := by
    rw [List.max?_eq_some_iff]
    simp [hx]
  induction n with
  | zero => intro prev _; rfl
  | succ n ih =>
    intro prev hprev
    rw [newtonLoop]
    simp only [hd, hz, hm, mul_zero, hprev, not_true_eq_false, if_false]
    exact ih 0 (le_refl _)

theorem mapM_ok {α β : Type} {f : α → PyM β} {g : α → β} : ∀ {l : List α},
    (∀ t ∈ l, f t = .ok (g t)) → l.mapM f = .ok (l.map g)
  | [], _ => rfl
  | t :: l, h => by
    rw [List.mapM_cons, h t (by simp), mapM_ok (l := l) fun s hs => h s (by simp [hs])]
    rfl

theorem mapM_length {α β : Type} {f : α → PyM β} : ∀ {l : List α} {w : List β},
    l.mapM f = .ok w → w.length = l.length
  | [], w, h => by cases h; rfl
  | t :: l, w, h => by
    rw [List.mapM_cons] at h
    cases ht : f t with
    | error e => rw [ht] at h; cases h
    | ok y =>
      rw [ht] at h
      cases hl : l.mapM f with
      | error e => rw [hl] at h; cases h
      | ok ys =>
        rw [hl] at h
        cases h
        rw [List.length_cons, mapM_length hl, List.length_cons]

theorem polyValDeriv_tail (x : ℝ) (al bs : List ℝ) (c c' : ℝ) :
    polyValDeriv x al (c :: bs) = polyValDeriv x al (c' :: bs) := by
  cases al <;> rfl

/-- Tail of the coefficient list that the code uses. -/
abbrev btail (beta : ℕ → ℝ) (n : ℕ) : List ℝ := (List.range n).map fun i => beta (i + 1)

theorem range_map_cons (beta : ℕ → ℝ) (n : ℕ) :
    (List.range (n + 1)).map beta = beta 0 :: btail beta n := by
  rw [List.range_succ_eq_map, List.map_cons, List.map_map]; rfl

theorem pvd_btail (alpha beta : ℕ → ℝ) (c x : ℝ) (n : ℕ) :
    polyValDeriv x ((List.range (n + 1)).map alpha) (c :: btail beta n) =
      .ok ((opoly alpha beta (n + 1)).eval x, (opoly alpha beta (n + 1)).derivative.eval x,
        (opoly alpha beta n).eval x, (opoly alpha beta n).derivative.eval x) := by
  rw [polyValDeriv_tail _ _ _ _ (beta 0), ← range_map_cons]
  exact C26_polyvalderiv alpha beta x n (n + 1) (le_refl _)

/-- Simple roots: the derivative does not vanish at the nodes. -/
theorem simple_root {p : ℝ[X]} {n : ℕ} (hp : p.Monic) (hpn : p.natDegree = n) {x : List ℝ} (hnd : x.Nodup)
    (hlen : x.length = n) (hroot : ∀ t ∈ x, p.eval t = 0) {t : ℝ} (ht : t ∈ x) :
    p.derivative.eval t ≠ 0 := by
  have hs : x.toFinset.card = n := by rw [List.toFinset_card_of_nodup hnd, hlen]
  have := eq_nodal (n := n) hp hpn x.toFinset hs (fun t ht => hroot t (List.mem_toFinset.1 ht))
  have hmem : t ∈ x.toFinset := List.mem_toFinset.2 ht
  have h2 := Lagrange.eval_nodal_derivative_eval_node_eq (v := (id : ℝ → ℝ)) hmem
  rw [this]
  simp only [id] at h2
  rw [h2]
  exact Lagrange.eval_nodal_not_at_node fun i hi => (Finset.ne_of_mem_erase hi).symm

theorem quad_map_right (x : List ℝ) (g f : ℝ → ℝ) :
    quad x (x.map g) f = (x.map fun t => g t * f t).sum := by
  unfold quad
  induction x with
  | nil => rfl
  | cons t x ih => simp [ih]

theorem quad_finset {x : List ℝ} (hnd : x.Nodup) (g f : ℝ → ℝ) :
    quad x (x.map g) f = ∑ t ∈ x.toFinset, g t * f t := by
  rw [quad_map_right, List.sum_toFinset _ hnd]

/-- The weights computed by the code are the interpolatory weights. -/
theorem weights_eq {J : ℝ[X] →ₗ[ℝ] ℝ} {alpha beta : ℕ → ℝ} {n : ℕ} {c : ℝ} {x w : List ℝ}
    (hc : J 1 = c)
    (hw : weightsOf ((List.range (n + 1)).map alpha) (c :: btail beta n) x c = .ok w)
    (hnd : x.Nodup) (hlen : x.length = n + 1)
    (hroot : ∀ t ∈ x, (opoly alpha beta (n + 1)).eval t = 0)
    (horth : ∀ k, k = n ∨ k = n + 1 → ∀ r : ℝ[X], r.degree < k → J (r * opoly alpha beta k) = 0)
    (hq : J (opoly alpha beta n * opoly alpha beta n) ≠ 0) : w = x.map (lam J x.toFinset) := by
  set h := J (opoly alpha beta n * opoly alpha beta n) with hh
  have hs : x.toFinset.card = n + 1 := by rw [List.toFinset_card_of_nodup hnd, hlen]
  obtain ⟨hp, hpn⟩ := opoly_monic alpha beta (n + 1)
  obtain ⟨hq1, hqn⟩ := opoly_monic alpha beta n
  have hl : ∀ t ∈ x, lam J x.toFinset t * ((opoly alpha beta (n + 1)).derivative.eval t *
      (opoly alpha beta n).eval t) = h := by
    intro t ht
    exact lam_eq J hp hpn (by omega) hq1 (by simpa using hqn) (horth _ (Or.inr rfl))
      (by simpa using horth _ (Or.inl rfl)) _ hs (fun t ht => hroot t (List.mem_toFinset.1 ht))
      (List.mem_toFinset.2 ht)
  have hne : ∀ t ∈ x, (opoly alpha beta (n + 1)).derivative.eval t * (opoly alpha beta n).eval t ≠ 0 := by
    intro t ht h0
    have := hl t ht
    rw [h0, mul_zero] at this
    exact hq this.symm
  have hraw : x.mapM (rawWeight ((List.range (n + 1)).map alpha) (c :: btail beta n)) =
      .ok (x.map fun t => lam J x.toFinset t / h) := by
    apply mapM_ok
    intro t ht
    rw [rawWeight, pvd_btail]
    simp only [if_neg (hne t ht), Except.ok.injEq]
    rw [← hl t ht]
    have h1 := hne t ht
    have h2 : lam J x.toFinset t ≠ 0 := fun h0 => by
      have := hl t ht
      rw [h0, zero_mul] at this
      exact hq this.symm
    field_simp
  have hsum : (x.map fun t => lam J x.toFinset t / h).sum = c / h := by
    have h1 := interp_exact J x.toFinset 1 (by rw [hs, degree_one]; exact_mod_cast Nat.succ_pos n)
    rw [hc] at h1
    rw [h1, ← List.sum_toFinset _ hnd, Finset.sum_div]
    simp
  unfold weightsOf at hw
  rw [hraw] at hw
  simp only [hsum] at hw
  split at hw
  · cases hw
  · rename_i hne0
    simp only [Except.ok.injEq, List.map_map] at hw
    rw [← hw]
    apply List.map_congr_left
    intro t _
    have hc0 : c ≠ 0 := fun h0 => hne0 (by rw [h0, zero_div])
    simp only [Function.comp]
    field_simp

/-- Gauss rules from recurrence coefficients: if the final nodes are the roots of the highest
polynomial and the polynomials are orthogonal for the functional `J` (with `J 1 = b - a`), the
returned weights reproduce `J` up to degree `2n - 1`, `n` the number of nodes. -/
theorem C25_recurrence {eig diff sub} {alpha beta : ℕ → ℝ} {n : ℕ} {a b : ℝ} {r : Rule}
    (J : ℝ[X] →ₗ[ℝ] ℝ) (hJ : J 1 = b - a)
    (h : ruleFromRecurrence eig diff sub ((List.range (n + 1)).map alpha)
      ((List.range (n + 1)).map beta) a b = .ok r)
    (hnd : r.x.Nodup) (hlen : r.x.length = n + 1)
    (hroot : ∀ t ∈ r.x, (opoly alpha beta (n + 1)).eval t = 0)
    (horth : ∀ k, k = n ∨ k = n + 1 → ∀ r : ℝ[X], r.degree < k → J (r * opoly alpha beta k) = 0)
    (hq : J (opoly alpha beta n * opoly alpha beta n) ≠ 0) (f : ℝ[X]) (hf : f.natDegree ≤ 2 * n + 1) :
    quad r.x r.w (fun t => f.eval t) = J f := by
  rw [range_map_cons beta] at h
  have hw := weights_eq hJ (rule_ok h).2.1 hnd hlen hroot horth hq
  have hs : r.x.toFinset.card = n + 1 := by rw [List.toFinset_card_of_nodup hnd, hlen]
  obtain ⟨hp, hpn⟩ := opoly_monic alpha beta (n + 1)
  rw [hw, quad_finset hnd, ← gauss_interp J hp hpn (by omega) (horth _ (Or.inr rfl)) _ hs
    (fun t ht => hroot t (List.mem_toFinset.1 ht)) f (by omega)]

/-- In any case the weights of a returned rule sum to `b - a`, one weight per node. -/
theorem C25_weights_sum {eig diff sub} {alpha beta : List ℝ} {a b : ℝ} {r : Rule}
    (h : ruleFromRecurrence eig diff sub alpha beta a b = .ok r) :
    r.w.sum = b - a ∧ r.w.length = r.x.length ∧ r.a = a ∧ r.b = b := by
  cases beta with
  | nil => cases h
  | cons b0 bs =>
    obtain ⟨-, hw, ha, hb, -⟩ := rule_ok h
    unfold weightsOf at hw
    split at hw
    · cases hw
    · rename_i w hw'
      split at hw
      · cases hw
      · rename_i hne
        simp only [Except.ok.injEq] at hw
        refine ⟨?_, ?_, ha, hb⟩
        · rw [← hw, List.sum_map_mul_right]
          simp only [List.map_id']
          field_simp
        · rw [← hw, List.length_map]
          exact mapM_length hw'

/-! ### Gauss-Legendre -/

theorem legendre_mono_right (n : ℕ) {x : ℝ} (hx : 1 ≤ x) :
    0 < (legendre n).eval x ∧ (legendre n).eval x ≤ (legendre (n + 1)).eval x := by
  induction n with
  | zero => simpa using hx
  | succ n ih =>
    obtain ⟨h1, h2⟩ := ih
    have h3 : 0 < (legendre (n + 1)).eval x := h1.trans_le h2
    refine ⟨h3, ?_⟩
    have e := Legendre.bonnet_eval n x
    have e1 : (2 * (n : ℝ) + 3) * (legendre (n + 1)).eval x ≤ (2 * (n : ℝ) + 3) * x * (legendre (n + 1)).eval x := by
      have : 0 ≤ (2 * (n : ℝ) + 3) * (legendre (n + 1)).eval x := by positivity
      nlinarith
    have e2 : ((n : ℝ) + 1) * (legendre n).eval x ≤ ((n : ℝ) + 1) * (legendre (n + 1)).eval x :=
      mul_le_mul_of_nonneg_left h2 (by positivity)
    have e3 : ((n : ℝ) + 2) * (legendre (n + 1)).eval x ≤ ((n : ℝ) + 2) * (legendre (n + 2)).eval x := by
      rw [e]; linarith
    exact le_of_mul_le_mul_left e3 (by positivity)

/-- The roots of the Legendre polynomials lie strictly inside `(-1, 1)`. -/
theorem legendre_roots_inside {n : ℕ} {x : ℝ} (h : (legendre n).eval x = 0) : -1 < x ∧ x < 1 := by
  constructor
  · by_contra hx
    push Not at hx
    have := (legendre_mono_right n (x := -x) (by linarith)).1
    rw [Legendre.eval_neg, h, mul_zero] at this
    exact lt_irrefl _ this
  · by_contra hx
    push Not at hx
    have := (legendre_mono_right n hx).1
    rw [h] at this
    exact lt_irrefl _ this

theorem opoly_root_iff {n : ℕ} {t : ℝ} :
    (opoly (fun _ => 0) legBeta n).eval t = 0 ↔ (legendre n).eval t = 0 := by
  rw [opoly_eq_legendre, eval_mul, eval_C, mul_eq_zero]
  have := (Legendre.leadingCoeff_pos n).ne'
  constructor
  · rintro (h | h)
    · exact absurd h (one_div_ne_zero this)
    · exact h
  · exact Or.inr

theorem legendreRule_eq (eig diff sub) (n : ℕ) : legendreRule eig diff sub (n + 1) =
    ruleFromRecurrence eig diff sub ((List.range (n + 1)).map fun _ => 0)
      ((List.range (n + 1)).map legBeta) (-1) 1 := by
  unfold legendreRule
  rw [legRec_eq]

/-- `legendre(n)` for `n >= 1`: whatever eigenvalue solver and (rounded) Newton corrections produced
the nodes, if these are the `n` roots of the `n`-th Legendre polynomial in ascending order, then the
returned rule integrates polynomials up to degree `2n - 1` over `[-1, 1]` exactly, has positive weights,
and is sound (ascending nodes strictly inside the interval, correct distances to the edges). -/
theorem C25_legendre {eig diff sub} {n : ℕ} {r : Rule} (hn : 0 < n) (h : legendreRule eig diff sub n = .ok r)
    (hlen : r.x.length = n) (hasc : r.x.Pairwise (· < ·)) (hroot : ∀ t ∈ r.x, (legendre n).eval t = 0) :
    ExactTo r.x r.w (-1) 1 (2 * n - 1) ∧ (∀ w ∈ r.w, 0 < w) ∧ Sound r ∧ r.a = -1 ∧ r.b = 1 := by
  obtain ⟨n, rfl⟩ : ∃ m, n = m + 1 := ⟨n - 1, by omega⟩
  rw [legendreRule_eq] at h
  have hnd : r.x.Nodup := hasc.imp fun h => h.ne
  have hJ : JLeg 1 = 1 - (-1) := by
    show Legendre.I 1 = _
    simp [Legendre.I]
  have horth : ∀ k, k = n ∨ k = n + 1 → ∀ r : ℝ[X], r.degree < k →
      JLeg (r * opoly (fun _ => 0) legBeta k) = 0 := fun k _ r hr => leg_orth k r hr
  have hq := (leg_sq_pos _ (opoly_monic (fun _ => 0) legBeta n).1.ne_zero).ne'
  have hroot' : ∀ t ∈ r.x, (opoly (fun _ => 0) legBeta (n + 1)).eval t = 0 :=
    fun t ht => opoly_root_iff.2 (hroot t ht)
  have hs : r.x.toFinset.card = n + 1 := by rw [List.toFinset_card_of_nodup hnd, hlen]
  have h' := h
  rw [range_map_cons legBeta] at h'
  obtain ⟨-, hw, ha, hb, hf, hbk⟩ := rule_ok h'
  have hwl := weights_eq hJ hw hnd hlen hroot' horth hq
  refine ⟨?_, ?_, ⟨?_, ?_, hasc, ?_, ?_, ?_⟩, ha, hb⟩
  · intro p hp
    exact C25_recurrence JLeg hJ h hnd hlen hroot' horth hq p (by omega)
  · intro w hw
    rw [hwl] at hw
    obtain ⟨t, ht, rfl⟩ := List.mem_map.1 hw
    obtain ⟨hp, hpn⟩ := opoly_monic (fun _ => 0) legBeta (n + 1)
    exact lam_pos JLeg hp hpn (by omega) (horth _ (Or.inr rfl)) _ hs
      (fun t ht => hroot' t (List.mem_toFinset.1 ht)) leg_sq_pos (List.mem_toFinset.2 ht)
  · exact (C25_weights_sum h).2.1.symm
  · rw [ha, hb]; norm_num
  · intro t ht
    rw [ha, hb]
    exact legendre_roots_inside (hroot t ht)
  · rw [hf, ha]
  · rw [hbk, hb]

theorem legBeta_pos (k : ℕ) : 0 < legBeta k := by
  unfold legBeta
  split
  · norm_num
  · rename_i h
    have h1 : (1 : ℝ) ≤ (k : ℝ) := by exact_mod_cast Nat.one_le_iff_ne_zero.2 h
    have : 0 < 4 * (k : ℝ) ^ 2 - 1 := by nlinarith
    positivity

/-- scipy's `eigvalsh_tridiagonal` meets its contract for the Legendre matrix of order `n + 1`. -/
def EigOk (eig : List ℝ → List ℝ → List ℝ) (n : ℕ) : Prop :=
  IsEigvals (n + 1) (fun _ => 0) (offdiag legBeta)
    (eig ((List.range (n + 1)).map fun _ => 0) ((btail legBeta n).map Real.sqrt))

/-- With an exact eigenvalue solver the start vector already consists of the `n + 1` Legendre roots. -/
theorem eig_start {eig} {n : ℕ} (he : EigOk eig n) :
    let x := eig ((List.range (n + 1)).map fun _ => 0) ((btail legBeta n).map Real.sqrt)
    x.Pairwise (· < ·) ∧ x.length = n + 1 ∧ ∀ t ∈ x, (legendre (n + 1)).eval t = 0 := by
  obtain ⟨h1, h2, h3⟩ := eigvals_spec (beta := legBeta) (Nat.succ_pos n) (fun k _ _ => legBeta_pos k) he
  exact ⟨h1, h2, fun t ht => opoly_root_iff.1 (h3 t ht)⟩

theorem btail_nonneg (n : ℕ) : ∀ t ∈ ((1 : ℝ) - (-1)) :: btail legBeta n, 0 ≤ t := by
  intro t ht
  rcases List.mem_cons.1 ht with rfl | ht
  · norm_num
  · obtain ⟨i, _, rfl⟩ := List.mem_map.1 ht
    exact (legBeta_pos _).le

/-- Weights exist for exact roots. -/
theorem weights_exist {n : ℕ} {x : List ℝ} (hasc : x.Pairwise (· < ·)) (hlen : x.length = n + 1)
    (hroot : ∀ t ∈ x, (legendre (n + 1)).eval t = 0) :
    ∃ w, weightsOf ((List.range (n + 1)).map fun _ => 0) ((1 - (-1)) :: btail legBeta n) x (1 - (-1)) = .ok w := by
  have hnd : x.Nodup := hasc.imp fun h => h.ne
  have hs : x.toFinset.card = n + 1 := by rw [List.toFinset_card_of_nodup hnd, hlen]
  obtain ⟨hp, hpn⟩ := opoly_monic (fun _ => 0) legBeta (n + 1)
  obtain ⟨hq1, hqn⟩ := opoly_monic (fun _ => 0) legBeta n
  have hroot' : ∀ t ∈ x.toFinset, (opoly (fun _ => 0) legBeta (n + 1)).eval t = 0 :=
    fun t ht => opoly_root_iff.2 (hroot t (List.mem_toFinset.1 ht))
  have hpos : ∀ t ∈ x, 0 < (opoly (fun _ => 0) legBeta (n + 1)).derivative.eval t *
      (opoly (fun _ => 0) legBeta n).eval t := by
    intro t ht
    have h1 := lam_eq JLeg hp hpn (by omega) hq1 (by simpa using hqn) (leg_orth _)
      (by simpa using leg_orth n) _ hs hroot' (List.mem_toFinset.2 ht)
    have h2 := lam_pos JLeg hp hpn (by omega) (leg_orth _) _ hs hroot' leg_sq_pos (List.mem_toFinset.2 ht)
    have h3 := leg_sq_pos _ hq1.ne_zero
    rw [← h1] at h3
    exact (mul_pos_iff_of_pos_left h2).1 h3
  have hraw : x.mapM (rawWeight ((List.range (n + 1)).map fun _ => 0) ((1 - (-1)) :: btail legBeta n)) =
      .ok (x.map fun t => 1 / ((opoly (fun _ => 0) legBeta (n + 1)).derivative.eval t *
        (opoly (fun _ => 0) legBeta n).eval t)) := by
    apply mapM_ok
    intro t ht
    rw [rawWeight, pvd_btail]
    simp only [if_neg (hpos t ht).ne']
  unfold weightsOf
  rw [hraw]
  simp only
  rw [if_neg]
  · exact ⟨_, rfl⟩
  · apply ne_of_gt
    apply List.sum_pos
    · intro w hw
      obtain ⟨t, ht, rfl⟩ := List.mem_map.1 hw
      exact one_div_pos.2 (hpos t ht)
    · intro h0
      have := congrArg List.length h0
      rw [List.length_map, hlen] at this
      cases this

/-- The hypotheses of `C25_legendre` can be met for every order: an exact eigenvalue solver, and Newton
corrections so small that the rounded subtraction discards them (as happens in floating point). -/
theorem C25_exists (n : ℕ) : ∃ eig diff sub r, legendreRule eig diff sub (n + 1) = .ok r ∧
    r.x.length = n + 1 ∧ r.x.Pairwise (· < ·) ∧ ∀ t ∈ r.x, (legendre (n + 1)).eval t = 0 := by
  obtain ⟨x, hx⟩ := exists_eigvals (n + 1) (fun _ => 0) (offdiag legBeta)
  have he : EigOk (fun _ _ => x) n := hx
  obtain ⟨h1, h2, h3⟩ := eig_start he
  obtain ⟨w, hw⟩ := weights_exist h1 h2 h3
  have hne : x ≠ [] := by rintro rfl; cases h2
  refine ⟨fun _ _ => x, fun _ _ x => .ok (x.map fun _ => (1 / 8 : ℝ)), fun t _ => t,
    ⟨x, w, x.map (· - (-1)), x.map (1 - ·), -1, 1⟩, ?_, h2, h1, h3⟩
  rw [legendreRule_eq, range_map_cons legBeta]
  have hz : List.zipWith (fun t _ : ℝ => t) x (x.map fun _ => (1 / 8 : ℝ)) = x := by
    clear * -
    induction x with
    | nil => rfl
    | cons t x ih => rw [List.map_cons, List.zipWith_cons_cons, ih]
  have hm : ((x.map fun _ => (1 / 8 : ℝ)).map fun t => |t|).max? = some (1 / 8) := by
    rw [List.max?_eq_some_iff]
    simp [hne, List.mem_map]
  have hloop : newtonLoop (fun x => .ok (x.map fun _ => (1 / 8 : ℝ))) (fun t _ => t) 5 1 x = .ok (x, true) := by
    rw [newtonLoop]
    simp only [hz, hm]
    rw [if_neg (by norm_num), newtonLoop]
    simp only [hz, hm]
    rw [if_pos (by norm_num)]
  unfold ruleFromRecurrence
  have hall : ¬ ¬ (((1 : ℝ) - (-1)) :: btail legBeta n).all (fun t => decide (t ≥ 0)) = true := by
    have := btail_nonneg n
    simp only [List.all_eq_true, decide_eq_true_eq, not_not]
    exact this
  simp only [if_neg hall, hloop, hw]

/-- C27 is false: in exact arithmetic, with an exact eigenvalue solver, *every* Gauss-Legendre rule
construction fails (the corrections vanish, the loop never breaks, the warning cannot be formatted). -/
theorem C27_exact_raises {eig} {n : ℕ} (he : EigOk eig n) :
    legendreRule eig newtonDiff (· - ·) (n + 1) = .error .attributeError := by
  obtain ⟨h1, h2, h3⟩ := eig_start he
  rw [legendreRule_eq, range_map_cons legBeta]
  set x := eig ((List.range (n + 1)).map fun _ => 0) ((btail legBeta n).map Real.sqrt) with hx
  have hne : x ≠ [] := by
    intro h
    simp only [h] at h2
    cases h2
  refine C27_nonconvergence_raises (y := x) (btail_nonneg n) ?_
  rw [← hx]
  refine newtonLoop_zero (by simp) hne ?_ 5 1 (by norm_num)
  obtain ⟨hp, hpn⟩ := opoly_monic (fun _ => 0) legBeta (n + 1)
  apply mapM_ok
  intro t ht
  rw [pvd_btail]
  have hd := simple_root hp hpn (h1.imp fun h => h.ne) h2 (fun t ht => opoly_root_iff.2 (h3 t ht)) ht
  simp only [if_neg hd, opoly_root_iff.2 (h3 t ht), zero_div]

/-- In particular `legendre(1)`, where floating point is exact: the single node `0` is its own root, so
the call raises AttributeError instead of returning the midpoint rule. -/
theorem C27_legendre_one (eig : List ℝ → List ℝ → List ℝ) (he : eig [0] [] = [0]) (sub : ℝ → ℝ → ℝ)
    (hsub : ∀ t, sub t 0 = t) : legendreRule eig newtonDiff sub 1 = .error .attributeError := by
  rw [legendreRule_eq, range_map_cons legBeta]
  refine C27_nonconvergence_raises (y := [0]) (btail_nonneg 0) ?_
  rw [show eig ((List.range (0 + 1)).map fun _ => 0) ((btail legBeta 0).map Real.sqrt) = [0] by
    simpa [btail] using he]
  refine newtonLoop_zero hsub (by simp) ?_ 5 1 (by norm_num)
  simp [newtonDiff, polyValDeriv, pvdLoop, List.range_succ]

/-- A solver meeting the contract exists for every order. -/
example (n : ℕ) : ∃ eig, EigOk eig n := by
  obtain ⟨x, hx⟩ := exists_eigvals (n + 1) (fun _ => 0) (offdiag legBeta)
  exact ⟨fun _ _ => x, hx⟩

end Verif.Props
