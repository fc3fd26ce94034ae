import Verif.Props.C23_RuleAlgebra
import Mathlib.Analysis.SpecialFunctions.Integrals.Basic
/-!
# C29: the nested Kronrod table
-/

namespace Verif.Props
open Verif Verif.Gauss Verif.Spec Polynomial

/-- `∑ᵢ wᵢ xᵢᵏ` for a rational table. -/
def momentQ (x w : List ℚ) (k : ℕ) : ℚ := (List.zipWith (fun x w => w * x ^ k) x w).sum

/-- `∫_{-1}^{1} x^k dx`. -/
def exactMoment (k : ℕ) : ℚ := (1 - (-1) ^ (k + 1)) / (k + 1)

theorem moment31 : ∀ k < 47, |momentQ kronrodX kronrodW k - exactMoment k| ≤ 1e-16 := by decide +kernel

theorem moment15 : ∀ k < 30, |momentQ (vsel kronrodX) kronrodV k - exactMoment k| ≤ 1e-16 := by
  decide +kernel

theorem quad_cast (x w : List ℚ) (k : ℕ) :
    quad (x.map fun q : ℚ => (q : ℝ)) (w.map fun q : ℚ => (q : ℝ)) (fun t => t ^ k) = (momentQ x w k : ℝ) := by
  unfold quad momentQ
  induction x generalizing w with
  | nil => simp
  | cons a x ih =>
    cases w with
    | nil => simp
    | cons b w => simp [ih]

theorem quad_add (x w : List ℝ) (f g : ℝ → ℝ) :
    quad x w (fun t => f t + g t) = quad x w f + quad x w g := by
  unfold quad
  induction x generalizing w with
  | nil => simp
  | cons a x ih =>
    cases w with
    | nil => simp
    | cons b w => simp only [List.zipWith_cons_cons, List.sum_cons, ih]; ring

theorem quad_smul (x w : List ℝ) (c : ℝ) (f : ℝ → ℝ) :
    quad x w (fun t => c * f t) = c * quad x w f := by
  unfold quad
  induction x generalizing w with
  | nil => simp
  | cons a x ih =>
    cases w with
    | nil => simp
    | cons b w => simp only [List.zipWith_cons_cons, List.sum_cons, ih]; ring

theorem quad_zero (x w : List ℝ) : quad x w (fun _ => 0) = 0 := by
  have := quad_smul x w 0 (fun _ => 0)
  simpa using this

theorem quad_sum (x w : List ℝ) (s : Finset ℕ) (f : ℕ → ℝ → ℝ) :
    quad x w (fun t => ∑ k ∈ s, f k t) = ∑ k ∈ s, quad x w (f k) := by
  induction s using Finset.cons_induction with
  | empty => simpa using quad_zero x w
  | cons a s ha ih => 
    simp only [Finset.sum_cons]
    rw [quad_add, ih]

theorem exactMoment_eq (k : ℕ) : ∫ t in (-1 : ℝ)..1, t ^ k = (exactMoment k : ℝ) := by
  rw [integral_pow]
  simp [exactMoment]

/-- A table whose moments are right up to `eps` integrates polynomials with error at most `eps` times
the `l1` norm of the coefficients. -/
theorem moment_error {x w : List ℚ} {d : ℕ} {eps : ℚ}
    (h : ∀ k < d + 1, |momentQ x w k - exactMoment k| ≤ eps) (p : ℝ[X]) (hp : p.natDegree ≤ d) :
    |quad (x.map fun q : ℚ => (q : ℝ)) (w.map fun q : ℚ => (q : ℝ)) (fun t => p.eval t) -
      ∫ t in (-1 : ℝ)..1, p.eval t| ≤ eps * ∑ k ∈ Finset.range (d + 1), |p.coeff k| := by
  have e : (fun t => p.eval t) = fun t => ∑ k ∈ Finset.range (d + 1), p.coeff k * t ^ k := by
    funext t
    exact eval_eq_sum_range' (by omega) t
  rw [e, quad_sum, intervalIntegral.integral_finset_sum]
  · rw [← Finset.sum_sub_distrib, Finset.mul_sum]
    refine (Finset.abs_sum_le_sum_abs _ _).trans (Finset.sum_le_sum ?_)
    intro k hk
    rw [quad_smul, quad_cast, intervalIntegral.integral_const_mul, exactMoment_eq, ← mul_sub, abs_mul,
      mul_comm]
    apply mul_le_mul_of_nonneg_right _ (abs_nonneg _)
    have := h k (Finset.mem_range.1 hk)
    exact_mod_cast this
  · intro k _
    exact (Continuous.intervalIntegrable (by fun_prop) _ _)

theorem vsel_map {α β : Type} (f : α → β) : ∀ l : List α, vsel (l.map f) = (vsel l).map f
  | [] => rfl
  | [_] => rfl
  | a :: b :: l => by simp only [List.map_cons, vsel, vsel_map f l]

/-- The 31 point rule integrates every polynomial of degree at most 46 over `[-1, 1]` with an error of
at most `1e-14` (indeed `1e-16`) times the sum of the moduli of its coefficients. -/
theorem C29_kronrod31 (p : ℝ[X]) (hp : p.natDegree ≤ 46) :
    |quad kronrod31_15.x kronrod31_15.w (fun t => p.eval t) - ∫ t in (-1 : ℝ)..1, p.eval t| ≤
      1e-16 * ∑ k ∈ Finset.range 47, |p.coeff k| := by
  have := moment_error moment31 p hp
  rwa [show ((1e-16 : ℚ) : ℝ) = 1e-16 by norm_num] at this

/-- The embedded 15 point rule uses every second node and is accurate up to degree 29. -/
theorem C29_gauss15 (p : ℝ[X]) (hp : p.natDegree ≤ 29) :
    |quad (vsel kronrod31_15.x) kronrod31_15.v (fun t => p.eval t) - ∫ t in (-1 : ℝ)..1, p.eval t| ≤
      1e-16 * ∑ k ∈ Finset.range 30, |p.coeff k| := by
  have := moment_error moment15 p hp
  have e : vsel kronrod31_15.x = (vsel kronrodX).map fun q : ℚ => (q : ℝ) := vsel_map _ _
  rw [e]
  rwa [show ((1e-16 : ℚ) : ℝ) = 1e-16 by norm_num] at this

/-- `x[1::2]` consists of the entries at odd positions. -/
theorem C29_vsel {α : Type} : ∀ (l : List α) (k : ℕ), (vsel l)[k]? = l[2 * k + 1]?
  | [], k => by simp [vsel]
  | [a], k => by simp [vsel]
  | a :: b :: l, 0 => by simp [vsel]
  | a :: b :: l, k + 1 => by
    rw [vsel, List.getElem?_cons_succ, C29_vsel l k, show 2 * (k + 1) + 1 = 2 * k + 1 + 1 + 1 by omega,
      List.getElem?_cons_succ, List.getElem?_cons_succ]

theorem tableQ : kronrodX.Pairwise (· < ·) ∧ (∀ q ∈ kronrodX, -1 < q ∧ q < 1) ∧
    kronrodX.map (- ·) = kronrodX.reverse ∧ kronrodW = kronrodW.reverse ∧ kronrodV = kronrodV.reverse ∧
    (∀ q ∈ kronrodW, 0 < q) ∧ (∀ q ∈ kronrodV, 0 < q) := by decide +kernel

/-- Shape of the table: 31 nodes and weights, 15 second weights, sound (ascending, inside the
interval, distances to the edges), symmetric about zero, all weights positive. -/
theorem C29_table : Sound kronrod31_15.toRule ∧ kronrod31_15.x.length = 31 ∧
    kronrod31_15.v.length = 15 ∧ (vsel kronrod31_15.x).length = 15 ∧
    kronrod31_15.x.map (- ·) = kronrod31_15.x.reverse ∧
    kronrod31_15.w = kronrod31_15.w.reverse ∧ kronrod31_15.v = kronrod31_15.v.reverse ∧
    (∀ t ∈ kronrod31_15.w, 0 < t) ∧ (∀ t ∈ kronrod31_15.v, 0 < t) := by
  obtain ⟨h1, h2, h3, h4, h5, h6, h7⟩ := tableQ
  have ex : kronrod31_15.x = kronrodX.map fun q : ℚ => (q : ℝ) := rfl
  have ew : kronrod31_15.w = kronrodW.map fun q : ℚ => (q : ℝ) := rfl
  have ev : kronrod31_15.v = kronrodV.map fun q : ℚ => (q : ℝ) := rfl
  refine ⟨⟨?_, ?_, ?_, ?_, rfl, rfl⟩, ?_, ?_, ?_, ?_, ?_, ?_, ?_, ?_⟩
  · rw [ex, ew, List.length_map, List.length_map]; rfl
  · show (-1 : ℝ) < 1; norm_num
  · rw [ex, List.pairwise_map]
    exact h1.imp fun h => by exact_mod_cast h
  · intro t ht
    rw [ex] at ht
    obtain ⟨q, hq, rfl⟩ := List.mem_map.1 ht
    show (-1 : ℝ) < q ∧ (q : ℝ) < 1
    exact_mod_cast h2 q hq
  · rw [ex, List.length_map]; rfl
  · rw [ev, List.length_map]; rfl
  · rw [ex, vsel_map, List.length_map]; rfl
  · rw [ex, ← List.map_reverse, ← h3, List.map_map, List.map_map]
    apply List.map_congr_left
    intro q _
    simp
  · rw [ew, ← List.map_reverse, ← h4]
  · rw [ev, ← List.map_reverse, ← h5]
  · intro t ht
    rw [ew] at ht
    obtain ⟨q, hq, rfl⟩ := List.mem_map.1 ht
    exact_mod_cast h6 q hq
  · intro t ht
    rw [ev] at ht
    obtain ⟨q, hq, rfl⟩ := List.mem_map.1 ht
    exact_mod_cast h7 q hq

/-- Reseating a nested rule reseats both rules: with `c = (b - a)/(b₀ - a₀)` and the affine map `g` from
the old to the new interval, both quadrature sums become `c ∑ w f(g(x))`. -/
theorem C29_reseat (r : NestedRule) (a b : ℝ) (f : ℝ → ℝ) :
    let c := (b - a) / (r.b - r.a)
    let g := fun t => c * (t - (r.b + r.a) / 2) + (b + a) / 2
    quad (r.reseat a b).x (r.reseat a b).w f = c * quad r.x r.w (fun t => f (g t)) ∧
    quad (vsel (r.reseat a b).x) (r.reseat a b).v f = c * quad (vsel r.x) r.v (fun t => f (g t)) ∧
    (r.reseat a b).a = a ∧ (r.reseat a b).b = b := by
  intro c g
  refine ⟨quad_map _ _ _ _ _, ?_, rfl, rfl⟩
  have e : (r.reseat a b).v = r.v.map (· * c) := by
    show r.v.map (c * ·) = _
    apply List.map_congr_left
    intro t _
    ring
  have e2 : vsel (r.reseat a b).x = (vsel r.x).map g := vsel_map _ _
  rw [e, e2]
  exact quad_map _ _ _ _ _

/-- Scaling a nested rule scales both quadrature sums. -/
theorem C29_scale (r : NestedRule) (c : ℝ) (f : ℝ → ℝ) :
    quad (r.scale c).x (r.scale c).w f = c * quad r.x r.w f ∧
    quad (vsel (r.scale c).x) (r.scale c).v f = c * quad (vsel r.x) r.v f := by
  constructor
  · have := quad_map r.x r.w f id c
    rwa [List.map_id] at this
  · have := quad_map (vsel r.x) r.v f id c
    have e : (r.scale c).v = r.v.map (· * c) := by
      show r.v.map (c * ·) = _
      apply List.map_congr_left
      intro t _
      ring
    rw [e]
    rwa [List.map_id] at this

example : |quad kronrod31_15.x kronrod31_15.w (fun t => (X ^ 46 : ℝ[X]).eval t) - ∫ t in (-1 : ℝ)..1, (X ^ 46 : ℝ[X]).eval t| ≤
      1e-16 * ∑ k ∈ Finset.range 47, |(X ^ 46 : ℝ[X]).coeff k| := C29_kronrod31 _ (by simp)

end Verif.Props
