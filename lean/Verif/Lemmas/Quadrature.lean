import Verif.Spec.Quadrature
import Verif.Lemmas.Legendre
import Mathlib.Tactic.Ring
import Mathlib.Tactic.Linarith
import Mathlib.Tactic.FieldSimp
/-! Elementary facts about quadrature sums and piecewise polynomials. -/

namespace Verif.Spec
open Polynomial MeasureTheory

theorem quad_append {x1 w1 x2 w2 : List ℝ} (h : x1.length = w1.length) (f : ℝ → ℝ) :
    quad (x1 ++ x2) (w1 ++ w2) f = quad x1 w1 f + quad x2 w2 f := by
  unfold quad
  rw [List.zipWith_append h, List.sum_append]

theorem quad_congr {x w : List ℝ} {f g : ℝ → ℝ} (h : ∀ t ∈ x, f t = g t) : quad x w f = quad x w g := by
  unfold quad
  congr 1
  induction x generalizing w with
  | nil => simp
  | cons a x ih =>
    cases w with
    | nil => simp
    | cons b w => 
      simp only [List.zipWith_cons_cons]
      rw [h a (by simp), ih fun t ht => h t (by simp [ht])]

theorem quad_map (x w : List ℝ) (f : ℝ → ℝ) (g : ℝ → ℝ) (c : ℝ) :
    quad (x.map g) (w.map (· * c)) f = c * quad x w (f ∘ g) := by
  unfold quad
  induction x generalizing w with
  | nil => simp
  | cons a x ih =>
    cases w with
    | nil => simp
    | cons b w => 
      simp only [List.map_cons, List.zipWith_cons_cons, List.sum_cons, ih, Function.comp_apply]
      ring

theorem quad_eq_sum {n : ℕ} (x w : Fin n → ℝ) (f : ℝ → ℝ) :
    quad (List.ofFn x) (List.ofFn w) f = ∑ i, w i * f (x i) := by
  unfold quad
  rw [← List.sum_ofFn]
  congr 1
  apply List.ext_getElem <;> simp

/-- A piecewise polynomial is integrable on each segment. -/
theorem seg_integrable {a b : ℝ} (hab : a < b) {f : ℝ → ℝ} {p : ℝ[X]}
    (h : ∀ t, a < t → t < b → f t = p.eval t) : IntervalIntegrable f volume a b := by
  refine IntervalIntegrable.congr_uIoo (f := fun t => p.eval t) (Legendre.intble p a b) ?_
  intro t ht
  rw [Set.uIoo_of_le hab.le] at ht
  exact (h t ht.1 ht.2).symm

theorem seg_integral {a b : ℝ} (hab : a < b) {f : ℝ → ℝ} {p : ℝ[X]}
    (h : ∀ t, a < t → t < b → f t = p.eval t) : ∫ t in a..b, f t = ∫ t in a..b, p.eval t :=
  intervalIntegral.integral_congr_Ioo_of_le hab.le fun t ht => h t ht.1 ht.2

theorem piecewise_integrable : ∀ (edges : List ℝ) (a b : ℝ) (d : ℕ) (f : ℝ → ℝ),
    edges.Pairwise (· < ·) → PiecewisePoly edges d f → edges.head? = some a → edges.getLast? = some b →
    IntervalIntegrable f volume a b
  | [], a, b, d, f, _, _, ha, _ => by simp at ha
  | [e], a, b, d, f, _, _, ha, hb => by
    simp at ha hb; subst ha hb; exact IntervalIntegrable.refl
  | e :: e' :: l, a, b, d, f, hp, hf, ha, hb => by
    simp only [List.head?_cons, Option.some.injEq] at ha
    subst ha
    have h1 := piecewise_integrable (e' :: l) e' b d f (List.pairwise_cons.1 hp).2
      (fun x y hxy => hf x y (by obtain ⟨l1, l2, h⟩ := hxy; exact ⟨e :: l1, l2, by rw [h]; rfl⟩)) rfl
      (by rw [List.getLast?_cons_cons] at hb; exact hb)
    obtain ⟨p, -, hpp⟩ := hf e e' ⟨[], l, rfl⟩
    exact (seg_integrable ((List.pairwise_cons.1 hp).1 e' (by simp)) hpp).trans h1

end Verif.Spec
