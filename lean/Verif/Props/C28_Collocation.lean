import Verif.Props.C25_GaussLegendre
import Verif.Lemmas.NpLegendre
/-!
# C28: the collocation matrix inverts Legendre evaluation
-/

namespace Verif.Props
open Verif Verif.Gauss Verif.Spec Polynomial

/-- Matrix times vector for a list of rows. -/
noncomputable def matVec (m : List (List ℝ)) (v : List ℝ) : List ℝ :=
  m.map fun row => (List.zipWith (· * ·) row v).sum

theorem zip_quad (g h : ℝ → ℝ) (c : ℝ) : ∀ x w : List ℝ,
    (List.zipWith (· * ·) (List.zipWith (fun x w => (g x * w) * c) x w) (x.map h)).sum =
      c * quad x w (fun t => g t * h t)
  | [], w => by simp [quad]
  | _ :: _, [] => by simp [quad]
  | a :: x, b :: w => by
    have := zip_quad g h c x w
    unfold quad at this ⊢
    simp only [List.zipWith_cons_cons, List.map_cons, List.sum_cons, this]
    ring

/-- For a rule that is exact to degree `2n - 2` on `[-1, 1]`, the collocation matrix for `n` functions
has `n` rows and maps the values at the nodes of any Legendre sum with `n` terms to its
coefficients. -/
theorem C28_collocation (r : Rule) (n : Option ℕ) (hn : 0 < n.getD r.x.length)
    (hex : ExactTo r.x r.w (-1) 1 (2 * (n.getD r.x.length) - 2)) :
    ∃ m, legendreCollocation r n = .ok m ∧ m.length = n.getD r.x.length ∧
      ∀ c : List ℝ, c.length = n.getD r.x.length → matVec m (r.x.map (legendreSum c)) = c := by
  unfold legendreCollocation
  simp only
  set N := n.getD r.x.length with hN
  rw [if_neg (by omega)]
  refine ⟨_, rfl, by simp, ?_⟩
  intro c hc
  unfold matVec
  apply List.ext_getElem
  · simp [hc]
  · intro k h1 h2
    simp only [List.getElem_map, List.getElem_range]
    have hk : k < N := by omega
    have e : (fun (x w : ℝ) => (((Np.legvander x (N - 1))[k]?).getD 0 * w) * (0.5 + (k : ℝ))) =
        fun x w => ((legendre k).eval x * w) * (0.5 + (k : ℝ)) := by
      funext x w
      rw [Legendre.legvander_get x (N - 1) k (by omega)]
      rfl
    rw [e, zip_quad]
    have e2 : (fun t => (legendre k).eval t * legendreSum c t) =
        fun t => (legendre k * ∑ j : Fin c.length, C (c.get j) * legendre j).eval t := by
      funext t
      rw [eval_mul, eval_finset_sum]
      simp [legendreSum]
    rw [e2, hex _ ?_]
    · show (0.5 + (k : ℝ)) * Legendre.I _ = _
      rw [Finset.mul_sum, Legendre.I_sum, Finset.sum_eq_single ⟨k, h2⟩]
      · rw [mul_left_comm, Legendre.I_C_mul, Legendre.norm_sq]
        have : (2 * (k : ℝ) + 1) ≠ 0 := by positivity
        simp only [List.get_eq_getElem]
        field_simp
        ring
      · intro j _ hj
        rw [mul_left_comm, Legendre.I_C_mul, Legendre.orthogonal, mul_zero]
        intro h
        exact hj (Fin.ext h.symm)
      · simp
    · refine (natDegree_mul_le).trans ?_
      rw [Legendre.natDegree_eq]
      have : (∑ j : Fin c.length, C (c.get j) * legendre j).natDegree ≤ N - 1 := by
        apply natDegree_sum_le_of_forall_le
        intro j _
        refine (natDegree_C_mul_le _ _).trans ?_
        rw [Legendre.natDegree_eq]
        have := j.2
        omega
      omega

/-- In terms of polynomials: the `k`-th entry is the `k`-th Legendre coefficient of any polynomial of
degree less than `n`. -/
theorem C28_polynomial (r : Rule) (n : Option ℕ) (hn : 0 < n.getD r.x.length)
    (hex : ExactTo r.x r.w (-1) 1 (2 * (n.getD r.x.length) - 2)) (f : ℝ[X])
    (hf : f.degree < (n.getD r.x.length : ℕ)) :
    ∃ m c, legendreCollocation r n = .ok m ∧ matVec m (r.x.map fun t => f.eval t) = c ∧
      c.length = n.getD r.x.length ∧ ∀ t, f.eval t = legendreSum c t := by
  obtain ⟨m, hm, -, h⟩ := C28_collocation r n hn hex
  obtain ⟨c, hc⟩ := Legendre.exists_expansion _ f hf
  have hs : ∀ t, f.eval t = legendreSum ((List.range (n.getD r.x.length)).map c) t := by
    intro t
    unfold legendreSum
    rw [hc, eval_finset_sum, Finset.sum_range]
    apply Fintype.sum_equiv (finCongr (by simp))
    intro i
    simp
  refine ⟨m, (List.range (n.getD r.x.length)).map c, hm, ?_, by simp, hs⟩
  refine Eq.trans ?_ (h _ (by simp))
  congr 1
  apply List.map_congr_left
  intro t _
  exact hs t

/-- Asking for zero functions is an error. -/
theorem C28_zero (r : Rule) (n : Option ℕ) (hn : n.getD r.x.length = 0) :
    legendreCollocation r n = .error .valueError := by
  unfold legendreCollocation
  simp only [hn, if_true]

/-- Every Gauss-Legendre rule with `n` nodes meets the hypothesis (with the default `n`). -/
theorem C28_gauss {eig diff sub} {n : ℕ} {r : Rule} (hn : 0 < n) (h : legendreRule eig diff sub n = .ok r)
    (hlen : r.x.length = n) (hasc : r.x.Pairwise (· < ·)) (hroot : ∀ t ∈ r.x, (legendre n).eval t = 0) :
    ∃ m, legendreCollocation r none = .ok m ∧
      ∀ c : List ℝ, c.length = n → matVec m (r.x.map (legendreSum c)) = c := by
  obtain ⟨m, h1, -, h3⟩ := C28_collocation r none (by simpa [hlen] using hn) (by
    intro p hp
    exact (C25_legendre hn h hlen hasc hroot).1 p (by simp [hlen] at hp; omega))
  exact ⟨m, h1, fun c hc => h3 c (by simpa [hlen] using hc)⟩

end Verif.Props
