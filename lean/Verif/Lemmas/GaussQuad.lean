import Verif.Spec.Recurrence
import Verif.Lemmas.Legendre
import Mathlib.LinearAlgebra.Lagrange
import Mathlib.Algebra.Polynomial.Div
import Mathlib.Tactic.Linarith
import Mathlib.Tactic.LinearCombination
import Mathlib.Tactic.FieldSimp
/-! Gaussian quadrature for an arbitrary linear functional on polynomials. -/

namespace Verif.GaussQuad
open Polynomial Verif.Spec Finset

section functional
variable (J : ℝ[X] →ₗ[ℝ] ℝ) {n : ℕ} {p q : ℝ[X]}

theorem J_C_mul (c : ℝ) (f : ℝ[X]) : J (C c * f) = c * J f := by
  rw [← smul_eq_C_mul, map_smul, smul_eq_mul]

/-- Interpolatory weights. -/
noncomputable def lam (s : Finset ℝ) (t : ℝ) : ℝ := J (Lagrange.basis s id t)

theorem interp_exact (s : Finset ℝ) (f : ℝ[X]) (hf : f.degree < #s) :
    J f = ∑ t ∈ s, lam J s t * f.eval t := by
  have h := Lagrange.eq_interpolate (v := id) (s := s) Function.injective_id.injOn hf
  conv_lhs => rw [h, Lagrange.interpolate_apply, map_sum]
  apply sum_congr rfl
  intro t _
  rw [J_C_mul, lam, mul_comm]
  rfl

theorem eq_nodal (hp : p.Monic) (hpn : p.natDegree = n) (s : Finset ℝ) (hs : #s = n)
    (hroot : ∀ t ∈ s, p.eval t = 0) : p = Lagrange.nodal s id := by
  refine Polynomial.eq_of_degree_le_of_eval_finset_eq s ?_ ?_ ?_ ?_
  · rw [hs, degree_eq_natDegree hp.ne_zero, hpn]
  · rw [degree_eq_natDegree hp.ne_zero, hpn, Lagrange.degree_nodal, hs]
  · rw [hp.leadingCoeff, Lagrange.nodal_monic.leadingCoeff]
  · intro t ht
    rw [hroot t ht]
    exact (Lagrange.eval_nodal_at_node (v := id) ht).symm

/-- Exactness to degree `2n-1` of the interpolatory weights at the roots of an orthogonal
polynomial. -/
theorem gauss_interp (hp : p.Monic) (hpn : p.natDegree = n) (hn : 0 < n)
    (horth : ∀ r : ℝ[X], r.degree < n → J (r * p) = 0) (s : Finset ℝ) (hs : #s = n)
    (hroot : ∀ t ∈ s, p.eval t = 0) (f : ℝ[X]) (hf : f.natDegree ≤ 2 * n - 1) :
    J f = ∑ t ∈ s, lam J s t * f.eval t := by
  have hdm := modByMonic_add_div f p
  have hdeg : (f %ₘ p).degree < #s := by
    refine (degree_modByMonic_lt f hp).trans_le ?_
    rw [hs, degree_eq_natDegree hp.ne_zero, hpn]
  have hq : (f /ₘ p).degree < n := by
    by_cases h0 : f /ₘ p = 0
    · rw [h0, degree_zero]; exact WithBot.bot_lt_coe n
    · rw [degree_eq_natDegree h0, natDegree_divByMonic f hp, hpn]
      exact_mod_cast (by omega : f.natDegree - n < n)
  have h1 : J f = J (f %ₘ p) := by
    conv_lhs => rw [← hdm]
    rw [map_add, mul_comm, horth _ hq, add_zero]
  rw [h1, interp_exact J s _ hdeg]
  apply sum_congr rfl
  intro t ht
  congr 1
  conv_rhs => rw [← hdm]
  rw [eval_add, eval_mul, hroot t ht, zero_mul, add_zero]

/-- The weights in closed form: `J(q²) / (p'(t) q(t))`, where `q` is the orthogonal polynomial of the
next lower degree. -/
theorem lam_eq (hp : p.Monic) (hpn : p.natDegree = n) (hn : 0 < n) (hq : q.Monic)
    (hqn : q.natDegree = n - 1)
    (horth : ∀ r : ℝ[X], r.degree < n → J (r * p) = 0)
    (horthq : ∀ r : ℝ[X], r.degree < (n - 1 : ℕ) → J (r * q) = 0) (s : Finset ℝ) (hs : #s = n)
    (hroot : ∀ t ∈ s, p.eval t = 0) {t : ℝ} (ht : t ∈ s) :
    lam J s t * (p.derivative.eval t * q.eval t) = J (q * q) := by
  set e := Lagrange.nodal (s.erase t) id with he
  have hpe := eq_nodal hp hpn s hs hroot
  have hem : e.Monic := Lagrange.nodal_monic
  have hen : e.natDegree = n - 1 := by rw [he, Lagrange.natDegree_nodal, card_erase_of_mem ht, hs]
  have hd : p.derivative.eval t = e.eval t := by
    rw [hpe]; exact Lagrange.eval_nodal_derivative_eval_node_eq (v := id) ht
  have h1 : J (e * q) = J (q * q) := by
    have : (e - q).degree < (n - 1 : ℕ) := by
      by_cases h0 : n - 1 = 0
      · have e1 : e = 1 := eq_one_of_monic_natDegree_zero hem (by rw [hen, h0])
        have e2 : q = 1 := eq_one_of_monic_natDegree_zero hq (by rw [hqn, h0])
        rw [e1, e2, sub_self, degree_zero]
        exact WithBot.bot_lt_coe _
      · have := degree_sub_lt (p := e) (q := q)
          (by rw [degree_eq_natDegree hem.ne_zero, degree_eq_natDegree hq.ne_zero, hen, hqn])
          hem.ne_zero (by rw [hem.leadingCoeff, hq.leadingCoeff])
        rwa [degree_eq_natDegree hem.ne_zero, hen] at this
    have h2 := horthq _ this
    rw [sub_mul, map_sub] at h2
    linarith
  rw [← h1]
  have hdeg : (e * q).natDegree ≤ 2 * n - 1 := by
    rw [hem.natDegree_mul hq, hen, hqn]; omega
  rw [gauss_interp J hp hpn hn horth s hs hroot (e * q) hdeg, sum_eq_single t]
  · rw [hd, eval_mul]
  · intro u hu hut
    rw [eval_mul]
    have : e.eval u = 0 := Lagrange.eval_nodal_at_node (v := id) (mem_erase.2 ⟨hut, hu⟩)
    rw [this]; ring
  · intro h; exact absurd ht h

/-- The interpolatory weights are positive for a positive functional. -/
theorem lam_pos (hp : p.Monic) (hpn : p.natDegree = n) (hn : 0 < n)
    (horth : ∀ r : ℝ[X], r.degree < n → J (r * p) = 0) (s : Finset ℝ) (hs : #s = n)
    (hroot : ∀ t ∈ s, p.eval t = 0) (hJ : ∀ r : ℝ[X], r ≠ 0 → 0 < J (r * r)) {t : ℝ} (ht : t ∈ s) :
    0 < lam J s t := by
  set e := Lagrange.basis s id t with he
  have hinj : Set.InjOn (id : ℝ → ℝ) (s : Set ℝ) := Function.injective_id.injOn
  have hne : e ≠ 0 := Lagrange.basis_ne_zero hinj ht
  have hdeg : (e * e).natDegree ≤ 2 * n - 1 := by
    rw [natDegree_mul hne hne, he, Lagrange.natDegree_basis hinj ht, hs]; omega
  have h1 := hJ e hne
  rw [gauss_interp J hp hpn hn horth s hs hroot (e * e) hdeg, sum_eq_single t] at h1
  · have : e.eval t = 1 := Lagrange.eval_basis_self hinj ht
    rwa [eval_mul, this, mul_one, mul_one] at h1
  · intro u hu hut
    have : e.eval u = 0 := Lagrange.eval_basis_of_ne (v := id) hut.symm hu
    rw [eval_mul, this]; ring
  · intro h; exact absurd ht h

end functional

/-! ### Monic Legendre polynomials -/

theorem opoly_monic (alpha beta : ℕ → ℝ) (n : ℕ) :
    (opoly alpha beta n).Monic ∧ (opoly alpha beta n).natDegree = n := by
  induction n using Nat.twoStepInduction with
  | zero => rw [opoly]; exact ⟨monic_one, natDegree_one⟩
  | one => rw [opoly]; exact ⟨monic_X_sub_C _, natDegree_X_sub_C _⟩
  | more n h1 h2 =>
    have hm : ((X - C (alpha (n + 1))) * opoly alpha beta (n + 1)).Monic := (monic_X_sub_C _).mul h2.1
    have hd : ((X - C (alpha (n + 1))) * opoly alpha beta (n + 1)).natDegree = n + 2 := by
      rw [(monic_X_sub_C _).natDegree_mul h2.1, h2.2, natDegree_X_sub_C]; ring
    have hlt : (C (beta (n + 1)) * opoly alpha beta n).degree <
        ((X - C (alpha (n + 1))) * opoly alpha beta (n + 1)).degree := by
      rw [degree_eq_natDegree hm.ne_zero, hd]
      refine (degree_le_of_natDegree_le ((natDegree_C_mul_le _ _).trans h1.2.le)).trans_lt ?_
      exact_mod_cast (by omega : n < n + 2)
    rw [opoly]
    refine ⟨hm.sub_of_left hlt, ?_⟩
    have := degree_sub_eq_left_of_degree_lt hlt
    rw [natDegree, this, ← natDegree, hd]

/-- The recurrence coefficients of `_legendre_recurrence`. -/
noncomputable def legBeta (k : ℕ) : ℝ := if k = 0 then 2 else (k : ℝ) ^ 2 / (4 * (k : ℝ) ^ 2 - 1)

/-- The code's monic polynomials are the Legendre polynomials up to the leading coefficient. -/
theorem legendre_eq_opoly (n : ℕ) :
    legendre n = C ((legendre n).coeff n) * opoly (fun _ => 0) legBeta n := by
  induction n using Nat.twoStepInduction with
  | zero => rw [opoly]; simp
  | one => rw [opoly]; simp
  | more n h1 h2 =>
    have e2 := Legendre.coeff_self (n + 1)
    have e1 := Legendre.coeff_self n
    have hc := (Legendre.coeff_self_pos n).ne'
    have hb := Legendre.bonnet n
    rw [h1, h2] at hb
    have hn2 : ((n : ℝ) + 2) ≠ 0 := by positivity
    have hC : C ((n : ℝ) + 2) ≠ 0 := by rwa [Ne, C_eq_zero]
    apply mul_left_cancel₀ hC
    have hn1 : (n : ℝ) + 1 ≠ 0 := by positivity
    have ha1 : 2 * (n : ℝ) + 1 ≠ 0 := by positivity
    have ha3 : 2 * (n : ℝ) + 3 ≠ 0 := by positivity
    have hbeta : legBeta (n + 1) = ((n : ℝ) + 1) ^ 2 / ((2 * (n : ℝ) + 1) * (2 * (n : ℝ) + 3)) := by
      simp only [legBeta, Nat.add_eq_zero_iff, one_ne_zero, and_false, if_false]
      push_cast
      congr 1
      ring
    rw [hb, opoly]
    have k1 : ((n : ℝ) + 2) * (legendre (n + 2)).coeff (n + 2) =
        (2 * (n : ℝ) + 3) * (legendre (n + 1)).coeff (n + 1) := by
      rw [e2]
      push_cast
      field_simp
      ring
    have k2 : (2 * (n : ℝ) + 3) * (legendre (n + 1)).coeff (n + 1) * legBeta (n + 1) =
        ((n : ℝ) + 1) * (legendre n).coeff n := by
      rw [e1, hbeta]
      field_simp
    generalize (legendre (n + 2)).coeff (n + 2) = c2 at *
    generalize (legendre (n + 1)).coeff (n + 1) = c1 at *
    generalize (legendre n).coeff n = c0 at *
    generalize legBeta (n + 1) = β at *
    generalize opoly (fun _ => 0) legBeta n = p0 at *
    generalize opoly (fun _ => 0) legBeta (n + 1) = p1 at *
    have k1' := congrArg C k1
    have k2' := congrArg C k2
    simp only [C_mul, C_0, sub_zero] at k1' k2' ⊢
    linear_combination (-X * p1 + C β * p0) * k1' + p0 * k2'

/-- The integral over `[-1, 1]` as a linear functional. -/
noncomputable def JLeg : ℝ[X] →ₗ[ℝ] ℝ where
  toFun := Legendre.I
  map_add' := Legendre.I_add
  map_smul' c p := by rw [smul_eq_C_mul, Legendre.I_C_mul]; rfl

theorem leg_orth (n : ℕ) (r : ℝ[X]) (hr : r.degree < n) :
    JLeg (r * opoly (fun _ => 0) legBeta n) = 0 := by
  have h := Legendre.orthogonal_of_degree_lt hr
  rw [legendre_eq_opoly n, mul_left_comm] at h
  have h2 : (legendre n).coeff n * JLeg (r * opoly (fun _ => 0) legBeta n) = 0 := by
    rw [← J_C_mul]; exact h
  exact (mul_eq_zero.1 h2).resolve_left (Legendre.coeff_self_pos n).ne'

theorem leg_sq_pos (r : ℝ[X]) (hr : r ≠ 0) : 0 < JLeg (r * r) := by
  have hnn : ∀ x : ℝ, 0 ≤ (r * r).eval x := fun x => by rw [eval_mul]; exact mul_self_nonneg _
  obtain ⟨x, hx, hx0⟩ : ∃ x ∈ Set.Ioo (-1 : ℝ) 1, r.eval x ≠ 0 := by
    by_contra hcon
    push Not at hcon
    apply hr
    refine Polynomial.eq_zero_of_infinite_isRoot r (Set.Infinite.mono (s := Set.Ioo (-1 : ℝ) 1) ?_
      (Set.Ioo_infinite (by norm_num)))
    intro x hx
    exact hcon x hx
  change 0 < ∫ x in (-1 : ℝ)..1, (r * r).eval x
  rw [intervalIntegral.integral_pos_iff_support_of_nonneg_ae (Filter.Eventually.of_forall hnn)
    (Legendre.intble _ _ _)]
  refine ⟨by norm_num, ?_⟩
  have hopen : IsOpen (Function.support (fun x => (r * r).eval x) ∩ Set.Ioo (-1 : ℝ) 1) :=
    ((r * r).continuous.isOpen_support).inter isOpen_Ioo
  refine lt_of_lt_of_le (hopen.measure_pos MeasureTheory.volume ⟨x, ?_, hx⟩) (MeasureTheory.measure_mono ?_)
  · simp [hx0]
  · exact Set.inter_subset_inter_right _ Set.Ioo_subset_Ioc_self

end Verif.GaussQuad
