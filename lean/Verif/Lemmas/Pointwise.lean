import Verif.Lemmas.BoseApprox
import Verif.Lemmas.Discretise
import Verif.Lemmas.LegendreBound
/-!
# From errors at Gauss nodes to errors at every point
-/

namespace Verif.Spec
open MeasureTheory Polynomial Roots

/-! ## Polynomials from their integrals -/

/-- The kernel that reproduces polynomials with `n` coefficients on `[-1, 1]`. -/
noncomputable def repro (n : ℕ) (t : ℝ) : ℝ[X] :=
  ∑ k ∈ Finset.range n, C ((2 * (k : ℝ) + 1) / 2 * (legendre k).eval t) * legendre k

theorem repro_degree (n : ℕ) (t : ℝ) : (repro n t).natDegree ≤ n - 1 := by
  refine natDegree_sum_le_of_forall_le _ _ fun k hk => (natDegree_C_mul_le _ _).trans ?_
  have := Finset.mem_range.1 hk
  exact (Legendre.natDegree_le k).trans (by omega)

theorem repro_apply {n : ℕ} (hn : 1 ≤ n) (t : ℝ) (q : ℝ[X]) (hq : q.natDegree ≤ n - 1) :
    ∫ x in (-1 : ℝ)..1, (repro n t).eval x * q.eval x = q.eval t := by
  have hd : q.degree < n := lt_of_le_of_lt degree_le_natDegree (by exact_mod_cast (by omega : q.natDegree < n))
  obtain ⟨c, rfl⟩ := Legendre.exists_expansion n q hd
  have e0 : repro n t * ∑ k ∈ Finset.range n, C (c k) * legendre k =
      ∑ k ∈ Finset.range n, ∑ l ∈ Finset.range n,
        C ((2 * (k : ℝ) + 1) / 2 * (legendre k).eval t * c l) * (legendre k * legendre l) := by
    rw [repro, Finset.sum_mul_sum]
    refine Finset.sum_congr rfl fun k _ => Finset.sum_congr rfl fun l _ => ?_
    rw [C_mul (b := c l)]
    ring
  simp only [← eval_mul, e0]
  change Legendre.I _ = _
  rw [Legendre.I_sum, eval_finset_sum]
  refine Finset.sum_congr rfl fun k hk => ?_
  rw [Legendre.I_sum, Finset.sum_eq_single k]
  · rw [Legendre.I_C_mul, Legendre.norm_sq, eval_C_mul]
    have : (2 * (k : ℝ) + 1) ≠ 0 := by positivity
    field_simp
  · intro l _ hl
    rw [Legendre.I_C_mul, Legendre.orthogonal hl.symm, mul_zero]
  · intro h
    exact absurd hk h

theorem repro_diag (n : ℕ) {t : ℝ} (ht : |t| ≤ 1) : (repro n t).eval t ≤ n ^ 2 / 2 := by
  rw [repro, eval_finset_sum]
  have h1 : ∀ k ∈ Finset.range n, (C ((2 * (k : ℝ) + 1) / 2 * (legendre k).eval t) * legendre k).eval t ≤ (2 * (k : ℝ) + 1) / 2 := by
    intro k _
    rw [eval_C_mul]
    have h2 := abs_le.1 (Legendre.legendre_le_one ht k)
    have h3 : (legendre k).eval t * (legendre k).eval t ≤ 1 := by nlinarith
    have h4 : 0 ≤ (2 * (k : ℝ) + 1) / 2 := by positivity
    nlinarith [mul_le_mul_of_nonneg_left h3 h4]
  refine (Finset.sum_le_sum h1).trans (le_of_eq ?_)
  induction n with
  | zero => simp
  | succ n ih =>
    rw [Finset.sum_range_succ, ih fun k hk => h1 k (Finset.mem_range.2 ((Finset.mem_range.1 hk).trans (Nat.lt_succ_self n)))]
    push_cast
    ring

/-- The same on `[a, b]`. -/
theorem exists_repro {n : ℕ} (hn : 1 ≤ n) {a b t : ℝ} (h1 : a < t) (h2 : t < b) :
    ∃ r : ℝ[X], r.natDegree ≤ n - 1 ∧ (∀ p : ℝ[X], p.natDegree ≤ n - 1 → ∫ x in a..b, r.eval x * p.eval x = p.eval t) ∧
      r.eval t ≤ n ^ 2 / (b - a) := by
  have hab : 0 < b - a := by linarith
  set c := 2 / (b - a) with hc
  set e := -(a + b) / (b - a) with he
  have hc0 : 0 < c := by positivity
  have hlin : ∀ (u v : ℝ) (q : ℝ[X]), (q.comp (C u * X + C v)).natDegree ≤ q.natDegree := by
    intro u v q
    rw [natDegree_comp]
    calc q.natDegree * (C u * X + C v).natDegree ≤ q.natDegree * 1 := Nat.mul_le_mul_left _ natDegree_linear_le
      _ = q.natDegree := mul_one _
  have hev : ∀ (u v x : ℝ) (q : ℝ[X]), (q.comp (C u * X + C v)).eval x = q.eval (u * x + v) := by
    intro u v x q
    simp [eval_comp]
  have hs : |c * t + e| ≤ 1 := by
    have : c * t + e = (2 * t - (a + b)) / (b - a) := by rw [hc, he]; ring
    rw [this, abs_div, abs_of_pos hab, div_le_one hab, abs_le]
    constructor <;> linarith
  refine ⟨C c * (repro n (c * t + e)).comp (C c * X + C e), (natDegree_C_mul_le _ _).trans ((hlin _ _ _).trans (repro_degree _ _)),
    fun p hp => ?_, ?_⟩
  · set q := p.comp (C c⁻¹ * X + C (-(c⁻¹ * e))) with hq
    have hqe : ∀ x, p.eval x = q.eval (c * x + e) := by
      intro x
      rw [hq, hev]
      congr 1
      field_simp
      ring
    have h3 := repro_apply hn (c * t + e) q ((hlin _ _ _).trans hp)
    have e1 : ∀ x, (C c * (repro n (c * t + e)).comp (C c * X + C e)).eval x * p.eval x =
        c * ((repro n (c * t + e)).eval (c * x + e) * q.eval (c * x + e)) := by
      intro x
      rw [eval_C_mul, hev, hqe]
      ring
    simp only [e1]
    rw [intervalIntegral.integral_const_mul,
      intervalIntegral.integral_comp_mul_add (fun s => (repro n (c * t + e)).eval s * q.eval s) hc0.ne' e]
    have e2 : c * a + e = -1 := by rw [hc, he]; field_simp; ring
    have e3 : c * b + e = 1 := by rw [hc, he]; field_simp; ring
    rw [e2, e3, h3, hqe, smul_eq_mul, mul_inv_cancel_left₀ hc0.ne']
  · rw [eval_C_mul, hev]
    calc c * (repro n (c * t + e)).eval (c * t + e) ≤ c * (n ^ 2 / 2) := mul_le_mul_of_nonneg_left (repro_diag n hs) hc0.le
      _ = n ^ 2 / (b - a) := by rw [hc]; field_simp

/-! ## Piecewise polynomials from their values at the nodes -/

theorem adjacent_mem {g : List ℝ} {a b : ℝ} (h : Adjacent g a b) : a ∈ g ∧ b ∈ g := by
  obtain ⟨l1, l2, rfl⟩ := h
  simp

open Classical in
/-- Restricted to one segment, zero elsewhere. -/
noncomputable def onSeg (a b : ℝ) (f : ℝ → ℝ) (t : ℝ) : ℝ := if a < t ∧ t < b then f t else 0

theorem onSeg_in {a b t : ℝ} (f : ℝ → ℝ) (h1 : a < t) (h2 : t < b) : onSeg a b f t = f t := if_pos ⟨h1, h2⟩

theorem onSeg_piecewise {g : List ℝ} (hg : g.Pairwise (· < ·)) {a b : ℝ} (hab : Adjacent g a b) {d : ℕ} {f : ℝ → ℝ} {p : ℝ[X]}
    (hp : p.natDegree ≤ d) (hf : ∀ t, a < t → t < b → f t = p.eval t) : PiecewisePoly g d (onSeg a b f) := by
  intro a' b' hab'
  by_cases h : a = a' ∧ b = b'
  · obtain ⟨rfl, rfl⟩ := h
    exact ⟨p, hp, fun t h1 h2 => by rw [onSeg_in f h1 h2, hf t h1 h2]⟩
  · refine ⟨0, by simp, fun t h1 h2 => ?_⟩
    rw [onSeg, if_neg, eval_zero]
    rintro ⟨h3, h4⟩
    exact h (adjacent_unique hg hab hab' h3 h4 h1 h2)

theorem onSeg_integral {g : List ℝ} (hg : Props.GridFromTo (-1) 1 g) {a b : ℝ} (hab : Adjacent g a b) (hlt : a < b) {f h : ℝ → ℝ}
    (hf : ∀ t, a < t → t < b → f t = h t) : ∫ t in (-1 : ℝ)..1, onSeg a b f t = ∫ t in a..b, h t := by
  obtain ⟨ha, hb⟩ := adjacent_mem hab
  have h1 := grid_mem hg ha
  have h2 := grid_mem hg hb
  have e : onSeg a b f = (Set.Ioo a b).indicator h := by
    funext t
    by_cases ht : a < t ∧ t < b
    · rw [onSeg, if_pos ht, Set.indicator_of_mem (show t ∈ Set.Ioo a b from ht), hf t ht.1 ht.2]
    · rw [onSeg, if_neg ht, Set.indicator_of_notMem (show t ∉ Set.Ioo a b from ht)]
  rw [intervalIntegral.integral_of_le (by norm_num), intervalIntegral.integral_of_le hlt.le, e,
    setIntegral_indicator measurableSet_Ioo, integral_Ioc_eq_integral_Ioo (x := a)]
  congr 2
  ext t
  simp only [Set.mem_inter_iff, Set.mem_Ioc, Set.mem_Ioo]
  constructor
  · exact fun h => h.2
  · exact fun h => ⟨⟨by linarith [h.1], by linarith [h.2]⟩, h⟩

/-- At a point inside a segment, piecewise polynomials are weighted sums of their values at the nodes. -/
theorem exists_weights {g : List ℝ} (hg : Props.GridFromTo (-1) 1 g) {n : ℕ} (hn : 1 ≤ n) {X : Type} [Fintype X] {x w : X → ℝ}
    (hE : ExactOn g n x w) {a b t : ℝ} (hab : Adjacent g a b) (h1 : a < t) (h2 : t < b) :
    ∃ ρ : X → ℝ, (∀ P, PiecewisePoly g (n - 1) P → ∑ i, w i * ρ i * P (x i) = P t) ∧
      ∑ i, w i * ρ i ^ 2 ≤ n ^ 2 / (b - a) ∧ ∑ i, |w i * ρ i| ≤ n := by
  have hlt : a < b := h1.trans h2
  have hba : 0 < b - a := sub_pos.2 hlt
  obtain ⟨r, r1, r2, r3⟩ := exists_repro hn h1 h2
  set ρ : X → ℝ := fun i => onSeg a b (fun s => r.eval s) (x i) with hρ
  have key : ∀ P, PiecewisePoly g (n - 1) P → ∑ i, w i * ρ i * P (x i) = P t := by
    intro P hP
    obtain ⟨p, p1, p2⟩ := hP a b hab
    have e1 : ∀ i, w i * ρ i * P (x i) = w i * onSeg a b (fun s => r.eval s * P s) (x i) := by
      intro i
      simp only [hρ, onSeg]
      split <;> ring
    simp only [e1]
    rw [hE.exact (onSeg a b fun s => r.eval s * P s) (onSeg_piecewise hg.sorted hab (p := r * p) ?_ fun s h3 h4 => by
      rw [p2 s h3 h4, eval_mul])]
    · rw [onSeg_integral hg hab hlt (h := fun s => r.eval s * p.eval s) fun s h3 h4 => by rw [p2 s h3 h4], r2 p p1, p2 t h1 h2]
    · exact natDegree_mul_le.trans (by omega)
  have hsq : ∑ i, w i * ρ i ^ 2 ≤ n ^ 2 / (b - a) := by
    have := key (onSeg a b fun s => r.eval s) (onSeg_piecewise hg.sorted hab r1 fun _ _ _ => rfl)
    rw [onSeg_in _ h1 h2] at this
    refine le_of_eq_of_le ?_ (this.trans_le r3)
    exact Finset.sum_congr rfl fun i _ => by simp only [hρ]; ring
  have hone : ∑ i, w i * onSeg a b (fun _ => 1) (x i) = b - a := by
    rw [hE.exact _ (onSeg_piecewise hg.sorted hab (p := 1) (by simp) fun _ _ _ => by simp),
      onSeg_integral hg hab hlt (h := fun _ => 1) fun _ _ _ => rfl]
    simp
  refine ⟨ρ, key, hsq, ?_⟩
  have hcs := Finset.sum_sq_le_sum_mul_sum_of_sq_eq_mul Finset.univ (r := fun i => |w i * ρ i|)
    (f := fun i => w i * onSeg a b (fun _ => 1) (x i)) (g := fun i => w i * ρ i ^ 2)
    (fun i _ => mul_nonneg (hE.wpos i) (by unfold onSeg; split <;> norm_num))
    (fun i _ => mul_nonneg (hE.wpos i) (sq_nonneg _)) fun i _ => by
      rw [sq_abs]
      simp only [hρ, onSeg]
      split <;> ring
  rw [hone] at hcs
  have h3 : (∑ i, |w i * ρ i|) ^ 2 ≤ (n : ℝ) ^ 2 := by
    refine hcs.trans ?_
    calc (b - a) * ∑ i, w i * ρ i ^ 2 ≤ (b - a) * (n ^ 2 / (b - a)) := mul_le_mul_of_nonneg_left hsq hba.le
      _ = n ^ 2 := by field_simp
  exact abs_le_of_sq_le_sq' h3 (by positivity) |>.2

/-- Interpolation of a function that is close to piecewise polynomials. -/
theorem interp_le {g : List ℝ} {n : ℕ} {X : Type} [Fintype X] {x w ρ : X → ℝ} (hin : ∀ i, |x i| ≤ 1) {t : ℝ} (ht : |t| ≤ 1)
    (hρ : ∀ P, PiecewisePoly g (n - 1) P → ∑ i, w i * ρ i * P (x i) = P t) (hρ1 : ∑ i, |w i * ρ i| ≤ n) {ε : ℝ} {f : ℝ → ℝ}
    (hf : Near g n ε f) : |f t - ∑ i, w i * ρ i * f (x i)| ≤ (1 + n) * ε := by
  obtain ⟨q, hq, hε⟩ := hf
  have hε0 : 0 ≤ ε := (abs_nonneg _).trans (hε 0 (by simp))
  have e : f t - ∑ i, w i * ρ i * f (x i) = (f t - q t) - ∑ i, w i * ρ i * (f (x i) - q (x i)) := by
    rw [← hρ q hq]
    simp only [mul_sub, Finset.sum_sub_distrib]
    ring
  rw [e]
  refine (abs_sub _ _).trans ?_
  have h1 : |∑ i, w i * ρ i * (f (x i) - q (x i))| ≤ n * ε := by
    refine (Finset.abs_sum_le_sum_abs _ _).trans ?_
    calc ∑ i, |w i * ρ i * (f (x i) - q (x i))| ≤ ∑ i, |w i * ρ i| * ε := Finset.sum_le_sum fun i _ => by
          rw [abs_mul]
          exact mul_le_mul_of_nonneg_left (hε _ (hin i)) (abs_nonneg _)
      _ = (∑ i, |w i * ρ i|) * ε := (Finset.sum_mul _ _ _).symm
      _ ≤ n * ε := mul_le_mul_of_nonneg_right hρ1 hε0
  have h2 := hε t ht
  linarith

/-- The error of a sum of products at a point inside a segment of either grid: the error at the nodes, relative to the
lengths of the segments, and the distances to piecewise polynomials. -/
theorem point_le {gx gy : List ℝ} (hgx : Props.GridFromTo (-1) 1 gx) (hgy : Props.GridFromTo (-1) 1 gy) {n : ℕ} (hn : 1 ≤ n)
    {X Y : Type} [Fintype X] [Fintype Y] {x wx : X → ℝ} {y wy : Y → ℝ} (hx : ExactOn gx n x wx) (hy : ExactOn gy n y wy)
    (k : ℝ → ℝ → ℝ) {ι : Type} (S : Finset ι) (s : ι → ℝ)
    {u v : ι → ℝ → ℝ} (hu : ∀ l ∈ S, PiecewisePoly gx (n - 1) (u l)) (hv : ∀ l ∈ S, PiecewisePoly gy (n - 1) (v l)) {εx εy : ℝ}
    (hεx : ∀ y, |y| ≤ 1 → Near gx n εx fun x => k x y) (hεy : ∀ x, |x| ≤ 1 → Near gy n εy (k x))
    {a b c d p q : ℝ} (hab : Adjacent gx a b) (hcd : Adjacent gy c d) (hp1 : a < p) (hp2 : p < b) (hq1 : c < q) (hq2 : q < d) :
    |k p q - ∑ l ∈ S, s l * u l p * v l q| ≤
      n ^ 2 / Real.sqrt ((b - a) * (d - c)) *
        Real.sqrt (∑ i, ∑ j, wx i * wy j * (k (x i) (y j) - ∑ l ∈ S, s l * u l (x i) * v l (y j)) ^ 2) +
      (1 + n) * (εx + n * εy) := by
  obtain ⟨ρ, r1, r2, r3⟩ := exists_weights hgx hn hx hab hp1 hp2
  obtain ⟨σ, s1, s2, s3⟩ := exists_weights hgy hn hy hcd hq1 hq2
  have hp : |p| ≤ 1 := by
    obtain ⟨ha, hb⟩ := adjacent_mem hab
    have h1 := grid_mem hgx ha
    have h2 := grid_mem hgx hb
    exact abs_le.2 ⟨by linarith, by linarith⟩
  have hq : |q| ≤ 1 := by
    obtain ⟨ha, hb⟩ := adjacent_mem hcd
    have h1 := grid_mem hgy ha
    have h2 := grid_mem hgy hb
    exact abs_le.2 ⟨by linarith, by linarith⟩
  set T : ℝ → ℝ → ℝ := fun x y => ∑ l ∈ S, s l * u l x * v l y with hT
  have hTx : ∀ y, PiecewisePoly gx (n - 1) fun x => T x y := fun y => by
    have := PiecewisePoly.sum S (fun l => s l * v l y) hu
    refine (congrArg (PiecewisePoly gx (n - 1)) (funext fun x => Finset.sum_congr rfl fun l _ => ?_)).mp this
    ring
  have hTy : ∀ x, PiecewisePoly gy (n - 1) (T x) := fun x => PiecewisePoly.sum S (fun l => s l * u l x) hv
  have hTpq : T p q = ∑ i, ∑ j, (wx i * ρ i) * (wy j * σ j) * T (x i) (y j) := by
    rw [← r1 _ (hTx q)]
    refine Finset.sum_congr rfl fun i _ => ?_
    rw [← s1 _ (hTy (x i)), Finset.mul_sum]
    exact Finset.sum_congr rfl fun j _ => by ring
  have e : k p q - T p q = (k p q - ∑ i, wx i * ρ i * k (x i) q) +
      ∑ i, wx i * ρ i * (k (x i) q - ∑ j, wy j * σ j * k (x i) (y j)) +
      ∑ i, ∑ j, (wx i * ρ i) * (wy j * σ j) * (k (x i) (y j) - T (x i) (y j)) := by
    rw [hTpq]
    simp only [mul_sub, Finset.sum_sub_distrib, Finset.mul_sum, mul_assoc]
    ring
  have t1 := interp_le hx.inside hp r1 r3 (hεx q hq)
  have hεy0 : 0 ≤ εy := by
    obtain ⟨f, _, h⟩ := hεy 0 (by simp)
    exact (abs_nonneg _).trans (h 0 (by simp))
  have t2 : |∑ i, wx i * ρ i * (k (x i) q - ∑ j, wy j * σ j * k (x i) (y j))| ≤ n * ((1 + n) * εy) := by
    refine (Finset.abs_sum_le_sum_abs _ _).trans ?_
    calc ∑ i, |wx i * ρ i * (k (x i) q - ∑ j, wy j * σ j * k (x i) (y j))| ≤ ∑ i, |wx i * ρ i| * ((1 + n) * εy) :=
          Finset.sum_le_sum fun i _ => by
            rw [abs_mul]
            exact mul_le_mul_of_nonneg_left (interp_le hy.inside hq s1 s3 (hεy _ (hx.inside i))) (abs_nonneg _)
      _ = (∑ i, |wx i * ρ i|) * ((1 + n) * εy) := (Finset.sum_mul _ _ _).symm
      _ ≤ n * ((1 + n) * εy) := mul_le_mul_of_nonneg_right r3 (by positivity)
  have hba : 0 < b - a := by linarith
  have hdc : 0 < d - c := by linarith
  have t3 : |∑ i, ∑ j, (wx i * ρ i) * (wy j * σ j) * (k (x i) (y j) - T (x i) (y j))| ≤
      n ^ 2 / Real.sqrt ((b - a) * (d - c)) * Real.sqrt (∑ i, ∑ j, wx i * wy j * (k (x i) (y j) - T (x i) (y j)) ^ 2) := by
    simp only [← Finset.sum_product']
    have hcs := Finset.sum_sq_le_sum_mul_sum_of_sq_eq_mul (Finset.univ ×ˢ Finset.univ)
      (r := fun z : X × Y => (wx z.1 * ρ z.1) * (wy z.2 * σ z.2) * (k (x z.1) (y z.2) - T (x z.1) (y z.2)))
      (f := fun z => (wx z.1 * ρ z.1 ^ 2) * (wy z.2 * σ z.2 ^ 2))
      (g := fun z => wx z.1 * wy z.2 * (k (x z.1) (y z.2) - T (x z.1) (y z.2)) ^ 2)
      (fun z _ => mul_nonneg (mul_nonneg (hx.wpos _) (sq_nonneg _)) (mul_nonneg (hy.wpos _) (sq_nonneg _)))
      (fun z _ => mul_nonneg (mul_nonneg (hx.wpos _) (hy.wpos _)) (sq_nonneg _)) (fun z _ => by ring)
    have h1 : ∑ z ∈ (Finset.univ : Finset X) ×ˢ (Finset.univ : Finset Y), (wx z.1 * ρ z.1 ^ 2) * (wy z.2 * σ z.2 ^ 2) ≤
        n ^ 2 / (b - a) * (n ^ 2 / (d - c)) := by
      simp only [Finset.sum_product]
      rw [← Finset.sum_mul_sum]
      exact mul_le_mul r2 s2 (Finset.sum_nonneg fun j _ => mul_nonneg (hy.wpos _) (sq_nonneg _)) (by positivity)
    set N := ∑ z ∈ (Finset.univ : Finset X) ×ˢ (Finset.univ : Finset Y),
      wx z.1 * wy z.2 * (k (x z.1) (y z.2) - T (x z.1) (y z.2)) ^ 2 with hN
    have hN0 : 0 ≤ N := Finset.sum_nonneg fun z _ => mul_nonneg (mul_nonneg (hx.wpos _) (hy.wpos _)) (sq_nonneg _)
    refine abs_le_of_sq_le_sq (hcs.trans ((mul_le_mul_of_nonneg_right h1 hN0).trans (le_of_eq ?_))) (by positivity)
    rw [mul_pow, div_pow, Real.sq_sqrt (by positivity), Real.sq_sqrt hN0]
    field_simp
  rw [e]
  refine (abs_add_le _ _).trans ?_
  have t4 := abs_add_le (k p q - ∑ i, wx i * ρ i * k (x i) q) (∑ i, wx i * ρ i * (k (x i) q - ∑ j, wy j * σ j * k (x i) (y j)))
  nlinarith [t1, t2, t3, t4]

end Verif.Spec
