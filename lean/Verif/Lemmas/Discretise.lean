import Verif.Lemmas.Piecewise
import Verif.Spec.Discretise
import Verif.Props.C33_Grids
import Mathlib.MeasureTheory.Function.L2Space
import Mathlib.MeasureTheory.Integral.Prod
import Mathlib.Algebra.Order.Chebyshev
/-!
# From errors at Gauss nodes to errors in the mean over the interval and the square
-/

namespace Verif.Spec
open MeasureTheory Polynomial

/-- Lebesgue measure on the interval. -/
noncomputable abbrev μI : Measure ℝ := volume.restrict (Set.Ioc (-1 : ℝ) 1)

theorem μI_univ : (μI Set.univ).toReal = 2 := by
  simp [μI]
  norm_num

theorem integral_μI (f : ℝ → ℝ) : ∫ t in (-1 : ℝ)..1, f t = ∫ t, f t ∂μI :=
  intervalIntegral.integral_of_le (by norm_num)

theorem sqrt_form {c A B T : ℝ} (hc : 0 ≤ c) (hA : 0 ≤ A) (hB : B ^ 2 ≤ 2 * A) (hT : T ≤ 2 * c ^ 2 + 2 * c * B + A) :
    Real.sqrt T ≤ Real.sqrt 2 * c + Real.sqrt A := by
  have h2 : Real.sqrt 2 ^ 2 = 2 := Real.sq_sqrt (by norm_num)
  have hA2 : Real.sqrt A ^ 2 = A := Real.sq_sqrt hA
  have h3 : B ≤ Real.sqrt 2 * Real.sqrt A := by
    rw [← Real.sqrt_mul (by norm_num)]
    exact Real.le_sqrt_of_sq_le hB
  refine Real.sqrt_le_iff.2 ⟨by positivity, hT.trans ?_⟩
  have h4 := mul_le_mul_of_nonneg_left h3 hc
  nlinarith

/-- Triangle inequality in the mean: a uniform error `c` on the interval. -/
theorem l2_le {F G : ℝ → ℝ} {c : ℝ} (hc : 0 ≤ c) (hF : MemLp F 2 μI) (hG : MemLp G 2 μI)
    (h : ∀ t, |t| ≤ 1 → |F t| ≤ c + |G t|) :
    Real.sqrt (∫ t, F t ^ 2 ∂μI) ≤ Real.sqrt 2 * c + Real.sqrt (∫ t, G t ^ 2 ∂μI) := by
  have hG1 : Integrable (fun t => |G t|) μI := (hG.integrable (by norm_num)).abs
  have hG2 := hG.integrable_sq
  have hF2 := hF.integrable_sq
  set B := ∫ t, |G t| ∂μI
  set A := ∫ t, G t ^ 2 ∂μI
  have e2 : ∀ c : ℝ, ∫ _, c ∂μI = 2 * c := fun c => by
    rw [integral_const, smul_eq_mul]
    congr 1
    exact μI_univ
  have hform : ∀ d : ℝ, ∫ t, (d + |G t|) ^ 2 ∂μI = 2 * d ^ 2 + 2 * d * B + A := by
    intro d
    have : ∀ t, (d + |G t|) ^ 2 = d ^ 2 + 2 * d * |G t| + G t ^ 2 := fun t => by
      rw [← sq_abs (G t)]
      ring
    simp only [this]
    have i1 : Integrable (fun _ : ℝ => d ^ 2) μI := integrable_const _
    have i2 : Integrable (fun t => 2 * d * |G t|) μI := hG1.const_mul _
    have i3 : Integrable (fun t => d ^ 2 + 2 * d * |G t|) μI := i1.add i2
    rw [integral_add i3 hG2, integral_add i1 i2, e2, integral_const_mul]
  refine sqrt_form (B := B) hc (integral_nonneg fun t => sq_nonneg _) ?_ ?_
  · have h1 : 0 ≤ ∫ t, (-(B / 2) + |G t|) ^ 2 ∂μI := integral_nonneg fun t => sq_nonneg _
    rw [hform] at h1
    nlinarith
  · rw [← hform]
    refine setIntegral_mono_on hF2 ?_ measurableSet_Ioc fun t ht => ?_
    · have : (fun t => (c + |G t|) ^ 2) = fun t => c ^ 2 + 2 * c * |G t| + G t ^ 2 := by
        funext t
        rw [← sq_abs (G t)]
        ring
      rw [this]
      exact ((integrable_const _).add (hG1.const_mul _)).add hG2
    · have := h t (abs_le.2 ⟨ht.1.le, ht.2⟩)
      rw [← sq_abs (F t)]
      exact pow_le_pow_left₀ (abs_nonneg _) this 2

/-- The same for sums with weights. -/
theorem l2_sum_le {X : Type} [Fintype X] {w a b : X → ℝ} {c : ℝ} (hc : 0 ≤ c) (hw : ∀ i, 0 ≤ w i) (hw2 : ∑ i, w i = 2)
    (h : ∀ i, |a i| ≤ c + |b i|) :
    Real.sqrt (∑ i, w i * a i ^ 2) ≤ Real.sqrt 2 * c + Real.sqrt (∑ i, w i * b i ^ 2) := by
  have hform : ∀ d : ℝ, ∑ i, w i * (d + |b i|) ^ 2 = 2 * d ^ 2 + 2 * d * (∑ i, w i * |b i|) + ∑ i, w i * b i ^ 2 := by
    intro d
    have e : 2 * d ^ 2 = ∑ i, w i * d ^ 2 := by rw [← Finset.sum_mul, hw2]
    rw [e, Finset.mul_sum, ← Finset.sum_add_distrib, ← Finset.sum_add_distrib]
    refine Finset.sum_congr rfl fun i _ => ?_
    rw [← sq_abs (b i)]
    ring
  refine sqrt_form (B := ∑ i, w i * |b i|) hc (Finset.sum_nonneg fun i _ => mul_nonneg (hw i) (sq_nonneg _)) ?_ ?_
  · have h1 : 0 ≤ ∑ i, w i * (-((∑ i, w i * |b i|) / 2) + |b i|) ^ 2 :=
      Finset.sum_nonneg fun i _ => mul_nonneg (hw i) (sq_nonneg _)
    rw [hform] at h1
    nlinarith
  · rw [← hform]
    refine Finset.sum_le_sum fun i _ => mul_le_mul_of_nonneg_left ?_ (hw i)
    rw [← sq_abs (a i)]
    exact pow_le_pow_left₀ (abs_nonneg _) (h i) 2

open Roots in
/-- Piecewise polynomials are square integrable. -/
theorem piecewise_memLp {g : List ℝ} (hg : Props.GridFromTo (-1) 1 g) {d : ℕ} {f : ℝ → ℝ} (hf : PiecewisePoly g d f) :
    MemLp f 2 μI := by
  have hlen : g ≠ [] := by
    rintro rfl
    have := hg.first
    simp at this
  obtain ⟨N, hN⟩ : ∃ N, g.length = N + 1 := ⟨g.length - 1, by have := List.length_pos_iff.2 hlen; omega⟩
  let k : Fin (N + 1) → ℝ := fun i => g[i.1]'(by omega)
  have hk : Monotone k := by
    refine (StrictMono.monotone ?_)
    intro i j hij
    exact List.pairwise_iff_getElem.1 hg.sorted i.1 j.1 (by omega) (by omega) hij
  have hk0 : k 0 = -1 := by
    have := hg.first
    rw [List.head?_eq_getElem?, List.getElem?_eq_getElem (by omega)] at this
    simpa [k] using this
  have hk1 : k (Fin.last N) = 1 := by
    have := hg.last
    rw [List.getLast?_eq_getElem?, List.getElem?_eq_getElem (by omega)] at this
    simpa [k, hN] using this
  have hadj : ∀ i : Fin N, Adjacent g (k i.castSucc) (k i.succ) := by
    intro i
    refine ⟨g.take i.1, g.drop (i.1 + 2), ?_⟩
    have h1 : i.1 < g.length := by have := i.2; omega
    have h2 : i.1 + 1 < g.length := by have := i.2; omega
    change g = g.take i.1 ++ g[i.1] :: g[i.1 + 1] :: g.drop (i.1 + 2)
    rw [← List.drop_eq_getElem_cons h2, ← List.drop_eq_getElem_cons h1, List.take_append_drop]
  choose p _ hp using fun i : Fin N => hf _ _ (hadj i)
  have h1 := (Poly.integral_piecewise k hk f (fun i t => (p i).eval t) (fun i => (p i).continuous)
    fun i x h1 h2 => hp i x h1 h2).1
  have h2 := (Poly.integral_piecewise k hk (fun t => f t ^ 2) (fun i t => (p i).eval t ^ 2) (fun i => (p i).continuous.pow 2)
    fun i x h1 h2 => by rw [hp i x h1 h2]).1
  rw [hk0, hk1, intervalIntegrable_iff_integrableOn_Ioc_of_le (by norm_num)] at h1 h2
  exact (memLp_two_iff_integrable_sq h1.aestronglyMeasurable).2 h2

theorem PiecewisePoly.mul {g : List ℝ} {d e : ℕ} {f h : ℝ → ℝ} (hf : PiecewisePoly g d f) (hh : PiecewisePoly g e h) :
    PiecewisePoly g (d + e) fun t => f t * h t := by
  intro a b hab
  obtain ⟨p, h1, h2⟩ := hf a b hab
  obtain ⟨q, h3, h4⟩ := hh a b hab
  refine ⟨p * q, (natDegree_mul_le).trans (add_le_add h1 h3), fun t h5 h6 => ?_⟩
  simp only [h2 t h5 h6, h4 t h5 h6, eval_mul]

theorem PiecewisePoly.sub {g : List ℝ} {d : ℕ} {f h : ℝ → ℝ} (hf : PiecewisePoly g d f) (hh : PiecewisePoly g d h) :
    PiecewisePoly g d fun t => f t - h t := by
  intro a b hab
  obtain ⟨p, h1, h2⟩ := hf a b hab
  obtain ⟨q, h3, h4⟩ := hh a b hab
  refine ⟨p - q, (natDegree_sub_le _ _).trans (max_le h1 h3), fun t h5 h6 => ?_⟩
  simp only [h2 t h5 h6, h4 t h5 h6, eval_sub]

theorem PiecewisePoly.sum {g : List ℝ} {d : ℕ} {ι : Type} (S : Finset ι) {f : ι → ℝ → ℝ} (c : ι → ℝ)
    (hf : ∀ i ∈ S, PiecewisePoly g d (f i)) : PiecewisePoly g d fun t => ∑ i ∈ S, c i * f i t := by
  intro a b hab
  have : ∀ i, ∃ p : ℝ[X], i ∈ S → p.natDegree ≤ d ∧ ∀ t, a < t → t < b → f i t = p.eval t := fun i => by
    by_cases h : i ∈ S
    · obtain ⟨p, hp⟩ := hf i h a b hab
      exact ⟨p, fun _ => hp⟩
    · exact ⟨0, fun h' => absurd h' h⟩
  choose p hp using this
  refine ⟨∑ i ∈ S, C (c i) * p i, natDegree_sum_le_of_forall_le _ _ fun i hi => (natDegree_C_mul_le _ _).trans (hp i hi).1, fun t h5 h6 => ?_⟩
  rw [eval_finset_sum]
  exact Finset.sum_congr rfl fun i hi => by rw [(hp i hi).2 t h5 h6, eval_C_mul]

theorem PiecewisePoly.const {g : List ℝ} {d : ℕ} (c : ℝ) : PiecewisePoly g d fun _ => c :=
  fun _ _ _ => ⟨C c, by simp, fun _ _ _ => by simp⟩

/-- The error in the mean is bounded by the error at the nodes and the distance to piecewise polynomials. -/
theorem nodes_le {g : List ℝ} (hg : Props.GridFromTo (-1) 1 g) {n : ℕ} {X : Type} [Fintype X] {x w : X → ℝ}
    (hE : ExactOn g n x w) {ε : ℝ} {f P : ℝ → ℝ} (hf : Near g n ε f) (hP : PiecewisePoly g (n - 1) P)
    (hm : MemLp (fun t => f t - P t) 2 μI) :
    Real.sqrt (∫ t, (f t - P t) ^ 2 ∂μI) ≤ 2 * Real.sqrt 2 * ε + Real.sqrt (∑ i, w i * (f (x i) - P (x i)) ^ 2) := by
  obtain ⟨q, hq, hε⟩ := hf
  have hε0 : 0 ≤ ε := (abs_nonneg _).trans (hε 0 (by simp))
  have hD := hq.sub hP
  have hw2 : ∑ i, w i = 2 := by
    have := hE.exact (fun _ => 1) (PiecewisePoly.const 1)
    simp at this
    rw [this]
    norm_num
  have h1 := l2_le (F := fun t => f t - P t) (G := fun t => q t - P t) hε0 hm (piecewise_memLp hg hD) fun t ht => by
    have e : f t - P t = (f t - q t) + (q t - P t) := by ring
    rw [e]
    exact (abs_add_le _ _).trans (add_le_add (hε t ht) le_rfl)
  have h2 : ∫ t, (q t - P t) ^ 2 ∂μI = ∑ i, w i * (q (x i) - P (x i)) ^ 2 := by
    rw [← integral_μI, ← hE.exact (fun t => (q t - P t) ^ 2) ?_]
    have := hD.mul hD
    have e : n - 1 + (n - 1) = 2 * n - 2 := by omega
    rw [e] at this
    simpa only [← sq] using this
  have h3 := l2_sum_le (a := fun i => q (x i) - P (x i)) (b := fun i => f (x i) - P (x i)) hε0 hE.wpos hw2 fun i => by
    have e : q (x i) - P (x i) = (q (x i) - f (x i)) + (f (x i) - P (x i)) := by ring
    rw [e]
    refine (abs_add_le _ _).trans (add_le_add ?_ le_rfl)
    rw [abs_sub_comm]
    exact hε _ (hE.inside i)
  rw [h2] at h1
  linarith

/-- The square. -/
abbrev sq11 : Set (ℝ × ℝ) := Set.Icc (-1) 1 ×ˢ Set.Icc (-1) 1

theorem memLp_row {k : ℝ → ℝ → ℝ} (hk : ContinuousOn (fun z : ℝ × ℝ => k z.1 z.2) sq11) {y : ℝ} (hy : |y| ≤ 1) :
    MemLp (fun x => k x y) 2 μI := by
  have hc : ContinuousOn (fun x => k x y) (Set.Icc (-1) 1) :=
    hk.comp (f := fun x => (x, y)) (by fun_prop) fun x hx => ⟨hx, abs_le.1 hy⟩
  obtain ⟨M, hM⟩ := isCompact_Icc.exists_bound_of_continuousOn hc
  refine MemLp.of_bound ((hc.mono Set.Ioc_subset_Icc_self).aestronglyMeasurable measurableSet_Ioc) M ?_
  exact (ae_restrict_mem measurableSet_Ioc).mono fun x hx => hM x (Set.Ioc_subset_Icc_self hx)

theorem memLp_square {k : ℝ → ℝ → ℝ} (hk : ContinuousOn (fun z : ℝ × ℝ => k z.1 z.2) sq11) :
    MemLp (fun z : ℝ × ℝ => k z.1 z.2) 2 (μI.prod μI) := by
  obtain ⟨M, hM⟩ := (isCompact_Icc.prod isCompact_Icc).exists_bound_of_continuousOn hk
  have hsub : Set.Ioc (-1 : ℝ) 1 ×ˢ Set.Ioc (-1 : ℝ) 1 ⊆ sq11 :=
    Set.prod_mono Set.Ioc_subset_Icc_self Set.Ioc_subset_Icc_self
  have hms : MeasurableSet (Set.Ioc (-1 : ℝ) 1 ×ˢ Set.Ioc (-1 : ℝ) 1) := measurableSet_Ioc.prod measurableSet_Ioc
  have e : μI.prod μI = (volume.prod volume).restrict (Set.Ioc (-1 : ℝ) 1 ×ˢ Set.Ioc (-1 : ℝ) 1) := Measure.prod_restrict _ _
  refine MemLp.of_bound ?_ M ?_
  · rw [e]
    exact (hk.mono hsub).aestronglyMeasurable hms
  · rw [e]
    exact (ae_restrict_mem hms).mono fun z hz => hM z (hsub hz)

theorem memLp_tensor {u v : ℝ → ℝ} (hu : MemLp u 2 μI) (hv : MemLp v 2 μI) :
    MemLp (fun z : ℝ × ℝ => u z.1 * v z.2) 2 (μI.prod μI) := by
  refine (memLp_two_iff_integrable_sq ?_).2 ?_
  · exact (hu.1.comp_fst).mul (hv.1.comp_snd)
  · have := hu.integrable_sq.mul_prod hv.integrable_sq
    simpa only [mul_pow] using this

/-- The same over the square, for the error of a sum of products. -/
theorem square_le {gx gy : List ℝ} (hgx : Props.GridFromTo (-1) 1 gx) (hgy : Props.GridFromTo (-1) 1 gy) {n : ℕ}
    {X Y : Type} [Fintype X] [Fintype Y] {x wx : X → ℝ} {y wy : Y → ℝ} (hx : ExactOn gx n x wx) (hy : ExactOn gy n y wy)
    {k : ℝ → ℝ → ℝ} (hk : ContinuousOn (fun z : ℝ × ℝ => k z.1 z.2) sq11) {ι : Type} (S : Finset ι) (s : ι → ℝ)
    {u v : ι → ℝ → ℝ} (hu : ∀ l ∈ S, PiecewisePoly gx (n - 1) (u l)) (hv : ∀ l ∈ S, PiecewisePoly gy (n - 1) (v l)) {εx εy : ℝ}
    (hεx : ∀ y, |y| ≤ 1 → Near gx n εx fun x => k x y) (hεy : ∀ x, |x| ≤ 1 → Near gy n εy (k x)) :
    Real.sqrt (∫ y in (-1 : ℝ)..1, ∫ x in (-1 : ℝ)..1, (k x y - ∑ l ∈ S, s l * u l x * v l y) ^ 2) ≤
      Real.sqrt (∑ i, ∑ j, wx i * wy j * (k (x i) (y j) - ∑ l ∈ S, s l * u l (x i) * v l (y j)) ^ 2) + 4 * (εx + εy) := by
  set R : ℝ → ℝ → ℝ := fun x y => k x y - ∑ l ∈ S, s l * u l x * v l y with hR
  have hεx0 : 0 ≤ εx := by
    obtain ⟨q, _, h⟩ := hεx 0 (by simp)
    exact (abs_nonneg _).trans (h 0 (by simp))
  have hεy0 : 0 ≤ εy := by
    obtain ⟨q, _, h⟩ := hεy 0 (by simp)
    exact (abs_nonneg _).trans (h 0 (by simp))
  have hwx2 : ∑ i, wx i = 2 := by
    have := hx.exact (fun _ => 1) (PiecewisePoly.const 1)
    simp at this
    rw [this]
    norm_num
  have hPx : ∀ y, PiecewisePoly gx (n - 1) fun x => ∑ l ∈ S, s l * u l x * v l y := fun y => by
    have := PiecewisePoly.sum S (fun l => s l * v l y) hu
    refine (congrArg (PiecewisePoly gx (n - 1)) (funext fun x => Finset.sum_congr rfl fun l _ => ?_)).mp this
    ring
  have hPy : ∀ x, PiecewisePoly gy (n - 1) fun y => ∑ l ∈ S, s l * u l x * v l y := fun x =>
    PiecewisePoly.sum S (fun l => s l * u l x) hv
  have hRx : ∀ y, |y| ≤ 1 → MemLp (fun x => R x y) 2 μI := fun y hy => (memLp_row hk hy).sub (piecewise_memLp hgx (hPx y))
  have hk' : ContinuousOn (fun z : ℝ × ℝ => k z.2 z.1) sq11 :=
    hk.comp (f := fun z : ℝ × ℝ => (z.2, z.1)) (by fun_prop) fun z hz => ⟨hz.2, hz.1⟩
  have hRy : ∀ x, |x| ≤ 1 → MemLp (fun y => R x y) 2 μI := fun x hx =>
    (memLp_row (k := fun y x => k x y) hk' hx).sub (piecewise_memLp hgy (hPy x))
  have hR2 : MemLp (fun z : ℝ × ℝ => R z.1 z.2) 2 (μI.prod μI) := by
    refine (memLp_square hk).sub ?_
    refine memLp_finset_sum S fun l hl => ?_
    have := (memLp_tensor (piecewise_memLp hgx (hu l hl)) (piecewise_memLp hgy (hv l hl))).const_mul (s l)
    simpa only [mul_assoc] using this
  have hI : Integrable (fun y => ∫ x, R x y ^ 2 ∂μI) μI := (hR2.integrable_sq).integral_prod_right
  have hF : MemLp (fun y => Real.sqrt (∫ x, R x y ^ 2 ∂μI)) 2 μI := by
    refine (memLp_two_iff_integrable_sq (Real.continuous_sqrt.comp_aestronglyMeasurable hI.1)).2 ?_
    refine hI.congr (Filter.Eventually.of_forall fun y => ?_)
    exact (Real.sq_sqrt (integral_nonneg fun x => sq_nonneg _)).symm
  have hJ : Integrable (fun y => ∑ i, wx i * R (x i) y ^ 2) μI :=
    integrable_finset_sum _ fun i _ => ((hRy _ (hx.inside i)).integrable_sq).const_mul _
  have hJ0 : ∀ y, 0 ≤ ∑ i, wx i * R (x i) y ^ 2 := fun y => Finset.sum_nonneg fun i _ => mul_nonneg (hx.wpos i) (sq_nonneg _)
  have hG : MemLp (fun y => Real.sqrt (∑ i, wx i * R (x i) y ^ 2)) 2 μI := by
    refine (memLp_two_iff_integrable_sq (Real.continuous_sqrt.comp_aestronglyMeasurable hJ.1)).2 ?_
    exact hJ.congr (Filter.Eventually.of_forall fun y => (Real.sq_sqrt (hJ0 y)).symm)
  have h1 := l2_le (c := 2 * Real.sqrt 2 * εx) (by positivity) hF hG fun y hy => by
    rw [abs_of_nonneg (Real.sqrt_nonneg _), abs_of_nonneg (Real.sqrt_nonneg _)]
    exact nodes_le hgx hx (hεx y hy) (hPx y) (hRx y hy)
  simp only [Real.sq_sqrt (hJ0 _), Real.sq_sqrt (integral_nonneg fun x => sq_nonneg (R x _))] at h1
  rw [integral_finset_sum _ fun i _ => ((hRy _ (hx.inside i)).integrable_sq).const_mul _] at h1
  simp only [integral_const_mul] at h1
  have h2 := l2_sum_le (w := wx) (a := fun i => Real.sqrt (∫ y, R (x i) y ^ 2 ∂μI))
    (b := fun i => Real.sqrt (∑ j, wy j * R (x i) (y j) ^ 2)) (c := 2 * Real.sqrt 2 * εy) (by positivity) hx.wpos hwx2 fun i => by
    rw [abs_of_nonneg (Real.sqrt_nonneg _), abs_of_nonneg (Real.sqrt_nonneg _)]
    exact nodes_le hgy hy (hεy _ (hx.inside i)) (hPy (x i)) (hRy _ (hx.inside i))
  have hS0 : ∀ i, 0 ≤ ∑ j, wy j * R (x i) (y j) ^ 2 := fun i =>
    Finset.sum_nonneg fun j _ => mul_nonneg (hy.wpos j) (sq_nonneg _)
  simp only [Real.sq_sqrt (hS0 _), Real.sq_sqrt (integral_nonneg fun y => sq_nonneg (R _ y))] at h2
  have h3 : ∫ y in (-1 : ℝ)..1, ∫ x in (-1 : ℝ)..1, R x y ^ 2 = ∫ y, ∫ x, R x y ^ 2 ∂μI ∂μI := by
    rw [integral_μI]
    simp only [integral_μI]
  have h4 : ∑ i, ∑ j, wx i * wy j * R (x i) (y j) ^ 2 = ∑ i, wx i * ∑ j, wy j * R (x i) (y j) ^ 2 :=
    Finset.sum_congr rfl fun i _ => by
      rw [Finset.mul_sum]
      exact Finset.sum_congr rfl fun j _ => by ring
  rw [h3, h4]
  have h5 : Real.sqrt 2 * Real.sqrt 2 = 2 := Real.mul_self_sqrt (by norm_num)
  have e1 : Real.sqrt 2 * (2 * Real.sqrt 2 * εx) = 4 * εx := by linear_combination 2 * εx * h5
  have e2 : Real.sqrt 2 * (2 * Real.sqrt 2 * εy) = 4 * εy := by linear_combination 2 * εy * h5
  rw [e1] at h1
  rw [e2] at h2
  linarith

end Verif.Spec
