import Verif.Lemmas.Weyl
import Verif.Props.C76_MatrixRounding
/-!
# C77: Accuracy of the singular values and what truncation keeps

`sval f i` is the singular value number `i` of the factors `f`, zero beyond their number.
-/

namespace Verif.Props
open Verif Verif.Kernel Verif.Spec Verif.Gauss Verif.Sve Verif.Svd Verif.SveCompute

/-- The sum of the squares of the differences of two matrices is at most `E^2`. -/
def FrobeniusWithin {m n : ℕ} (A B : Matrix (Fin m) (Fin n) ℝ) (E : ℝ) : Prop :=
  0 ≤ E ∧ ∑ i, ∑ j, (A i j - B i j) ^ 2 ≤ E ^ 2

theorem FrobeniusWithin.symm {m n : ℕ} {A B : Matrix (Fin m) (Fin n) ℝ} {E : ℝ} (h : FrobeniusWithin A B E) :
    FrobeniusWithin B A E := by
  refine ⟨h.1, le_trans (le_of_eq ?_) h.2⟩
  exact Finset.sum_congr rfl fun i _ => Finset.sum_congr rfl fun j _ => by ring

/-- Singular values move by at most the Frobenius norm of the perturbation. -/
theorem C77_weyl {m n : ℕ} {A B : Matrix (Fin m) (Fin n) ℝ} {f g : Factors ℝ m n} {E : ℝ} (hf : IsSvdFactors A f)
    (hg : IsSvdFactors B g) (h : FrobeniusWithin A B E) (i : ℕ) : |sval f i - sval g i| ≤ E := by
  have h1 := weyl_le hf hg h.1 h.2 i
  have h2 := weyl_le hg hf h.1 h.symm.2 i
  exact abs_le.2 ⟨by linarith, by linarith⟩

/-- The bound is attained. -/
theorem C77_weyl_sharp {E : ℝ} (hE : 0 ≤ E) : ∃ (A B : Matrix (Fin 1) (Fin 1) ℝ) (f g : Factors ℝ 1 1),
    IsSvdFactors A f ∧ IsSvdFactors B g ∧ FrobeniusWithin A B E ∧ sval f 0 - sval g 0 = E := by
  have key : ∀ a : ℝ, 0 ≤ a → IsSvdFactors (Matrix.of fun _ _ => a) (⟨1, 1, fun _ => a, 1⟩ : Factors ℝ 1 1) := by
    intro a ha
    refine ⟨?_, by simp, by simp, fun _ => ha, fun _ _ _ => le_rfl⟩
    ext i j
    fin_cases i
    fin_cases j
    simp
  refine ⟨_, _, _, _, key (1 + E) (by linarith), key 1 zero_le_one, ⟨hE, ?_⟩, ?_⟩
  · simp
  · simp [sval]

theorem sval_nonneg {m n : ℕ} {A : Matrix (Fin m) (Fin n) ℝ} {f : Factors ℝ m n} (hf : IsSvdFactors A f) (i : ℕ) :
    0 ≤ sval f i := by
  unfold sval
  split
  · exact hf.nonneg _
  · exact le_rfl

theorem sval_le {m n : ℕ} {A : Matrix (Fin m) (Fin n) ℝ} {f : Factors ℝ m n} (hf : IsSvdFactors A f) {t : ℝ}
    (ht : t ∈ (blockOf f).s) : t ≤ sval f 0 := by
  obtain ⟨l, rfl⟩ := (List.mem_ofFn' _ _).1 ht
  have h0 : 0 < f.k := l.pos
  rw [show sval f 0 = f.s ⟨0, h0⟩ from dif_pos h0]
  exact hf.anti (Fin.mk_le_mk.2 (Nat.zero_le _))

theorem kept_iff {m n : ℕ} {f : Factors ℝ m n} {P : ℝ → Prop} {b : Block (List ℝ) (List ℝ)}
    (h : KeptPrefix P (blockOf f) b) (hP : ¬ P 0) (i : ℕ) :
    (i < b.s.length ↔ P (sval f i)) ∧ ∀ hi : i < b.s.length, b.s[i] = sval f i := by
  obtain ⟨N, -, hs, -, h1, h2⟩ := h
  have hlen : b.s.length = min N f.k := by simp [hs, blockOf]
  have hget : ∀ hi : i < b.s.length, b.s[i] = sval f i := by
    intro hi
    have hk : i < f.k := by omega
    rw [show sval f i = f.s ⟨i, hk⟩ from dif_pos hk]
    simp [hs, blockOf]
  refine ⟨⟨fun hi => ?_, fun hPi => ?_⟩, hget⟩
  · rw [← hget hi]
    refine h1 _ ?_
    rw [← hs]
    exact List.getElem_mem hi
  · by_contra hi
    have hk : i < f.k := by
      by_contra hk
      rw [show sval f i = 0 from dif_neg hk] at hPi
      exact hP hPi
    refine h2 (sval f i) ?_ hPi
    rw [List.mem_drop_iff_getElem]
    refine ⟨i - N, by simp [blockOf]; omega, ?_⟩
    rw [show sval f i = f.s ⟨i, hk⟩ from dif_pos hk]
    simp only [blockOf, List.getElem_ofFn]
    congr 1
    exact Fin.ext (by simp; omega)

/-- Truncation of the even and odd parts computed from matrices which are accurate to `E` in the Frobenius norm.  `T` is the
largest exact singular value.  The kept values are accurate to `E`; kept is every value whose exact counterpart exceeds the
cut-off by the margin `(1 + t) E`, and no value whose exact counterpart is below it by that margin. -/
theorem C77_truncate {m n m' n' : ℕ} {A B : Matrix (Fin m) (Fin n) ℝ} {A' B' : Matrix (Fin m') (Fin n') ℝ}
    {f g : Factors ℝ m n} {f' g' : Factors ℝ m' n'} {E t T : ℝ} (hf : IsSvdFactors A f) (hg : IsSvdFactors B g)
    (hf' : IsSvdFactors A' f') (hg' : IsSvdFactors B' g') (h : FrobeniusWithin A B E) (h' : FrobeniusWithin A' B' E)
    (hk : 0 < f.k + f'.k) (ht0 : 0 ≤ t) (ht1 : t ≤ 1) (hT : T = max (sval g 0) (sval g' 0)) :
    ∃ b b', truncate [blockOf f, blockOf f'] t none = .ok [b, b'] ∧
      (∀ i (hi : i < b.s.length), |b.s[i] - sval g i| ≤ E ∧ t * T - (1 + t) * E < sval g i) ∧
      (∀ i (hi : i < b'.s.length), |b'.s[i] - sval g' i| ≤ E ∧ t * T - (1 + t) * E < sval g' i) ∧
      (∀ i, t * T + (1 + t) * E < sval g i → i < b.s.length) ∧
      ∀ i, t * T + (1 + t) * E < sval g' i → i < b'.s.length := by
  have hall : allS [blockOf f, blockOf f'] = List.ofFn f.s ++ List.ofFn f'.s := by simp [allS, blockOf]
  obtain ⟨out, top, h1, h2, h3, -, -⟩ := C34_truncate [blockOf f, blockOf f'] t none (by
    intro b hb
    simp only [List.mem_cons, List.not_mem_nil, or_false] at hb
    rcases hb with rfl | rfl
    · exact blockOf_sorted hf.anti
    · exact blockOf_sorted hf'.anti) ht0 ht1 (by
    rw [hall]
    intro hnil
    have := congrArg List.length hnil
    simp at this
    omega)
  cases h3 with
  | cons ha hrest =>
  cases hrest with
  | cons hb hrest =>
  cases hrest
  rename_i b b'
  have htop : top = max (sval f 0) (sval f' 0) := by
    refine le_antisymm ?_ (max_le ?_ ?_)
    · have := h2.1
      rw [Set.mem_setOf_eq, hall, List.mem_append] at this
      rcases this with hm | hm
      · exact (sval_le hf hm).trans (le_max_left _ _)
      · exact (sval_le hf' hm).trans (le_max_right _ _)
    · by_cases h0 : 0 < f.k
      · refine h2.2 ?_
        rw [Set.mem_setOf_eq, hall, List.mem_append]
        exact Or.inl ((List.mem_ofFn' _ _).2 ⟨⟨0, h0⟩, by simp [sval, h0]⟩)
      · have h0' : 0 < f'.k := by omega
        rw [show sval f 0 = 0 from dif_neg h0]
        refine (hf'.nonneg ⟨0, h0'⟩).trans (h2.2 ?_)
        rw [Set.mem_setOf_eq, hall, List.mem_append]
        exact Or.inr ((List.mem_ofFn' _ _).2 ⟨⟨0, h0'⟩, rfl⟩)
    · by_cases h0 : 0 < f'.k
      · refine h2.2 ?_
        rw [Set.mem_setOf_eq, hall, List.mem_append]
        exact Or.inr ((List.mem_ofFn' _ _).2 ⟨⟨0, h0⟩, by simp [sval, h0]⟩)
      · have h0' : 0 < f.k := by omega
        rw [show sval f' 0 = 0 from dif_neg h0]
        refine (hf.nonneg ⟨0, h0'⟩).trans (h2.2 ?_)
        rw [Set.mem_setOf_eq, hall, List.mem_append]
        exact Or.inl ((List.mem_ofFn' _ _).2 ⟨⟨0, h0'⟩, rfl⟩)
  have hW := fun i => abs_le.1 (C77_weyl hf hg h i)
  have hW' := fun i => abs_le.1 (C77_weyl hf' hg' h' i)
  have htop0 : 0 ≤ top := by
    rw [htop]
    exact (sval_nonneg hf 0).trans (le_max_left _ _)
  have hT1 : top ≤ T + E := by
    rw [htop, hT]
    refine max_le ?_ ?_
    · linarith [(hW 0).2, le_max_left (sval g 0) (sval g' 0)]
    · linarith [(hW' 0).2, le_max_right (sval g 0) (sval g' 0)]
  have hT2 : T - E ≤ top := by
    have : T ≤ top + E := by
      rw [htop, hT]
      refine max_le ?_ ?_
      · linarith [(hW 0).1, le_max_left (sval f 0) (sval f' 0)]
      · linarith [(hW' 0).1, le_max_right (sval f 0) (sval f' 0)]
    linarith
  have hc1 := mul_le_mul_of_nonneg_left hT1 ht0
  have hc2 := mul_le_mul_of_nonneg_left hT2 ht0
  have hP0 : ¬ Keep (allS [blockOf f, blockOf f']) top t none 0 := by
    rintro ⟨h0, -⟩
    exact absurd h0 (not_lt.2 (mul_nonneg ht0 htop0))
  refine ⟨b, b', h1, fun i hi => ?_, fun i hi => ?_, fun i hi => ?_, fun i hi => ?_⟩
  · obtain ⟨h4, h5⟩ := kept_iff ha hP0 i
    have h6 := (h4.1 hi).1
    rw [h5 hi]
    exact ⟨abs_le.2 (hW i), by linarith [(hW i).2]⟩
  · obtain ⟨h4, h5⟩ := kept_iff hb hP0 i
    have h6 := (h4.1 hi).1
    rw [h5 hi]
    exact ⟨abs_le.2 (hW' i), by linarith [(hW' i).2]⟩
  · exact (kept_iff ha hP0 i).1.2 ⟨by linarith [(hW i).1], by simp⟩
  · exact (kept_iff hb hP0 i).1.2 ⟨by linarith [(hW' i).1], by simp⟩

/-- The triangle inequality. -/
theorem FrobeniusWithin.trans {m n : ℕ} {A B C : Matrix (Fin m) (Fin n) ℝ} {E F : ℝ} (h : FrobeniusWithin A B E)
    (h' : FrobeniusWithin B C F) : FrobeniusWithin A C (E + F) := by
  refine ⟨add_nonneg h.1 h'.1, ?_⟩
  have hsum : ∀ {D D' : Matrix (Fin m) (Fin n) ℝ}, ∑ i, ∑ j, (D i j - D' i j) ^ 2 =
      ∑ p : Fin m × Fin n, (D p.1 p.2 - D' p.1 p.2) ^ 2 := fun {D D'} =>
    (Fintype.sum_prod_type fun p : Fin m × Fin n => (D p.1 p.2 - D' p.1 p.2) ^ 2).symm
  have hn : ∀ {D D' : Matrix (Fin m) (Fin n) ℝ}, ∑ i, ∑ j, (D i j - D' i j) ^ 2 =
      ‖(WithLp.toLp 2 fun p => D p.1 p.2 - D' p.1 p.2 : EuclideanSpace ℝ (Fin m × Fin n))‖ ^ 2 := fun {D D'} => by
    rw [hsum, EuclideanSpace.norm_eq, Real.sq_sqrt (Finset.sum_nonneg fun _ _ => sq_nonneg _)]
    simp
  have h1 := h.2
  have h2 := h'.2
  rw [hn] at h1 h2 ⊢
  have h3 := abs_le_of_sq_le_sq h1 h.1
  have h4 := abs_le_of_sq_le_sq h2 h'.1
  rw [abs_of_nonneg (norm_nonneg _)] at h3 h4
  refine pow_le_pow_left₀ (norm_nonneg _) (le_trans ?_ (add_le_add h3 h4)) 2
  refine le_trans (le_of_eq ?_) (norm_add_le _ _)
  congr 1
  rw [← WithLp.toLp_add]
  congr 1
  funext p
  simp

/-- The singular values which are computed from the matrix of C76 by an SVD which is exact for a matrix within `E` of the
one given to it (backward stability): all of them are accurate to `err + E`. -/
theorem C77_sampling {A : Arith} {rt : ℝ → ℝ} {lo : ℝ} {call : ℝ → ℝ → ℝ → ℝ → ℝ} {K : ℝ → ℝ → ℝ} {R : Rule}
    {ts ws ex ey : List ℝ} {err : ℝ} (herr : 0 ≤ err) (h : SamplingWithin A rt lo call K R ts ws ex ey err) :
    ∃ gx gy M, R.piecewiseFl A ex = .ok gx ∧ R.piecewiseFl A ey = .ok gy ∧ matrixFl A rt lo call gx gy = .ok M ∧
      ∃ X W : Fin gx.x.length → ℝ, ∃ Y V : Fin gy.x.length → ℝ,
        List.ofFn X = compositeNodes ts ex ∧ List.ofFn W = compositeWeights ws ex ∧
        List.ofFn Y = compositeNodes ts ey ∧ List.ofFn V = compositeWeights ws ey ∧
        ∀ M' E f g, FrobeniusWithin M' (Matrix.of fun i j => M (i, j)) E → IsSvdFactors M' f →
          IsSvdFactors (nodeMatrix K X W Y V) g → ∀ i, |sval f i - sval g i| ≤ err + E := by
  obtain ⟨gx, gy, M, h1, h2, h3, X, W, Y, V, hX, hW, hY, hV, h4⟩ := h
  refine ⟨gx, gy, M, h1, h2, h3, X, W, Y, V, hX, hW, hY, hV, fun M' E f g h5 hf hg i => ?_⟩
  have h6 : FrobeniusWithin (Matrix.of fun i j => M (i, j)) (nodeMatrix K X W Y V) err := ⟨herr, h4⟩
  rw [add_comm]
  exact C77_weyl hf hg (h5.trans h6) i

/-- Non-vacuity: diagonal matrices with two different singular values each. -/
theorem diag_svd {a b : ℝ} (hb : 0 ≤ b) (hab : b ≤ a) :
    IsSvdFactors (Matrix.diagonal ![a, b]) (⟨2, 1, ![a, b], 1⟩ : Factors ℝ 2 2) := by
  refine ⟨by simp, by simp, by simp, ?_, ?_⟩
  · intro i
    fin_cases i
    · exact hb.trans hab
    · exact hb
  · intro i j hij
    fin_cases i <;> fin_cases j
    · exact le_rfl
    · exact hab
    · exact absurd (Fin.mk_le_mk.1 hij) (by norm_num)
    · exact le_rfl

example : ∃ b b', truncate [blockOf (⟨2, 1, ![1.001, 0.1], 1⟩ : Factors ℝ 2 2),
      blockOf (⟨2, 1, ![0.5, 1e-5], 1⟩ : Factors ℝ 2 2)] 1e-3 none = .ok [b, b'] ∧ 1 < b.s.length ∧
      ∀ h : 1 < b.s.length, |b.s[1] - 0.1| ≤ 0.001 := by
  have hT : sval (⟨2, 1, ![1, 0.1], 1⟩ : Factors ℝ 2 2) 0 = 1 := by simp [sval]
  have hT' : sval (⟨2, 1, ![0.5, 0], 1⟩ : Factors ℝ 2 2) 0 = 0.5 := by simp [sval]
  have hg1 : sval (⟨2, 1, ![1, 0.1], 1⟩ : Factors ℝ 2 2) 1 = 0.1 := by simp [sval]
  obtain ⟨b, b', h1, h2, -, h3, -⟩ := C77_truncate (E := 0.001) (t := 1e-3)
    (diag_svd (a := 1.001) (b := 0.1) (by norm_num) (by norm_num)) (diag_svd (a := 1) (b := 0.1) (by norm_num) (by norm_num))
    (diag_svd (a := 0.5) (b := 1e-5) (by norm_num) (by norm_num)) (diag_svd (a := 0.5) (b := 0) (by norm_num) (by norm_num))
    ⟨by norm_num, by simp [Fin.sum_univ_two]; norm_num⟩ ⟨by norm_num, by simp [Fin.sum_univ_two]; norm_num⟩ (by norm_num)
    (by norm_num) (by norm_num) rfl
  rw [hT, hT'] at h3
  refine ⟨b, b', h1, h3 1 (by rw [hg1]; norm_num), fun h => ?_⟩
  have := (h2 1 h).1
  rwa [hg1] at this

end Verif.Props
