import Verif.Lemmas.Weyl
/-!
# Perturbation of singular vectors
-/

namespace Verif.Props
open Verif Verif.Svd
open scoped Matrix

variable {m n : ℕ}

/-- The factors of the transposed matrix. -/
def flipFactors (f : Factors ℝ m n) : Factors ℝ n m := ⟨f.k, f.v, f.s, f.u⟩

theorem flip_svd {A : Matrix (Fin m) (Fin n) ℝ} {f : Factors ℝ m n} (hf : IsSvdFactors A f) :
    IsSvdFactors Aᵀ (flipFactors f) := by
  refine ⟨?_, hf.v_orth, hf.u_orth, hf.nonneg, hf.anti⟩
  conv_lhs => rw [hf.eq]
  rw [Matrix.transpose_mul, Matrix.transpose_mul, Matrix.transpose_transpose, Matrix.diagonal_transpose, Matrix.mul_assoc]
  rfl

/-- Column `i` of the left factor. -/
def ucol (f : Factors ℝ m n) (i : Fin f.k) : Fin m → ℝ := fun j => f.u j i

/-- Column `i` of the right factor. -/
def vcol (f : Factors ℝ m n) (i : Fin f.k) : Fin n → ℝ := fun j => f.v j i

theorem vcol_eq (f : Factors ℝ m n) (i : Fin f.k) : vcol f i = f.v *ᵥ Pi.single i 1 := by
  rw [Matrix.mulVec_single_one]
  rfl

theorem ucol_eq (f : Factors ℝ m n) (i : Fin f.k) : ucol f i = f.u *ᵥ Pi.single i 1 := by
  rw [Matrix.mulVec_single_one]
  rfl

theorem enorm2_single {k : ℕ} (i : Fin k) : enorm2 (Pi.single i (1 : ℝ)) ^ 2 = 1 := by
  rw [enorm2_sq, Finset.sum_eq_single i]
  · simp
  · intro j _ h
    simp [h]
  · simp

theorem vcol_norm {A : Matrix (Fin m) (Fin n) ℝ} {f : Factors ℝ m n} (hf : IsSvdFactors A f) (i : Fin f.k) :
    enorm2 (vcol f i) ^ 2 = 1 := by rw [vcol_eq, orth_norm hf.v_orth, enorm2_single]

theorem ucol_norm {A : Matrix (Fin m) (Fin n) ℝ} {f : Factors ℝ m n} (hf : IsSvdFactors A f) (i : Fin f.k) :
    enorm2 (ucol f i) ^ 2 = 1 := by rw [ucol_eq, orth_norm hf.u_orth, enorm2_single]

theorem svd_apply {A : Matrix (Fin m) (Fin n) ℝ} {f : Factors ℝ m n} (hf : IsSvdFactors A f) (x : Fin n → ℝ) :
    A *ᵥ x = f.u *ᵥ (fun l => f.s l * (f.vᵀ *ᵥ x) l) := by
  conv_lhs => rw [hf.eq]
  rw [← Matrix.mulVec_mulVec, ← Matrix.mulVec_mulVec]
  congr 1
  funext l
  rw [Matrix.mulVec_diagonal]

theorem svd_vcol {A : Matrix (Fin m) (Fin n) ℝ} {f : Factors ℝ m n} (hf : IsSvdFactors A f) (i : Fin f.k) :
    A *ᵥ vcol f i = f.s i • ucol f i := by
  rw [svd_apply hf, ucol_eq, ← Matrix.mulVec_smul, vcol_eq, Matrix.mulVec_mulVec, hf.v_orth, Matrix.one_mulVec]
  congr 1
  funext l
  by_cases h : l = i
  · subst h
    simp
  · simp [h]

theorem pythagoras {k : ℕ} {U : Matrix (Fin m) (Fin k) ℝ} (h : Uᵀ * U = 1) (x : Fin m → ℝ) :
    enorm2 x ^ 2 = enorm2 (Uᵀ *ᵥ x) ^ 2 + enorm2 (x - U *ᵥ (Uᵀ *ᵥ x)) ^ 2 := by
  have h1 : x ⬝ᵥ (U *ᵥ (Uᵀ *ᵥ x)) = enorm2 (Uᵀ *ᵥ x) ^ 2 := by
    rw [← dot_self_sq, Matrix.dotProduct_mulVec, ← Matrix.mulVec_transpose]
  have h2 : (U *ᵥ (Uᵀ *ᵥ x)) ⬝ᵥ (U *ᵥ (Uᵀ *ᵥ x)) = enorm2 (Uᵀ *ᵥ x) ^ 2 := by rw [dot_self_sq, orth_norm h]
  rw [← dot_self_sq (x - _), sub_dotProduct, dotProduct_sub, dotProduct_sub, h2, dotProduct_comm (U *ᵥ (Uᵀ *ᵥ x)) x, h1,
    dot_self_sq]
  ring

/-- The components of a left singular vector of `A` in the singular vectors of `B`, and outside of their span. -/
theorem residual {A B : Matrix (Fin m) (Fin n) ℝ} {f g : Factors ℝ m n} (hf : IsSvdFactors A f) (hg : IsSvdFactors B g)
    {E : ℝ} (hE0 : 0 ≤ E) (hE : ∑ i, ∑ j, (A i j - B i j) ^ 2 ≤ E ^ 2) (i : Fin f.k) :
    ∃ p : ℝ, 0 ≤ p ∧ 1 = ∑ l, (g.uᵀ *ᵥ ucol f i) l ^ 2 + p ∧
      ∑ l, (g.s l * (g.vᵀ *ᵥ vcol f i) l - f.s i * (g.uᵀ *ᵥ ucol f i) l) ^ 2 + f.s i ^ 2 * p ≤ E ^ 2 := by
  refine ⟨enorm2 (ucol f i - g.u *ᵥ (g.uᵀ *ᵥ ucol f i)) ^ 2, sq_nonneg _, ?_, ?_⟩
  · rw [← enorm2_sq, ← pythagoras hg.u_orth, ucol_norm hf]
  have hr : enorm2 ((B - A) *ᵥ vcol f i) ^ 2 ≤ E ^ 2 := by
    have h1 := frobenius_mulVec (B - A) (vcol f i) hE0 (le_trans (le_of_eq (Finset.sum_congr rfl fun a _ =>
      Finset.sum_congr rfl fun b _ => by rw [Matrix.sub_apply]; ring)) hE)
    have h2 := pow_le_pow_left₀ (enorm2_nonneg _) h1 2
    rw [mul_pow, vcol_norm hf, mul_one] at h2
    exact h2
  have hru : g.uᵀ *ᵥ ((B - A) *ᵥ vcol f i) = fun l =>
      g.s l * (g.vᵀ *ᵥ vcol f i) l - f.s i * (g.uᵀ *ᵥ ucol f i) l := by
    rw [Matrix.sub_mulVec, svd_vcol hf, svd_apply hg, Matrix.mulVec_sub, Matrix.mulVec_mulVec, hg.u_orth, Matrix.one_mulVec,
      Matrix.mulVec_smul]
    rfl
  have hperp : (B - A) *ᵥ vcol f i - g.u *ᵥ (g.uᵀ *ᵥ ((B - A) *ᵥ vcol f i)) =
      -(f.s i • (ucol f i - g.u *ᵥ (g.uᵀ *ᵥ ucol f i))) := by
    rw [Matrix.sub_mulVec, svd_vcol hf, svd_apply hg, Matrix.mulVec_sub, Matrix.mulVec_mulVec, hg.u_orth, Matrix.one_mulVec,
      Matrix.mulVec_smul, Matrix.mulVec_sub, Matrix.mulVec_smul, smul_sub]
    abel
  rw [pythagoras hg.u_orth, hperp, hru, enorm2_sq] at hr
  refine le_trans (le_of_eq ?_) hr
  congr 1
  rw [enorm2_sq, enorm2_sq, Finset.mul_sum]
  refine Finset.sum_congr rfl fun a _ => ?_
  simp only [Pi.neg_apply, Pi.smul_apply, smul_eq_mul]
  ring

/-- One pair of components. -/
theorem pair_gap {s t a b d : ℝ} (hd : 0 ≤ d) (h1 : d ≤ |t - s|) (h2 : d ≤ t + s) :
    d ^ 2 * (a ^ 2 + b ^ 2) ≤ (t * b - s * a) ^ 2 + (t * a - s * b) ^ 2 := by
  have e1 := pow_le_pow_left₀ hd h1 2
  have e2 := pow_le_pow_left₀ hd h2 2
  rw [sq_abs] at e1
  have e3 := mul_le_mul_of_nonneg_right e1 (sq_nonneg (a + b))
  have e4 := mul_le_mul_of_nonneg_right e2 (sq_nonneg (a - b))
  nlinarith

/-- Wedin's bound for one pair of singular vectors, with the signs. -/
theorem wedin {A B : Matrix (Fin m) (Fin n) ℝ} {f g : Factors ℝ m n} (hf : IsSvdFactors A f) (hg : IsSvdFactors B g)
    {E d : ℝ} (hE0 : 0 ≤ E) (hE : ∑ i, ∑ j, (A i j - B i j) ^ 2 ≤ E ^ 2) (i : Fin f.k) (j : Fin g.k)
    (hd : 0 < d) (hs : d ≤ f.s i) (hgap : ∀ l, l ≠ j → d ≤ |g.s l - f.s i|) (hEd : 2 * E < d) :
    ∃ σ : ℝ, (σ = 1 ∨ σ = -1) ∧
      ∑ a, (f.u a i - σ * g.u a j) ^ 2 + ∑ b, (f.v b i - σ * g.v b j) ^ 2 ≤ (2 * E / d) ^ 2 := by
  obtain ⟨p, hp0, hp1, hp2⟩ := residual hf hg hE0 hE i
  obtain ⟨q, hq0, hq1, hq2⟩ := residual (flip_svd hf) (flip_svd hg) hE0 (by
    rw [Finset.sum_comm]
    exact hE) i
  have hq1' : 1 = ∑ l, (g.vᵀ *ᵥ vcol f i) l ^ 2 + q := hq1
  have hq2' : ∑ l, (g.s l * (g.uᵀ *ᵥ ucol f i) l - f.s i * (g.vᵀ *ᵥ vcol f i) l) ^ 2 + f.s i ^ 2 * q ≤ E ^ 2 := hq2
  set a := g.uᵀ *ᵥ ucol f i with ha
  set b := g.vᵀ *ᵥ vcol f i with hb
  have hsq : d ^ 2 ≤ f.s i ^ 2 := pow_le_pow_left₀ hd.le hs 2
  have hsum : d ^ 2 * ∑ l ∈ Finset.univ.erase j, (a l ^ 2 + b l ^ 2) ≤
      ∑ l ∈ Finset.univ.erase j, ((g.s l * b l - f.s i * a l) ^ 2 + (g.s l * a l - f.s i * b l) ^ 2) := by
    rw [Finset.mul_sum]
    refine Finset.sum_le_sum fun l hl => pair_gap hd.le (hgap l (Finset.ne_of_mem_erase hl)) ?_
    have := hg.nonneg l
    linarith
  have hsplit : ∀ F : Fin g.k → ℝ, ∑ l, F l = F j + ∑ l ∈ Finset.univ.erase j, F l := fun F =>
    (Finset.add_sum_erase _ _ (Finset.mem_univ j)).symm
  rw [hsplit] at hp1 hp2 hq1' hq2'
  rw [Finset.sum_add_distrib, Finset.sum_add_distrib] at hsum
  have hpp := mul_le_mul_of_nonneg_right hsq hp0
  have hqq := mul_le_mul_of_nonneg_right hsq hq0
  -- the pair of number `j` as well
  have hj : (g.s j + f.s i) ^ 2 * (a j - b j) ^ 2 ≤
      2 * ((g.s j * b j - f.s i * a j) ^ 2 + (g.s j * a j - f.s i * b j) ^ 2) := by
    have e : 2 * ((g.s j * b j - f.s i * a j) ^ 2 + (g.s j * a j - f.s i * b j) ^ 2) =
        (g.s j + f.s i) ^ 2 * (a j - b j) ^ 2 + ((g.s j - f.s i) * (a j + b j)) ^ 2 := by ring
    rw [e]
    linarith [sq_nonneg ((g.s j - f.s i) * (a j + b j))]
  have hmain : d ^ 2 * (2 - a j ^ 2 - b j ^ 2) ≤ 2 * E ^ 2 := by
    have e : 2 - a j ^ 2 - b j ^ 2 = ∑ l ∈ Finset.univ.erase j, a l ^ 2 + ∑ l ∈ Finset.univ.erase j, b l ^ 2 + p + q := by
      linarith
    rw [e]
    linarith [sq_nonneg (g.s j * b j - f.s i * a j), sq_nonneg (g.s j * a j - f.s i * b j)]
  have ha1 : a j ^ 2 ≤ 1 := by
    have : 0 ≤ ∑ l ∈ Finset.univ.erase j, a l ^ 2 := Finset.sum_nonneg fun _ _ => sq_nonneg _
    linarith
  have hb1 : b j ^ 2 ≤ 1 := by
    have : 0 ≤ ∑ l ∈ Finset.univ.erase j, b l ^ 2 := Finset.sum_nonneg fun _ _ => sq_nonneg _
    linarith
  have haa : |a j| ≤ 1 := (sq_le_one_iff_abs_le_one _).1 ha1
  have hbb : |b j| ≤ 1 := (sq_le_one_iff_abs_le_one _).1 hb1
  have h4 : 4 * E ^ 2 < d ^ 2 := by
    have := pow_lt_pow_left₀ hEd (by linarith) (two_ne_zero)
    linarith [mul_pow 2 E 2]
  have hd2 : 0 < d ^ 2 := by positivity
  have hhalf : 2 - a j ^ 2 - b j ^ 2 < 1 / 2 := by
    by_contra hcon
    push Not at hcon
    have := mul_le_mul_of_nonneg_left hcon hd2.le
    linarith
  have hdiff : (a j - b j) ^ 2 < 1 := by
    have e1 : d ^ 2 ≤ (g.s j + f.s i) ^ 2 := pow_le_pow_left₀ hd.le (by linarith [hg.nonneg j]) 2
    have e2 := mul_le_mul_of_nonneg_right e1 (sq_nonneg (a j - b j))
    have e3 : 0 ≤ ∑ l ∈ Finset.univ.erase j, (g.s l * b l - f.s i * a l) ^ 2 := Finset.sum_nonneg fun _ _ => sq_nonneg _
    have e4 : 0 ≤ ∑ l ∈ Finset.univ.erase j, (g.s l * a l - f.s i * b l) ^ 2 := Finset.sum_nonneg fun _ _ => sq_nonneg _
    have e5 := mul_nonneg hd2.le hp0
    have e6 := mul_nonneg hd2.le hq0
    by_contra hcon
    push Not at hcon
    have e7 := mul_le_mul_of_nonneg_left hcon hd2.le
    linarith
  have hab : 0 < a j * b j := by
    have : (a j - b j) ^ 2 = a j ^ 2 + b j ^ 2 - 2 * (a j * b j) := by ring
    linarith
  -- norms of differences
  have hnu : ∀ σ : ℝ, σ ^ 2 = 1 → ∑ x, (f.u x i - σ * g.u x j) ^ 2 = 2 - 2 * (σ * a j) := by
    intro σ hσ
    have h1 : ∑ x, f.u x i ^ 2 = 1 := by rw [← ucol_norm hf i, enorm2_sq]; rfl
    have h2 : ∑ x, g.u x j ^ 2 = 1 := by rw [← ucol_norm hg j, enorm2_sq]; rfl
    have h3 : a j = ∑ x, g.u x j * f.u x i := rfl
    have h5 : ∀ x, (f.u x i - σ * g.u x j) ^ 2 = f.u x i ^ 2 + σ ^ 2 * g.u x j ^ 2 - 2 * σ * (g.u x j * f.u x i) := fun x => by
      ring
    simp only [h5, Finset.sum_sub_distrib, Finset.sum_add_distrib, ← Finset.mul_sum]
    rw [h1, h2, ← h3, hσ]
    ring
  have hnv : ∀ σ : ℝ, σ ^ 2 = 1 → ∑ x, (f.v x i - σ * g.v x j) ^ 2 = 2 - 2 * (σ * b j) := by
    intro σ hσ
    have h1 : ∑ x, f.v x i ^ 2 = 1 := by rw [← vcol_norm hf i, enorm2_sq]; rfl
    have h2 : ∑ x, g.v x j ^ 2 = 1 := by rw [← vcol_norm hg j, enorm2_sq]; rfl
    have h3 : b j = ∑ x, g.v x j * f.v x i := rfl
    have h5 : ∀ x, (f.v x i - σ * g.v x j) ^ 2 = f.v x i ^ 2 + σ ^ 2 * g.v x j ^ 2 - 2 * σ * (g.v x j * f.v x i) := fun x => by
      ring
    simp only [h5, Finset.sum_sub_distrib, Finset.sum_add_distrib, ← Finset.mul_sum]
    rw [h1, h2, ← h3, hσ]
    ring
  have hfin : 2 * (2 - a j ^ 2 - b j ^ 2) ≤ (2 * E / d) ^ 2 := by
    rw [div_pow, le_div_iff₀ hd2, mul_pow]
    linarith
  have hcases : (0 < a j ∧ 0 < b j) ∨ (a j < 0 ∧ b j < 0) := mul_pos_iff.1 hab
  obtain ⟨a1, a2⟩ := abs_le.1 haa
  obtain ⟨b1, b2⟩ := abs_le.1 hbb
  rcases hcases with ⟨h1, h2⟩ | ⟨h1, h2⟩
  · refine ⟨1, Or.inl rfl, le_trans ?_ hfin⟩
    rw [hnu 1 (by norm_num), hnv 1 (by norm_num)]
    have e1 := mul_nonneg h1.le (by linarith : 0 ≤ 1 - a j)
    have e2 := mul_nonneg h2.le (by linarith : 0 ≤ 1 - b j)
    linarith [sq (a j), sq (b j)]
  · refine ⟨-1, Or.inr rfl, le_trans ?_ hfin⟩
    rw [hnu (-1) (by norm_num), hnv (-1) (by norm_num)]
    have e1 := mul_nonneg (by linarith : 0 ≤ -a j) (by linarith : 0 ≤ 1 + a j)
    have e2 := mul_nonneg (by linarith : 0 ≤ -b j) (by linarith : 0 ≤ 1 + b j)
    linarith [sq (a j), sq (b j)]

end Verif.Props
