import Verif.Lemmas.Rounding
/-! Errors of the evaluation of the regularised Bose kernel in floating-point arithmetic. -/

namespace Verif.Kernel
open Verif.Spec

/-- `V / (1 - exp(-V))`, with its limit at zero. -/
noncomputable def boseG (V : ℝ) : ℝ := if V = 0 then 1 else V / (1 - Real.exp (-V))

theorem one_sub_exp_pos {V : ℝ} (h : 0 < V) : 0 < 1 - Real.exp (-V) := by
  have : Real.exp (-V) < Real.exp 0 := Real.exp_lt_exp.2 (by linarith)
  rw [Real.exp_zero] at this
  linarith

theorem boseG_pos_eq {V : ℝ} (h : 0 < V) : boseG V = V / (1 - Real.exp (-V)) := if_neg h.ne'

theorem boseG_mono {V a : ℝ} (hV : 0 < V) (h : V ≤ a) : boseG V ≤ boseG a := by
  have ha : 0 < a := lt_of_lt_of_le hV h
  rw [boseG_pos_eq hV, boseG_pos_eq ha, div_le_div_iff₀ (one_sub_exp_pos hV) (one_sub_exp_pos ha)]
  have h1 := convexOn_exp.2 (Set.mem_univ (-a)) (Set.mem_univ 0) (by positivity : 0 ≤ V / a)
    (by rw [sub_nonneg, div_le_one ha]; exact h : 0 ≤ 1 - V / a) (by ring)
  simp only [smul_eq_mul, mul_zero, add_zero, Real.exp_zero, mul_one] at h1
  rw [show V / a * -a = -V by field_simp] at h1
  have h2 := mul_le_mul_of_nonneg_left h1 ha.le
  have h3 : a * (V / a * Real.exp (-a) + (1 - V / a)) = V * Real.exp (-a) + a - V := by field_simp; ring
  rw [h3] at h2
  linarith

theorem boseG_ratio {V a : ℝ} (hV : 0 < V) (h : V ≤ a) : boseG a * V ≤ a * boseG V := by
  have ha : 0 < a := lt_of_lt_of_le hV h
  have h1 := one_sub_exp_pos hV
  have h2 := one_sub_exp_pos ha
  rw [boseG_pos_eq hV, boseG_pos_eq ha, div_mul_eq_mul_div, ← mul_div_assoc, div_le_div_iff₀ h2 h1]
  have h3 : Real.exp (-a) ≤ Real.exp (-V) := Real.exp_le_exp.2 (by linarith)
  have := mul_nonneg ha.le hV.le
  nlinarith

theorem boseG_pos {V : ℝ} (h : 0 < V) : 0 < boseG V := by
  rw [boseG_pos_eq h]
  exact div_pos h (one_sub_exp_pos h)

/-- The relative error of the weight is at most that of the frequency. -/
theorem boseG_rel {V a r : ℝ} (hV : 0 < V) (ha : 0 < a) (h : |a - V| ≤ r * V) : |boseG a - boseG V| ≤ r * boseG V := by
  have hg := boseG_pos hV
  have hga := boseG_pos ha
  rcases le_total V a with hle | hle
  · have h1 := boseG_mono hV hle
    have h2 := boseG_ratio hV hle
    rw [abs_of_nonneg (sub_nonneg.2 hle)] at h
    rw [abs_of_nonneg (sub_nonneg.2 h1)]
    have h3 := mul_le_mul_of_nonneg_right h hg.le
    have h4 : (boseG a - boseG V) * V ≤ r * boseG V * V := by nlinarith
    exact le_of_mul_le_mul_right h4 hV
  · have h1 := boseG_mono ha hle
    have h2 := boseG_ratio ha hle
    rw [abs_of_nonpos (sub_nonpos.2 hle)] at h
    rw [abs_of_nonpos (sub_nonpos.2 h1)]
    have h3 := mul_le_mul_of_nonneg_right h hg.le
    have h4 : -(boseG a - boseG V) * V ≤ r * boseG V * V := by nlinarith
    exact le_of_mul_le_mul_right h4 hV

/-- The weight near zero. -/
theorem boseG_near {V : ℝ} (h : |V| ≤ 1 / 4) : |boseG V - 1| ≤ 2 * |V| := by
  rcases eq_or_ne V 0 with h0 | h0
  · simp [boseG, h0]
  have hq := Real.abs_exp_sub_one_sub_id_le (x := -V) (by rw [abs_neg]; linarith)
  have hV := abs_pos.2 h0
  have h1 : |1 - Real.exp (-V) - V| ≤ V ^ 2 := by
    rw [show 1 - Real.exp (-V) - V = -(Real.exp (-V) - 1 - -V) by ring, abs_neg]
    rwa [neg_sq] at hq
  have hsq : V ^ 2 = |V| * |V| := by rw [← sq, sq_abs]
  have h2 : 3 / 4 * |V| ≤ |1 - Real.exp (-V)| := by
    have h3 : |V| ≤ |1 - Real.exp (-V)| + |1 - Real.exp (-V) - V| := by
      have := abs_sub (1 - Real.exp (-V)) (1 - Real.exp (-V) - V)
      rwa [sub_sub_cancel] at this
    nlinarith
  have hne : 1 - Real.exp (-V) ≠ 0 := by
    intro hz
    rw [hz, abs_zero] at h2
    linarith
  rw [boseG, if_neg h0, div_sub_one hne, abs_div, div_le_iff₀ (abs_pos.2 hne), abs_sub_comm]
  nlinarith

theorem boseG_le {V : ℝ} (h : 0 ≤ V) : boseG V ≤ 1 + V := by
  rcases eq_or_lt_of_le h with h0 | h0
  · simp [boseG, ← h0]
  rw [boseG_pos_eq h0, div_le_iff₀ (one_sub_exp_pos h0)]
  have h1 := Real.add_one_le_exp V
  have h2 : Real.exp V * Real.exp (-V) = 1 := by rw [← Real.exp_add]; simp
  have h3 := Real.exp_pos (-V)
  nlinarith

theorem boseG_ge {V : ℝ} (h : 0 ≤ V) : 1 ≤ boseG V := by
  rcases eq_or_lt_of_le h with h0 | h0
  · simp [boseG, ← h0]
  rw [boseG_pos_eq h0, le_div_iff₀ (one_sub_exp_pos h0)]
  have h1 := Real.add_one_le_exp (-V)
  linarith

/-- The weight as computed. -/
theorem bose_denom {A : Arith} {u eta : ℝ} (hA : A.Ok u eta) {V a : ℝ} (hu64 : u ≤ 1 / 64) (hu0 : 1e-199 ≤ u)
    (heu : eta ≤ 1e-201 * u) (ha : 0 ≤ a) (hav : |a - V| ≤ u * |V| + eta) :
    1 / 2 ≤ boseG V ∧ |(if a ≥ 1e-200 then A.div a (A.expm1 (-a)) else -1) - -boseG V| ≤ 5 * u * boseG V := by
  have hu := hA.hu
  have he := hA.heta
  have he' : eta ≤ 1e-202 := by
    have : (1e-201 : ℝ) * u ≤ 1e-201 * (1 / 64) := mul_le_mul_of_nonneg_left hu64 (by norm_num)
    refine heu.trans (this.trans (by norm_num))
  by_cases hb : a ≥ 1e-200
  · rw [if_pos hb]
    have ha0 : 0 < a := lt_of_lt_of_le (by norm_num) hb
    have hV : 0 < V := by
      by_contra hc
      have h1 := not_lt.1 hc
      rw [abs_of_nonpos h1] at hav
      have := (abs_le.1 hav).2
      nlinarith
    rw [abs_of_pos hV] at hav
    have hVlow : 1 / 2 * 1e-200 ≤ V := by
      have := (abs_le.1 hav).2
      nlinarith
    have hrel : |a - V| ≤ 5 / 4 * u * V := by
      have : eta ≤ 1 / 4 * u * V := by
        refine heu.trans ?_
        have := mul_le_mul_of_nonneg_left hVlow (by linarith : 0 ≤ 1 / 4 * u)
        nlinarith
      linarith
    have hg := boseG_pos hV
    have hg1 := boseG_ge hV.le
    refine ⟨by linarith, ?_⟩
    have hG := boseG_rel hV ha0 hrel
    have hpos := one_sub_exp_pos ha0
    have hM := hA.expm1 (-a) (by linarith)
    rw [abs_of_neg (by linarith : Real.exp (-a) - 1 < 0)] at hM
    have hMb := abs_le.1 hM
    obtain ⟨M, hMd⟩ : ∃ M, M = A.expm1 (-a) := ⟨_, rfl⟩
    rw [← hMd] at hM hMb ⊢
    have hMneg : M < 0 := by nlinarith
    have hdiv := hA.div a M hMneg.ne
    have hga : boseG a * (1 - Real.exp (-a)) = a := by
      rw [boseG_pos_eq ha0]
      field_simp
    have hga0 := boseG_pos ha0
    have hq : |a / M - -boseG a| ≤ 9 / 8 * u * boseG a := by
      have h1 : a / M - -boseG a = boseG a * (M - (Real.exp (-a) - 1)) / M := by
        rw [eq_div_iff hMneg.ne, sub_mul, div_mul_cancel₀ _ hMneg.ne]
        linear_combination (-1 : ℝ) * hga
      rw [h1, abs_div, abs_mul, abs_of_pos hga0, abs_of_neg hMneg, div_le_iff₀ (by linarith)]
      have h2 : (1 - Real.exp (-a)) ≤ 9 / 8 * -M := by nlinarith
      have h3 : |M - (Real.exp (-a) - 1)| ≤ u * (9 / 8 * -M) := hM.trans (by
        rw [neg_sub]
        exact mul_le_mul_of_nonneg_left h2 hu)
      calc boseG a * |M - (Real.exp (-a) - 1)| ≤ boseG a * (u * (9 / 8 * -M)) := mul_le_mul_of_nonneg_left h3 hga0.le
        _ = _ := by ring
    have hgale : boseG a ≤ 33 / 32 * boseG V := by
      have := (abs_le.1 hG).2
      nlinarith
    have hqa : |a / M| ≤ 17 / 16 * boseG V := by
      have h1 : |a / M| ≤ |a / M - -boseG a| + |(-boseG a)| := by
        have := abs_add_le (a / M - -boseG a) (-boseG a)
        rwa [sub_add_cancel] at this
      rw [abs_neg, abs_of_pos hga0] at h1
      nlinarith
    have heg : eta ≤ 1 / 8 * u * boseG V := by
      refine heu.trans ?_
      have := mul_le_mul_of_nonneg_left hg1 (by linarith : 0 ≤ 1 / 8 * u)
      nlinarith
    calc |A.div a M - -boseG V| ≤ |A.div a M - a / M| + |a / M - -boseG V| := abs_sub_le _ _ _
      _ ≤ |A.div a M - a / M| + (|a / M - -boseG a| + |-boseG a - -boseG V|) := add_le_add le_rfl (abs_sub_le _ _ _)
      _ ≤ (u * (17 / 16 * boseG V) + eta) + (9 / 8 * u * boseG a + 5 / 4 * u * boseG V) := by
          refine add_le_add (hdiv.trans (add_le_add (mul_le_mul_of_nonneg_left hqa hu) le_rfl)) (add_le_add hq ?_)
          rw [neg_sub_neg, abs_sub_comm]
          exact hG
      _ ≤ _ := by nlinarith [mul_le_mul_of_nonneg_left hgale hu]
  · rw [if_neg hb]
    have hb' := not_le.1 hb
    have hVa : |V| ≤ 2 * 1e-200 := by
      have h1 : |V| ≤ |a - V| + |a| := by
        have := abs_sub a (a - V)
        rw [sub_sub_cancel] at this
        linarith
      rw [abs_of_nonneg ha] at h1
      have := mul_le_mul_of_nonneg_right hu64 (abs_nonneg V)
      linarith
    have hn := boseG_near (V := V) (hVa.trans (by norm_num))
    have hn' := abs_le.1 hn
    have hhalf : 1 / 2 ≤ boseG V := by
      have : 2 * |V| ≤ 1 / 2 := by linarith
      linarith
    refine ⟨hhalf, ?_⟩
    rw [show (-1 : ℝ) - -boseG V = boseG V - 1 by ring]
    refine hn.trans ?_
    have h1 : 2 * |V| ≤ 1e-199 := by linarith
    refine h1.trans (hu0.trans ?_)
    nlinarith

/-- The Bose kernel, from a computed absolute value of the frequency. -/
theorem bose_core {A : Arith} {u eta : ℝ} (hA : A.Ok u eta) {lam V s a sh : ℝ} (hl : 0 < lam)
    (hsm : 64 * (1 + lam) * (u + eta) ≤ 1) (hu0 : 1e-199 ≤ u) (heu : eta ≤ 1e-201 * u) (hel : lam * eta ≤ u)
    (hV : |V| ≤ lam) (hs0 : 0 ≤ s) (hs1 : s ≤ 1) (ha : 0 ≤ a)
    (hav : |a - V| ≤ u * |V| + eta) (hsh : |sh - s| ≤ 5 * u * s + eta) :
    |A.mul (A.mul (A.div (-1) lam) (A.exp (A.mul (-a) sh))) (if a ≥ 1e-200 then A.div a (A.expm1 (-a)) else -1) -
        1 / lam * Real.exp (-(V * s)) * boseG V| ≤
      20 * u * (1 + |V| * s) * (1 / lam * Real.exp (-(V * s)) * boseG V) + 40 * ((1 + lam) ^ 2 * (1 + 1 / lam)) * eta := by
  have hu := hA.hu
  have he := hA.heta
  obtain ⟨hu64, he64, huL, hLe, hall⟩ := small_of hu he hl.le hsm
  obtain ⟨hg2, hden⟩ := bose_denom hA hu64 hu0 heu ha hav
  have hT : 0 ≤ |V| * s := mul_nonneg (abs_nonneg _) hs0
  have hTL : |V| * s ≤ lam := by nlinarith [abs_nonneg V]
  have huT : u * (|V| * s) ≤ u * lam := mul_le_mul_of_nonneg_left hTL hu
  have hE := Real.exp_pos (-(V * s))
  have hen := enum_error hA hl.le hsm hV hs0 hs1 ha hav hsh
  have hEg : Real.exp (-(V * s)) ≤ 2 ∧ boseG V ≤ 2 * (1 + lam) := by
    rcases lt_or_ge V 0 with hneg | hpos
    · have h3 := nonneg_error (by linarith) ha hav hneg
      have h5 := boseG_near (V := V) (by
        refine h3.trans ?_
        linarith)
      have := (abs_le.1 h5).2
      refine ⟨exp_small ?_, by linarith⟩
      rw [abs_of_neg hneg] at h3
      nlinarith
    · refine ⟨(Real.exp_le_one_iff.2 (by nlinarith)).trans (by norm_num), ?_⟩
      have := boseG_le hpos
      rw [abs_of_nonneg hpos] at hV
      linarith
  obtain ⟨hE2, hgl⟩ := hEg
  obtain ⟨al, hal⟩ : ∃ al, al = 3 / 2 * u + 16 * u * (|V| * s) + 6 * (1 + lam) * eta := ⟨_, rfl⟩
  rw [← hal] at hen
  have hal0 : 0 ≤ al := by rw [hal]; positivity
  have hal2 : al ≤ 1 / 4 := by rw [hal]; linarith
  generalize (if a ≥ 1e-200 then A.div a (A.expm1 (-a)) else -1) = dn at *
  generalize A.exp (A.mul (-a) sh) = Eh at *
  generalize Real.exp (-(V * s)) = E at *
  generalize boseG V = g at *
  -- the factor before the kernel
  obtain ⟨w, hw⟩ : ∃ w, w = 1 / lam := ⟨_, rfl⟩
  have hw0 : 0 < w := by rw [hw]; positivity
  have hwl : w * lam = 1 := by rw [hw]; field_simp
  rw [← hw]
  have hp : |A.div (-1) lam - -w| ≤ 2 * u * w := by
    have h := hA.div (-1) lam hl.ne'
    rw [show (-1 : ℝ) / lam = -w by rw [hw]; ring, abs_neg, abs_of_pos hw0] at h
    have : eta ≤ u * w := by
      have := mul_le_mul_of_nonneg_left hel hw0.le
      nlinarith
    linarith
  generalize A.div (-1) lam = p at *
  have hEh : |Eh| ≤ 5 / 4 * E + eta := by
    have h1 : |Eh| ≤ |Eh - E| + |E| := by
      have := abs_add_le (Eh - E) E
      rwa [sub_add_cancel] at this
    rw [abs_of_pos hE] at h1
    nlinarith
  have hpa : |p| ≤ 33 / 32 * w := by
    have h1 : |p| ≤ |p - -w| + |(-w)| := by
      have := abs_add_le (p - -w) (-w)
      rwa [sub_add_cancel] at this
    rw [abs_neg, abs_of_pos hw0] at h1
    nlinarith
  have hwE := mul_pos hw0 hE
  have h1 : |A.mul p Eh - -(w * E)| ≤ (5 * u + al) * (w * E) + (5 / 4 * w + 1) * eta := by
    have hm := hA.mul p Eh
    have h2 : |p * Eh - -(w * E)| ≤ 2 * u * w * (5 / 4 * E + eta) + w * (al * E + eta) := by
      rw [show p * Eh - -(w * E) = (p - -w) * Eh + -(w * (Eh - E)) by ring]
      refine (abs_add_le _ _).trans (add_le_add ?_ ?_)
      · rw [abs_mul]
        exact mul_le_mul hp hEh (abs_nonneg _) (by positivity)
      · rw [abs_neg, abs_mul, abs_of_pos hw0]
        exact mul_le_mul_of_nonneg_left hen hw0.le
    have h3 : |p * Eh| ≤ 33 / 32 * w * (5 / 4 * E + eta) := by
      rw [abs_mul]
      exact mul_le_mul hpa hEh (abs_nonneg _) (by positivity)
    have h4 := mul_le_mul_of_nonneg_left h3 hu
    have h5 : u * (w * eta) ≤ 1 / 64 * (w * eta) := mul_le_mul_of_nonneg_right hu64 (by positivity)
    have h6 := mul_nonneg hu hwE.le
    have h7 := mul_nonneg hw0.le he
    calc _ ≤ |A.mul p Eh - p * Eh| + |p * Eh - -(w * E)| := abs_sub_le _ _ _
      _ ≤ (u * |p * Eh| + eta) + _ := add_le_add hm h2
      _ ≤ _ := by linarith
  generalize A.mul p Eh = q at *
  obtain ⟨c, hc⟩ : ∃ c, c = (5 / 4 * w + 1) * eta := ⟨_, rfl⟩
  have hc0 : 0 ≤ c := by rw [hc]; positivity
  rw [← hc] at h1
  have hr : 5 * u + al ≤ 1 / 2 := by linarith
  have hqa : |q| ≤ 3 / 2 * (w * E) + c := by
    have h2 : |q| ≤ |q - -(w * E)| + |(-(w * E))| := by
      have := abs_add_le (q - -(w * E)) (-(w * E))
      rwa [sub_add_cancel] at this
    rw [abs_neg, abs_of_pos hwE] at h2
    have := mul_le_mul_of_nonneg_right hr hwE.le
    linarith
  have hg0 : 0 < g := by linarith
  have hdna : |dn| ≤ 35 / 32 * g := by
    have h2 : |dn| ≤ |dn - -g| + |(-g)| := by
      have := abs_add_le (dn - -g) (-g)
      rwa [sub_add_cancel] at this
    rw [abs_neg, abs_of_pos hg0] at h2
    have := mul_le_mul_of_nonneg_right hu64 hg0.le
    linarith
  have hK := mul_pos hwE hg0
  have hm := hA.mul q dn
  have h2 : |q * dn - w * E * g| ≤ ((5 * u + al) * (w * E) + c) * (35 / 32 * g) + w * E * (5 * u * g) := by
    rw [show q * dn - w * E * g = (q - -(w * E)) * dn + -(w * E * (dn - -g)) by ring]
    refine (abs_add_le _ _).trans (add_le_add ?_ ?_)
    · rw [abs_mul]
      exact mul_le_mul h1 hdna (abs_nonneg _) (by positivity)
    · rw [abs_neg, abs_mul, abs_of_pos hwE]
      exact mul_le_mul_of_nonneg_left hden hwE.le
  have h3 : |q * dn| ≤ (3 / 2 * (w * E) + c) * (35 / 32 * g) := by
    rw [abs_mul]
    exact mul_le_mul hqa hdna (abs_nonneg _) (by positivity)
  have h4 := mul_le_mul_of_nonneg_left h3 hu
  have h5 : u * (c * g) ≤ 1 / 64 * (c * g) := mul_le_mul_of_nonneg_right hu64 (by positivity)
  have h6 : |A.mul q dn - w * E * g| ≤ (14 * u + 35 / 32 * al) * (w * E * g) + 9 / 8 * (c * g) + eta := by
    have := mul_nonneg hu hK.le
    have := mul_nonneg hc0 hg0.le
    calc _ ≤ |A.mul q dn - q * dn| + |q * dn - w * E * g| := abs_sub_le _ _ _
      _ ≤ (u * |q * dn| + eta) + _ := add_le_add hm h2
      _ ≤ _ := by linarith
  refine h6.trans ?_
  have hKle : w * E * g ≤ 4 * (1 + lam) * w := by
    have := mul_le_mul_of_nonneg_left (mul_le_mul hE2 hgl hg0.le (by norm_num)) hw0.le
    linarith
  have h7 : (1 + lam) * eta * (w * E * g) ≤ (1 + lam) * eta * (4 * (1 + lam) * w) :=
    mul_le_mul_of_nonneg_left hKle (by positivity)
  have h8 : c * g ≤ (5 / 4 * w + 1) * eta * (2 * (1 + lam)) := by
    rw [hc]
    exact mul_le_mul_of_nonneg_left hgl (by positivity)
  have k0 := mul_nonneg hu hK.le
  have k1 := mul_nonneg (mul_nonneg hu hT) hK.le
  have k2 : 0 ≤ w * eta := by positivity
  have k3 : 0 ≤ lam * eta := by positivity
  have k4 : w * lam * eta = eta := by rw [hwl, one_mul]
  have k5 : w * lam * lam * eta = lam * eta := by rw [hwl, one_mul]
  have k6 : 0 ≤ lam * lam * eta := by positivity
  rw [hal]
  linarith

/-- The Bose kernel with its value at zero frequency. -/
noncomputable def boseT (lam X y : ℝ) : ℝ := if y = 0 then 1 / lam else boseK lam X y

theorem boseT_plus {lam : ℝ} (hl : 0 < lam) (X y : ℝ) :
    boseT lam X y = 1 / lam * Real.exp (-(lam * y * ((1 + X) / 2))) * boseG (lam * y) := by
  unfold boseT boseG boseK
  rcases eq_or_ne y 0 with h0 | h0
  · simp [h0]
  · rw [if_neg h0, if_neg (mul_ne_zero hl.ne' h0)]
    rw [show -lam * y * (X + 1) / 2 = -(lam * y * ((1 + X) / 2)) by ring, show -lam * y = -(lam * y) by ring]
    field_simp

theorem boseG_neg (V : ℝ) : boseG (-V) = Real.exp (-V) * boseG V := by
  unfold boseG
  rcases eq_or_ne V 0 with h0 | h0
  · simp [h0]
  rw [if_neg h0, if_neg (neg_ne_zero.2 h0), neg_neg]
  have h1 : Real.exp V * Real.exp (-V) = 1 := by rw [← Real.exp_add]; simp
  have h2 : 1 - Real.exp (-V) ≠ 0 := by
    intro h
    have : Real.exp (-V) = Real.exp 0 := by rw [Real.exp_zero]; linarith
    exact h0 (neg_eq_zero.1 (Real.exp_injective this))
  have h3 : 1 - Real.exp V ≠ 0 := by
    intro h
    have : Real.exp V = Real.exp 0 := by rw [Real.exp_zero]; linarith
    exact h0 (Real.exp_injective this)
  rw [← mul_div_assoc, div_eq_div_iff h3 h2]
  linear_combination V * h1

theorem boseT_minus {lam : ℝ} (hl : 0 < lam) (X y : ℝ) :
    boseT lam X y = 1 / lam * Real.exp (-(-(lam * y) * ((1 - X) / 2))) * boseG (-(lam * y)) := by
  have h : Real.exp (-(lam * y * ((1 + X) / 2))) =
      Real.exp (-(-(lam * y) * ((1 - X) / 2))) * Real.exp (-(lam * y)) := by
    rw [← Real.exp_add]
    congr 1
    ring
  rw [boseT_plus hl, boseG_neg, h]
  ring

theorem boseT_abs {lam : ℝ} (hl : 0 < lam) (X y : ℝ) :
    boseT lam X y = 1 / lam * Real.exp (-(lam * (|y| + y * X) / 2)) * boseG (lam * |y|) := by
  rcases le_total 0 y with h | h
  · rw [boseT_plus hl, abs_of_nonneg h]
    ring_nf
  · rw [boseT_minus hl, abs_of_nonpos h]
    ring_nf

theorem boseT_pos {lam : ℝ} (hl : 0 < lam) (X y : ℝ) : 0 < boseT lam X y := by
  rw [boseT_abs hl]
  have := boseG_ge (V := lam * |y|) (by positivity)
  positivity

theorem bose_weight {lam X y : ℝ} (hl : 0 < lam) (hX : |X| ≤ 1) (hy : |y| ≤ 1) :
    (1 + lam * (|y| + y * X) / 2) * boseT lam X y ≤ 1 + 1 / lam := by
  rw [boseT_abs hl]
  have hg := boseG_le (V := lam * |y|) (by positivity)
  have hg0 := boseG_ge (V := lam * |y|) (by positivity)
  have h0 : lam * |y| ≤ lam := by nlinarith
  generalize lam * (|y| + y * X) / 2 = t
  generalize boseG (lam * |y|) = g at *
  have h1 := Real.add_one_le_exp t
  have h2 : Real.exp t * Real.exp (-t) = 1 := by rw [← Real.exp_add]; simp
  have h3 := Real.exp_pos (-t)
  have h4 : (1 + t) * Real.exp (-t) ≤ 1 := by nlinarith
  have h5 : (1 + t) * Real.exp (-t) * g ≤ 1 * g := mul_le_mul_of_nonneg_right h4 (by linarith)
  have h6 : 1 / lam * ((1 + t) * Real.exp (-t) * g) ≤ 1 / lam * (1 + lam) :=
    mul_le_mul_of_nonneg_left (by linarith) (by positivity)
  have h7 : 1 / lam * (1 + lam) = 1 + 1 / lam := by field_simp; ring
  rw [h7] at h6
  linarith

/-- The Bose kernel at a point. -/
theorem bose_error {A : Arith} {u eta : ℝ} (hA : A.Ok u eta) {lam X y x : ℝ} {xp xm : Option ℝ} (hl : 0 < lam)
    (hsm : 64 * (1 + lam) * (u + eta) ≤ 1) (hu0 : 1e-199 ≤ u) (heu : eta ≤ 1e-201 * u) (hel : lam * eta ≤ u)
    (hX : |X| ≤ 1) (hy : |y| ≤ 1)
    (hp : |xp.getD (A.add 1 x) - (1 + X)| ≤ 3 * u * (1 + X)) (hm : |xm.getD (A.sub 1 x) - (1 - X)| ≤ 3 * u * (1 - X)) :
    |boseFl A lam x y xp xm - boseT lam X y| ≤
      20 * u * (1 + lam * (|y| + y * X) / 2) * boseT lam X y + 44 * ((1 + lam) ^ 2 * (1 + 1 / lam)) * eta := by
  have hu := hA.hu
  have he := hA.heta
  obtain ⟨hu64, he64, huL, hLe, hall⟩ := small_of hu he hl.le hsm
  have hX1 := abs_le.1 hX
  have hp' := half_error hA hu64 (by linarith) hp
  have hm' := half_error hA hu64 (by linarith) hm
  have hv := hA.mul lam y
  have hLy : |lam * y| ≤ lam := by rw [abs_mul, abs_of_pos hl]; nlinarith
  have hK0 := boseT_pos hl X y
  have ht0 : 0 ≤ lam * (|y| + y * X) / 2 := by
    have : 0 ≤ |y| + y * X := by
      have := neg_abs_le (y * X)
      rw [abs_mul] at this
      nlinarith [abs_nonneg y]
    positivity
  have hK2 : boseT lam X y ≤ 1 + 1 / lam := by
    have := bose_weight hl hX hy
    nlinarith
  have hw0 : 0 < 1 / lam := by positivity
  have hfin : ∀ T : ℝ, T ≤ lam * (|y| + y * X) / 2 + 2 * eta →
      ∀ r : ℝ, |r - boseT lam X y| ≤ 20 * u * (1 + T) * boseT lam X y + 40 * ((1 + lam) ^ 2 * (1 + 1 / lam)) * eta →
      |r - boseT lam X y| ≤ 20 * u * (1 + lam * (|y| + y * X) / 2) * boseT lam X y +
        44 * ((1 + lam) ^ 2 * (1 + 1 / lam)) * eta := by
    intro T hT r hr
    refine hr.trans ?_
    have h1 := mul_nonneg hu hK0.le
    have h2 := mul_le_mul_of_nonneg_left hT h1
    have h3 : u * boseT lam X y ≤ 1 / 64 * (1 + 1 / lam) := mul_le_mul hu64 hK2 hK0.le (by norm_num)
    have h4 := mul_le_mul_of_nonneg_right h3 he
    have h5 : 1 * ((1 + 1 / lam) * eta) ≤ (1 + lam) ^ 2 * ((1 + 1 / lam) * eta) :=
      mul_le_mul_of_nonneg_right (by nlinarith) (by positivity)
    have h6 : 0 ≤ (1 + 1 / lam) * eta := by positivity
    generalize 1 / lam = w at *
    linarith
  have hdef : boseFl A lam x y xp xm = A.mul (A.mul (A.div (-1) lam) (A.exp (A.mul (-|A.mul lam y|)
      (if A.mul lam y ≥ 0 then A.mul 0.5 (xp.getD (A.add 1 x)) else A.mul 0.5 (xm.getD (A.sub 1 x))))))
      (if |A.mul lam y| ≥ 1e-200 then A.div |A.mul lam y| (A.expm1 (-|A.mul lam y|)) else -1) := rfl
  rw [hdef]
  by_cases hpos : A.mul lam y ≥ 0
  · rw [if_pos hpos]
    have h := bose_core hA hl hsm hu0 heu hel hLy (by linarith : 0 ≤ (1 + X) / 2) (by linarith) (abs_nonneg (A.mul lam y))
      (by rw [abs_of_nonneg hpos]; exact hv) hp'
    rw [← boseT_plus hl] at h
    refine hfin _ ?_ _ h
    rcases lt_or_ge (lam * y) 0 with hneg | hnn
    · have h1 := nonneg_error (by linarith : u ≤ 1 / 2) hpos hv hneg
      nlinarith [abs_nonneg (lam * y)]
    · have : 0 ≤ y := nonneg_of_mul_nonneg_right hnn hl
      rw [abs_of_nonneg hnn, abs_of_nonneg this]
      linarith
  · rw [if_neg hpos]
    have hle : A.mul lam y ≤ 0 := (not_le.1 hpos).le
    have hv' : |-A.mul lam y - -(lam * y)| ≤ u * |-(lam * y)| + eta := by
      rw [abs_neg, neg_sub_neg, abs_sub_comm]
      exact hv
    have h := bose_core hA hl hsm hu0 heu hel (by rw [abs_neg]; exact hLy) (by linarith : 0 ≤ (1 - X) / 2) (by linarith)
      (abs_nonneg (A.mul lam y)) (by rw [abs_of_nonpos hle]; exact hv') hm'
    rw [← boseT_minus hl] at h
    refine hfin _ ?_ _ h
    rcases lt_or_ge (-(lam * y)) 0 with hneg | hnn
    · have h1 := nonneg_error (by linarith : u ≤ 1 / 2) (neg_nonneg.2 hle) hv' hneg
      nlinarith [abs_nonneg (-(lam * y))]
    · have : y ≤ 0 := by
        by_contra hc
        have := mul_pos hl (not_le.1 hc)
        linarith
      rw [abs_of_nonneg hnn, abs_of_nonpos this]
      linarith

end Verif.Kernel
