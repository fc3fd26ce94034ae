import Verif.Props.C71_OtherBases
import Verif.Props.C72_DeterminingPoints
import Mathlib.LinearAlgebra.Lagrange
import Mathlib.Analysis.Calculus.LocalExtr.Rolle
/-!
# C73 — sampling with the DLR is without loss at any points, if there are enough of them
-/

namespace Verif.Props
open Verif Verif.Np Verif.Poly Verif.Sve Verif.Kernel Verif.Spec Verif.FiniteTemp Verif.Sampling Verif.Np.NdArray Matrix
open Verif.Dlr MeasureTheory

/-! ## Sums of exponentials and of poles -/

/-- A sum of `n` exponentials has fewer than `n` zeros. -/
theorem exp_independent {n : ℕ} (w t c : Fin n → ℝ) (hw : Function.Injective w) (ht : StrictMono t)
    (h : ∀ i, ∑ l, c l * Real.exp (w l * t i) = 0) : c = 0 := by
  induction n with
  | zero => exact funext fun l => l.elim0
  | succ n ih =>
    have hF : ∀ i, ∑ l, c l * Real.exp ((w l - w 0) * t i) = 0 := by
      intro i
      have : ∑ l, c l * Real.exp ((w l - w 0) * t i) = Real.exp (-(w 0 * t i)) * ∑ l, c l * Real.exp (w l * t i) := by
        rw [Finset.mul_sum]
        refine Finset.sum_congr rfl fun l _ => ?_
        rw [mul_left_comm, ← Real.exp_add]
        ring_nf
      rw [this, h i, mul_zero]
    have hder : ∀ x, HasDerivAt (fun x => ∑ l, c l * Real.exp ((w l - w 0) * x))
        (∑ l : Fin n, c l.succ * (w l.succ - w 0) * Real.exp ((w l.succ - w 0) * x)) x := by
      intro x
      have h1 : HasDerivAt (fun x => ∑ l, c l * Real.exp ((w l - w 0) * x))
          (∑ l, c l * (Real.exp ((w l - w 0) * x) * ((w l - w 0) * 1))) x :=
        HasDerivAt.fun_sum fun l _ => (((hasDerivAt_id x).const_mul (w l - w 0)).exp).const_mul (c l)
      convert h1 using 1
      rw [Fin.sum_univ_succ]
      simp only [sub_self, zero_mul, mul_zero, zero_add, mul_one]
      exact Finset.sum_congr rfl fun l _ => by ring
    have hroll : ∀ i : Fin n, ∃ s, t i.castSucc < s ∧ s < t i.succ ∧
        ∑ l : Fin n, c l.succ * (w l.succ - w 0) * Real.exp ((w l.succ - w 0) * s) = 0 := by
      intro i
      obtain ⟨s, ⟨h1, h2⟩, h3⟩ := exists_hasDerivAt_eq_zero (f := fun x => ∑ l, c l * Real.exp ((w l - w 0) * x))
        (ht i.castSucc_lt_succ) (fun x _ => (hder x).continuousAt.continuousWithinAt) (by rw [hF, hF]) fun x _ => hder x
      exact ⟨s, h1, h2, h3⟩
    choose s h1 h2 h3 using hroll
    have hs : StrictMono s := by
      intro i j hij
      refine (h2 i).trans (lt_of_le_of_lt (ht.monotone ?_) (h1 j))
      rw [Fin.le_def]
      simp only [Fin.val_succ, Fin.val_castSucc]
      exact hij
    have h4 := ih (fun l => w l.succ - w 0) s (fun l => c l.succ * (w l.succ - w 0))
      (fun l l' hl => Fin.succ_injective _ (hw (sub_left_injective hl))) hs h3
    have h5 : ∀ l : Fin n, c l.succ = 0 := by
      intro l
      have := congrFun h4 l
      rcases mul_eq_zero.1 this with h | h
      · exact h
      · exact absurd (hw (sub_eq_zero.1 h)) (Fin.succ_ne_zero l)
    have h6 := h 0
    rw [Fin.sum_univ_succ] at h6
    simp only [h5, zero_mul, Finset.sum_const_zero, add_zero] at h6
    funext l
    refine Fin.cases ?_ h5 l
    exact (mul_eq_zero.1 h6).resolve_right (Real.exp_pos _).ne'

/-- A sum of `n` poles has fewer than `n` zeros. -/
theorem poles_independent {n : ℕ} (w c : Fin n → ℂ) (hw : Function.Injective w) (s : Finset ℂ) (hs : n ≤ s.card)
    (hne : ∀ z ∈ s, ∀ l, z ≠ w l) (h : ∀ z ∈ s, ∑ l, c l * (1 / (z - w l)) = 0) : c = 0 := by
  classical
  let P : Polynomial ℂ := ∑ l, Polynomial.C (c l) * ∏ m ∈ Finset.univ.erase l, (Polynomial.X - Polynomial.C (w m))
  have hdeg : P.degree < s.card := by
    refine lt_of_lt_of_le (Polynomial.mem_degreeLT.1 (Submodule.sum_mem _ fun l _ => ?_)) (Nat.cast_le.2 hs)
    rw [← Polynomial.smul_eq_C_mul]
    refine Submodule.smul_mem _ _ (Polynomial.mem_degreeLT.2 ?_)
    rw [Polynomial.degree_prod]
    simp only [Polynomial.degree_X_sub_C, Finset.sum_const, Finset.card_erase_of_mem (Finset.mem_univ l), Finset.card_univ,
      Fintype.card_fin, nsmul_eq_mul, mul_one]
    have := l.2
    exact_mod_cast (by omega : n - 1 < n)
  have heval : ∀ z, P.eval z = ∑ l, c l * ∏ m ∈ Finset.univ.erase l, (z - w m) := by
    intro z
    simp [P, Polynomial.eval_finset_sum, Polynomial.eval_prod]
  have h0 : P = 0 := by
    refine Polynomial.eq_zero_of_degree_lt_of_eval_finset_eq_zero s hdeg fun z hz => ?_
    have : P.eval z = (∏ m, (z - w m)) * ∑ l, c l * (1 / (z - w l)) := by
      rw [heval, Finset.mul_sum]
      refine Finset.sum_congr rfl fun l _ => ?_
      rw [← Finset.mul_prod_erase _ _ (Finset.mem_univ l)]
      have := sub_ne_zero.2 (hne z hz l)
      field_simp
    rw [this, h z hz, mul_zero]
  funext l
  have h1 := heval (w l)
  rw [h0, Polynomial.eval_zero, Finset.sum_eq_single l] at h1
  · refine (mul_eq_zero.1 h1.symm).resolve_right ?_
    refine Finset.prod_ne_zero_iff.2 ?_
    intro m hm
    rw [sub_ne_zero]
    exact fun hc => (Finset.ne_of_mem_erase hm) (hw hc).symm
  · intro m _ hm
    rw [Finset.prod_eq_zero (Finset.mem_erase.2 ⟨hm.symm, Finset.mem_univ l⟩) (sub_self _), mul_zero]
  · simp

/-! ## The functions of the DLR -/

section
variable {beta : ℝ} {poles : List ℝ}

theorem get_injective {α : Type} {l : List α} (h : l.Nodup) : Function.Injective l.get := List.nodup_iff_injective_get.1 h

theorem twice {α : Type} {l : List α} (h : ¬ l.Nodup) : ∃ i j : Fin l.length, i ≠ j ∧ l.get i = l.get j := by
  rw [List.nodup_iff_injective_get, Function.Injective] at h
  push Not at h
  obtain ⟨i, j, h1, h2⟩ := h
  exact ⟨i, j, h2, h1⟩

/-- As many distinct times as distinct poles. -/
theorem times_pole (hn : poles.Nodup) {p : List ℝ} (hlen : poles.length ≤ p.dedup.length) (g : Fin poles.length → ℂ)
    (hg : ∀ t ∈ p, poleSum beta poles g t = 0) : g = 0 := by
  have hcard : p.toFinset.card = p.dedup.length := List.card_toFinset p
  have hreal : ∀ c : Fin poles.length → ℝ, (∀ t ∈ p, ∑ l, c l * poleTau beta (poles.get l) t = 0) → c = 0 := by
    intro c hc
    let t : Fin poles.length → ℝ := fun i => p.toFinset.orderEmbOfFin rfl (Fin.castLE (by rw [hcard]; exact hlen) i)
    have ht : StrictMono t := fun i j hij => (p.toFinset.orderEmbOfFin rfl).strictMono (by
      rw [Fin.lt_def]
      exact hij)
    have hd : ∀ l, (0 : ℝ) < 1 + Real.exp (-beta * poles.get l) := fun l => by positivity
    have h1 := exp_independent (fun l => -poles.get l) t (fun l => c l * -(1 / (1 + Real.exp (-beta * poles.get l))))
      (fun l l' hl => get_injective hn (neg_injective hl)) ht fun i => by
        have hmem : t i ∈ p := List.mem_toFinset.1 (Finset.orderEmbOfFin_mem _ _ _)
        rw [← hc _ hmem]
        refine Finset.sum_congr rfl fun l _ => ?_
        unfold poleTau
        rw [show -t i * poles.get l = -poles.get l * t i by ring]
        ring
    funext l
    refine (mul_eq_zero.1 (congrFun h1 l)).resolve_right ?_
    exact neg_ne_zero.2 (one_div_ne_zero (hd l).ne')
  have hre := hreal (fun l => (g l).re) fun t ht => by
    have := congrArg Complex.re (hg t ht)
    unfold poleSum at this
    rw [Complex.re_sum] at this
    simpa [Complex.re_mul_ofReal] using this
  have him := hreal (fun l => (g l).im) fun t ht => by
    have := congrArg Complex.im (hg t ht)
    unfold poleSum at this
    rw [Complex.im_sum] at this
    simpa [Complex.im_mul_ofReal] using this
  funext l
  exact Complex.ext (congrFun hre l) (congrFun him l)

theorem hat_sum (g : Fin poles.length → ℂ) (n : ℤ) : matsubara beta (poleSum beta poles g) n =
    ∑ i, g i * ftTau beta (poleTau beta (poles.get i)) n :=
  ft_combo beta (fun i => poleTau beta (poles.get i)) (fun i => (poleTau_continuous _ _).intervalIntegrable _ _) g n

/-- The weight of a pole at `omega` in a transform at frequencies of either parity. -/
noncomputable def weight (stat : String) (beta omega : ℝ) : ℝ := if stat = "F" then 1 else Real.tanh (beta * omega / 2)

theorem hat_value (hb : 0 < beta) (stat : String) (w : ℝ) (n : ℤ) (hpar : stat = "F" ↔ Odd n) (h0 : n ≠ 0 ∨ w ≠ 0) :
    ftTau beta (poleTau beta w) n = weight stat beta w * (1 / (Complex.I * n * Real.pi / beta - w)) := by
  unfold weight
  by_cases hst : stat = "F"
  · obtain ⟨h1, h2⟩ := C50_fermion ⟨stat, beta, [w]⟩ hst hb (fun _ : Fin 1 => n) (fun _ => hpar.1 hst) 0 0
    rw [if_pos hst, Complex.ofReal_one, one_mul]
    exact Option.some.inj (h1.symm.trans h2)
  · obtain ⟨h1, h2⟩ := C50_boson_partial ⟨stat, beta, [w]⟩ hst hb (fun _ : Fin 1 => n)
      (fun _ => Int.not_odd_iff_even.1 fun ho => hst (hpar.2 ho)) 0 0 h0
    rw [if_neg hst, mul_one_div]
    exact Option.some.inj (h1.symm.trans h2)

theorem weight_ne (hb : 0 < beta) (stat : String) (w : ℝ) (h : stat ≠ "F" → w ≠ 0) : weight stat beta w ≠ 0 := by
  unfold weight
  by_cases hst : stat = "F"
  · rw [if_pos hst]; exact one_ne_zero
  · rw [if_neg hst]
    have := h hst
    rw [Real.tanh_eq_sinh_div_cosh]
    refine div_ne_zero ?_ (Real.cosh_pos _).ne'
    rw [Ne, Real.sinh_eq_zero]
    exact div_ne_zero (mul_ne_zero hb.ne' this) two_ne_zero

/-- As many distinct frequencies as distinct poles. -/
theorem freqs_pole (hb : 0 < beta) (stat : String) (hn : poles.Nodup) (h0 : stat ≠ "F" → 0 ∉ poles) (s : Finset ℤ)
    (hlen : poles.length ≤ s.card) (hpar : ∀ n ∈ s, stat = "F" ↔ Odd n) (g : Fin poles.length → ℂ)
    (hg : ∀ n ∈ s, matsubara beta (poleSum beta poles g) n = 0) : g = 0 := by
  classical
  have hbc : (beta : ℂ) ≠ 0 := by exact_mod_cast hb.ne'
  have hpi : (Real.pi : ℂ) ≠ 0 := by exact_mod_cast Real.pi_ne_zero
  have hiv : Function.Injective fun n : ℤ => Complex.I * n * Real.pi / beta := by
    intro n n' h
    simp only at h
    rw [div_left_inj' hbc] at h
    have := mul_left_cancel₀ Complex.I_ne_zero (mul_right_cancel₀ hpi h)
    exact_mod_cast this
  have hor : ∀ n ∈ s, ∀ l : Fin poles.length, n ≠ 0 ∨ poles.get l ≠ 0 := by
    intro n hns l
    by_cases hst : stat = "F"
    · refine Or.inl ?_
      rintro rfl
      exact absurd ((hpar 0 hns).1 hst) (by decide)
    · exact Or.inr fun hc => h0 hst (hc ▸ List.get_mem _ _)
  have h1 := poles_independent (fun l => ((poles.get l : ℝ) : ℂ)) (fun l => g l * weight stat beta (poles.get l))
    (fun l l' hl => get_injective hn (Complex.ofReal_injective hl)) (s.image fun n : ℤ => Complex.I * n * Real.pi / beta)
    (by rw [Finset.card_image_of_injective _ hiv]; exact hlen) (fun z hz l => by
      obtain ⟨n, hns, rfl⟩ := Finset.mem_image.1 hz
      exact sub_ne_zero.1 (denom_ne beta hb _ n (hor n hns l))) (fun z hz => by
      obtain ⟨n, hns, rfl⟩ := Finset.mem_image.1 hz
      rw [← hg n hns, hat_sum]
      refine Finset.sum_congr rfl fun l _ => ?_
      rw [hat_value hb stat _ n (hpar n hns) (hor n hns l), mul_assoc])
  funext l
  refine (mul_eq_zero.1 (congrFun h1 l)).resolve_right ?_
  exact_mod_cast weight_ne hb stat _ fun hst hc => h0 hst (hc ▸ List.get_mem _ _)

theorem hat_neg (g : Fin poles.length → ℝ) (n : ℤ) : matsubara beta (poleSum beta poles fun i => (g i : ℂ)) (-n) =
    (starRingEnd ℂ) (matsubara beta (poleSum beta poles fun i => (g i : ℂ)) n) := by
  unfold matsubara
  rw [intervalIntegral, intervalIntegral, map_sub, ← integral_conj, ← integral_conj]
  congr 1 <;>
  · refine integral_congr_ae (Filter.Eventually.of_forall fun t => ?_)
    simp only [map_mul, ← Complex.exp_conj]
    congr 2
    · simp
    · simp [poleSum]

/-- For real coefficients: two conditions for each distinct frequency, one for zero. -/
theorem freqs_pole_real (hb : 0 < beta) (stat : String) (hn : poles.Nodup) (h0 : stat ≠ "F" → 0 ∉ poles) (ns : List ℤ)
    (hpos : ∀ n ∈ ns, 0 ≤ n) (hlen : poles.length ≤ ns.dedup.length + (ns.dedup.filter (· ≠ 0)).length)
    (hpar : ∀ n ∈ ns, stat = "F" ↔ Odd n) (g : Fin poles.length → ℝ)
    (hg : ∀ n ∈ ns, matsubara beta (poleSum beta poles fun i => (g i : ℂ)) n = 0) : g = 0 := by
  classical
  have hmem : ∀ n, n ∈ ns.toFinset ∪ (ns.dedup.filter (· ≠ 0)).toFinset.image (fun n => -n) →
      n ∈ ns ∨ -n ∈ ns := by
    intro n hn
    rcases Finset.mem_union.1 hn with h | h
    · exact Or.inl (List.mem_toFinset.1 h)
    · obtain ⟨k, hk, rfl⟩ := Finset.mem_image.1 h
      rw [neg_neg]
      exact Or.inr (List.mem_dedup.1 (List.mem_of_mem_filter (List.mem_toFinset.1 hk)))
  have h1 := freqs_pole hb stat hn h0 (ns.toFinset ∪ (ns.dedup.filter (· ≠ 0)).toFinset.image fun n => -n) (by
      rw [Finset.card_union_of_disjoint, Finset.card_image_of_injective _ neg_injective, List.card_toFinset,
        List.toFinset_card_of_nodup ((List.nodup_dedup ns).filter _)]
      · exact hlen
      · rw [Finset.disjoint_left]
        intro n h1 h2
        obtain ⟨k, hk, rfl⟩ := Finset.mem_image.1 h2
        have h3 := List.mem_toFinset.1 hk
        rw [List.mem_filter] at h3
        have h4 := hpos _ (List.mem_toFinset.1 h1)
        have h5 := hpos _ (List.mem_dedup.1 h3.1)
        have h6 : k ≠ 0 := by simpa using h3.2
        omega) (fun n hn => by
      rcases hmem n hn with h | h
      · exact hpar n h
      · rw [hpar _ h, odd_neg]) (fun i => (g i : ℂ)) (fun n hn => by
      rcases hmem n hn with h | h
      · exact hg n h
      · rw [← neg_neg n, hat_neg, hg _ h, map_zero])
  funext l
  exact Complex.ofReal_eq_zero.1 (congrFun h1 l)

end

/-! ## Sampling -/

/-- If two different coefficients have the same values, `fit` does not return one of them. -/
theorem not_recovered {n q : ℕ} {F : (Fin n → ℂ) → Fin q → ℂ} {ev : NdArray ℂ → PyM (NdArray ℂ)}
    {fit : NdArray ℂ → PyM (NdArray ℂ × Bool)}
    (hev : ∀ g : Fin n → ℂ, ∃ x, ev (coefficients g) = .ok x ∧ AppliedAlong F 0 (coefficients g) x) {g g' : Fin n → ℂ} (hne : g ≠ g')
    (hF : F g = F g') : ∃ f, (f = g ∨ f = g') ∧ ∃ x, ev (coefficients f) = .ok x ∧
      ∀ c w, fit x = .ok (c, w) → c ≠ coefficients f := by
  obtain ⟨x, h4, h5⟩ := hev g
  obtain ⟨x', h6, h7⟩ := hev g'
  obtain rfl := h7.unique (applied_fibre hF h5)
  by_cases hc : ∃ w, fit x' = .ok (coefficients g, w)
  · obtain ⟨w, hw⟩ := hc
    refine ⟨g', Or.inr rfl, x', h6, fun c w' hc' hcon => hne ?_⟩
    have := (Prod.mk.inj (Except.ok.inj (hw.symm.trans hc'))).1
    exact coefficients_inj (this.trans hcon)
  · exact ⟨g, Or.inl rfl, x', h4, fun c w' hc' hcon => hc ⟨w', by rw [hc', hcon]⟩⟩

section
variable {libs : Svd.Libs ℝ} {isLogistic : KernelInfo → Bool} {dflt : PyM (List ℝ)} {b : FiniteTemp.Basis}
  {points : Option (List ℝ)} {d : DLR} {w0 : List Svd.Warning}

/-- Coefficients which are the same up to exchange of the coefficients of a pole which is there twice. -/
theorem same_pole {poles : List ℝ} (h : ¬ poles.Nodup) : ∃ g : Fin poles.length → ℝ, g ≠ 0 ∧
    ∀ f : ℝ → ℂ, ∑ l, (g l : ℂ) * f (poles.get l) = 0 := by
  obtain ⟨i, j, hij, he⟩ := twice h
  refine ⟨Pi.single i 1 - Pi.single j 1, fun h0 => ?_, fun f => ?_⟩
  · have := congrFun h0 i
    simp [Pi.single_apply, hij] at this
  · have : ∀ l, (((Pi.single i 1 - Pi.single j 1 : Fin poles.length → ℝ) l : ℝ) : ℂ) * f (poles.get l) =
        (if l = i then f (poles.get l) else 0) - (if l = j then f (poles.get l) else 0) := by
      intro l
      simp only [Pi.sub_apply, Pi.single_apply, Complex.ofReal_sub, sub_mul]
      congr 1 <;> split <;> simp
    simp only [this, Finset.sum_sub_distrib, Finset.sum_ite_eq', Finset.mem_univ, if_true, he, sub_self]

/-- DLR in imaginary time: for any times in `[0, beta]`, sampling is without loss if the poles are distinct and there
are at least as many distinct times as poles, and only then. -/
theorem C73_tau {svds : Svds} (hs : svds.Ok) (h : Dlr.init libs isLogistic dflt b points = .ok (d, w0))
    (hb : 0 < b.beta) (hp : ∃ w ∈ d.poles, w ≠ 0) (q : Search) (p : List ℝ) (hin : ∀ t ∈ p, 0 ≤ t ∧ t ≤ b.beta) :
    ∃ o, tauInit svds (d.sampled q) (some (1, p)) = .ok o ∧
      (d.poles.Nodup → d.poles.length ≤ p.dedup.length →
        ∀ (al : NdArray ℂ) (axis : ℤ) (j : ℕ), ValidAxis axis al.ndim j → al.shape[j]? = some d.poles.length →
          ∃ x, tauEvaluate svds o al (some axis) none = .ok x ∧ tauFit svds o x (some axis) none = .ok (al, false)) ∧
      (¬ d.poles.Nodup ∨ p.dedup.length < d.poles.length → ∃ (g : Fin d.poles.length → ℂ) (x : NdArray ℂ),
        tauEvaluate svds o (coefficients g) (some 0) none = .ok x ∧
        ∀ c w, tauFit svds o x (some 0) none = .ok (c, w) → c ≠ coefficients g) := by
  obtain ⟨o, h1, h2, h3⟩ := (C71_dlr_tau hs h hb hp q p).2 hin
  refine ⟨o, h1, fun hn hlen al axis j hj hal => ?_, fun hbad => ?_⟩
  · obtain ⟨x, hx, -, hf⟩ := h3 al axis j hj hal
    exact ⟨x, hx, hf fun g hg => times_pole hn hlen g hg⟩
  · have hev : ∀ g : Fin d.poles.length → ℂ, ∃ x, tauEvaluate svds o (coefficients g) (some 0) none = .ok x ∧
        AppliedAlong (fun g i => poleSum b.beta d.poles g (o.points.get i)) 0 (coefficients g) x := fun g => by
      obtain ⟨x, hx, ax, -⟩ := h3 (coefficients g) 0 0 ⟨Nat.one_pos, Or.inl rfl⟩ rfl
      exact ⟨x, hx, ax⟩
    obtain ⟨g, hg, h0⟩ : ∃ g : Fin d.poles.length → ℂ, g ≠ 0 ∧ ∀ t ∈ p, poleSum b.beta d.poles g t = 0 := by
      rcases hbad with hn | hlen
      · obtain ⟨g, hg, h0⟩ := same_pole hn
        refine ⟨fun l => (g l : ℂ), fun hc => hg (funext fun l => Complex.ofReal_eq_zero.1 (congrFun hc l)), fun t _ => ?_⟩
        exact h0 fun w => (poleTau b.beta w t : ℂ)
      · obtain ⟨g, hg, h0⟩ := too_few (𝕜 := ℂ) (n := d.poles.length) (W := Fin p.dedup.length → ℂ)
          ⟨⟨fun g i => poleSum b.beta d.poles g (p.dedup.get i), fun g g' => funext fun i => by
              show poleSum _ _ _ _ = poleSum _ _ _ _ + poleSum _ _ _ _
              unfold poleSum
              rw [← Finset.sum_add_distrib]
              exact Finset.sum_congr rfl fun l _ => add_mul _ _ _⟩,
            fun c g => funext fun i => by
              show poleSum _ _ _ _ = c * poleSum _ _ _ _
              unfold poleSum
              rw [Finset.mul_sum]
              exact Finset.sum_congr rfl fun l _ => mul_assoc _ _ _⟩ (by simpa using hlen)
        refine ⟨g, hg, fun t ht => ?_⟩
        obtain ⟨i, rfl⟩ := List.get_of_mem (List.mem_dedup.2 ht)
        exact congrFun h0 i
    have hsub : ∀ l : List ℝ, l = p → ∀ i : Fin l.length, l.get i ∈ p := by
      rintro _ rfl i
      exact List.get_mem _ _
    obtain ⟨f, -, x, h4, h5⟩ := not_recovered (F := fun g (i : Fin o.points.length) => poleSum b.beta d.poles g (o.points.get i))
      (ev := fun al => tauEvaluate svds o al (some 0) none) (fit := fun x => tauFit svds o x (some 0) none) hev hg (by
      funext i
      show poleSum _ _ _ _ = poleSum _ _ _ _
      rw [h0 _ (hsub _ h2 i)]
      simp [poleSum])
    exact ⟨f, x, h4, h5⟩

/-- DLR and Matsubara frequencies: for any frequencies of the right parity (without frequency zero if there is a pole
at zero), sampling is without loss if the poles are distinct, not zero for bosons, and there are at least as many
distinct frequencies as poles, and only then. -/
theorem C73_matsubara {svds : Svds} (hs : svds.Ok) (h : Dlr.init libs isLogistic dflt b points = .ok (d, w0))
    (hb : 0 < b.beta) (q : Search) (ns : List ℤ) (hpar : ∀ n ∈ ns, b.statistics = "F" ↔ Odd n)
    (hz : 0 ∉ ns ∨ 0 ∉ d.poles) :
    ∃ o, matsInit svds (d.sampled q) (some (1, .ints ns)) false = .ok o ∧
      (d.poles.Nodup → (b.statistics ≠ "F" → 0 ∉ d.poles) → d.poles.length ≤ ns.dedup.length →
        ∀ (al : NdArray ℂ) (axis : ℤ) (j : ℕ), ValidAxis axis al.ndim j → al.shape[j]? = some d.poles.length →
          ∃ x, matsEvaluate svds o al (some axis) none = .ok x ∧ matsFit svds o x (some axis) none = .ok (al, false)) ∧
      (¬ d.poles.Nodup ∨ (b.statistics ≠ "F" ∧ 0 ∈ d.poles) ∨ ns.dedup.length < d.poles.length →
        ∃ (g : Fin d.poles.length → ℂ) (x : NdArray ℂ),
        matsEvaluate svds o (coefficients g) (some 0) none = .ok x ∧
        ∀ c w, matsFit svds o x (some 0) none = .ok (c, w) → c ≠ coefficients g) := by
  obtain ⟨o, h1, h2, -, h3, -⟩ := C71_dlr_matsubara hs h hb q ns hpar hz false (by simp)
  refine ⟨o, h1, fun hn h0 hlen al axis j hj hal => ?_, fun hbad => ?_⟩
  · obtain ⟨x, hx, -, hf⟩ := h3 al axis j hj hal
    exact ⟨x, hx, hf rfl fun g hg => freqs_pole hb b.statistics hn h0 ns.toFinset
      (by rw [List.card_toFinset]; exact hlen) (fun n hn => hpar n (List.mem_toFinset.1 hn)) g
      fun n hn => hg n (List.mem_toFinset.1 hn)⟩
  · have hev : ∀ g : Fin d.poles.length → ℂ, ∃ x, matsEvaluate svds o (coefficients g) (some 0) none = .ok x ∧
        AppliedAlong (fun g i => matsubara b.beta (poleSum b.beta d.poles g) (o.points.get i)) 0 (coefficients g) x :=
      fun g => by
        obtain ⟨x, hx, ax, -⟩ := h3 (coefficients g) 0 0 ⟨Nat.one_pos, Or.inl rfl⟩ rfl
        exact ⟨x, hx, ax⟩
    obtain ⟨g, hg, h0⟩ : ∃ g : Fin d.poles.length → ℂ, g ≠ 0 ∧ ∀ n ∈ ns, matsubara b.beta (poleSum b.beta d.poles g) n = 0 := by
      rcases hbad with hn | ⟨hst, hp⟩ | hlen
      · obtain ⟨g, hg, h0⟩ := same_pole hn
        refine ⟨fun l => (g l : ℂ), fun hc => hg (funext fun l => Complex.ofReal_eq_zero.1 (congrFun hc l)), fun n _ => ?_⟩
        rw [hat_sum]
        exact h0 fun w => ftTau b.beta (poleTau b.beta w) n
      · obtain ⟨i, hi⟩ := List.get_of_mem hp
        refine ⟨Pi.single i 1, fun hc => by simpa using congrFun hc i, fun n hn => ?_⟩
        have hn0 : n ≠ 0 := by
          rintro rfl
          rcases hz with hz | hz
          · exact hz hn
          · exact hz hp
        rw [hat_sum, Finset.sum_eq_single i]
        · rw [hat_value hb b.statistics _ n (hpar n hn) (Or.inl hn0), hi]
          unfold weight
          rw [if_neg hst]
          simp
        · intro l _ hl
          rw [Pi.single_eq_of_ne hl, zero_mul]
        · simp
      · obtain ⟨g, hg, h0⟩ := too_few (𝕜 := ℂ) (n := d.poles.length) (W := Fin ns.dedup.length → ℂ)
          ⟨⟨fun g i => matsubara b.beta (poleSum b.beta d.poles g) (ns.dedup.get i), fun g g' => funext fun i => by
              show matsubara b.beta _ _ = matsubara b.beta _ _ + matsubara b.beta _ _
              rw [hat_sum, hat_sum, hat_sum, ← Finset.sum_add_distrib]
              exact Finset.sum_congr rfl fun l _ => add_mul _ _ _⟩,
            fun c g => funext fun i => by
              show matsubara b.beta _ _ = c * matsubara b.beta _ _
              rw [hat_sum, hat_sum, Finset.mul_sum]
              exact Finset.sum_congr rfl fun l _ => mul_assoc _ _ _⟩ (by simpa using hlen)
        refine ⟨g, hg, fun t ht => ?_⟩
        obtain ⟨i, rfl⟩ := List.get_of_mem (List.mem_dedup.2 ht)
        exact congrFun h0 i
    obtain ⟨f, -, x, h4, h5⟩ := not_recovered
      (F := fun g (i : Fin o.points.length) => matsubara b.beta (poleSum b.beta d.poles g) (o.points.get i))
      (ev := fun al => matsEvaluate svds o al (some 0) none) (fit := fun x => matsFit svds o x (some 0) none) hev hg (by
      funext i
      show matsubara _ _ _ = matsubara _ _ _
      rw [h0 _ (h2.mem_iff.1 (List.get_mem o.points i)), hat_sum]
      simp)
    exact ⟨f, x, h4, h5⟩

/-- The same with `positive_only` for real coefficients; here each distinct frequency gives two conditions, frequency
zero one. -/
theorem C73_positive {svds : Svds} (hs : svds.Ok) (h : Dlr.init libs isLogistic dflt b points = .ok (d, w0))
    (hb : 0 < b.beta) (q : Search) (ns : List ℤ) (hne : ns ≠ []) (hpos : ∀ n ∈ ns, 0 ≤ n)
    (hpar : ∀ n ∈ ns, b.statistics = "F" ↔ Odd n) (hz : 0 ∉ ns ∨ 0 ∉ d.poles) :
    ∃ o, matsInit svds (d.sampled q) (some (1, .ints ns)) true = .ok o ∧
      (d.poles.Nodup → (b.statistics ≠ "F" → 0 ∉ d.poles) →
        d.poles.length ≤ ns.dedup.length + (ns.dedup.filter (· ≠ 0)).length →
        ∀ (al : NdArray ℝ) (axis : ℤ) (j : ℕ), ValidAxis axis al.ndim j → al.shape[j]? = some d.poles.length →
          ∃ x, matsEvaluate svds o (mapArr Complex.ofReal al) (some axis) none = .ok x ∧
            matsFit svds o x (some axis) none = .ok (mapArr Complex.ofReal al, false)) ∧
      (¬ d.poles.Nodup ∨ (b.statistics ≠ "F" ∧ 0 ∈ d.poles) ∨
          ns.dedup.length + (ns.dedup.filter (· ≠ 0)).length < d.poles.length →
        ∃ (g : Fin d.poles.length → ℝ) (x : NdArray ℂ),
        matsEvaluate svds o (coefficients fun l => (g l : ℂ)) (some 0) none = .ok x ∧
        ∀ c w, matsFit svds o x (some 0) none = .ok (c, w) → c ≠ coefficients fun l => (g l : ℂ)) := by
  obtain ⟨o, h1, h2, -, h3, h3'⟩ := C71_dlr_matsubara hs h hb q ns hpar hz true fun _ => ⟨hne, hpos⟩
  refine ⟨o, h1, fun hn h0 hlen al axis j hj hal => ?_, fun hbad => ?_⟩
  · exact h3' al axis j hj hal rfl fun g hg => freqs_pole_real hb b.statistics hn h0 ns hpos hlen hpar g hg
  · have hev : ∀ g : Fin d.poles.length → ℂ, ∃ x, matsEvaluate svds o (coefficients g) (some 0) none = .ok x ∧
        AppliedAlong (fun g i => matsubara b.beta (poleSum b.beta d.poles g) (o.points.get i)) 0 (coefficients g) x :=
      fun g => by
        obtain ⟨x, hx, ax, -⟩ := h3 (coefficients g) 0 0 ⟨Nat.one_pos, Or.inl rfl⟩ rfl
        exact ⟨x, hx, ax⟩
    obtain ⟨g, hg, h0⟩ : ∃ g : Fin d.poles.length → ℝ, g ≠ 0 ∧
        ∀ n ∈ ns, matsubara b.beta (poleSum b.beta d.poles fun l => (g l : ℂ)) n = 0 := by
      rcases hbad with hn | ⟨hst, hp⟩ | hlen
      · obtain ⟨g, hg, h0⟩ := same_pole hn
        refine ⟨g, hg, fun n _ => ?_⟩
        rw [hat_sum]
        exact h0 fun w => ftTau b.beta (poleTau b.beta w) n
      · obtain ⟨i, hi⟩ := List.get_of_mem hp
        refine ⟨Pi.single i 1, fun hc => by simpa using congrFun hc i, fun n hn => ?_⟩
        have hn0 : n ≠ 0 := by
          rintro rfl
          rcases hz with hz | hz
          · exact hz hn
          · exact hz hp
        rw [hat_sum, Finset.sum_eq_single i]
        · rw [hat_value hb b.statistics _ n (hpar n hn) (Or.inl hn0), hi]
          unfold weight
          rw [if_neg hst]
          simp
        · intro l _ hl
          rw [Pi.single_eq_of_ne hl, Complex.ofReal_zero, zero_mul]
        · simp
      · obtain ⟨nz, hnz⟩ : ∃ nz, nz = ns.dedup.filter (· ≠ 0) := ⟨_, rfl⟩
        rw [← hnz] at hlen
        have hlin : ∀ (g g' : Fin d.poles.length → ℝ) (n : ℤ),
            matsubara b.beta (poleSum b.beta d.poles fun l => ((g + g') l : ℂ)) n =
            matsubara b.beta (poleSum b.beta d.poles fun l => (g l : ℂ)) n +
            matsubara b.beta (poleSum b.beta d.poles fun l => (g' l : ℂ)) n := by
          intro g g' n
          rw [hat_sum, hat_sum, hat_sum, ← Finset.sum_add_distrib]
          exact Finset.sum_congr rfl fun l _ => by rw [Pi.add_apply, Complex.ofReal_add, add_mul]
        have hsmul : ∀ (c : ℝ) (g : Fin d.poles.length → ℝ) (n : ℤ),
            matsubara b.beta (poleSum b.beta d.poles fun l => ((c • g) l : ℂ)) n =
            c * matsubara b.beta (poleSum b.beta d.poles fun l => (g l : ℂ)) n := by
          intro c g n
          rw [hat_sum, hat_sum, Finset.mul_sum]
          exact Finset.sum_congr rfl fun l _ => by rw [Pi.smul_apply, smul_eq_mul, Complex.ofReal_mul, mul_assoc]
        obtain ⟨g, hg, h0⟩ := too_few (𝕜 := ℝ) (n := d.poles.length)
          (W := (Fin ns.dedup.length → ℝ) × (Fin nz.length → ℝ))
          ⟨⟨fun g => (fun i => (matsubara b.beta (poleSum b.beta d.poles fun l => (g l : ℂ)) (ns.dedup.get i)).re,
              fun i => (matsubara b.beta (poleSum b.beta d.poles fun l => (g l : ℂ)) (nz.get i)).im),
            fun g g' => by
              apply Prod.ext
              · funext i
                simp only [hlin, Complex.add_re]
                rfl
              · funext i
                simp only [hlin, Complex.add_im]
                rfl⟩,
            fun c g => by
              apply Prod.ext
              · funext i
                simp only [hsmul, Complex.re_ofReal_mul]
                rfl
              · funext i
                simp only [hsmul, Complex.im_ofReal_mul]
                rfl⟩ (by simpa using hlen)
        refine ⟨g, hg, fun n hn => Complex.ext ?_ ?_⟩
        · obtain ⟨i, rfl⟩ := List.get_of_mem (List.mem_dedup.2 hn)
          exact congrFun (congrArg Prod.fst h0) i
        · by_cases hn0 : n = 0
          · subst hn0
            have := hat_neg (beta := b.beta) (poles := d.poles) g 0
            rw [neg_zero] at this
            have := congrArg Complex.im this
            rw [Complex.conj_im] at this
            show (matsubara b.beta (poleSum b.beta d.poles fun l => (g l : ℂ)) 0).im = 0
            linarith
          · have hm : n ∈ nz := by simp [hnz, hn, hn0]
            obtain ⟨i, rfl⟩ := List.get_of_mem hm
            exact congrFun (congrArg Prod.snd h0) i
    obtain ⟨f, hf, x, h4, h5⟩ := not_recovered
      (F := fun g (i : Fin o.points.length) => matsubara b.beta (poleSum b.beta d.poles g) (o.points.get i))
      (ev := fun al => matsEvaluate svds o al (some 0) none) (fit := fun x => matsFit svds o x (some 0) none) hev
      (g := fun l => (g l : ℂ)) (g' := fun l => (((0 : Fin d.poles.length → ℝ) l : ℝ) : ℂ))
      (fun hc => hg (funext fun l => Complex.ofReal_injective (congrFun hc l))) (by
        funext i
        show matsubara _ _ _ = matsubara _ _ _
        rw [h0 _ (h2.mem_iff.1 (List.get_mem o.points i)), hat_sum]
        simp)
    rcases hf with rfl | rfl
    · exact ⟨g, x, h4, h5⟩
    · exact ⟨0, x, h4, h5⟩

end

/-- The DLR with poles `-1` and `1`: any two times, but not one time, and any two odd frequencies. -/
example (lapack : Bool) (q : Search) (s t : ℝ) (hs : 0 ≤ s) (hst : s < t) (ht : t ≤ 10) : ∃ d o,
    d.poles = [-1, 1] ∧ tauInit idealSvds (DLR.sampled d q) (some (1, [s, t])) = .ok o ∧
    (∀ al : NdArray ℂ, al.shape = [2, 3] → ∃ x, tauEvaluate idealSvds o al (some 0) none = .ok x ∧
      tauFit idealSvds o x (some 0) none = .ok (al, false)) ∧
    ∃ o1, tauInit idealSvds (DLR.sampled d q) (some (1, [t, t])) = .ok o1 ∧ ∃ (g : Fin d.poles.length → ℂ) (x : NdArray ℂ),
      tauEvaluate idealSvds o1 (coefficients g) (some 0) none = .ok x ∧
      ∀ c w, tauFit idealSvds o1 x (some 0) none = .ok (c, w) → c ≠ coefficients g := by
  obtain ⟨b, -, hbeta, d, w, hd, hp⟩ := exDlr lapack
  have hne : ∃ w ∈ d.poles, w ≠ 0 := ⟨1, by rw [hp]; simp, by norm_num⟩
  obtain ⟨o, h1, h2, -⟩ := C73_tau idealSvds_ok hd (by rw [hbeta]; norm_num) hne q [s, t] (by
    rw [hbeta]
    intro x hx
    simp at hx
    rcases hx with rfl | rfl <;> constructor <;> linarith)
  obtain ⟨o1, h3, -, h4⟩ := C73_tau idealSvds_ok hd (by rw [hbeta]; norm_num) hne q [t, t] (by
    rw [hbeta]
    intro x hx
    simp at hx
    subst hx
    constructor <;> linarith)
  refine ⟨d, o, hp, h1, fun al hal => ?_, o1, h3, h4 (Or.inr ?_)⟩
  · refine h2 (by rw [hp]; simp; norm_num) ?_ al 0 0 ⟨by unfold NdArray.ndim; rw [hal]; simp, Or.inl rfl⟩ (by rw [hal, hp]; rfl)
    rw [hp, List.dedup_eq_self.2 (by simp [hst.ne])]
    simp
  · rw [hp]
    simp

end Verif.Props
