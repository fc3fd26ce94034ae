import Verif.Props.C16_PowerModel
import Verif.Model.FTExtrema
/-!
# C18 — conjugation symmetry and reality of the transform
-/

namespace Verif.Props
open Verif Verif.Np Verif.Poly Verif.Spec Complex
open scoped ComplexConjugate

variable {ι : Type _}

theorem ft_neg (f : ℝ → ℝ) (n : ℤ) : ft f (-n) = conj (ft f n) := by
  unfold ft
  rw [map_mul, map_div₀, map_one, conj_ofReal]
  congr 1
  rw [intervalIntegral.integral_of_le (by norm_num), intervalIntegral.integral_of_le (by norm_num),
    ← integral_conj]
  congr 1
  funext x
  rw [map_mul, conj_ofReal, ← exp_conj]
  congr 2
  simp only [map_mul, map_div₀, conj_I, conj_ofReal, map_add, map_one, map_intCast, map_ofNat]
  push_cast; ring

theorem ft_reflect (f : ℝ → ℝ) (s : ℝ) (hs : ∀ x, -1 < x → x < 1 → f (-x) = s * f x) (n : ℤ) :
    conj (ft f n) = (-1) ^ n * s * ft f n := by
  rw [← ft_neg]
  unfold ft
  have h1 : ∫ x in (-1 : ℝ)..1, exp (I * Real.pi * (-n : ℤ) * (x + 1) / 2) * (f x : ℂ) =
      ∫ x in (-1 : ℝ)..1, exp (I * Real.pi * (-n : ℤ) * ((-x : ℝ) + 1) / 2) * (f (-x) : ℂ) := by
    have := intervalIntegral.integral_comp_neg (a := -1) (b := 1)
      (fun x : ℝ => exp (I * Real.pi * (-n : ℤ) * (x + 1) / 2) * (f x : ℂ))
    rw [neg_neg] at this
    exact this.symm
  rw [h1, mul_left_comm]
  congr 1
  rw [← intervalIntegral.integral_const_mul]
  apply intervalIntegral.integral_congr_Ioo_of_le (by norm_num)
  intro x hx
  simp only
  rw [hs x hx.1 hx.2]
  have : exp (I * Real.pi * (-n : ℤ) * ((-x : ℝ) + 1) / 2) =
      (-1) ^ n * exp (I * Real.pi * n * (x + 1) / 2) := by
    have h2 : ((-1 : ℂ)) ^ n = ((-1) ^ n)⁻¹ := by
      rw [← inv_zpow]; norm_num
    rw [h2, ← statsign_exp, ← exp_neg, ← exp_add]
    congr 1; push_cast; ring
  rw [this]; push_cast; ring

theorem giw_neg (ms : List (ι → ℝ)) (n : ℤ) (l : ι) : giw ms (-n) l = conj (giw ms n l) := by
  unfold giw
  have hz : (if (-n) ≠ 0 then (I * Real.pi / 2 * ((-n : ℤ) : ℂ))⁻¹ else I * Real.pi / 2 * ((-n : ℤ) : ℂ)) =
      conj (if n ≠ 0 then (I * Real.pi / 2 * (n : ℂ))⁻¹ else I * Real.pi / 2 * (n : ℂ)) := by
    have e : I * Real.pi / 2 * ((-n : ℤ) : ℂ) = conj (I * Real.pi / 2 * (n : ℂ)) := by
      simp only [map_mul, map_div₀, conj_I, conj_ofReal, map_intCast, map_ofNat]
      push_cast; ring
    simp only [ne_eq, neg_eq_zero]
    split
    · rw [e, map_inv₀]
    · rw [e]
  rw [hz]
  generalize (if n ≠ 0 then (I * (Real.pi : ℂ) / 2 * (n : ℂ))⁻¹ else I * Real.pi / 2 * (n : ℂ)) = z
  generalize ms.reverse = r
  have : ∀ (r : List (ι → ℝ)) (a : ℂ),
      r.foldl (fun b m => (b + (m l : ℂ)) * conj z) (conj a) =
        conj (r.foldl (fun b m => (b + (m l : ℂ)) * z) a) := by
    intro r
    induction r with
    | nil => intro a; rfl
    | cons m r ih =>
      intro a
      simp only [List.foldl_cons]
      rw [← ih]
      congr 1
      simp
  have h0 := this r 0
  rw [map_zero] at h0
  exact h0

theorem hasParity_neg (freq : Freq) (n : ℤ) : HasParity freq.zeta (-n) ↔ HasParity freq.zeta n := by
  cases freq <;> simp only [HasParity, Freq.zeta] <;> omega

/-- Value of a transform at every admissible frequency. -/
theorem call_value (f : PFT ι) (h : f.poly.WF) (hmin : f.poly.xmin = -1) (hmax : f.poly.xmax = 1)
    (hlen : ∀ i l, (f.poly.coef i l).length = f.poly.polyorder) (n : ℤ)
    (hp : HasParity f.freq.zeta n) :
    f.call n = match f.nAsymp with
      | none => .ok fun l => ft (fn f.poly l) n
      | some na => if |(n : ℝ)| ≥ na then
          match f.model with
          | none => .error .attributeError
          | some m => .ok (giw m n)
        else .ok fun l => ft (fn f.poly l) n := by
  have hchk : Util.checkReducedMatsubara (.ints [n]) f.freq.zeta = .ok [n] :=
    (C01_ints [n] [n] _).2 ⟨rfl, by simpa using hp⟩
  unfold PFT.call
  rw [hchk]
  simp only
  rw [C14_inner f.poly h hmin hmax hlen n]
  rfl

/-- `uhat[l](-n) == conj(uhat[l](n))`, below and above `n_asymp`, errors included. -/
theorem C18_conj (f : PFT ι) (h : f.poly.WF) (hmin : f.poly.xmin = -1) (hmax : f.poly.xmax = 1)
    (hlen : ∀ i l, (f.poly.coef i l).length = f.poly.polyorder) (n : ℤ) :
    f.call (-n) = (f.call n).map fun v l => conj (v l) := by
  by_cases hp : HasParity f.freq.zeta n
  · rw [call_value f h hmin hmax hlen n hp,
      call_value f h hmin hmax hlen (-n) ((hasParity_neg _ _).2 hp)]
    have habs : |((-n : ℤ) : ℝ)| = |(n : ℝ)| := by push_cast; rw [abs_neg]
    rw [habs]
    cases f.nAsymp with
    | none => simp only [Except.map, ft_neg]
    | some na =>
      simp only
      split
      · cases f.model with
        | none => rfl
        | some m => simp only [Except.map, Except.ok.injEq]; funext l; exact giw_neg m n l
      · simp only [Except.map, ft_neg]
  · have hno : ∀ m, ¬ HasParity f.freq.zeta m → f.call m = .error .valueError := by
      intro m hm
      have hchk : Util.checkReducedMatsubara (.ints [m]) f.freq.zeta = .error .valueError := by
        rcases C01_rejects_with_ValueError (.ints [m]) f.freq.zeta with ⟨ns, h1⟩ | h1
        · exact absurd (((C01_ints [m] ns _).1 h1).2 m (by simp)) hm
        · exact h1
      unfold PFT.call
      rw [hchk]
    rw [hno n hp, hno (-n) (by rwa [hasParity_neg])]
    rfl

/-- The moments of position `l` make the asymptotic model real or imaginary in the same way. -/
theorem giw_reflect (p : PPoly ι) (h : p.WF) (hmax : p.xmax = 1) (hpo : 1 ≤ p.polyorder) (pos : ι → ℕ)
    (freq : Freq) (ms : List (ι → ℝ)) (hm : powerModel pos freq p = .ok ms) (n : ℤ)
    (hp : HasParity freq.zeta n) (l : ι) :
    conj (giw ms n l) = (-1) ^ n * (-1) ^ pos l * giw ms n l := by
  by_cases hn : n = 0
  · subst hn; rw [C16_zero]; simp
  obtain ⟨s, hs⟩ : ∃ s, freq.statsign = .ok s := by
    cases hs : freq.statsign with
    | error e =>
      unfold powerModel at hm
      rw [derivsLoop_spec h (last_inSeg h hmax), hs] at hm
      cases hm
    | ok s => exact ⟨s, rfl⟩
  have hsn : ((-1 : ℂ) ^ n) = (s : ℂ) ∧ (s = 1 ∨ s = -1) := by
    cases freq with
    | any => cases hs
    | even =>
      cases hs
      simp only [HasParity, Freq.zeta] at hp
      rw [Even.neg_one_zpow (Int.even_iff.2 hp)]; simp
    | odd =>
      cases hs
      simp only [HasParity, Freq.zeta] at hp
      rw [Odd.neg_one_zpow (Int.odd_iff.2 hp)]; simp
  rw [powerModel_eq p h hmax hpo pos freq s hs] at hm
  have hm := (Except.ok.inj hm).symm
  rw [giw_eq _ _ _ hn, map_sum, Finset.mul_sum, hm, List.length_map, List.length_range]
  apply Finset.sum_congr rfl
  intro m hmr
  have hmr := Finset.mem_range.1 hmr
  have e1 : (List.map (fun v => v l) (List.map (fun m l => powerMoment s m (pos l)
      (Polynomial.eval 1 (Polynomial.derivative^[m] (p.seg l ⟨p.nseg - 1, by have := h.pos; omega⟩))))
      (List.range p.polyorder))).getD m 0 = powerMoment s m (pos l)
      (Polynomial.eval 1 (Polynomial.derivative^[m] (p.seg l ⟨p.nseg - 1, by have := h.pos; omega⟩))) := by
    simp [List.getD_eq_getElem?_getD, hmr]
  rw [e1, hsn.1, map_mul, conj_ofReal, map_pow, map_inv₀]
  have e2 : conj (I * (Real.pi : ℂ) / 2 * (n : ℂ)) = - (I * (Real.pi : ℂ) / 2 * (n : ℂ)) := by
    simp only [map_mul, map_div₀, conj_I, conj_ofReal, map_intCast, map_ofNat]; ring
  rw [e2, inv_neg, neg_pow]
  unfold powerMoment
  have hs2 : (s : ℂ) * s = 1 := by
    rcases hsn.2 with rfl | rfl <;> norm_num
  have hm2 : ((-1 : ℂ) ^ (m + 1)) * (-1) ^ (m + 1) = 1 := by rw [← mul_pow]; simp
  have hl2 : ((-1 : ℂ) ^ pos l) * (-1) ^ pos l = 1 := by rw [← mul_pow]; simp
  push_cast
  generalize (I * (Real.pi : ℂ) / 2 * (n : ℂ))⁻¹ ^ (m + 1) = z
  generalize ((Polynomial.eval 1 (Polynomial.derivative^[m] (p.seg l ⟨p.nseg - 1, by have := h.pos; omega⟩)) : ℝ) : ℂ) = d
  generalize hA : ((-1 : ℂ) ^ (m + 1)) = A at *
  generalize hB : ((-1 : ℂ) ^ pos l) = B at *
  linear_combination (-(s : ℂ) / (Real.sqrt 2 : ℂ) * d * z) * (hm2 - s ^ 2 * hl2 - hs2 )

/-- Real or imaginary: for functions of parity `(-1)^pos l` every value of the transform, below and
above `n_asymp`, satisfies `conj z = (-1)^(n + pos l) z`. -/
theorem C18_reflect (p : PPoly ι) (h : p.WF) (hmin : p.xmin = -1) (hmax : p.xmax = 1)
    (hpo : 1 ≤ p.polyorder) (hlen : ∀ i l, (p.coef i l).length = p.polyorder)
    (pos : ι → ℕ) (freq : Freq) (na : Option ℝ)
    (hsym : ∀ l x, -1 < x → x < 1 → fn p l (-x) = (-1) ^ pos l * fn p l x)
    (f : PFT ι) (hf : PFT.ctor pos p freq na none = .ok f) (n : ℤ) (v : ι → ℂ)
    (hv : f.call n = .ok v) (l : ι) :
    HasParity freq.zeta n ∧ conj (v l) = (-1) ^ n * (-1) ^ pos l * v l := by
  have hft : conj (ft (fn p l) n) = (-1) ^ n * (-1) ^ pos l * ft (fn p l) n := by
    have := ft_reflect (fn p l) ((-1) ^ pos l) (hsym l) n
    push_cast at this
    exact this
  unfold PFT.ctor at hf
  rw [if_neg (by rw [hmin, hmax]; simp)] at hf
  have hpar : HasParity freq.zeta n := by
    by_contra hp
    have hfr : f.freq = freq := by
      cases na with
      | none => rw [← Except.ok.inj hf]
      | some na =>
        simp only at hf
        split at hf
        · cases hf
        · rw [← Except.ok.inj hf]
    have hchk : Util.checkReducedMatsubara (.ints [n]) f.freq.zeta = .error .valueError := by
      rcases C01_rejects_with_ValueError (.ints [n]) f.freq.zeta with ⟨ns, h1⟩ | h1
      · have := ((C01_ints [n] ns _).1 h1).2 n (by simp)
        rw [hfr] at this
        exact absurd this hp
      · exact h1
    unfold PFT.call at hv
    rw [hchk] at hv
    cases hv
  refine ⟨hpar, ?_⟩
  cases na with
  | none =>
    obtain rfl := Except.ok.inj hf
    rw [call_value ⟨p, freq, none, none⟩ h hmin hmax hlen n hpar] at hv
    simp only [Except.ok.injEq] at hv
    rw [← hv]; exact hft
  | some na =>
    simp only at hf
    split at hf
    · cases hf
    rename_i m hm
    obtain rfl := Except.ok.inj hf
    rw [call_value ⟨p, freq, some na, some m⟩ h hmin hmax hlen n hpar] at hv
    simp only at hv
    split at hv
    · obtain rfl := Except.ok.inj hv
      exact giw_reflect p h hmax hpo pos freq m hm n hpar l
    · obtain rfl := Except.ok.inj hv
      exact hft

/-- The part chosen by `_func_for_part` from the parity carries the whole transform: the other part
is zero, for every frequency at which the transform can be evaluated. -/
theorem C18_part (p : PPoly ι) (h : p.WF) (hmin : p.xmin = -1) (hmax : p.xmax = 1)
    (hpo : 1 ≤ p.polyorder) (hlen : ∀ i l, (p.coef i l).length = p.polyorder)
    (pos : ι → ℕ) (freq : Freq) (hfreq : freq ≠ .any) (na : Option ℝ)
    (hsym : ∀ l x, -1 < x → x < 1 → fn p l (-x) = (-1) ^ pos l * fn p l x)
    (hsymm : ∀ l, p.symm l = (-1) ^ pos l)
    (f : PFT ι) (hf : PFT.ctor pos p freq na none = .ok f) (l : ι) :
    ∃ pt, partFor (p.symm l) freq.zeta .none = .ok pt ∧ ∀ n v, f.call n = .ok v →
      v l = match (pt : Part) with
        | .real => ((v l).re : ℂ)
        | .imag => ((v l).im : ℂ) * I := by
  have hrefl := fun n v hv => C18_reflect p h hmin hmax hpo hlen pos freq na hsym f hf n v hv l
  have hre : ∀ z : ℂ, conj z = z → z = (z.re : ℂ) := fun z hz => (conj_eq_iff_re.1 hz).symm
  have him : ∀ z : ℂ, conj z = -z → z = (z.im : ℂ) * I := by
    intro z hz
    have h0 : z.re = 0 := by
      have := congrArg Complex.re hz
      simp at this; linarith
    conv_lhs => rw [← re_add_im z, h0]
    simp
  have c1 : isClose 1 1 := by norm_num [isClose]
  have c2 : ¬ isClose (-1) 1 := by norm_num [isClose, abs_of_pos]
  have c3 : isClose (-1) (-1) := by norm_num [isClose]
  rw [hsymm]
  rcases Nat.even_or_odd (pos l) with hl | hl
  · cases freq with
    | any => exact absurd rfl hfreq
    | even =>
      refine ⟨.real, by simp [partFor, hl.neg_one_pow, c1, Freq.zeta], ?_⟩
      intro n v hv
      obtain ⟨hp, hc⟩ := hrefl n v hv
      simp only [HasParity, Freq.zeta] at hp
      rw [hl.neg_one_pow, Even.neg_one_zpow (Int.even_iff.2 hp), one_mul, one_mul] at hc
      exact hre _ hc
    | odd =>
      refine ⟨.imag, by simp [partFor, hl.neg_one_pow, c1, Freq.zeta], ?_⟩
      intro n v hv
      obtain ⟨hp, hc⟩ := hrefl n v hv
      simp only [HasParity, Freq.zeta] at hp
      rw [hl.neg_one_pow, Odd.neg_one_zpow (Int.odd_iff.2 hp), mul_one, neg_one_mul] at hc
      exact him _ hc
  · cases freq with
    | any => exact absurd rfl hfreq
    | even =>
      refine ⟨.imag, by simp [partFor, hl.neg_one_pow, c2, c3, Freq.zeta], ?_⟩
      intro n v hv
      obtain ⟨hp, hc⟩ := hrefl n v hv
      simp only [HasParity, Freq.zeta] at hp
      rw [hl.neg_one_pow, Even.neg_one_zpow (Int.even_iff.2 hp), one_mul, neg_one_mul] at hc
      exact him _ hc
    | odd =>
      refine ⟨.real, by simp [partFor, hl.neg_one_pow, c2, c3, Freq.zeta], ?_⟩
      intro n v hv
      obtain ⟨hp, hc⟩ := hrefl n v hv
      simp only [HasParity, Freq.zeta] at hp
      rw [hl.neg_one_pow, Odd.neg_one_zpow (Int.odd_iff.2 hp)] at hc
      norm_num at hc
      exact hre _ hc

/- Non-vacuity: `x` on `[-1, 1]` at position 1, frequencies even, asymptotics from `n = 2`. -/
example : ∃ pt, partFor (exPoly.symm ()) (Freq.even).zeta .none = .ok pt ∧
    ∀ f, PFT.ctor (fun _ => 1) exPoly .even (some 2) none = .ok f → ∀ n v, f.call n = .ok v →
      v () = match (pt : Part) with
        | .real => ((v ()).re : ℂ)
        | .imag => ((v ()).im : ℂ) * I := by
  have hs : ∀ (l : Unit) x, -1 < x → x < 1 → fn exPoly l (-x) = (-1) ^ 1 * fn exPoly l x := by
    intro l x h1 h2; rw [exPoly_fn h1 h2, exPoly_fn (by linarith) (by linarith)]; ring
  obtain ⟨f, ms, h1, -⟩ := C16_exact exPoly exPoly_WF rfl rfl rfl (by decide)
    (fun _ _ => rfl) (fun _ => 1) .even 2 (by decide) hs
  obtain ⟨pt, hpt, hv⟩ := C18_part exPoly exPoly_WF rfl rfl (by decide) (fun _ _ => rfl) (fun _ => 1)
    .even (by decide) (some 2) hs (by intro l; norm_num [exPoly]) f h1 ()
  refine ⟨pt, hpt, ?_⟩
  intro f' hf'
  obtain rfl := Except.ok.inj (h1.symm.trans hf')
  exact hv

end Verif.Props
