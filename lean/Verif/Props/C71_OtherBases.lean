import Verif.Model.SampledBases
import Verif.Props.C68_SparseSampling
import Verif.Props.C51_DlrConversion
import Verif.Props.C49_AugmentedMetadata
/-!
# C71 — sparse sampling with the DLR and with augmented bases
-/

namespace Verif.Props
open Verif Verif.Np Verif.Poly Verif.Sve Verif.Kernel Verif.Spec Verif.FiniteTemp Verif.Sampling Verif.Np.NdArray Matrix
open Verif.Dlr Verif.Augment MeasureTheory

/-! ## Functions given by their values -/

section
variable {svds : Svds} {b : SBasis}

theorem no_warning {P : Type} {o : Obj b P} (hw : b.wellConditioned = false) {x y : NdArray ℂ} {axis : Option ℤ}
    {w : Bool} (h : o.fitHere x axis = .ok (y, w)) : w = false := by
  unfold Obj.fitHere at h
  simp only [hw, Bool.false_eq_true, if_false] at h
  cases hl : o.matrix.lstsq x axis with
  | error e => rw [hl] at h; cases h
  | ok r =>
    rw [hl] at h
    exact (Prod.mk.inj (Except.ok.inj h)).2.symm

theorem values_tau (hs : svds.Ok) (h0 : 0 < b.size) (p : List ℝ) (U : ℝ → Fin b.size → ℝ)
    (hU : ∀ t ∈ p, b.u t = .ok (U t)) :
    ∃ o, tauInit svds b (some (1, p)) = .ok o ∧ o.points = p ∧
      ∀ (al : NdArray ℂ) (axis : ℤ) (j : ℕ), ValidAxis axis al.ndim j → al.shape[j]? = some b.size →
        ∃ x, tauEvaluate svds o al (some axis) none = .ok x ∧
          AppliedAlong (fun g i => ∑ l, g l * (U (o.points.get i) l : ℂ)) j al x ∧
          ((∀ g : Fin b.size → ℂ, (∀ t ∈ p, ∑ l, g l * (U t l : ℂ) = 0) → g = 0) →
            ∃ w, tauFit svds o x (some axis) none = .ok (al, w)) := by
  have hev := evalMatrix_ok (f := fun t => (b.u t).map fun f l => (f l : ℂ)) (F := fun t l => (U t l : ℂ)) (p := p)
    (fun t ht => by rw [hU t ht]; rfl)
  obtain ⟨M, hd, ha, -⟩ := fullMatrix_ok hs (valuesAt (fun t l => (U t l : ℂ)) p)
  have hinit : tauInit svds b (some (1, p)) = .ok ⟨p, false, .full M⟩ := by
    unfold tauInit
    simp only [ne_eq, not_true_eq_false, if_false]
    unfold tauFrom
    simp only [hev, hd]
    rfl
  refine ⟨_, hinit, rfl, fun al axis j hj hal => ?_⟩
  obtain ⟨x, hx, ax⟩ := C45_evaluate (.full M) _ (Or.inl ⟨M, rfl, ha⟩) al axis j hj hal
  have hval : ∀ (g : Fin b.size → ℂ) (t : ℝ), ∑ l, (U t l : ℂ) * g l = ∑ l, g l * (U t l : ℂ) := fun g t =>
    Finset.sum_congr rfl fun l _ => mul_comm _ _
  refine ⟨x, hx, applied_congr ax fun g => ?_, fun hinj => ?_⟩
  · funext i
    exact hval g _
  · exact fit_back hs hd h0 (fun w hw => hinj w fun t ht => by
      obtain ⟨i, rfl⟩ := List.get_of_mem ht
      exact (hval w _).symm.trans (congrFun hw i)) hj ax

theorem values_matsubara (hs : svds.Ok) (h0 : 0 < b.size) (ns : List ℤ) (V : ℤ → Fin b.size → ℂ)
    (hV : ∀ n ∈ ns, b.uhat n = .ok (V n)) (po : Bool) (hpo : po = true → ns ≠ [] ∧ ∀ n ∈ ns, 0 ≤ n)
    (hreal : 0 ∈ ns → ∀ l, (V 0 l).im = 0) :
    ∃ o, matsInit svds b (some (1, .ints ns)) po = .ok o ∧ o.points.Perm ns ∧ o.points.Pairwise (· ≤ ·) ∧
      (∀ (al : NdArray ℂ) (axis : ℤ) (j : ℕ), ValidAxis axis al.ndim j → al.shape[j]? = some b.size →
        ∃ x, matsEvaluate svds o al (some axis) none = .ok x ∧
          AppliedAlong (fun g i => ∑ l, g l * V (o.points.get i) l) j al x ∧
          (po = false → (∀ g : Fin b.size → ℂ, (∀ n ∈ ns, ∑ l, g l * V n l = 0) → g = 0) →
            ∃ w, matsFit svds o x (some axis) none = .ok (al, w))) ∧
      ∀ (al : NdArray ℝ) (axis : ℤ) (j : ℕ), ValidAxis axis al.ndim j → al.shape[j]? = some b.size → po = true →
        (∀ g : Fin b.size → ℝ, (∀ n ∈ ns, ∑ l, (g l : ℂ) * V n l = 0) → g = 0) →
        ∃ x w, matsEvaluate svds o (mapArr Complex.ofReal al) (some axis) none = .ok x ∧
          matsFit svds o x (some axis) none = .ok (mapArr Complex.ofReal al, w) := by
  obtain ⟨M, hinit, hmat, hform⟩ := matsInit_ok hs ns V hV po hpo
  have hval : ∀ (g : Fin b.size → ℂ) (n : ℤ), ∑ l, V n l * g l = ∑ l, g l * V n l := fun g n =>
    Finset.sum_congr rfl fun l _ => mul_comm _ _
  have hev : ∀ (al : NdArray ℂ) (axis : ℤ) (j : ℕ), ValidAxis axis al.ndim j → al.shape[j]? = some b.size →
      ∃ x, M.matmulAxis al (some axis) = .ok x ∧
        AppliedAlong (fun g => valuesAt V (npSort ns) *ᵥ g) j al x :=
    fun al axis j hj hal => C45_evaluate M _ hform al axis j hj hal
  refine ⟨_, hinit, npSort_perm ns, npSort_sorted ns, fun al axis j hj hal => ?_, fun al axis j hj hal ht hinj => ?_⟩
  · obtain ⟨x, hx, ax⟩ := hev al axis j hj hal
    refine ⟨x, hx, applied_congr ax fun g => ?_, fun hf hinj => ?_⟩
    · funext i
      exact hval g _
    · subst hf
      simp only [Bool.false_eq_true, if_false] at hmat
      exact fit_back hs hmat h0 (fun w hw => hinj w fun n hn => by
        obtain ⟨i, rfl⟩ := List.get_of_mem ((npSort_perm ns).mem_iff.2 hn)
        exact (hval _ _).symm.trans (congrFun hw i)) hj ax
  · subst ht
    simp only [if_true] at hmat
    obtain ⟨x, hx, ax⟩ := hev (mapArr Complex.ofReal al) axis j hj hal
    obtain ⟨w, hw⟩ := fit_back_split hs hmat (fun hz i l hi => by
        have hz' : (0 : ℤ) ∈ ns := of_decide_eq_true hz
        have hi0 : (npSort ns).get i = 0 := by
          have h1 : 0 ≤ (npSort ns).get i := (hpo rfl).2 _ ((npSort_perm ns).mem_iff.1 (List.get_mem _ _))
          obtain ⟨i', hi'⟩ := List.get_of_mem ((npSort_perm ns).mem_iff.2 hz')
          have h2 : (npSort ns).get i ≤ (npSort ns).get i' := by
            rcases eq_or_lt_of_le (show i ≤ i' from Fin.le_def.2 (by omega)) with h3 | h3
            · rw [h3]
            · exact List.pairwise_iff_get.1 (npSort_sorted ns) i i' h3
          omega
        show (V ((npSort ns).get i) l).im = 0
        rw [hi0]
        exact hreal hz' l) h0 (fun w hw => hinj w fun n hn => by
        obtain ⟨i, rfl⟩ := List.get_of_mem ((npSort_perm ns).mem_iff.2 hn)
        exact (hval _ _).symm.trans (congrFun hw i)) hj ax
    exact ⟨x, w, hx, hw⟩

/-- If all points which are refused are refused with the same exception, so is the list. -/
theorem refused_tau {p : List ℝ} {e : PyErr} (h : ∃ t ∈ p, b.u t = .error e)
    (hall : ∀ t ∈ p, ∀ e', b.u t = .error e' → e' = e) : tauInit svds b (some (1, p)) = .error e := by
  unfold tauInit
  simp only [ne_eq, not_true_eq_false, if_false]
  unfold tauFrom
  obtain ⟨t, ht, he⟩ := h
  rw [evalMatrix_errors (e := e) ⟨t, ht, by rw [he]; rfl⟩ (fun t ht e' he' => by
    cases hx : b.u t with
    | error e2 =>
      rw [hx] at he'
      obtain rfl := Except.error.inj he'
      exact hall t ht _ hx
    | ok r => rw [hx] at he'; cases he')]

theorem refused_matsubara {ns : List ℤ} {e : PyErr} (po : Bool) (hpo : po = true → ∀ n ∈ ns, 0 ≤ n)
    (h : ∃ n ∈ ns, b.uhat n = .error e)
    (hall : ∀ n ∈ ns, ∀ e', b.uhat n = .error e' → e' = e) : matsInit svds b (some (1, .ints ns)) po = .error e := by
  obtain ⟨n, hn, he⟩ := h
  have hpts : matsPoints 1 (.ints ns) po = .ok (npSort ns) := by
    cases po with
    | false => rfl
    | true =>
      have h2 := hpo rfl
      unfold matsPoints
      rw [show Util.checkReducedMatsubara (.ints ns) none = .ok ns from rfl]
      simp only [ne_eq, not_true_eq_false, if_false, if_true]
      cases hh : (npSort ns).head? with
      | none =>
        rw [List.head?_eq_none_iff] at hh
        have := npSort_perm ns
        rw [hh] at this
        rw [this.symm.eq_nil] at hn
        simp at hn
      | some p0 =>
        have : 0 ≤ p0 := h2 p0 ((npSort_perm ns).mem_iff.1 (List.mem_of_mem_head? hh))
        simp [this]
  unfold matsInit
  simp only [hpts]
  unfold matsFrom
  rw [evalMatrix_errors (e := e) ⟨n, (npSort_perm ns).mem_iff.2 hn, he⟩
    (fun t ht e' he' => hall t ((npSort_perm ns).mem_iff.1 ht) e' he')]

end

theorem allValues_ofFn {α : Type} {n : ℕ} (f : Fin n → α) :
    allValues (List.ofFn fun i => some (f i)) = some (List.ofFn f) := by
  induction n with
  | zero => simp [allValues]
  | succ n ih =>
    rw [List.ofFn_succ, List.ofFn_succ]
    unfold allValues
    rw [ih]
    rfl

theorem allValues_none {α : Type} {l : List (Option α)} (h : none ∈ l) : allValues l = none := by
  induction l with
  | nil => simp at h
  | cons a l ih =>
    cases a with
    | none => rfl
    | some a =>
      unfold allValues
      rw [ih (by simpa using h)]
      rfl

theorem row_ofFn {α : Type} {n m : ℕ} (h : m = n) (f : Fin m → α) :
    Sampling.row n (List.ofFn fun i => some (f i)) = .ok fun i => f (Fin.cast h.symm i) := by
  subst h
  unfold Sampling.row
  rw [allValues_ofFn]
  simp only [List.length_ofFn, dite_true]
  congr 1
  funext i
  simp

theorem row_none {α : Type} (n : ℕ) {l : List (Option α)} (h : none ∈ l) : Sampling.row n l = .error .nanResult := by
  unfold Sampling.row
  rw [allValues_none h]

/-! ## The discrete Lehmann representation -/

/-- The function of imaginary time with poles at given positions and coefficients. -/
noncomputable def poleSum (beta : ℝ) (poles : List ℝ) (g : Fin poles.length → ℂ) (tau : ℝ) : ℂ :=
  ∑ i, g i * (poleTau beta (poles.get i) tau : ℂ)

theorem poleTau_continuous (beta w : ℝ) : Continuous (poleTau beta w) := by
  unfold poleTau
  exact ((Real.continuous_exp.comp (by fun_prop)).div_const _).neg

theorem ft_combo {n : ℕ} (beta : ℝ) (f : Fin n → ℝ → ℝ) (hf : ∀ i, IntervalIntegrable (f i) volume 0 beta) (g : Fin n → ℂ)
    (k : ℤ) : matsubara beta (fun t => ∑ i, g i * (f i t : ℂ)) k = ∑ i, g i * ftTau beta (f i) k := by
  unfold matsubara ftTau
  simp only [Finset.mul_sum]
  rw [intervalIntegral.integral_finset_sum]
  · refine Finset.sum_congr rfl fun l _ => ?_
    rw [← intervalIntegral.integral_const_mul]
    congr 1
    funext t
    ring
  · intro l _
    have h1 : IntervalIntegrable (fun t => (f l t : ℂ)) volume 0 beta := ⟨(hf l).1.ofReal, (hf l).2.ofReal⟩
    have h2 : IntervalIntegrable (fun t : ℝ => Complex.exp (Complex.I * Real.pi * k * t / beta) * (f l t : ℂ)) volume 0
        beta := IntervalIntegrable.continuousOn_mul h1 (by fun_prop)
    have := h2.mul_const (g l)
    refine this.congr fun t _ => ?_
    ring

theorem ftTau_zero_real (beta : ℝ) (f : ℝ → ℝ) : (ftTau beta f 0).im = 0 := by
  unfold ftTau
  have : (fun t : ℝ => Complex.exp (Complex.I * Real.pi * ((0 : ℤ) : ℂ) * t / beta) * (f t : ℂ)) =
      fun t : ℝ => ((f t : ℝ) : ℂ) := by
    funext t
    simp
  rw [this, intervalIntegral.integral_ofReal]
  exact Complex.ofReal_im _

section
variable {libs : Svd.Libs ℝ} {isLogistic : KernelInfo → Bool} {dflt : PyM (List ℝ)} {b : FiniteTemp.Basis}
  {points : Option (List ℝ)} {d : DLR} {w0 : List Svd.Warning}

theorem dlr_attrs (h : Dlr.init libs isLogistic dflt b points = .ok (d, w0)) :
    d.basis = b ∧ tauPoles b.statistics b.beta d.poles = .ok d.u ∧ d.uhat = ⟨b.statistics, b.beta, d.poles⟩ := by
  unfold Dlr.init at h
  simp only [bind, Except.bind] at h
  repeat' split at h
  all_goals first | (cases h; done) | skip
  all_goals
    rename_i hu _ _ _ _ _ _ _ _ _
    obtain ⟨rfl, -⟩ := Prod.mk.inj (Except.ok.inj h)
    exact ⟨rfl, by assumption, rfl⟩

theorem dlr_u (h : Dlr.init libs isLogistic dflt b points = .ok (d, w0)) (hb : 0 < b.beta) (hp : ∃ w ∈ d.poles, w ≠ 0)
    (q : Search) (t : ℝ) :
    (0 ≤ t → t ≤ b.beta → (d.sampled q).u t = .ok fun i => poleTau b.beta (d.poles.get i) t) ∧
    (¬ (0 ≤ t ∧ t ≤ b.beta) → (d.sampled q).u t = .error .runtimeError) := by
  obtain ⟨-, hu, -⟩ := dlr_attrs h
  constructor
  · intro h0 h1
    obtain ⟨p, hpp, hq, hc⟩ := C50_tau_partial b.statistics b.beta hb d.poles hp (fun _ : Fin 1 => t) fun _ => ⟨h0, h1⟩
    obtain rfl := Except.ok.inj (hu.symm.trans hq)
    show (match d.u.call (fun _ : Fin 1 => t) with
      | .error e => Except.error e
      | .ok k => Sampling.row d.size (List.ofFn fun i => some (k i 0))) = _
    rw [hc]
    exact row_ofFn (congrArg List.length hpp) _
  · intro hc
    obtain ⟨p, hq, hpb, -⟩ := tauPoles_ok b.statistics b.beta d.poles (by rintro h0; rw [h0] at hu; cases hu)
    obtain rfl := Except.ok.inj (hu.symm.trans hq)
    show (match d.u.call (fun _ : Fin 1 => t) with
      | .error e => Except.error e
      | .ok k => Sampling.row d.size (List.ofFn fun i => some (k i 0))) = _
    rw [C50_tau_range d.u (fun _ : Fin 1 => t) ⟨0, by rw [hpb]; by_contra hc'; push Not at hc'; exact hc hc'⟩]
    rfl

theorem dlr_uhat (h : Dlr.init libs isLogistic dflt b points = .ok (d, w0)) (hb : 0 < b.beta) (q : Search) (n : ℤ)
    (hpar : b.statistics = "F" ↔ Odd n) (h0 : n ≠ 0 ∨ 0 ∉ d.poles) :
    (d.sampled q).uhat n = .ok fun i => ftTau b.beta (poleTau b.beta (d.poles.get i)) n := by
  obtain ⟨-, -, hu⟩ := dlr_attrs h
  show Sampling.row d.size (List.ofFn fun i => d.uhat.call (fun _ : Fin 1 => n) i 0) = _
  rw [hu]
  have key : ∀ i : Fin d.poles.length, (MatsubaraPoles.mk b.statistics b.beta d.poles).call (fun _ : Fin 1 => n) i 0 =
      some (ftTau b.beta (poleTau b.beta (d.poles.get i)) n) := by
    intro i
    by_cases hst : b.statistics = "F"
    · exact (C50_fermion ⟨b.statistics, b.beta, d.poles⟩ hst hb (fun _ : Fin 1 => n) (fun _ => hpar.1 hst) i 0).1
    · refine (C50_boson_partial ⟨b.statistics, b.beta, d.poles⟩ hst hb (fun _ : Fin 1 => n)
        (fun _ => Int.not_odd_iff_even.1 fun ho => hst (hpar.2 ho)) i 0 ?_).1
      rcases h0 with h0 | h0
      · exact Or.inl h0
      · exact Or.inr fun hw => h0 (hw ▸ List.get_mem _ _)
  simp only [key]
  exact row_ofFn rfl _

theorem dlr_size (h : Dlr.init libs isLogistic dflt b points = .ok (d, w0)) : 0 < d.poles.length := by
  obtain ⟨-, hu, -⟩ := dlr_attrs h
  rw [List.length_pos_iff]
  rintro h0
  rw [h0] at hu
  cases hu

/-- DLR, imaginary time (with at least one pole which is not zero).  Times outside `[0, beta]` are refused with
RuntimeError.  Otherwise `evaluate` gives the values at the points of the function with the given pole coefficients;
if these are determined by the values, `fit` returns them, without warning. -/
theorem C71_dlr_tau {svds : Svds} (hs : svds.Ok) (h : Dlr.init libs isLogistic dflt b points = .ok (d, w0))
    (hb : 0 < b.beta) (hp : ∃ w ∈ d.poles, w ≠ 0) (q : Search) (p : List ℝ) :
    ((∃ t ∈ p, t < 0 ∨ b.beta < t) → tauInit svds (d.sampled q) (some (1, p)) = .error .runtimeError) ∧
    ((∀ t ∈ p, 0 ≤ t ∧ t ≤ b.beta) → ∃ o, tauInit svds (d.sampled q) (some (1, p)) = .ok o ∧ o.points = p ∧
      ∀ (al : NdArray ℂ) (axis : ℤ) (j : ℕ), ValidAxis axis al.ndim j → al.shape[j]? = some d.poles.length →
        ∃ x, tauEvaluate svds o al (some axis) none = .ok x ∧
          AppliedAlong (fun g i => poleSum b.beta d.poles g (o.points.get i)) j al x ∧
          ((∀ g, (∀ t ∈ p, poleSum b.beta d.poles g t = 0) → g = 0) →
            tauFit svds o x (some axis) none = .ok (al, false))) := by
  constructor
  · rintro ⟨t, ht, h1⟩
    refine refused_tau ⟨t, ht, (dlr_u h hb hp q t).2 (by rintro ⟨h2, h3⟩; rcases h1 with h1 | h1 <;> linarith)⟩ ?_
    intro t ht e' he'
    by_cases hc : 0 ≤ t ∧ t ≤ b.beta
    · rw [(dlr_u h hb hp q t).1 hc.1 hc.2] at he'
      cases he'
    · rw [(dlr_u h hb hp q t).2 hc] at he'
      exact (Except.error.inj he').symm
  · intro hin
    obtain ⟨o, h1, h2, h3⟩ := values_tau hs (b := d.sampled q) (dlr_size h) p
      (fun t i => poleTau b.beta (d.poles.get i) t) fun t ht => (dlr_u h hb hp q t).1 (hin t ht).1 (hin t ht).2
    refine ⟨o, h1, h2, fun al axis j hj hal => ?_⟩
    obtain ⟨x, hx, ax, hf⟩ := h3 al axis j hj hal
    refine ⟨x, hx, ax, fun hinj => ?_⟩
    obtain ⟨w, hw⟩ := hf hinj
    rw [hw, no_warning (b := d.sampled q) rfl hw]

/-- DLR, Matsubara frequencies of the parity of the statistics, for bosons without the frequency zero or without a
pole at zero.  `evaluate` gives the Fourier transform at the points of the function with the given pole coefficients;
if these are determined by the values, `fit` returns them, without warning.  With `positive_only` the latter holds for
real coefficients. -/
theorem C71_dlr_matsubara {svds : Svds} (hs : svds.Ok) (h : Dlr.init libs isLogistic dflt b points = .ok (d, w0))
    (hb : 0 < b.beta) (q : Search) (ns : List ℤ) (hpar : ∀ n ∈ ns, b.statistics = "F" ↔ Odd n)
    (hz : 0 ∉ ns ∨ 0 ∉ d.poles) (po : Bool) (hpo : po = true → ns ≠ [] ∧ ∀ n ∈ ns, 0 ≤ n) :
    ∃ o, matsInit svds (d.sampled q) (some (1, .ints ns)) po = .ok o ∧ o.points.Perm ns ∧ o.points.Pairwise (· ≤ ·) ∧
      (∀ (al : NdArray ℂ) (axis : ℤ) (j : ℕ), ValidAxis axis al.ndim j → al.shape[j]? = some d.poles.length →
        ∃ x, matsEvaluate svds o al (some axis) none = .ok x ∧
          AppliedAlong (fun g i => matsubara b.beta (poleSum b.beta d.poles g) (o.points.get i)) j al x ∧
          (po = false → (∀ g, (∀ n ∈ ns, matsubara b.beta (poleSum b.beta d.poles g) n = 0) → g = 0) →
            matsFit svds o x (some axis) none = .ok (al, false))) ∧
      ∀ (al : NdArray ℝ) (axis : ℤ) (j : ℕ), ValidAxis axis al.ndim j → al.shape[j]? = some d.poles.length → po = true →
        (∀ g : Fin d.poles.length → ℝ, (∀ n ∈ ns, matsubara b.beta (poleSum b.beta d.poles fun i => (g i : ℂ)) n = 0) →
          g = 0) →
        ∃ x, matsEvaluate svds o (mapArr Complex.ofReal al) (some axis) none = .ok x ∧
          matsFit svds o x (some axis) none = .ok (mapArr Complex.ofReal al, false) := by
  obtain ⟨o, h1, h2, h3, h4, h5⟩ := values_matsubara hs (b := d.sampled q) (dlr_size h) ns
    (fun n i => ftTau b.beta (poleTau b.beta (d.poles.get i)) n) (fun n hn => dlr_uhat h hb q n (hpar n hn) (by
      rcases hz with hz | hz
      · exact Or.inl fun h0 => hz (h0 ▸ hn)
      · exact Or.inr hz)) po hpo fun _ _ => ftTau_zero_real _ _
  have hval : ∀ (g : Fin d.poles.length → ℂ) (n : ℤ), matsubara b.beta (poleSum b.beta d.poles g) n =
      ∑ i, g i * ftTau b.beta (poleTau b.beta (d.poles.get i)) n := fun g n =>
    ft_combo b.beta (fun i => poleTau b.beta (d.poles.get i)) (fun i => (poleTau_continuous _ _).intervalIntegrable _ _) g n
  refine ⟨o, h1, h2, h3, fun al axis j hj hal => ?_, fun al axis j hj hal ht hinj => ?_⟩
  · obtain ⟨x, hx, ax, hf⟩ := h4 al axis j hj hal
    refine ⟨x, hx, applied_congr ax fun g => funext fun i => (hval g _).symm, fun hpf hinj => ?_⟩
    obtain ⟨w, hw⟩ := hf hpf fun g hg => hinj g fun n hn => (hval g n).trans (hg n hn)
    rw [hw, no_warning (b := d.sampled q) rfl hw]
  · obtain ⟨x, w, hx, hw⟩ := h5 al axis j hj hal ht fun g hg => hinj g fun n hn => (hval _ n).trans (hg n hn)
    exact ⟨x, hx, by rw [hw, no_warning (b := d.sampled q) rfl hw]⟩

/-- With a pole at zero, the bosonic frequency zero is refused (the value of the code is `0 / 0`), although the
function has a Fourier transform there. -/
theorem C71_dlr_zero {svds : Svds} (h : Dlr.init libs isLogistic dflt b points = .ok (d, w0)) (hb : 0 < b.beta)
    (hst : b.statistics ≠ "F") (q : Search) (ns : List ℤ) (hn : 0 ∈ ns) (hpar : ∀ n ∈ ns, Even n) (hp : 0 ∈ d.poles)
    (po : Bool) (hpo : po = true → ∀ n ∈ ns, 0 ≤ n) :
    matsInit svds (d.sampled q) (some (1, .ints ns)) po = .error .nanResult := by
  obtain ⟨-, -, hu⟩ := dlr_attrs h
  refine refused_matsubara po hpo ⟨0, hn, ?_⟩ fun n hn e he => ?_
  · show Sampling.row d.size (List.ofFn fun i => d.uhat.call (fun _ : Fin 1 => 0) i 0) = _
    rw [hu]
    refine row_none _ ?_
    obtain ⟨i, hi⟩ := List.get_of_mem hp
    rw [List.mem_ofFn]
    exact ⟨i, (C50_boson_negation ⟨b.statistics, b.beta, d.poles⟩ hb (fun _ : Fin 1 => 0) i 0 rfl hi).1⟩
  · by_cases h0 : n = 0
    · subst h0
      have he' : Sampling.row d.size (List.ofFn fun i => d.uhat.call (fun _ : Fin 1 => 0) i 0) = .error e := he
      rw [hu] at he'
      rw [row_none _ (by
        obtain ⟨i, hi⟩ := List.get_of_mem hp
        rw [List.mem_ofFn]
        exact ⟨i, (C50_boson_negation ⟨b.statistics, b.beta, d.poles⟩ hb (fun _ : Fin 1 => 0) i 0 rfl hi).1⟩)] at he'
      exact (Except.error.inj he').symm
    · rw [dlr_uhat h hb q n (by simp [hst, hpar n hn]) (Or.inl h0)] at he
      cases he

/-- Frequencies of the wrong parity are not refused: with fermionic statistics and even frequencies `evaluate` gives
`1 / (i nu - omega)` for a pole at `omega`, which is not the Fourier transform. -/
theorem C71_dlr_parity_negation {svds : Svds} (hs : svds.Ok) (h : Dlr.init libs isLogistic dflt b points = .ok (d, w0))
    (hb : 0 < b.beta) (hst : b.statistics = "F") (q : Search) (ns : List ℤ) (hpar : ∀ n ∈ ns, Even n)
    (hz : 0 ∉ ns ∨ 0 ∉ d.poles) :
    (∃ o, matsInit svds (d.sampled q) (some (1, .ints ns)) false = .ok o ∧ o.points.Perm ns ∧
      ∀ (al : NdArray ℂ) (axis : ℤ) (j : ℕ), ValidAxis axis al.ndim j → al.shape[j]? = some d.poles.length →
        ∃ x, matsEvaluate svds o al (some axis) none = .ok x ∧
          AppliedAlong (fun (g : Fin d.poles.length → ℂ) i =>
            ∑ l, g l * (1 / (Complex.I * (o.points.get i : ℤ) * Real.pi / b.beta - (d.poles.get l : ℝ)))) j al x) ∧
    ∀ n ∈ ns, ∀ w ∈ d.poles, (1 / (Complex.I * n * Real.pi / b.beta - (w : ℝ)) : ℂ) ≠ ftTau b.beta (poleTau b.beta w) n := by
  obtain ⟨-, -, hu⟩ := dlr_attrs h
  have hne : ∀ n ∈ ns, ∀ w ∈ d.poles, n ≠ 0 ∨ w ≠ 0 := by
    intro n hn w hw
    rcases hz with hz | hz
    · exact Or.inl fun h0 => hz (h0 ▸ hn)
    · exact Or.inr fun h0 => hz (h0 ▸ hw)
  constructor
  · obtain ⟨o, h1, h2, -, h4, -⟩ := values_matsubara hs (b := d.sampled q) (dlr_size h) ns
      (fun n i => 1 / (Complex.I * n * Real.pi / b.beta - (d.poles.get i : ℝ))) (fun n hn => by
        show Sampling.row d.size (List.ofFn fun i => d.uhat.call (fun _ : Fin 1 => n) i 0) = _
        rw [hu]
        have key : ∀ i : Fin d.poles.length,
            (MatsubaraPoles.mk b.statistics b.beta d.poles).call (fun _ : Fin 1 => n) i 0 =
              some (1 / (Complex.I * n * Real.pi / b.beta - (d.poles.get i : ℝ))) := by
          intro i
          unfold MatsubaraPoles.call
          simp only [hst, if_true]
          unfold divC
          rw [if_neg (denom_ne b.beta hb _ _ (hne n hn _ (List.get_mem _ _)))]
        simp only [key]
        exact row_ofFn rfl _) false (by simp) (fun h0 l => by
          have : (1 / (Complex.I * ((0 : ℤ) : ℂ) * Real.pi / b.beta - ((d.poles.get l : ℝ) : ℂ))) =
              ((-(1 / d.poles.get l) : ℝ) : ℂ) := by
            push_cast
            rw [mul_zero, zero_mul, zero_div, zero_sub, div_neg]
          simp only [this]
          exact Complex.ofReal_im _)
    exact ⟨o, h1, h2, fun al axis j hj hal => by
      obtain ⟨x, hx, ax, -⟩ := h4 al axis j hj hal
      exact ⟨x, hx, ax⟩⟩
  · intro n hn w hw
    obtain ⟨i, rfl⟩ := List.get_of_mem hw
    have hd := denom_ne b.beta hb _ _ (hne n hn _ (List.get_mem d.poles i))
    obtain ⟨h1, h2⟩ := C50_boson_partial ⟨"B", b.beta, d.poles⟩ (by simp) hb (fun _ : Fin 1 => n)
      (fun _ => hpar n hn) i 0 (hne n hn _ (List.get_mem d.poles i))
    rw [Option.some.inj (h1.symm.trans h2)]
    intro heq
    rw [div_left_inj' hd] at heq
    have := Real.tanh_lt_one (b.beta * d.poles.get i / 2)
    have h3 : (1 : ℝ) = Real.tanh (b.beta * d.poles.get i / 2) := by exact_mod_cast heq
    linarith

/-- The default points of the DLR are those of the underlying basis. -/
theorem C71_dlr_default {svds : Svds} (hs : svds.Ok) (h : Dlr.init libs isLogistic dflt b points = .ok (d, w0))
    (q : Search) :
    (∀ p w, b.defaultTau q.tol (q.u b.sve) (q.du b.sve) none = some (.ok (p, w)) →
      tauInit svds (d.sampled q) none = tauInit svds (d.sampled q) (some (1, p))) ∧
    ∀ ns w, b.defaultMatsubara (q.uhat b.statistics b.sve) none false = some (.ok (ns, w)) → ns.Pairwise (· ≤ ·) →
      matsInit svds (d.sampled q) none false = matsInit svds (d.sampled q) (some (1, .ints ns)) false := by
  obtain ⟨rfl, -, -⟩ := dlr_attrs h
  constructor
  · intro p w hp
    refine (C63_default hs (b := d.sampled q)).1 p ?_
    show outcome _ = _
    rw [hp]
    rfl
  · intro ns w hp hs'
    refine (C63_default hs (b := d.sampled q)).2.2.1 false ns ?_ hs' (by simp)
    show outcome _ = _
    rw [hp]
    rfl

end

/-! ## Augmented bases -/

section
variable {fp : Fp} {compute : KernelInfo → Option ℝ → PyM SveResult} {stat : String} {beta wmax : ℝ}
    {eps : Option ℝ} {maxSize : Option ℕ} {kernel : Option KernelInfo} {sve : Option SveResult} {k : KernelInfo}
    {lam : ℝ} {r : SveResult} {h : Good r} {e : ℝ} {m : ℕ} {b : FiniteTemp.Basis}

/-- Constant, linear function and basis functions. -/
noncomputable def constLinearFns (b : FiniteTemp.Basis) (beta : ℝ) : Fin (2 + b.size) → ℝ → ℝ :=
  Fin.append ![unitConst beta, unitLinear beta] fun l => fn b.u l

/-- The function of imaginary time with given coefficients of a constant, a linear function, and the basis. -/
noncomputable def constLinear (b : FiniteTemp.Basis) (beta : ℝ) (g : Fin (2 + b.size) → ℂ) (tau : ℝ) : ℂ :=
  g ⟨0, by omega⟩ * (1 / Real.sqrt beta : ℝ) + g ⟨1, by omega⟩ * (Real.sqrt (3 / beta) * (2 * tau / beta - 1) : ℝ) +
    timeValue b (fun l => g (Fin.natAdd 2 l)) tau

theorem constLinear_eq (b : FiniteTemp.Basis) (beta : ℝ) (g : Fin (2 + b.size) → ℂ) (tau : ℝ) :
    constLinear b beta g tau = ∑ l, g l * (constLinearFns b beta l tau : ℂ) := by
  rw [Fin.sum_univ_add, Fin.sum_univ_two]
  simp only [constLinearFns, Fin.append_left, Fin.append_right]
  rfl

theorem constLinear_values (v : Valid fp compute "B" beta wmax eps maxSize kernel sve k lam r h e m)
    (hb : make fp compute "B" beta wmax eps maxSize kernel sve = .ok b) :
    ∃ o1 o2, augInit b [TauConst true, TauLinear] = .ok ⟨b, [o1, o2]⟩ ∧
      (∀ t, 0 ≤ t → t ≤ beta → ∀ q, ((AugBasis.mk b [o1, o2]).sampled q).u t = .ok fun l => constLinearFns b beta l t) ∧
      (∀ t, ¬ (0 ≤ t ∧ t ≤ beta) → ∀ q, ((AugBasis.mk b [o1, o2]).sampled q).u t = .error .valueError) ∧
      ∀ n : ℤ, |(n : ℝ)| < 40 * lam → Even n → ∀ q,
        ((AugBasis.mk b [o1, o2]).sampled q).uhat n = .ok fun l => ftTau beta (constLinearFns b beta l) n := by
  have d := v.describes hb
  have hbeta : b.beta = beta := d.beta_eq
  obtain ⟨o1, o2, ho, hc1, hc2⟩ := (C48_bosonic_only true b.statistics b.beta (by rw [hbeta]; exact v.hbeta)).1
    d.statistics
  rw [hbeta] at hc1 hc2
  refine ⟨o1, o2, by simp only [augInit, ho], fun t h0 h1 q => ?_, fun t ht q => ?_, fun n hn he q => ?_⟩
  · have hcall : (AugBasis.mk b [o1, o2]).u.call ⟨t, false⟩ = .ok (List.ofFn fun l => some (constLinearFns b beta l t)) := by
      unfold AugFn.call AugBasis.u tauFn
      simp only [call_ok v hb h0 h1, Except.map, List.map, AugFn.callAll,
        (C48_const_call true beta o1 hc1 ⟨t, false⟩).1 ⟨h0, h1⟩, (C48_linear_call beta o2 hc2 ⟨t, false⟩).1 ⟨h0, h1⟩]
      congr 1
      rw [List.ofFn_add]
      simp [List.ofFn_succ, constLinearFns, Fin.append_left, Fin.append_right]
    show (match (AugBasis.mk b [o1, o2]).u.call ⟨t, false⟩ with
      | .error e => Except.error e
      | .ok l => Sampling.row (AugBasis.mk b [o1, o2]).size l) = _
    rw [hcall]
    exact row_ofFn rfl _
  · have hout : b.u.call t = .error .valueError := by
      obtain ⟨b', hb', h1, -⟩ := C39_range v
      obtain rfl := Except.ok.inj (hb.symm.trans hb')
      exact h1 t ht
    have hcall : (AugBasis.mk b [o1, o2]).u.call ⟨t, false⟩ = .error .valueError := by
      unfold AugFn.call AugBasis.u tauFn
      simp only [hout, Except.map]
    show (match (AugBasis.mk b [o1, o2]).u.call ⟨t, false⟩ with
      | .error e => Except.error e
      | .ok l => Sampling.row (AugBasis.mk b [o1, o2]).size l) = _
    rw [hcall]
    rfl
  · obtain ⟨b', hb', h1, -⟩ := C59_uhat v n hn
    obtain rfl := Except.ok.inj (hb.symm.trans hb')
    have hodd : ("B" = "F" ↔ Odd n) := by
      simp [Int.not_odd_iff_even.2 he]
    have hcall : (AugBasis.mk b [o1, o2]).uhat.call ⟨n, false⟩ = .ok (List.ofFn fun l => ftTau beta (constLinearFns b beta l) n) := by
      unfold AugFn.call AugBasis.uhat matsFn
      simp only [h1 hodd, Except.map, List.map, AugFn.callAll, (C48_const_hat_partial beta o1 hc1 ⟨n, false⟩).1 he,
        (C48_linear_hat_partial beta o2 hc2 ⟨n, false⟩ rfl).1 he]
      congr 1
      rw [List.ofFn_add]
      simp [List.ofFn_succ, constLinearFns, Fin.append_left, Fin.append_right]
      rfl
    show (match (AugBasis.mk b [o1, o2]).uhat.call ⟨n, false⟩ with
      | .error e => Except.error e
      | .ok l => Sampling.row (AugBasis.mk b [o1, o2]).size (l.map some)) = _
    rw [hcall]
    show Sampling.row (AugBasis.mk b [o1, o2]).size ((List.ofFn fun l => ftTau beta (constLinearFns b beta l) n).map some) = _
    rw [List.map_ofFn]
    exact row_ofFn rfl _

theorem fn_int (v : Valid fp compute stat beta wmax eps maxSize kernel sve k lam r h e m)
    (hb : make fp compute stat beta wmax eps maxSize kernel sve = .ok b) (l : Fin b.size) :
    IntervalIntegrable (fn b.u l) volume 0 beta := by
  have d := v.describes hb
  have h1 := fn_integrable d.uwf l (fun _ => 1) continuous_const
  simp only [one_mul, d.umin, d.umax] at h1
  exact h1

/-- A bosonic basis augmented with a constant and a linear function of imaginary time.  Times outside `[0, beta]` are
refused with ValueError; otherwise sampling in time and at even frequencies below the cutoff of the asymptotic model
is evaluation, at the points, of the function with the given coefficients and of its Fourier transform; if the
coefficients are determined by these values, `fit` returns them, without warning. -/
theorem C71_const_linear {svds : Svds} (hs : svds.Ok)
    (v : Valid fp compute "B" beta wmax eps maxSize kernel sve k lam r h e m)
    (hb : make fp compute "B" beta wmax eps maxSize kernel sve = .ok b) (q : Search) :
    ∃ a, augInit b [TauConst true, TauLinear] = .ok a ∧
      (∀ p : List ℝ, (∃ t ∈ p, t < 0 ∨ beta < t) → tauInit svds (a.sampled q) (some (1, p)) = .error .valueError) ∧
      (∀ p : List ℝ, (∀ t ∈ p, 0 ≤ t ∧ t ≤ beta) → ∃ o, tauInit svds (a.sampled q) (some (1, p)) = .ok o ∧ o.points = p ∧
        ∀ (al : NdArray ℂ) (axis : ℤ) (j : ℕ), ValidAxis axis al.ndim j → al.shape[j]? = some (2 + b.size) →
          ∃ x, tauEvaluate svds o al (some axis) none = .ok x ∧
            AppliedAlong (fun g i => constLinear b beta g (o.points.get i)) j al x ∧
            ((∀ g, (∀ t ∈ p, constLinear b beta g t = 0) → g = 0) →
              tauFit svds o x (some axis) none = .ok (al, false))) ∧
      ∀ ns : List ℤ, (∀ n ∈ ns, Even n ∧ |(n : ℝ)| < 40 * lam) →
        ∃ o, matsInit svds (a.sampled q) (some (1, .ints ns)) false = .ok o ∧ o.points.Perm ns ∧
        ∀ (al : NdArray ℂ) (axis : ℤ) (j : ℕ), ValidAxis axis al.ndim j → al.shape[j]? = some (2 + b.size) →
          ∃ x, matsEvaluate svds o al (some axis) none = .ok x ∧
            AppliedAlong (fun g i => matsubara beta (constLinear b beta g) (o.points.get i)) j al x ∧
            ((∀ g, (∀ n ∈ ns, matsubara beta (constLinear b beta g) n = 0) → g = 0) →
              matsFit svds o x (some axis) none = .ok (al, false)) := by
  obtain ⟨o1, o2, ha, hu, hout, huhat⟩ := constLinear_values v hb
  have hint : ∀ l, IntervalIntegrable (constLinearFns b beta l) volume 0 beta := by
    intro l
    refine Fin.addCases (fun i => ?_) (fun i => ?_) l
    · unfold constLinearFns
      rw [Fin.append_left]
      fin_cases i
      · exact (continuous_const).intervalIntegrable _ _
      · refine Continuous.intervalIntegrable ?_ _ _
        show Continuous (unitLinear beta)
        unfold unitLinear
        fun_prop
    · unfold constLinearFns
      rw [Fin.append_right]
      exact fn_int v hb i
  have hval : ∀ (g : Fin (2 + b.size) → ℂ) (n : ℤ), matsubara beta (constLinear b beta g) n =
      ∑ l, g l * ftTau beta (constLinearFns b beta l) n := by
    intro g n
    rw [show constLinear b beta g = fun t => ∑ l, g l * (constLinearFns b beta l t : ℂ) from
      funext fun t => constLinear_eq b beta g t]
    exact ft_combo beta _ hint g n
  have hw : ((AugBasis.mk b [o1, o2]).sampled q).wellConditioned = false := rfl
  have hsz : 0 < ((AugBasis.mk b [o1, o2]).sampled q).size := by
    show 0 < 2 + b.size
    omega
  refine ⟨_, ha, fun p hp => ?_, fun p hp => ?_, fun ns hns => ?_⟩
  · obtain ⟨t, ht, h1⟩ := hp
    refine refused_tau ⟨t, ht, hout t (by rintro ⟨h2, h3⟩; rcases h1 with h1 | h1 <;> linarith) q⟩ ?_
    intro t ht e' he'
    by_cases hc : 0 ≤ t ∧ t ≤ beta
    · rw [hu t hc.1 hc.2] at he'
      cases he'
    · rw [hout t hc] at he'
      exact (Except.error.inj he').symm
  · obtain ⟨o, h1, h2, h3⟩ := values_tau hs hsz p (fun t l => constLinearFns b beta l t)
      fun t ht => hu t (hp t ht).1 (hp t ht).2 q
    refine ⟨o, h1, h2, fun al axis j hj hal => ?_⟩
    obtain ⟨x, hx, ax, hf⟩ := h3 al axis j hj hal
    refine ⟨x, hx, applied_congr ax fun g => funext fun i => (constLinear_eq b beta g _).symm, fun hinj => ?_⟩
    obtain ⟨w, hw'⟩ := hf fun g hg => hinj g fun t ht => (constLinear_eq b beta g t).trans (hg t ht)
    rw [hw', no_warning hw hw']
  · obtain ⟨o, h1, h2, -, h4, -⟩ := values_matsubara hs hsz ns (fun n l => ftTau beta (constLinearFns b beta l) n)
      (fun n hn => huhat n (hns n hn).2 (hns n hn).1 q) false (by simp) fun _ _ => ftTau_zero_real _ _
    refine ⟨o, h1, h2, fun al axis j hj hal => ?_⟩
    obtain ⟨x, hx, ax, hf⟩ := h4 al axis j hj hal
    refine ⟨x, hx, applied_congr ax fun g => funext fun i => (hval g _).symm, fun hinj => ?_⟩
    obtain ⟨w, hw'⟩ := hf rfl fun g hg => hinj g fun n hn => (hval g n).trans (hg n hn)
    rw [hw', no_warning hw hw']

/-- A constant in frequency and the transform of the function of imaginary time with given coefficients. -/
noncomputable def vertexValue (b : FiniteTemp.Basis) (beta : ℝ) (g : Fin (1 + b.size) → ℂ) (n : ℤ) : ℂ :=
  g ⟨0, by omega⟩ + matsubara beta (timeValue b fun l => g (Fin.natAdd 1 l)) n

/-- A basis augmented with a constant in frequency (vertex basis) can be sampled in frequency but not in time: every
time in `[0, beta]` is refused, as the values are NaN.  `evaluate` gives the constant plus the Fourier transform of the
function with the given coefficients; if these are determined by the values, `fit` returns them.  With
`positive_only` the latter holds for real coefficients. -/
theorem C71_vertex {svds : Svds} (hs : svds.Ok)
    (v : Valid fp compute stat beta wmax eps maxSize kernel sve k lam r h e m)
    (hb : make fp compute stat beta wmax eps maxSize kernel sve = .ok b) (q : Search) :
    ∃ a, augInit b [MatsubaraConst] = .ok a ∧
      (∀ p : List ℝ, p ≠ [] → (∀ t ∈ p, 0 ≤ t ∧ t ≤ beta) →
        tauInit svds (a.sampled q) (some (1, p)) = .error .nanResult) ∧
      ∀ ns : List ℤ, (∀ n ∈ ns, (stat = "F" ↔ Odd n) ∧ |(n : ℝ)| < 40 * lam) → ∀ po : Bool,
        (po = true → ns ≠ [] ∧ ∀ n ∈ ns, 0 ≤ n) →
        ∃ o, matsInit svds (a.sampled q) (some (1, .ints ns)) po = .ok o ∧ o.points.Perm ns ∧
        (∀ (al : NdArray ℂ) (axis : ℤ) (j : ℕ), ValidAxis axis al.ndim j → al.shape[j]? = some (1 + b.size) →
          ∃ x, matsEvaluate svds o al (some axis) none = .ok x ∧
            AppliedAlong (fun g i => vertexValue b beta g (o.points.get i)) j al x ∧
            (po = false → (∀ g, (∀ n ∈ ns, vertexValue b beta g n = 0) → g = 0) →
              ∃ w, matsFit svds o x (some axis) none = .ok (al, w))) ∧
        ∀ (al : NdArray ℝ) (axis : ℤ) (j : ℕ), ValidAxis axis al.ndim j → al.shape[j]? = some (1 + b.size) → po = true →
          (∀ g : Fin (1 + b.size) → ℝ, (∀ n ∈ ns, vertexValue b beta (fun l => (g l : ℂ)) n = 0) → g = 0) →
          ∃ x w, matsEvaluate svds o (mapArr Complex.ofReal al) (some axis) none = .ok x ∧
            matsFit svds o x (some axis) none = .ok (mapArr Complex.ofReal al, w) := by
  have d := v.describes hb
  have hbeta : b.beta = beta := d.beta_eq
  obtain ⟨o1, ho, -, hhat, hcall⟩ := C48_matsubara b.statistics b.beta (by rw [hbeta]; exact v.hbeta)
  rw [hbeta] at hcall
  have ha : augInit b [MatsubaraConst] = .ok ⟨b, [o1]⟩ := by simp only [augInit, ho]
  set V : ℤ → Fin (1 + b.size) → ℂ := fun n => Fin.append (fun _ : Fin 1 => 1) fun l => ftTau beta (fn b.u l) n with hV
  have hval : ∀ (g : Fin (1 + b.size) → ℂ) (n : ℤ), vertexValue b beta g n = ∑ l, g l * V n l := by
    intro g n
    rw [Fin.sum_univ_add]
    simp only [hV, Fin.append_left, Fin.append_right, Finset.univ_unique, Finset.sum_singleton, mul_one]
    unfold vertexValue
    rw [show timeValue b (fun l => g (Fin.natAdd 1 l)) = fun t => ∑ l, g (Fin.natAdd 1 l) * (fn b.u l t : ℂ) from rfl,
      ft_combo beta _ (fn_int v hb)]
    rfl
  have hVr : ∀ l : Fin (1 + b.size), (V 0 l).im = 0 := by
    intro l
    refine Fin.addCases (fun i => ?_) (fun i => ?_) l
    · simp [hV, Fin.append_left]
    · simp only [hV, Fin.append_right]
      exact ftTau_zero_real _ _
  have huhat : ∀ n : ℤ, (stat = "F" ↔ Odd n) → |(n : ℝ)| < 40 * lam →
      ((AugBasis.mk b [o1]).sampled q).uhat n = .ok (V n) := by
    intro n hpar hn
    obtain ⟨b', hb', h1, -⟩ := C59_uhat v n hn
    obtain rfl := Except.ok.inj (hb.symm.trans hb')
    have hc : (AugBasis.mk b [o1]).uhat.call ⟨n, false⟩ = .ok (List.ofFn (V n)) := by
      unfold AugFn.call AugBasis.uhat matsFn
      simp only [h1 hpar, Except.map, List.map, AugFn.callAll, hhat]
      congr 1
      rw [List.ofFn_add]
      simp [List.ofFn_succ, hV, Fin.append_left, Fin.append_right]
      rfl
    show (match (AugBasis.mk b [o1]).uhat.call ⟨n, false⟩ with
      | .error e => Except.error e
      | .ok l => Sampling.row (AugBasis.mk b [o1]).size (l.map some)) = _
    rw [hc]
    show Sampling.row (AugBasis.mk b [o1]).size ((List.ofFn (V n)).map some) = _
    rw [List.map_ofFn]
    exact row_ofFn rfl _
  have hu : ∀ t, 0 ≤ t → t ≤ beta → ((AugBasis.mk b [o1]).sampled q).u t = .error .nanResult := by
    intro t h0 h1
    have hc : (AugBasis.mk b [o1]).u.call ⟨t, false⟩ = .ok (none :: List.ofFn fun l => some (fn b.u l t)) := by
      unfold AugFn.call AugBasis.u tauFn
      simp only [call_ok v hb h0 h1, Except.map, List.map, AugFn.callAll, hcall ⟨t, false⟩ ⟨h0, h1⟩]
      rfl
    show (match (AugBasis.mk b [o1]).u.call ⟨t, false⟩ with
      | .error e => Except.error e
      | .ok l => Sampling.row (AugBasis.mk b [o1]).size l) = _
    rw [hc]
    exact row_none _ (by simp)
  have hsz : 0 < ((AugBasis.mk b [o1]).sampled q).size := by
    show 0 < 1 + b.size
    omega
  refine ⟨_, ha, fun p hne hp => ?_, fun ns hns po hpo => ?_⟩
  · obtain ⟨t, ht⟩ := List.exists_mem_of_ne_nil p hne
    exact refused_tau ⟨t, ht, hu t (hp t ht).1 (hp t ht).2⟩ fun t ht e' he' => by
      rw [hu t (hp t ht).1 (hp t ht).2] at he'
      exact (Except.error.inj he').symm
  · obtain ⟨o, h1, h2, -, h4, h5⟩ := values_matsubara hs hsz ns V (fun n hn => huhat n (hns n hn).1 (hns n hn).2) po hpo
      (fun _ l => hVr l)
    refine ⟨o, h1, h2, fun al axis j hj hal => ?_, fun al axis j hj hal ht hinj => ?_⟩
    · obtain ⟨x, hx, ax, hf⟩ := h4 al axis j hj hal
      exact ⟨x, hx, applied_congr ax fun g => funext fun i => (hval g _).symm, fun hpf hinj =>
        hf hpf fun g hg => hinj g fun n hn => (hval g n).trans (hg n hn)⟩
    · exact h5 al axis j hj hal ht fun g hg => hinj g fun n hn => (hval _ n).trans (hg n hn)

end

/-! Non-vacuity: the two-function basis of C39, with poles at -1 and 1, sampled at 0 and 10, and augmented. -/

theorem exDlr (lapack : Bool) : ∃ b, make Fp.exact (fun _ _ => .error .valueError) "F" 10 4 (some 0.01) none none
    (some (exSve 0.01)) = .ok b ∧ b.beta = 10 ∧ ∃ d w, Dlr.init (idealLibs false lapack) (fun k => k.ypower = 0)
      (.error .valueError) b (some [-1, 1]) = .ok (d, w) ∧ d.poles = [-1, 1] := by
  obtain ⟨b, hb, hex, hk, h1, h2, h3⟩ := expands_of_sve (exValid 0.01 0.01 (by norm_num) fun _ _ => .error .valueError)
    rfl (by norm_num) 3 exSve_expands
  obtain ⟨d, w, hd, hp, -⟩ := C51_to_IR (idealLibs_ok false lapack) (isLogistic := fun k => k.ypower = 0)
    (dflt := .error .valueError) (points := some [-1, 1]) (by rw [h3]; decide) (by rw [h1]; norm_num)
    (by rw [hk]; rfl) (Or.inl rfl) (by simp) (by rw [h2]; intro w hw; fin_cases hw <;> norm_num) hex
  exact ⟨b, hb, h1, d, w, hd, hp⟩

theorem poleSum_two (beta : ℝ) {poles : List ℝ} (hp : poles = [-1, 1]) (g : Fin poles.length → ℂ) (t : ℝ) :
    poleSum beta poles g t = g ⟨0, by rw [hp]; simp⟩ * (poleTau beta (-1) t : ℂ) +
      g ⟨1, by rw [hp]; simp⟩ * (poleTau beta 1 t : ℂ) := by
  subst hp
  unfold poleSum
  exact Fin.sum_univ_two _

example (lapack : Bool) (q : Search) : ∃ d o, d.poles = [-1, 1] ∧ tauInit idealSvds (DLR.sampled d q) (some (1, [0, 10])) = .ok o ∧
    ∀ al : NdArray ℂ, al.shape = [2, 3] → ∃ x, tauEvaluate idealSvds o al (some 0) none = .ok x ∧
      tauFit idealSvds o x (some 0) none = .ok (al, false) := by
  obtain ⟨b, -, hbeta, d, w, hd, hp⟩ := exDlr lapack
  obtain ⟨o, h1, -, h3⟩ := (C71_dlr_tau idealSvds_ok hd (by rw [hbeta]; norm_num) ⟨1, by rw [hp]; simp, by norm_num⟩ q
    [0, 10]).2 (by rw [hbeta]; intro t ht; simp at ht; rcases ht with rfl | rfl <;> norm_num)
  refine ⟨d, o, hp, h1, fun al hal => ?_⟩
  obtain ⟨x, hx, -, hf⟩ := h3 al 0 0 ⟨by unfold NdArray.ndim; rw [hal]; simp, Or.inl rfl⟩ (by rw [hal, hp]; rfl)
  refine ⟨x, hx, hf fun g hg => ?_⟩
  have g0 := hg 0 (by simp)
  have g1 := hg 10 (by simp)
  rw [poleSum_two _ hp, hbeta] at g0 g1
  set A : ℝ := Real.exp 10 with hA
  have hA1 : 1 < A := by rw [hA]; exact Real.one_lt_exp_iff.2 (by norm_num)
  have hAi : Real.exp (-10) = A⁻¹ := by rw [hA, ← Real.exp_neg]
  have e1 : poleTau 10 (-1) 0 = -(1 / (1 + A)) := by unfold poleTau; norm_num; rw [← hA]
  have e2 : poleTau 10 1 0 = -(A / (1 + A)) := by
    unfold poleTau; norm_num; rw [hAi]; field_simp
    ring
  have e3 : poleTau 10 (-1) 10 = -(A / (1 + A)) := by unfold poleTau; norm_num; rw [← hA]
  have e4 : poleTau 10 1 10 = -(1 / (1 + A)) := by
    unfold poleTau; norm_num; rw [hAi]; field_simp
    ring
  rw [e1, e2] at g0
  rw [e3, e4] at g1
  have hA0 : (1 + (A : ℂ)) ≠ 0 := by
    have : (1 + A) ≠ 0 := by linarith
    exact_mod_cast this
  have hA2 : ((A : ℂ) ^ 2 - 1) ≠ 0 := by
    have : A ^ 2 - 1 ≠ 0 := by nlinarith
    exact_mod_cast this
  push_cast at g0 g1
  field_simp at g0 g1
  set a := g ⟨0, by rw [hp]; simp⟩ with ha
  set c := g ⟨1, by rw [hp]; simp⟩ with hc
  have hc0 : c = 0 := by
    have : ((A : ℂ) ^ 2 - 1) * c = 0 := by linear_combination (-(A : ℂ)) * g0 + g1
    exact (mul_eq_zero.1 this).resolve_left hA2
  have ha0 : a = 0 := by
    have : ((A : ℂ) ^ 2 - 1) * a = 0 := by linear_combination g0 + (-(A : ℂ)) * g1
    exact (mul_eq_zero.1 this).resolve_left hA2
  funext l
  have hl : l.1 < 2 := lt_of_lt_of_eq l.2 (congrArg List.length hp)
  rcases (show l.1 = 0 ∨ l.1 = 1 by omega) with h | h
  · rw [show l = ⟨0, by rw [hp]; simp⟩ from Fin.ext h]; exact ha0
  · rw [show l = ⟨1, by rw [hp]; simp⟩ from Fin.ext h]; exact hc0

example (q : Search) : ∃ b a o, make Fp.exact (fun _ _ => .error .valueError) "F" 10 4 (some 0.01) none none
    (some (exSve 0.01)) = .ok b ∧ augInit b [MatsubaraConst] = .ok a ∧
      matsInit idealSvds (a.sampled q) (some (1, .ints [-3, -1, 1, 3])) false = .ok o := by
  have v := exValid 0.01 0.01 (by norm_num) fun _ _ => .error .valueError
  obtain ⟨b, hb, -⟩ := v.ok
  obtain ⟨a, ha, -, h2⟩ := C71_vertex idealSvds_ok v hb q
  obtain ⟨o, ho, -⟩ := h2 [-3, -1, 1, 3] (by
    intro n hn
    simp at hn
    rcases hn with rfl | rfl | rfl | rfl <;> exact ⟨⟨fun _ => by decide, fun _ => rfl⟩, by norm_num⟩) false (by simp)
  exact ⟨b, a, o, hb, ha, ho⟩

end Verif.Props
