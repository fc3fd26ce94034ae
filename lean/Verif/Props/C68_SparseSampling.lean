import Verif.Model.BasisSet
import Verif.Props.C63_SamplingInit
import Verif.Props.C44_PositiveOnly
import Verif.Props.C54_Parameters
import Verif.Props.C17_SelectOrder
import Verif.Props.C20_MatsubaraPoints
/-!
# C68 — sparse sampling: from imaginary time to Matsubara frequencies and back
-/

namespace Verif.Props
open Verif Verif.Np Verif.Poly Verif.Sve Verif.Kernel Verif.Spec Verif.FiniteTemp Verif.Sampling Verif.Np.NdArray Matrix
open MeasureTheory

/-! ## Any basis -/

theorem rowsOf_errors {P : Type} {n : ℕ} {f : P → PyM (Fin n → ℂ)} {p : List P} {e : PyErr}
    (h : ∃ t ∈ p, f t = .error e) (hall : ∀ t ∈ p, ∀ e', f t = .error e' → e' = e) : rowsOf f p = .error e := by
  induction p with
  | nil => simp at h
  | cons x xs ih =>
    unfold rowsOf
    cases hx : f x with
    | error e' => rw [hall x (by simp) e' hx]
    | ok r =>
      obtain ⟨t, ht, he⟩ := h
      rcases List.mem_cons.1 ht with rfl | ht
      · rw [hx] at he; cases he
      · simp only [ih ⟨t, ht, he⟩ fun t ht => hall t (by simp [ht])]
        rfl

theorem evalMatrix_errors {P : Type} {n : ℕ} {f : P → PyM (Fin n → ℂ)} {p : List P} {e : PyErr}
    (h : ∃ t ∈ p, f t = .error e) (hall : ∀ t ∈ p, ∀ e', f t = .error e' → e' = e) : evalMatrix f p = .error e := by
  have h1 := rowsOf_errors h hall
  unfold evalMatrix
  split
  · rename_i e' he
    rw [h1] at he
    obtain rfl := Except.error.inj he
    rfl
  · rename_i rows hr
    rw [h1] at hr; cases hr

theorem fit_back {svds : Svds} (hs : svds.Ok) {b : SBasis} {P : Type} {p : List P}
    {A : Matrix (Fin p.length) (Fin b.size) ℂ} {M : Mat p.length b.size} (hM : fullMatrix svds A = .ok M)
    (h0 : 0 < b.size) (hinj : ∀ w, A *ᵥ w = 0 → w = 0) {al x : NdArray ℂ} {axis : ℤ} {k : ℕ}
    (hk : ValidAxis axis al.ndim k) (hx : AppliedAlong (fun w => A *ᵥ w) k al x) :
    ∃ w, (Obj.mk (b := b) p false M).fitHere x (some axis) = .ok (al, w) := by
  have hA : A ≠ 0 := by
    rintro rfl
    have := congrFun (hinj (fun _ => 1) (by simp)) ⟨0, h0⟩
    simp at this
  obtain ⟨fit, h1, h2⟩ := fit_full hs hM (Or.inl hA) false
  obtain ⟨r, w, h3, h4⟩ := h2 x axis k (validAxis_applied hx hk) hx.axis'
  refine ⟨w, ?_⟩
  have h5 := hx.comp h4
  have h6 : AppliedAlong (fun (v : Fin b.size → ℂ) i => v i) k al r :=
    applied_congr h5 fun w => (h1 (A *ᵥ w)).recover hinj
  have := h6.unique (applied_id (p := b.size) (fun a : ℂ => a) hx.axis)
  rw [mapArr_id] at this
  rw [← this]
  exact h3

theorem fit_back_split {svds : Svds} (hs : svds.Ok) {b : SBasis} {P : Type} {p : List P}
    {A : Matrix (Fin p.length) (Fin b.size) ℂ} {M : Mat p.length b.size} {hasZero : Bool}
    (hM : splitMatrix svds A hasZero = .ok M) (hrow : ZeroRowReal A hasZero) (h0 : 0 < b.size)
    (hinj : ∀ w : Fin b.size → ℝ, A *ᵥ (fun l => (w l : ℂ)) = 0 → w = 0) {al : NdArray ℝ} {x : NdArray ℂ} {axis : ℤ} {k : ℕ}
    (hk : ValidAxis axis al.ndim k) (hx : AppliedAlong (fun w => A *ᵥ w) k (mapArr Complex.ofReal al) x) :
    ∃ w, (Obj.mk (b := b) p true M).fitHere x (some axis) = .ok (mapArr Complex.ofReal al, w) := by
  obtain ⟨d, hd, ha, hpos, hls⟩ := splitMatrix_ok hs hrow
  obtain rfl := Except.ok.inj (hM.symm.trans hd)
  have hback : ∀ w : Fin b.size → ℝ, d.pinv (A *ᵥ fun l => (w l : ℂ)) = w := by
    intro w
    have h := (hls (A *ᵥ fun l => (w l : ℂ))).1 w
    rw [sub_self, sq_eq_zero.2 rfl] at h
    have h0 := sq_eq_zero.1 (le_antisymm h (sq_nonneg' _))
    rw [← Matrix.mulVec_sub] at h0
    have h1 := hinj (d.pinv (A *ᵥ fun l => (w l : ℂ)) - w) (by
      rw [← h0]
      congr 1
      funext l
      simp)
    exact sub_eq_zero.1 h1
  have hr : 0 < d.r := by
    rw [Nat.pos_iff_ne_zero]
    intro hr
    have h1 := congrFun (hback fun _ => 1) ⟨0, h0⟩
    unfold SplitMat.pinv at h1
    simp only [Matrix.mulVec, dotProduct] at h1
    have : IsEmpty (Fin d.r) := by rw [hr]; infer_instance
    rw [Finset.univ_eq_empty, Finset.sum_empty] at h1
    exact zero_ne_one h1
  have hx' := applied_map _ hx
  have hkx : ValidAxis axis x.ndim k := by rw [ndim_of_applied hx']; exact hk
  obtain ⟨y, hy, ay⟩ := matop_spec d.pinv d.lstsqOp (fun y h0 hy => d.lstsqOp_ok (fun i => (hpos i).ne') y h0 hy) x
      (normalizeAxis_iff.2 hkx) hx'.axis'
  have h2 : AppliedAlong (fun (v : Fin b.size → ℝ) i => v i) k al y := applied_congr (hx'.comp ay) hback
  have := h2.unique (applied_id (p := b.size) (fun a : ℝ => a) hx'.axis)
  rw [mapArr_id] at this
  subst this
  have hl : (Mat.split d).lstsq x (some axis) = .ok (mapArr Complex.ofReal y) := by
    show Except.map _ (d.lstsq x (some axis)) = _
    rw [show d.lstsq x (some axis) = .ok y from hy]
    rfl
  have hc : (Mat.split d).cond = .ok (d.s ⟨0, hr⟩ / d.s ⟨d.r - 1, by omega⟩) := by
    show condOf _ = _
    unfold condOf
    rw [dif_pos hr]
  unfold Obj.fitHere
  dsimp only
  rw [hl, hc]
  by_cases hw : b.wellConditioned = true
  · rw [if_pos hw]; exact ⟨_, rfl⟩
  · rw [if_neg hw]; exact ⟨_, rfl⟩

/-! ## IR bases -/

/-- The function of imaginary time with expansion coefficients `g`. -/
noncomputable def timeValue (b : FiniteTemp.Basis) (g : Fin b.size → ℂ) (tau : ℝ) : ℂ := ∑ l, g l * (fn b.u l tau : ℂ)

/-- The Fourier transform of a function on `[0, beta]` at the reduced frequency `n`. -/
noncomputable def matsubara (beta : ℝ) (G : ℝ → ℂ) (n : ℤ) : ℂ :=
  ∫ tau in (0 : ℝ)..beta, Complex.exp (Complex.I * Real.pi * n * tau / beta) * G tau

section
variable {fp : Fp} {compute : KernelInfo → Option ℝ → PyM SveResult} {stat : String} {beta wmax : ℝ}
    {eps : Option ℝ} {maxSize : Option ℕ} {kernel : Option KernelInfo} {sve : Option SveResult} {k : KernelInfo}
    {lam : ℝ} {r : SveResult} {h : Good r} {e : ℝ} {m : ℕ} {b : FiniteTemp.Basis}

theorem call_ok (v : Valid fp compute stat beta wmax eps maxSize kernel sve k lam r h e m)
    (hb : make fp compute stat beta wmax eps maxSize kernel sve = .ok b) {tau : ℝ} (h0 : 0 ≤ tau) (h1 : tau ≤ beta) :
    b.u.call tau = .ok fun l => fn b.u l tau := by
  have d := v.describes hb
  obtain ⟨i, hi⟩ := d.uwf.exists_inSeg (x := tau) (by rw [d.umin]; exact h0) (by rw [d.umax]; exact h1)
  unfold fn
  rw [PPoly.call_eq d.uwf hi]

theorem matsubara_combo (v : Valid fp compute stat beta wmax eps maxSize kernel sve k lam r h e m)
    (hb : make fp compute stat beta wmax eps maxSize kernel sve = .ok b) (g : Fin b.size → ℂ) (n : ℤ) :
    matsubara beta (timeValue b g) n =
      ∑ l, (∫ t in (0 : ℝ)..beta, Complex.exp (Complex.I * Real.pi * n * t / beta) * (fn b.u l t : ℂ)) * g l := by
  have d := v.describes hb
  have hint : ∀ l, IntervalIntegrable
      (fun t : ℝ => Complex.exp (Complex.I * Real.pi * n * t / beta) * (fn b.u l t : ℂ)) volume 0 beta := by
    intro l
    have h1 := fn_integrable d.uwf l (fun _ => 1) continuous_const
    simp only [one_mul, d.umin, d.umax] at h1
    have h2 : IntervalIntegrable (fun y => (fn b.u l y : ℂ)) volume 0 beta := ⟨h1.1.ofReal, h1.2.ofReal⟩
    refine IntervalIntegrable.continuousOn_mul h2 ?_
    fun_prop
  unfold matsubara timeValue
  simp only [Finset.mul_sum]
  rw [intervalIntegral.integral_finset_sum]
  · refine Finset.sum_congr rfl fun l _ => ?_
    rw [← intervalIntegral.integral_mul_const]
    congr 1
    funext t
    ring
  · intro l _
    have := (hint l).mul_const (g l)
    refine this.congr fun t _ => ?_
    ring

/-- Imaginary time.  Points outside `[0, beta]` are refused with ValueError.  Otherwise `evaluate` gives, along the
chosen axis of an array of any shape, the values at the points of the function with the given coefficients; and if a
function in the space of the basis is determined by its values at the points, `fit` returns the coefficients. -/
theorem C68_tau {svds : Svds} (hs : svds.Ok) (v : Valid fp compute stat beta wmax eps maxSize kernel sve k lam r h e m)
    (hb : make fp compute stat beta wmax eps maxSize kernel sve = .ok b) (q : Search) (p : List ℝ) :
    ((∃ t ∈ p, t < 0 ∨ beta < t) → tauInit svds (b.sampled q) (some (1, p)) = .error .valueError) ∧
    ((∀ t ∈ p, 0 ≤ t ∧ t ≤ beta) → ∃ o, tauInit svds (b.sampled q) (some (1, p)) = .ok o ∧ o.points = p ∧
      ∀ (al : NdArray ℂ) (axis : ℤ) (j : ℕ), ValidAxis axis al.ndim j → al.shape[j]? = some b.size →
        ∃ x, tauEvaluate svds o al (some axis) none = .ok x ∧
          AppliedAlong (fun g i => timeValue b g (o.points.get i)) j al x ∧
          ((∀ g, (∀ t ∈ p, timeValue b g t = 0) → g = 0) → ∃ w, tauFit svds o x (some axis) none = .ok (al, w))) := by
  have d := v.describes hb
  have hsz : 0 < b.size := by rw [d.size_eq]; exact v.hpos
  have hu : (b.sampled q).u = b.u.call := rfl
  have hsize : (b.sampled q).size = b.size := rfl
  have hout : ∀ t, ¬ (0 ≤ t ∧ t ≤ beta) → b.u.call t = .error .valueError := by
    obtain ⟨b', hb', h1, -⟩ := C39_range v
    obtain rfl := Except.ok.inj (hb.symm.trans hb')
    exact h1
  constructor
  · rintro ⟨t, ht, h1⟩
    unfold tauInit
    simp only [ne_eq, not_true_eq_false, if_false]
    unfold tauFrom
    rw [evalMatrix_errors (e := .valueError)]
    · refine ⟨t, ht, ?_⟩
      rw [hu, hout t (by rintro ⟨h2, h3⟩; rcases h1 with h1 | h1 <;> linarith)]
      rfl
    · intro t ht e' he'
      rw [hu] at he'
      by_cases hc : 0 ≤ t ∧ t ≤ beta
      · rw [call_ok v hb hc.1 hc.2] at he'
        cases he'
      · rw [hout t hc] at he'
        exact (Except.error.inj he').symm
  · intro hp
    have hev := evalMatrix_ok (n := (b.sampled q).size) (f := fun t => ((b.sampled q).u t).map fun f l => (f l : ℂ))
      (F := fun t l => (fn b.u l t : ℂ)) (p := p)
      (fun t ht => by rw [hu, call_ok v hb (hp t ht).1 (hp t ht).2]; rfl)
    obtain ⟨M, hd, ha, -⟩ := fullMatrix_ok hs (valuesAt (n := (b.sampled q).size) (fun t l => (fn b.u l t : ℂ)) p)
    have hinit : tauInit svds (b.sampled q) (some (1, p)) = .ok ⟨p, false, .full M⟩ := by
      unfold tauInit
      simp only [ne_eq, not_true_eq_false, if_false]
      unfold tauFrom
      simp only [hev, hd]
      rfl
    refine ⟨_, hinit, rfl, fun al axis j hj hal => ?_⟩
    obtain ⟨x, hx, ax⟩ := C45_evaluate (.full M) _ (Or.inl ⟨M, rfl, ha⟩) al axis j hj hal
    have hval : ∀ (g : Fin b.size → ℂ) (t : ℝ), ∑ l, (fn b.u l t : ℂ) * g l = timeValue b g t := fun g t =>
      Finset.sum_congr rfl fun l _ => mul_comm _ _
    refine ⟨x, hx, applied_congr ax fun g => ?_, fun hinj => ?_⟩
    · funext i
      exact hval g _
    · exact fit_back hs hd hsz (fun w hw => hinj w fun t ht => by
        obtain ⟨i, rfl⟩ := List.get_of_mem ht
        exact (hval w _).symm.trans (congrFun hw i)) hj ax

/-- Matsubara frequencies below the cutoff `40 * lambda` of the asymptotic model.  A frequency of the wrong parity is
refused with ValueError.  Otherwise the points are the given ones in ascending order, `evaluate` gives, along the
chosen axis of an array of any shape, the Fourier transform at the points of the function with the given
coefficients; and if a function in the space of the basis is determined by its transform at the points, `fit` returns
the coefficients.  With `positive_only` the latter holds for real coefficients. -/
theorem C68_matsubara {svds : Svds} (hs : svds.Ok)
    (v : Valid fp compute stat beta wmax eps maxSize kernel sve k lam r h e m)
    (hb : make fp compute stat beta wmax eps maxSize kernel sve = .ok b) (q : Search) (ns : List ℤ)
    (hns : ∀ n ∈ ns, |(n : ℝ)| < 40 * lam) (po : Bool) (hpo : po = true → ns ≠ [] ∧ ∀ n ∈ ns, 0 ≤ n) :
    ((∃ n ∈ ns, ¬ (stat = "F" ↔ Odd n)) → matsInit svds (b.sampled q) (some (1, .ints ns)) po = .error .valueError) ∧
    ((∀ n ∈ ns, stat = "F" ↔ Odd n) → ∃ o, matsInit svds (b.sampled q) (some (1, .ints ns)) po = .ok o ∧
      o.points.Perm ns ∧ o.points.Pairwise (· ≤ ·) ∧
      (∀ (al : NdArray ℂ) (axis : ℤ) (j : ℕ), ValidAxis axis al.ndim j → al.shape[j]? = some b.size →
        ∃ x, matsEvaluate svds o al (some axis) none = .ok x ∧
          AppliedAlong (fun g i => matsubara beta (timeValue b g) (o.points.get i)) j al x ∧
          (po = false → (∀ g, (∀ n ∈ ns, matsubara beta (timeValue b g) n = 0) → g = 0) →
            ∃ w, matsFit svds o x (some axis) none = .ok (al, w))) ∧
      ∀ (al : NdArray ℝ) (axis : ℤ) (j : ℕ), ValidAxis axis al.ndim j → al.shape[j]? = some b.size → po = true →
        (∀ g : Fin b.size → ℝ, (∀ n ∈ ns, matsubara beta (timeValue b fun l => (g l : ℂ)) n = 0) → g = 0) →
        ∃ x w, matsEvaluate svds o (mapArr Complex.ofReal al) (some axis) none = .ok x ∧
          matsFit svds o x (some axis) none = .ok (mapArr Complex.ofReal al, w)) := by
  have d := v.describes hb
  have hsz : 0 < b.size := by rw [d.size_eq]; exact v.hpos
  have hu : (b.sampled q).uhat = b.uhat.call := rfl
  have huhat : ∀ n : ℤ, |(n : ℝ)| < 40 * lam → ((stat = "F" ↔ Odd n) → b.uhat.call n = .ok fun l =>
        ∫ t in (0 : ℝ)..beta, Complex.exp (Complex.I * Real.pi * n * t / beta) * (fn b.u l t : ℂ)) ∧
      (¬ (stat = "F" ↔ Odd n) → b.uhat.call n = .error .valueError) := by
    intro n hn
    obtain ⟨b', hb', h1⟩ := C59_uhat v n hn
    obtain rfl := Except.ok.inj (hb.symm.trans hb')
    exact h1
  constructor
  · rintro ⟨n, hn, hpar⟩
    have hpts : matsPoints 1 (.ints ns) po = .ok (npSort ns) := by
      cases po with
      | false => rfl
      | true =>
        obtain ⟨h1, h2⟩ := hpo rfl
        unfold matsPoints
        rw [show Util.checkReducedMatsubara (.ints ns) none = .ok ns from rfl]
        simp only [ne_eq, not_true_eq_false, if_false, if_true]
        cases hh : (npSort ns).head? with
        | none =>
          rw [List.head?_eq_none_iff] at hh
          have := npSort_perm ns
          rw [hh] at this
          exact absurd this.symm.eq_nil h1
        | some p0 =>
          have : 0 ≤ p0 := h2 p0 ((npSort_perm ns).mem_iff.1 (List.mem_of_mem_head? hh))
          simp [this]
    unfold matsInit
    simp only [hpts]
    unfold matsFrom
    rw [evalMatrix_errors (e := .valueError) ⟨n, (npSort_perm ns).mem_iff.2 hn, by
      rw [hu, (huhat n (hns n hn)).2 hpar]; rfl⟩ (fun t ht e' he' => by
        have ht' := (npSort_perm ns).mem_iff.1 ht
        rw [hu] at he'
        by_cases hc : stat = "F" ↔ Odd t
        · rw [(huhat t (hns t ht')).1 hc] at he'
          cases he'
        · rw [(huhat t (hns t ht')).2 hc] at he'
          exact (Except.error.inj he').symm)]
  · intro hpar
    set V : ℤ → Fin (b.sampled q).size → ℂ := fun n l =>
      ∫ t in (0 : ℝ)..beta, Complex.exp (Complex.I * Real.pi * n * t / beta) * (fn b.u l t : ℂ) with hV
    have hval : ∀ (g : Fin b.size → ℂ) (n : ℤ), ∑ l, V n l * g l = matsubara beta (timeValue b g) n :=
      fun g n => (matsubara_combo v hb g n).symm
    obtain ⟨M, hinit, hmat, hform⟩ := matsInit_ok hs (b := b.sampled q) ns V
      (fun n hn => by rw [hu]; exact (huhat n (hns n hn)).1 (hpar n hn)) po hpo
    have hev : ∀ (al : NdArray ℂ) (axis : ℤ) (j : ℕ), ValidAxis axis al.ndim j → al.shape[j]? = some b.size →
        ∃ x, M.matmulAxis al (some axis) = .ok x ∧
          AppliedAlong (fun g => valuesAt V (npSort ns) *ᵥ g) j al x :=
      fun al axis j hj hal => C45_evaluate M _ hform al axis j hj hal
    refine ⟨_, hinit, npSort_perm ns, npSort_sorted ns, fun al axis j hj hal => ?_, fun al axis j hj hal ht hinj => ?_⟩
    · obtain ⟨x, hx, ax⟩ := hev al axis j hj hal
      refine ⟨x, hx, applied_congr ax fun g => ?_, fun hf hinj => ?_⟩
      · funext i
        exact hval g _
      · subst hf
        simp only [Bool.false_eq_true, if_false] at hmat
        exact fit_back hs hmat hsz (fun w hw => hinj w fun n hn => by
          obtain ⟨i, rfl⟩ := List.get_of_mem ((npSort_perm ns).mem_iff.2 hn)
          exact (hval _ _).symm.trans (congrFun hw i)) hj ax
    · subst ht
      simp only [if_true] at hmat
      obtain ⟨x, hx, ax⟩ := hev (mapArr Complex.ofReal al) axis j hj hal
      obtain ⟨w, hw⟩ := fit_back_split hs hmat (fun hz i l hi => by
          have hz' : (0 : ℤ) ∈ ns := of_decide_eq_true hz
          have hi0 : (npSort ns).get i = 0 := by
            have h1 : 0 ≤ (npSort ns).get i := (hpo rfl).2 _ ((npSort_perm ns).mem_iff.1 (List.get_mem _ _))
            obtain ⟨i', hi'⟩ := List.get_of_mem ((npSort_perm ns).mem_iff.2 hz')
            have h2 : (npSort ns).get i ≤ (npSort ns).get i' := by
              rcases eq_or_lt_of_le (show i ≤ i' from Fin.le_def.2 (by omega)) with h3 | h3
              · rw [h3]
              · exact List.pairwise_iff_get.1 (npSort_sorted ns) i i' h3
            omega
          show (V ((npSort ns).get i) l).im = 0
          rw [hi0, hV]
          have : (fun t : ℝ => Complex.exp (Complex.I * Real.pi * ((0 : ℤ) : ℂ) * t / beta) * (fn b.u l t : ℂ)) =
              fun t : ℝ => ((fn b.u l t : ℝ) : ℂ) := by
            funext t
            simp
          simp only
          rw [this, intervalIntegral.integral_ofReal]
          exact Complex.ofReal_im _) hsz (fun w hw => hinj w fun n hn => by
          obtain ⟨i, rfl⟩ := List.get_of_mem ((npSort_perm ns).mem_iff.2 hn)
          exact (hval _ _).symm.trans (congrFun hw i)) hj ax
      exact ⟨x, w, hx, hw⟩

/-- From imaginary time to Matsubara frequencies and back: values of a function in the space of the basis at times
which determine it are turned by `fit` and `evaluate` into its Fourier transform at the frequencies; values of the
transform at frequencies which determine the function are turned by `fit` and `evaluate` into its values at the times. -/
theorem C68_transform {svds : Svds} (hs : svds.Ok)
    (v : Valid fp compute stat beta wmax eps maxSize kernel sve k lam r h e m)
    (hb : make fp compute stat beta wmax eps maxSize kernel sve = .ok b) (q : Search) (p : List ℝ)
    (hp : ∀ t ∈ p, 0 ≤ t ∧ t ≤ beta) (ns : List ℤ) (hns : ∀ n ∈ ns, |(n : ℝ)| < 40 * lam ∧ (stat = "F" ↔ Odd n)) :
    ∃ ot om, tauInit svds (b.sampled q) (some (1, p)) = .ok ot ∧
      matsInit svds (b.sampled q) (some (1, .ints ns)) false = .ok om ∧ ot.points = p ∧ om.points.Perm ns ∧
      ∀ (al x y : NdArray ℂ) (axis : ℤ) (j : ℕ), ValidAxis axis al.ndim j → al.shape[j]? = some b.size →
        AppliedAlong (fun g i => timeValue b g (ot.points.get i)) j al x →
        AppliedAlong (fun g i => matsubara beta (timeValue b g) (om.points.get i)) j al y →
        ((∀ g, (∀ t ∈ p, timeValue b g t = 0) → g = 0) →
          ∃ c w, tauFit svds ot x (some axis) none = .ok (c, w) ∧ matsEvaluate svds om c (some axis) none = .ok y) ∧
        ((∀ g, (∀ n ∈ ns, matsubara beta (timeValue b g) n = 0) → g = 0) →
          ∃ c w, matsFit svds om y (some axis) none = .ok (c, w) ∧ tauEvaluate svds ot c (some axis) none = .ok x) := by
  obtain ⟨ot, h1, h2, h3⟩ := (C68_tau hs v hb q p).2 hp
  obtain ⟨om, h4, h5, -, h6, -⟩ := (C68_matsubara hs v hb q ns (fun n hn => (hns n hn).1) false (by simp)).2
    fun n hn => (hns n hn).2
  refine ⟨ot, om, h1, h4, h2, h5, fun al x y axis j hj hal hx hy => ?_⟩
  obtain ⟨x', hx1, hx2, hx3⟩ := h3 al axis j hj hal
  obtain ⟨y', hy1, hy2, hy3⟩ := h6 al axis j hj hal
  obtain rfl := hx2.unique hx
  obtain rfl := hy2.unique hy
  refine ⟨fun hinj => ?_, fun hinj => ?_⟩
  · obtain ⟨w, hw⟩ := hx3 hinj
    exact ⟨al, w, hw, hy1⟩
  · obtain ⟨w, hw⟩ := hy3 rfl hinj
    exact ⟨al, w, hw, hx1⟩

end

theorem sum_two {n : ℕ} (h : n = 2) (f : Fin n → ℂ) : ∑ l, f l = f ⟨0, by omega⟩ + f ⟨1, by omega⟩ := by
  subst h
  exact Fin.sum_univ_two f

theorem exPair_fn (l : Fin 2) (x : ℝ) (h1 : -1 ≤ x) (h2 : x ≤ 1) : fn exPair l x = if l = 0 then 1 else x := by
  obtain ⟨i, hi⟩ := exPair_WF.exists_inSeg (x := x) h1 h2
  have hfn : fn exPair l x = (exPair.seg l i).eval x := by
    unfold fn
    rw [PPoly.call_eq exPair_WF hi]
    exact (segPoly_eval _ _ _ _).symm
  rw [hfn, exPair_seg]
  split <;> simp

/-- Two functions of time are determined by their values at the two ends of the interval. -/
example (svds : Svds) (hs : svds.Ok) (q : Search) : ∃ b o, make Fp.exact (fun _ _ => .error .valueError) "F" 10 4
    (some 0.01) none none (some (exSve 0.01)) = .ok b ∧ tauInit svds (b.sampled q) (some (1, [0, 10])) = .ok o ∧
    ∀ (al : NdArray ℂ), al.shape = [b.size, 3] → ∃ x w, tauEvaluate svds o al (some 0) none = .ok x ∧
      tauFit svds o x (some 0) none = .ok (al, w) := by
  have v := exValid 0.01 0.01 (by norm_num) fun _ _ => .error .valueError
  obtain ⟨b, hb, d⟩ := v.ok
  obtain ⟨o, h1, -, h3⟩ := (C68_tau hs v hb q [0, 10]).2 (by intro t ht; simp at ht; rcases ht with rfl | rfl <;> norm_num)
  refine ⟨b, o, hb, h1, fun al hal => ?_⟩
  have hsz : b.size = 2 := d.size_eq
  obtain ⟨x, hx, -, hf⟩ := h3 al 0 0 ⟨by unfold NdArray.ndim; rw [hal]; simp, Or.inl rfl⟩ (by rw [hal]; rfl)
  obtain ⟨w, hw⟩ := hf (fun g hg => by
    have hsq : Real.sqrt (10 / 2) ≠ 0 := (Real.sqrt_pos.2 (by norm_num)).ne'
    have u : ∀ (i : ℕ) (hi : i < 2) (x : ℝ), -1 ≤ x → x ≤ 1 → fn b.u ⟨i, by omega⟩ (10 / 2 * (x + 1)) =
        (if i = 0 then 1 else x) / Real.sqrt (10 / 2) := by
      intro i hi x h1 h2
      rw [d.u_eq ⟨i, by omega⟩ ⟨i, hi⟩ rfl x h1 h2]
      congr 1
      exact (exPair_fn ⟨i, hi⟩ x h1 h2).trans (by simp [Fin.ext_iff])
    have g0 := hg 0 (by simp)
    have g1 := hg 10 (by simp)
    unfold timeValue at g0 g1
    rw [sum_two hsz] at g0 g1
    rw [show (0 : ℝ) = 10 / 2 * (-1 + 1) by norm_num, u 0 (by norm_num) _ (by norm_num) (by norm_num),
      u 1 (by norm_num) _ (by norm_num) (by norm_num)] at g0
    rw [show (10 : ℝ) = 10 / 2 * (1 + 1) by norm_num, u 0 (by norm_num) _ (by norm_num) (by norm_num),
      u 1 (by norm_num) _ (by norm_num) (by norm_num)] at g1
    generalize Real.sqrt (10 / 2) = s at hsq g0 g1
    have hs' : (s : ℂ) ≠ 0 := by exact_mod_cast hsq
    simp only [if_true, one_ne_zero, if_false, Complex.ofReal_div, Complex.ofReal_one, Complex.ofReal_neg] at g0 g1
    field_simp at g0 g1
    have e0 : g ⟨0, by omega⟩ = 0 := by linear_combination (g0 + g1) / 2
    have e1 : g ⟨1, by omega⟩ = 0 := by linear_combination (g1 - g0) / 2
    funext l
    have hl := l.2
    rcases (show l.1 = 0 ∨ l.1 = 1 by omega) with h | h
    · rw [show l = ⟨0, by omega⟩ from Fin.ext h]; exact e0
    · rw [show l = ⟨1, by omega⟩ from Fin.ext h]; exact e1)
  exact ⟨x, w, hx, hw⟩

/-- The hypotheses of `C20_located` are met by the functions `1` and `x`: their sign changes are located. -/
example : ∃ f F wn w, PFT.ctor (fun l : Fin 2 => (l : ℕ)) exPair .even (some 4) none = .ok f ∧
    Verif.Basis.defaultMatsubara f F 1 false false = some (.ok (wn, w)) ∧
    ∀ n ∈ wn, 0 ≤ n → ∃ U V, f.call n = .ok U ∧ f.call (n + 2) = .ok V ∧
      (U 1 * (starRingEnd ℂ) (V 1)).re ≤ 0 := by
  have hs : ∀ (l : Fin 2) x, -1 < x → x < 1 → fn exPair l (-x) = (-1) ^ (l : ℕ) * fn exPair l x := by
    intro l x h1 h2
    rw [exPair_fn l x h1.le h2.le, exPair_fn l (-x) (by linarith) (by linarith)]
    fin_cases l <;> simp
  obtain ⟨f, ms, h1, -⟩ := C16_error exPair exPair_WF rfl rfl (by decide) exPair_len (fun l : Fin 2 => (l : ℕ)) .even 4
    (by decide) hs
  obtain ⟨F, hF⟩ := samples_exist exPair exPair_WF rfl rfl exPair_len .even 0 (Or.inl ⟨rfl, rfl⟩) 4 _ f h1
  obtain ⟨wn, w, h2, h3, -⟩ := C20_located exPair exPair_WF rfl rfl (by decide) exPair_len .even 0 (Or.inl ⟨rfl, rfl⟩) 4 hs
    (fun _ => rfl) f h1 1 false 1 ⟨by decide, by decide, nofun, fun _ => rfl⟩ (by decide) F
    (fun g pt => hF ⟨1, by decide⟩ g pt)
  exact ⟨f, F, wn, w, h1, h2, h3⟩

end Verif.Props
