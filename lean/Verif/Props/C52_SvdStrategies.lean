import Verif.Model.Svd
import Verif.Spec.LeastSquares
import Verif.Lemmas.SvdExists
/-!
# C52 — every SVD strategy returns a singular value decomposition
-/

namespace Verif.Props
open Verif Verif.Svd Verif.Spec
open scoped Matrix

variable {m n : ℕ}

/-- Specification: `A == (U * s) @ V.T` with orthonormal columns of `U` and `V` and singular values that are
non-negative and do not increase. -/
structure IsSvdFactors (A : Matrix (Fin m) (Fin n) ℝ) (f : Factors ℝ m n) : Prop where
  eq : A = f.u * Matrix.diagonal f.s * f.vᵀ
  u_orth : f.uᵀ * f.u = 1
  v_orth : f.vᵀ * f.v = 1
  nonneg : ∀ i, 0 ≤ f.s i
  anti : Antitone f.s

/-- The contracts of the libraries on real matrices: each is correct on what its documentation covers.
`interpolative.svd` needs a rank of at least one and is exact if that is not below the rank of the matrix;
`dgejsv` only takes matrices with at least as many rows as columns. -/
structure LibsOk (libs : Libs ℝ) : Prop where
  xprec : ∀ g ∈ libs.xprec, ∀ m n (A : Matrix (Fin m) (Fin n) ℝ), ∃ f, g m n A = .ok f ∧ IsSvdFactors A f
  idsvd : ∀ m n (A : Matrix (Fin m) (Fin n) ℝ) k, 0 < k → k ≤ min m n → A.rank ≤ k →
    ∃ f, libs.idsvd m n A k = .ok f ∧ IsSvdFactors A f
  npSvd : ∀ m n (A : Matrix (Fin m) (Fin n) ℝ), ∃ f, libs.npSvd m n A = .ok f ∧ IsSvdFactors A f
  dgejsv : ∀ g ∈ libs.dgejsv, ∀ m n (A : Matrix (Fin m) (Fin n) ℝ) joba, n ≤ m → joba < 6 →
    ∃ r, g m n A joba = .ok r ∧ r.info = 0 ∧ IsSvdFactors A r.factors

/-- Transposing the matrix exchanges the factors. -/
theorem IsSvdFactors.swap {A : Matrix (Fin m) (Fin n) ℝ} {f : Factors ℝ n m} (h : IsSvdFactors Aᵀ f) :
    IsSvdFactors A ⟨f.k, f.v, f.s, f.u⟩ where
  eq := by
    have := congrArg Matrix.transpose h.eq
    rw [Matrix.transpose_transpose] at this
    rw [this]
    simp [Matrix.transpose_mul, Matrix.mul_assoc]
  u_orth := h.v_orth
  v_orth := h.u_orth
  nonneg := h.nonneg
  anti := h.anti

theorem computeDefault_ok {libs : Libs ℝ} (h : LibsOk libs) (A : Matrix (Fin m) (Fin n) ℝ) :
    ∃ f, computeDefault libs A = .ok (f, []) ∧ IsSvdFactors A f := by
  obtain ⟨f, hf, hok⟩ := h.npSvd m n A
  refine ⟨f, ?_, hok⟩
  unfold computeDefault
  rw [hf]
  rfl

theorem dgejsvTall_ok {libs : Libs ℝ} (h : LibsOk libs) {g} (hg : g ∈ libs.dgejsv) (A : Matrix (Fin m) (Fin n) ℝ)
    (hmn : n ≤ m) : ∃ f w, dgejsvTall g A "F" = .ok (f, w) ∧ IsSvdFactors A f ∧ Warning.noDgejsv ∉ w ∧
      Warning.notConverged ∉ w := by
  obtain ⟨r, hr, hi, hok⟩ := h.dgejsv g hg m n A 2 hmn (by norm_num)
  have hj : jobaOf "F" = .ok 2 := by decide +kernel
  unfold dgejsvTall
  rw [hj]
  simp only [hr, hi]
  refine ⟨r.factors, _, rfl, hok, ?_, ?_⟩
  · split <;> simp
  · split <;> simp

/-- Every strategy returns a singular value decomposition, for tall and wide matrices, whatever libraries are
installed and whatever the data type; the hint only matters if it is below the rank.  The only warning about
missing libraries is the one for `dgejsv`, exactly when 'accurate' would need it. -/
theorem C52_strategies {libs : Libs ℝ} (h : LibsOk libs) (dd : Bool) (A : Matrix (Fin m) (Fin n) ℝ) (hm : 0 < m)
    (hn : 0 < n) (hint : Option ℕ) (hh : ∀ k ∈ hint, 0 < k ∧ A.rank ≤ k) (strategy : String)
    (hs : strategy = "fast" ∨ strategy = "default" ∨ strategy = "accurate") :
    ∃ f w, compute libs dd A hint strategy = .ok (f, w) ∧ IsSvdFactors A f ∧ Warning.notConverged ∉ w ∧
      (Warning.noDgejsv ∈ w ↔ strategy = "accurate" ∧ libs.dgejsv = none ∧ (libs.xprec = none ∨ dd = false)) := by
  have hk : 0 < min (min m n) (hint.getD (min m n)) ∧ A.rank ≤ min (min m n) (hint.getD (min m n)) := by
    have h1 : A.rank ≤ min m n := by
      refine le_min ?_ ?_
      · simpa using A.rank_le_card_height
      · simpa using A.rank_le_card_width
    cases hint with
    | none => simp only [Option.getD_none, min_self]; exact ⟨lt_min hm hn, h1⟩
    | some k =>
      obtain ⟨h2, h3⟩ := hh k rfl
      simp only [Option.getD_some]
      exact ⟨lt_min (lt_min hm hn) h2, le_min h1 h3⟩
  have main : ∀ (hx : libs.xprec = none ∨ dd = false), ∃ f w,
      computeDouble libs A (min (min m n) (hint.getD (min m n))) strategy = .ok (f, w) ∧ IsSvdFactors A f ∧
      Warning.notConverged ∉ w ∧
      (Warning.noDgejsv ∈ w ↔ strategy = "accurate" ∧ libs.dgejsv = none ∧ (libs.xprec = none ∨ dd = false)) := by
    unfold computeDouble
    intro hx
    rcases hs with rfl | rfl | rfl
    · obtain ⟨f, hf, hok⟩ := h.idsvd m n A _ hk.1 (min_le_left _ _) hk.2
      refine ⟨f, [], ?_, hok, by simp, by simp⟩
      rw [if_pos rfl, hf]
      rfl
    · obtain ⟨f, hf, hok⟩ := computeDefault_ok h A
      exact ⟨f, [], by rw [if_neg (by decide), if_pos rfl, hf], hok, by simp, by simp⟩
    · rw [if_neg (by decide), if_neg (by decide), if_pos rfl]
      cases hd : libs.dgejsv with
      | none =>
        obtain ⟨f, hf, hok⟩ := computeDefault_ok h A
        refine ⟨f, [.noDgejsv], by simp only [hf], hok, by simp, by simp [hx]⟩
      | some g =>
        simp only
        unfold dgejsv
        by_cases hmn : m < n
        · rw [if_pos hmn]
          obtain ⟨f, w, hf, hok, hw1, hw2⟩ := dgejsvTall_ok h hd Aᵀ hmn.le
          refine ⟨⟨f.k, f.v, f.s, f.u⟩, w, by simp only [hf], hok.swap, hw2, by simp [hw1]⟩
        · rw [if_neg hmn]
          obtain ⟨f, w, hf, hok, hw1, hw2⟩ := dgejsvTall_ok h hd A (not_lt.1 hmn)
          exact ⟨f, w, hf, hok, hw2, by simp [hw1]⟩
  unfold compute
  cases hx : libs.xprec with
  | none => simpa only [hx] using main (Or.inl hx)
  | some g =>
    cases dd with
    | false => simpa only [hx] using main (Or.inr rfl)
    | true =>
      obtain ⟨f, hf, hok⟩ := h.xprec g hx m n A
      refine ⟨f, [], ?_, hok, by simp, by simp⟩
      simp only [hf]
      rfl

/-- What the 'accurate' strategy makes of the status codes of `dgejsv`, called with the matrix or, if it is wide, its
transpose: a negative `info` raises ValueError; a positive one and a non-zero `istat[2]` each give a warning, and the
factors are returned. -/
theorem C52_status (libs : Libs ℝ) {g} (hg : libs.dgejsv = some g) (A : Matrix (Fin m) (Fin n) ℝ) (hint : Option ℕ) :
    (n ≤ m → ∀ r, g m n A 2 = .ok r →
      (r.info < 0 → compute libs false A hint "accurate" = .error .valueError) ∧
      (0 ≤ r.info → ∃ w, compute libs false A hint "accurate" = .ok (r.factors, w) ∧
        (Warning.notConverged ∈ w ↔ 0 < r.info) ∧ (Warning.denormalized ∈ w ↔ r.istat2 ≠ 0))) ∧
    (m < n → ∀ r, g n m Aᵀ 2 = .ok r →
      (r.info < 0 → compute libs false A hint "accurate" = .error .valueError) ∧
      (0 ≤ r.info → ∃ w, compute libs false A hint "accurate" =
          .ok (⟨r.factors.k, r.factors.v, r.factors.s, r.factors.u⟩, w) ∧
        (Warning.notConverged ∈ w ↔ 0 < r.info) ∧ (Warning.denormalized ∈ w ↔ r.istat2 ≠ 0))) := by
  have h1 : compute libs false A hint "accurate" = dgejsv g A "F" := by
    unfold compute
    cases libs.xprec <;>
    · dsimp only
      unfold computeDouble
      rw [if_neg (by decide), if_neg (by decide), if_pos rfl, hg]
  have hj : jobaOf "F" = .ok 2 := by decide +kernel
  have tall : ∀ {m n : ℕ} (B : Matrix (Fin m) (Fin n) ℝ) (r : Gejsv ℝ m n), g m n B 2 = .ok r →
      (r.info < 0 → dgejsvTall g B "F" = .error .valueError) ∧
      (0 ≤ r.info → ∃ w, dgejsvTall g B "F" = .ok (r.factors, w) ∧
        (Warning.notConverged ∈ w ↔ 0 < r.info) ∧ (Warning.denormalized ∈ w ↔ r.istat2 ≠ 0)) := by
    intro m n B r hr
    unfold dgejsvTall
    simp only [hj, hr]
    refine ⟨fun h => if_pos h, fun h => ⟨_, if_neg (not_lt.2 h), ?_, ?_⟩⟩
    · split <;> split <;> simp_all
    · split <;> split <;> simp_all
  rw [h1]
  unfold dgejsv
  refine ⟨fun hmn r hr => ?_, fun hmn r hr => ?_⟩
  · rw [if_neg (not_lt.2 hmn)]
    exact tall A r hr
  · rw [if_pos hmn]
    obtain ⟨t1, t2⟩ := tall Aᵀ r hr
    refine ⟨fun h => by rw [t1 h], fun h => ?_⟩
    obtain ⟨w, hw, h2⟩ := t2 h
    exact ⟨w, by rw [hw], h2⟩

/-- The claim about unknown strategies. -/
def RefusesUnknown (libs : Libs ℝ) (dd : Bool) : Prop :=
  ∀ m n (A : Matrix (Fin m) (Fin n) ℝ) hint strategy, strategy ∉ ["fast", "default", "accurate"] →
    compute libs dd A hint strategy = .error .valueError

/-- Unknown strategies raise ValueError for double-precision matrices (missing: double-double ones). -/
theorem C52_unknown_partial (libs : Libs ℝ) (dd : Bool) (hx : libs.xprec = none ∨ dd = false) :
    RefusesUnknown libs dd := by
  intro m n A hint strategy hs
  simp only [List.mem_cons, List.not_mem_nil, or_false, not_or] at hs
  have h1 : ∀ k, computeDouble libs A k strategy = .error .valueError := by
    intro k
    unfold computeDouble
    rw [if_neg hs.1, if_neg hs.2.1, if_neg hs.2.2]
  unfold compute
  rcases hx with hx | rfl
  · rw [hx]
    exact h1 _
  · cases libs.xprec <;> exact h1 _

/-- For double-double matrices the strategy is not looked at, so the claim is false whenever xprec is installed and
works. -/
theorem C52_unknown_negation {libs : Libs ℝ} (h : LibsOk libs) (hx : libs.xprec ≠ none) : ¬ RefusesUnknown libs true := by
  intro H
  obtain ⟨g, hg⟩ := Option.ne_none_iff_exists'.1 hx
  have h1 := H 1 1 0 none "no such strategy" (by decide)
  obtain ⟨f, hf, -⟩ := h.xprec g hg 1 1 0
  unfold compute at h1
  rw [hg] at h1
  simp only [hf] at h1
  cases h1

/-- A hint below the rank of the matrix is only looked at by the 'fast' strategy. -/
theorem C52_hint (libs : Libs ℝ) (dd : Bool) (A : Matrix (Fin m) (Fin n) ℝ) (h1 h2 : Option ℕ) (strategy : String)
    (hs : strategy ≠ "fast" ∨ (dd = true ∧ libs.xprec ≠ none)) :
    compute libs dd A h1 strategy = compute libs dd A h2 strategy := by
  unfold compute
  rcases hs with hs | ⟨rfl, hx⟩
  · simp only [computeDouble, if_neg hs]
  · obtain ⟨g, hg⟩ := Option.ne_none_iff_exists'.1 hx
    simp only [hg]

/-- For complex matrices the 'default' strategy returns the right singular vectors themselves, so that
`A == (U*s) @ V.conj().T`. -/
theorem C52_complex_default (libs : Libs ℂ) (A : Matrix (Fin m) (Fin n) ℂ) (f : Factors ℂ m n)
    (hf : libs.npSvd m n A = .ok f) (hA : A = f.u * Matrix.diagonal (fun i => (f.s i : ℂ)) * f.vᵀ) (hint : Option ℕ) :
    ∃ f', compute libs false A hint "default" = .ok (f', []) ∧
      A = f'.u * Matrix.diagonal (fun i => (f'.s i : ℂ)) * f'.vᴴ := by
  have h1 : compute libs false A hint "default" = .ok (⟨f.k, f.u, f.s, f.v.map star⟩, []) := by
    unfold compute
    cases libs.xprec <;>
    · dsimp only
      unfold computeDouble
      rw [if_neg (by decide), if_pos rfl]
      unfold computeDefault
      rw [hf]
  refine ⟨_, h1, ?_⟩
  have : (f.v.map star)ᴴ = f.vᵀ := by
    ext i j
    simp
  simp only [this]
  exact hA

/-- Ideal libraries: what `LibsOk` asks for can be met, with or without the optional ones. -/
noncomputable def idealFactors {m n : ℕ} (A : Matrix (Fin m) (Fin n) ℝ) : Factors ℝ m n :=
  ⟨_, (Sampling.exists_thinSvd A).choose_spec.choose, (Sampling.exists_thinSvd A).choose_spec.choose_spec.choose,
    (Sampling.exists_thinSvd A).choose_spec.choose_spec.choose_spec.chooseᵀ⟩

theorem idealFactors_ok {m n : ℕ} (A : Matrix (Fin m) (Fin n) ℝ) : IsSvdFactors A (idealFactors A) := by
  have h := (Sampling.exists_thinSvd A).choose_spec.choose_spec.choose_spec.choose_spec
  exact ⟨h.eq, h.u_orth, h.v_orth, h.nonneg, h.anti⟩

noncomputable def idealLibs (xprec lapack : Bool) : Libs ℝ where
  xprec := if xprec then some fun _ _ A => .ok (idealFactors A) else none
  idsvd := fun _ _ A _ => .ok (idealFactors A)
  npSvd := fun _ _ A => .ok (idealFactors A)
  dgejsv := if lapack then some fun _ _ A _ => .ok ⟨idealFactors A, 0, 0⟩ else none

theorem idealLibs_ok (xprec lapack : Bool) : LibsOk (idealLibs xprec lapack) where
  xprec := by
    intro g hg m n A
    cases xprec with
    | false => simp [idealLibs] at hg
    | true =>
      have : g = fun _ _ A => .ok (idealFactors A) := by simpa [idealLibs, eq_comm] using hg
      exact ⟨_, by rw [this], idealFactors_ok A⟩
  idsvd := fun m n A k _ _ _ => ⟨_, rfl, idealFactors_ok A⟩
  npSvd := fun m n A => ⟨_, rfl, idealFactors_ok A⟩
  dgejsv := by
    intro g hg m n A joba _ _
    cases lapack with
    | false => simp [idealLibs] at hg
    | true =>
      have : g = fun _ _ A _ => .ok ⟨idealFactors A, 0, 0⟩ := by simpa [idealLibs, eq_comm] using hg
      exact ⟨_, by rw [this], rfl, idealFactors_ok A⟩

/-- A wide matrix, with the accurate strategy, with and without LAPACK's routine. -/
example (lapack : Bool) : ∃ f w, compute (idealLibs false lapack) false !![1, 2, 3; 4, 5, (6 : ℝ)] none "accurate" =
    .ok (f, w) ∧ IsSvdFactors !![1, 2, 3; 4, 5, (6 : ℝ)] f ∧ (Warning.noDgejsv ∈ w ↔ lapack = false) := by
  obtain ⟨f, w, h1, h2, -, h3⟩ := C52_strategies (idealLibs_ok false lapack) false !![1, 2, 3; 4, 5, (6 : ℝ)]
    (by norm_num) (by norm_num) none (by simp) "accurate" (by simp)
  refine ⟨f, w, h1, h2, h3.trans ?_⟩
  cases lapack <;> simp [idealLibs]

end Verif.Props
