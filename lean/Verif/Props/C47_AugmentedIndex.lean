import Verif.Model.Augment
import Verif.Props.C41_Truncation
/-!
# C47 — ordering and indexing of augmented bases
-/

namespace Verif.Props
open Verif Verif.Np Verif.Poly Verif.FiniteTemp Verif.Augment

variable {X V : Type}

/-- Specification of a vector of functions made of two parts: its values are those of the augmentations, in order,
followed by those of the basis. -/
structure Concatenates (f : AugFn X V) (x : X) (vs : List V) : Prop where
  length : vs.length = f.faug.length + f.fbasis.size
  aug : ∀ (l : ℕ) (g : X → PyM V), f.faug[l]? = some g → ∃ v, g x = .ok v ∧ vs[l]? = some v
  basis : ∃ fb, f.fbasis.call x = .ok fb ∧ ∀ l : Fin f.fbasis.size, vs[f.faug.length + l.1]? = some (fb l)

theorem callAll_ok {fs : List (X → PyM V)} {x : X} {vs : List V} (h : AugFn.callAll fs x = .ok vs) :
    vs.length = fs.length ∧ ∀ (l : ℕ) (g : X → PyM V), fs[l]? = some g → ∃ v, g x = .ok v ∧ vs[l]? = some v := by
  induction fs generalizing vs with
  | nil => cases h; exact ⟨rfl, by simp⟩
  | cons f fs ih =>
    unfold AugFn.callAll at h
    cases hf : f x with
    | error e => rw [hf] at h; cases h
    | ok v =>
      rw [hf] at h
      cases hr : AugFn.callAll fs x with
      | error e => rw [hr] at h; cases h
      | ok ws =>
        rw [hr] at h
        cases h
        obtain ⟨h1, h2⟩ := ih hr
        refine ⟨by simp [h1], fun l g hl => ?_⟩
        cases l with
        | zero =>
          have e : f = g := by simpa using hl
          exact ⟨v, e ▸ hf, by simp⟩
        | succ l =>
          obtain ⟨w, hw, hw'⟩ := h2 l g (by simpa using hl)
          exact ⟨w, hw, by simpa using hw'⟩

/-- If evaluation succeeds, the result is the concatenation: augmentation `l` for `l < naug`, basis function
`l - naug` from there. -/
theorem C47_values (f : AugFn X V) (x : X) (vs : List V) (h : f.call x = .ok vs) :
    Concatenates f x vs ∧ vs.length = f.size := by
  unfold AugFn.call at h
  cases hb : f.fbasis.call x with
  | error e => rw [hb] at h; cases h
  | ok fb =>
    rw [hb] at h
    cases ha : AugFn.callAll f.faug x with
    | error e => rw [ha] at h; cases h
    | ok fa =>
      rw [ha] at h
      cases h
      obtain ⟨h1, h2⟩ := callAll_ok ha
      have hl : (fa ++ List.ofFn fb).length = f.faug.length + f.fbasis.size := by simp [h1]
      refine ⟨⟨hl, fun l g hg => ?_, fb, hb, fun l => ?_⟩, hl⟩
      · obtain ⟨v, hv, hv'⟩ := h2 l g hg
        refine ⟨v, hv, ?_⟩
        rw [List.getElem?_append_left]
        · exact hv'
        · exact (List.getElem?_eq_some_iff.1 hv').1
      · rw [List.getElem?_append_right (by omega), h1]
        simp

/-- Evaluation succeeds exactly if every part does. -/
theorem C47_succeeds (f : AugFn X V) (x : X) :
    (∃ vs, f.call x = .ok vs) ↔ (∃ fb, f.fbasis.call x = .ok fb) ∧ ∀ g ∈ f.faug, ∃ v, g x = .ok v := by
  have all : ∀ fs : List (X → PyM V), (∃ vs, AugFn.callAll fs x = .ok vs) ↔ ∀ g ∈ fs, ∃ v, g x = .ok v := by
    intro fs
    induction fs with
    | nil => simp [AugFn.callAll]
    | cons f fs ih =>
      simp only [List.forall_mem_cons, ← ih]
      rw [AugFn.callAll]
      cases f x with
      | error e => simp
      | ok v =>
        cases AugFn.callAll fs x with
        | error e => simp [Except.map]
        | ok ws => simp [Except.map]
  rw [← all]
  unfold AugFn.call
  cases f.fbasis.call x with
  | error e => simp
  | ok fb =>
    cases AugFn.callAll f.faug x with
    | error e => simp
    | ok ws => simp

/-- Python indexing into a sequence of length `n`: `i` is the position meant by `l`. -/
def PyPosition (l : ℤ) (n i : ℕ) : Prop := i < n ∧ (l = i ∨ l = (i : ℤ) - n)

/-- The claim: `u[l](x) == u(x)[l]` for every valid index. -/
def IndexCommutes (X V : Type) : Prop :=
  ∀ (f : AugFn X V) (l : ℤ) (i : ℕ), PyPosition l f.size i →
    ∃ g, f.getitem (.int l) = .ok (.fn g) ∧ ∀ x vs, f.call x = .ok vs → ∃ v, g x = .ok v ∧ vs[i]? = some v

theorem pyGet_nat {α : Type} (fs : List α) (l : ℕ) (h : l < fs.length) : AugFn.pyGet fs (l : ℤ) = .ok fs[l] := by
  unfold AugFn.pyGet
  simp [h]

/-- The claim for non-negative indices; indices beyond the end are refused.  Missing for the full claim: negative
indices, for which it is false. -/
theorem C47_index_partial (f : AugFn X V) (l : ℕ) :
    (l < f.size → ∃ g, f.getitem (.int l) = .ok (.fn g) ∧
      ∀ x vs, f.call x = .ok vs → ∃ v, g x = .ok v ∧ vs[l]? = some v) ∧
    (f.size ≤ l → f.getitem (.int l) = .error .indexError) := by
  constructor
  · intro hl
    by_cases h : l < f.faug.length
    · refine ⟨f.faug[l], ?_, fun x vs hvs => ?_⟩
      · unfold AugFn.getitem
        dsimp only
        rw [if_pos (by unfold AugFn.naug; exact_mod_cast h), pyGet_nat _ _ h]
        rfl
      · exact (C47_values f x vs hvs).1.aug l _ (List.getElem?_eq_getElem h)
    · unfold AugFn.size AugFn.naug at hl
      refine ⟨fun x => (f.fbasis.call x).map fun v => v ⟨l - f.faug.length, by omega⟩, ?_, fun x vs hvs => ?_⟩
      · unfold AugFn.getitem
        dsimp only
        rw [if_neg (by unfold AugFn.naug; push_cast; omega)]
        unfold VecFn.getInt AugFn.naug
        have e : (l : ℤ) - f.faug.length = ((l - f.faug.length : ℕ) : ℤ) := by omega
        simp only [e, Int.natCast_nonneg, if_true, Int.toNat_natCast]
        rw [dif_pos ⟨trivial, by omega⟩]
        rfl
      · obtain ⟨fb, hb, hv⟩ := (C47_values f x vs hvs).1.basis
        refine ⟨fb ⟨l - f.faug.length, by omega⟩, by simp only [hb]; rfl, ?_⟩
        have := hv ⟨l - f.faug.length, by omega⟩
        simp only at this
        rwa [Nat.add_sub_cancel' (not_lt.1 h)] at this
  · intro hl
    unfold AugFn.size AugFn.naug at hl
    unfold AugFn.getitem
    dsimp only
    rw [if_neg (by unfold AugFn.naug; push_cast; omega)]
    unfold VecFn.getInt AugFn.naug
    have e : (l : ℤ) - f.faug.length = ((l - f.faug.length : ℕ) : ℤ) := by omega
    simp only [e, Int.natCast_nonneg, if_true]
    rw [dif_neg (by omega)]
    rfl

/-- What negative indices give: they count from the end of the *augmentations*; below that, IndexError. -/
theorem C47_index_negative (f : AugFn X V) (j : ℕ) (hj : 0 < j) :
    (∀ h : j ≤ f.faug.length, f.getitem (.int (-(j : ℤ))) = .ok (.fn (f.faug[f.faug.length - j]'(by omega)))) ∧
    (f.faug.length < j → f.getitem (.int (-(j : ℤ))) = .error .indexError) := by
  have h0 : (-(j : ℤ)) < f.naug := by unfold AugFn.naug; omega
  constructor
  · intro h
    unfold AugFn.getitem
    dsimp only
    rw [if_pos h0]
    unfold AugFn.pyGet
    have e : -(j : ℤ) + f.faug.length = ((f.faug.length - j : ℕ) : ℤ) := by omega
    rw [if_neg (show ¬ 0 ≤ -(j : ℤ) by omega), e]
    simp only [Int.natCast_nonneg, if_true, Int.toNat_natCast]
    rw [List.getElem?_eq_getElem (by omega)]
    rfl
  · intro h
    unfold AugFn.getitem
    dsimp only
    rw [if_pos h0]
    unfold AugFn.pyGet
    rw [if_neg (show ¬ 0 ≤ -(j : ℤ) by omega)]
    simp only
    rw [if_neg (by omega)]
    rfl

/-- The claim is false: `u[-1]` of a basis of one function with one augmentation is the augmentation. -/
theorem C47_negation : ¬ IndexCommutes Unit ℕ := by
  intro H
  let f : AugFn Unit ℕ := ⟨⟨1, fun _ => .ok fun _ => 7⟩, [fun _ => .ok 5]⟩
  obtain ⟨g, hg, hv⟩ := H f (-1) 1 ⟨by decide, Or.inr rfl⟩
  have h1 := (C47_index_negative f 1 one_pos).1 le_rfl
  have e : g = fun _ => .ok 5 := by
    have := hg.symm.trans h1
    cases this
    rfl
  obtain ⟨v, hv1, hv2⟩ := hv () [5, 7] rfl
  rw [e] at hv1
  have : v = 5 := (Except.ok.inj hv1).symm
  have : v = 7 := (Option.some.inj hv2).symm
  omega

/-- Slices `[:n]` with `n > naug` keep the augmentations and the first `n - naug` functions; everything else is
refused. -/
theorem C47_slice (f : AugFn X V) (start step : Option ℤ) (h1 : start = none ∨ start = some 0)
    (h2 : step = none ∨ step = some 1) :
    (∀ n : ℕ, f.faug.length < n → ∃ g, f.getitem (.slice start (some n) step) = .ok (.vec g) ∧
      g.size = min n f.size ∧ g.faug = f.faug ∧
      (∀ x vs, f.call x = .ok vs → g.call x = .ok (vs.take n)) ∧ ∀ x e, f.call x = .error e → g.call x = .error e) ∧
    (∀ n : ℤ, n ≤ f.faug.length → f.getitem (.slice start (some n) step) = .error .notImplementedError) ∧
    f.getitem (.slice start none step) = .error .typeError := by
  have hs : ∀ stop, sliceToSize (.slice start stop step) = .ok stop := by
    intro stop
    unfold sliceToSize
    dsimp only
    rw [if_neg (by rcases h1 with h1 | h1 <;> simp [h1]), if_neg (by rcases h2 with h2 | h2 <;> simp [h2])]
  refine ⟨fun n hn => ⟨⟨f.fbasis.take (n - f.faug.length), f.faug⟩, ?_, ?_, rfl, ?_, ?_⟩, fun n hn => ?_, ?_⟩
  · unfold AugFn.getitem
    simp only [hs]
    unfold AugFn.naug
    rw [if_neg (by omega)]
    congr 5
    omega
  · unfold AugFn.size AugFn.naug VecFn.take
    simp only
    omega
  · intro x vs hvs
    unfold AugFn.call at hvs ⊢
    cases hb : f.fbasis.call x with
    | error e => rw [hb] at hvs; cases hvs
    | ok fb =>
      rw [hb] at hvs
      cases ha : AugFn.callAll f.faug x with
      | error e => rw [ha] at hvs; cases hvs
      | ok fa =>
        rw [ha] at hvs
        cases hvs
        unfold VecFn.take
        simp only [hb, Except.map, ha]
        congr 1
        rw [List.take_append, List.take_of_length_le (by rw [(callAll_ok ha).1]; omega), (callAll_ok ha).1]
        congr 1
        apply List.ext_getElem
        · simp
        · intro i h1 h2
          simp
  · intro x e he
    unfold AugFn.call at he ⊢
    unfold VecFn.take
    cases hb : f.fbasis.call x with
    | error e' =>
      rw [hb] at he
      simp only [hb, Except.map]
      exact he
    | ok fb =>
      rw [hb] at he
      simp only [hb, Except.map]
      cases ha : AugFn.callAll f.faug x with
      | error e' => rw [ha] at he; exact he
      | ok fa => rw [ha] at he; cases he
  · unfold AugFn.getitem
    simp only [hs]
    unfold AugFn.naug
    rw [if_pos hn]
  · unfold AugFn.getitem
    simp only [hs]

/-- The two vectors of functions of an augmented basis have the size of the basis, and the augmentations, as times
functions and as frequency functions, come in the given order. -/
theorem C47_basis (b : Basis) (augs : List AugArg) (a : AugBasis) (h : augInit b augs = .ok a) :
    a.basis = b ∧ a.augs.length = augs.length ∧ a.size = augs.length + b.size ∧ a.u.size = a.size ∧
    a.uhat.size = a.size ∧ a.u.faug.length = augs.length ∧ a.uhat.faug.length = augs.length ∧
    ∀ (l : ℕ) (o : AugObj), augs[l]? = some (.inst o) → a.u.faug[l]? = some o.call ∧ a.uhat.faug[l]? = some o.hat := by
  have key : ∀ (augs : List AugArg) (os : List AugObj), factory b.statistics b.beta augs = .ok os →
      os.length = augs.length ∧ ∀ (l : ℕ) (o : AugObj), augs[l]? = some (.inst o) → os[l]? = some o := by
    intro augs
    induction augs with
    | nil => intro os h; cases h; simp
    | cons a as ih =>
      intro os h
      unfold factory at h
      dsimp only at h
      split at h
      · cases h
      · rename_i o ho
        cases hr : factory b.statistics b.beta as with
        | error e => rw [hr] at h; cases h
        | ok os' =>
          rw [hr] at h
          cases h
          obtain ⟨h1, h2⟩ := ih os' hr
          refine ⟨by simp [h1], fun l o' hl => ?_⟩
          cases l with
          | zero =>
            have : a = .inst o' := by simpa using hl
            subst this
            cases ho
            rfl
          | succ l => simpa using h2 l o' (by simpa using hl)
  unfold augInit at h
  cases hf : factory b.statistics b.beta augs with
  | error e => rw [hf] at h; cases h
  | ok os =>
    rw [hf] at h
    cases h
    obtain ⟨h1, h2⟩ := key augs os hf
    refine ⟨rfl, h1, ?_, ?_, ?_, ?_, ?_, fun l o hl => ?_⟩
    · unfold AugBasis.size; rw [h1]
    · simp [AugFn.size, AugFn.naug, AugBasis.u, AugBasis.size, tauFn]
    · simp [AugFn.size, AugFn.naug, AugBasis.uhat, AugBasis.size, matsFn]
    · simp [AugBasis.u, h1]
    · simp [AugBasis.uhat, h1]
    · have := h2 l o hl
      constructor <;> simp [AugBasis.u, AugBasis.uhat, this]

section
variable {fp : Fp} {compute : KernelInfo → Option ℝ → PyM SveResult} {stat : String} {beta wmax : ℝ}
    {eps : Option ℝ} {maxSize : Option ℕ} {kernel : Option KernelInfo} {sve : Option SveResult} {k : KernelInfo}
    {lam : ℝ} {r : Verif.FiniteTemp.SveResult} {h : Good r} {e : ℝ} {m : ℕ}

/-- `basis[:n]` of an augmented basis, for `naug < n`: same augmentations, and the underlying basis cut to
`n - naug` functions (see C41 for what that means if the basis has been cut before: `m0` is the number of functions
the expansion allows). -/
theorem C47_basis_slice (v : Valid fp compute stat beta wmax eps maxSize kernel sve k lam r h e m) {b : Basis}
    (hb : make fp compute stat beta wmax eps maxSize kernel sve = .ok b) (augs : List AugArg) (a : AugBasis)
    (ha : augInit b augs = .ok a) (start step : Option ℤ)
    (h1 : start = none ∨ start = some 0) (h2 : step = none ∨ step = some 1)
    (e0 : ℝ) (he0 : r.eps = some e0) (m0 : ℕ) (hm0 : Cut r h.pos e0 m0) (hpos : 0 < m0) (n : ℕ) (hn : augs.length < n) :
    ∃ a', a.getitem fp compute (.slice start (some n) step) = .ok a' ∧ a'.augs = a.augs ∧
      a'.size = min (augs.length + m0) n ∧ SameFunctions b a'.basis ∧ a'.basis.beta = b.beta := by
  obtain ⟨e1, e2, -⟩ := C47_basis b augs a ha
  subst e1
  obtain ⟨b', hb', h3, h4, h5, -⟩ := C41_slice v hb none none (Or.inl rfl) (Or.inl rfl) (some (n - augs.length)) e0 he0 m0 hm0
    (by simp only [Option.getD_some]; omega)
  refine ⟨⟨b', a.augs⟩, ?_, rfl, ?_, h4, h5⟩
  · unfold AugBasis.getitem sliceToSize
    dsimp only
    rw [if_neg (by rcases h1 with h1 | h1 <;> simp [h1]), if_neg (by rcases h2 with h2 | h2 <;> simp [h2])]
    simp only
    rw [if_neg (by omega)]
    have e : ((n : ℤ) - (a.augs.length : ℤ)) = ((n - augs.length : ℕ) : ℤ) := by omega
    rw [e]
    simp only [Option.map_some] at hb'
    rw [hb']
  · unfold AugBasis.size
    simp only [h3, Option.getD_some]
    omega

end

/-- Cutting away all of the basis is refused, and so is everything that is not a slice from zero, including `[:]`. -/
theorem C47_basis_refused (fp : Fp) (compute : KernelInfo → Option ℝ → PyM SveResult) (a : AugBasis) :
    (∀ n : ℤ, n ≤ a.augs.length → a.getitem fp compute (.slice none (some n) none) = .error .valueError) ∧
    a.getitem fp compute .other = .error .valueError ∧
    a.getitem fp compute (.slice none none none) = .error .typeError := by
  refine ⟨fun n hn => ?_, rfl, rfl⟩
  unfold AugBasis.getitem
  have : sliceToSize (.slice none (some n) none) = .ok (some n) := by simp [sliceToSize]
  simp only [this]
  rw [if_pos hn]

/-- `u[l]` of the underlying basis, which the model takes as component of `u(x)`, is what selection in `poly.py` gives;
`l` may be counted from the front or from the back. -/
theorem C47_poly_item (b : Basis) (l : Fin b.size) (i : ℤ) (hi : i = (l : ℕ) ∨ i = ((l : ℕ) : ℤ) - b.size) (t : TArg) :
    ∃ g, (tauFn b).getInt i = .ok g ∧
      g t = ((b.u.select fun _ : Unit => l).call t.tau).map fun v => some (v ()) := by
  have hl : ((l : ℕ) : ℤ) < b.size := by exact_mod_cast l.2
  have hsz : (((tauFn b).size : ℕ) : ℤ) = b.size := rfl
  have key : (if 0 ≤ i then i else i + (tauFn b).size) = (l : ℕ) := by
    rw [hsz]; split_ifs <;> omega
  refine ⟨fun x => ((tauFn b).call x).map fun v => v l, ?_, ?_⟩
  · unfold VecFn.getInt
    simp only [key]
    rw [dif_pos ⟨by omega, by omega⟩]
    rfl
  · rw [C10_poly_select]
    show Except.map _ (Except.map _ (b.u.call t.tau)) = _
    cases b.u.call t.tau <;> rfl

/-- A concrete case: two augmentations, three basis functions, truncated to four. -/
example : ∃ g, (⟨⟨3, fun x => .ok fun i => x + i.1⟩, [fun _ => .ok 50, fun x => .ok (x * x)]⟩ : AugFn ℕ ℕ).getitem
    (.slice none (some 4) none) = .ok (.vec g) ∧ g.call 10 = .ok [50, 100, 10, 11] := by
  obtain ⟨g, h1, -, -, h2, -⟩ := (C47_slice (⟨⟨3, fun x => .ok fun i => x + i.1⟩,
    [fun _ => .ok 50, fun x => .ok (x * x)]⟩ : AugFn ℕ ℕ) none none (Or.inl rfl) (Or.inl rfl)).1 4 (by decide)
  exact ⟨g, h1, h2 10 [50, 100, 10, 11, 12] rfl⟩

end Verif.Props
