import Verif.Props.C71_OtherBases
/-!
# C60, C71: which bases warn, and the default points of augmented bases
-/

namespace Verif.Props
open Verif Verif.Np Verif.Poly Verif.Sve Verif.Kernel Verif.Spec Verif.FiniteTemp Verif.Sampling Verif.Np.NdArray Matrix
open Verif.Dlr Verif.Augment MeasureTheory

theorem warning_cond {b : SBasis} {P : Type} {o : Obj b P} (hw : b.wellConditioned = true) {x y : NdArray ℂ}
    {axis : Option ℤ} {w : Bool} (h : o.fitHere x axis = .ok (y, w)) :
    ∃ κ, o.matrix.cond = .ok κ ∧ (w = true ↔ 10 ^ 8 < κ) := by
  unfold Obj.fitHere at h
  simp only [hw, if_true] at h
  cases hc : o.matrix.cond with
  | error e => rw [hc] at h; cases h
  | ok κ =>
    rw [hc] at h
    refine ⟨κ, rfl, ?_⟩
    cases hl : o.matrix.lstsq x axis with
    | error e => rw [hl] at h; cases h
    | ok r =>
      rw [hl] at h
      have := (Prod.mk.inj (Except.ok.inj h)).2
      rw [← this, decide_eq_true_iff, not_le]

/-- `fit` with a `FiniteTempBasis` warns if and only if the condition number exceeds 1e8. -/
theorem C60_finite_temp {b : FiniteTemp.Basis} {q : Search} {P : Type} {o : Obj (b.sampled q) P} {x y : NdArray ℂ}
    {axis : Option ℤ} {w : Bool} (h : o.fitHere x axis = .ok (y, w)) :
    ∃ κ, o.matrix.cond = .ok κ ∧ (w = true ↔ 10 ^ 8 < κ) :=
  warning_cond rfl h

/-- `fit` with a DLR never warns. -/
theorem C60_dlr {d : DLR} {q : Search} {P : Type} {o : Obj (d.sampled q) P} {x y : NdArray ℂ}
    {axis : Option ℤ} {w : Bool} (h : o.fitHere x axis = .ok (y, w)) : w = false :=
  no_warning (b := d.sampled q) rfl h

theorem augInit_augs {b : FiniteTemp.Basis} {augs : List AugArg} {a : AugBasis} (h : augInit b augs = .ok a) :
    factory b.statistics b.beta augs = .ok a.augs := by
  unfold augInit at h
  cases hf : factory b.statistics b.beta augs with
  | error e => rw [hf] at h; cases h
  | ok os =>
    rw [hf] at h
    rw [← Except.ok.inj h]

theorem factory_one {stat : String} {beta : ℝ} {create : String → ℝ → PyM AugObj} {os : List AugObj}
    (h : factory stat beta [.cls create] = .ok os) : ∃ o, create stat beta = .ok o ∧ os = [o] := by
  unfold factory at h
  dsimp only at h
  cases hc : create stat beta with
  | error e => rw [hc] at h; cases h
  | ok o =>
    rw [hc] at h
    exact ⟨o, rfl, (Except.ok.inj h).symm⟩

theorem bosonic_inner {stat : String} {r : PyM AugObj} {o : AugObj}
    (h : (match checkBosonic stat with | .error e => (Except.error e : PyM AugObj) | .ok _ => r) = .ok o) : r = .ok o := by
  cases hc : checkBosonic stat with
  | error e => rw [hc] at h; cases h
  | ok _ => rw [hc] at h; exact h

/-- `fit` with an augmented basis warns, if the condition number exceeds 1e8, only if its single augmentation is
`MatsubaraConst`.  Without augmentations it never warns, unlike the basis itself. -/
theorem C60_augmented {b : FiniteTemp.Basis} {augs : List AugArg} {a : AugBasis} (ha : augInit b augs = .ok a) {q : Search}
    {P : Type} {o : Obj (a.sampled q) P} {x y : NdArray ℂ} {axis : Option ℤ} {w : Bool}
    (h : o.fitHere x axis = .ok (y, w)) :
    (augs = [MatsubaraConst] → ∃ κ, o.matrix.cond = .ok κ ∧ (w = true ↔ 10 ^ 8 < κ)) ∧
    (augs.length ≠ 1 ∨ (∃ np, augs = [TauConst np]) ∨ augs = [TauLinear] → w = false) := by
  have hf := augInit_augs ha
  refine ⟨fun hm => ?_, fun hm => ?_⟩
  · subst hm
    obtain ⟨p, hp, hos⟩ := factory_one hf
    unfold matsubaraConst at hp
    dsimp only at hp
    split at hp
    · cases hp
    · have hp' := Except.ok.inj hp
      refine warning_cond ?_ h
      show a.isWellConditioned = true
      unfold AugBasis.isWellConditioned
      rw [hos]
      simp only [← hp']
  · refine no_warning ?_ h
    show a.isWellConditioned = false
    unfold AugBasis.isWellConditioned
    rcases hm with hm | ⟨np, rfl⟩ | rfl
    · obtain ⟨-, hl, -⟩ := C47_basis b augs a ha
      rw [← hl] at hm
      split
      · rename_i hs
        rw [hs] at hm
        exact absurd rfl hm
      · rfl
    · obtain ⟨p, hp, hos⟩ := factory_one hf
      have hp := bosonic_inner hp
      unfold tauConst at hp
      split at hp
      · cases hp
      · have hp' := Except.ok.inj hp
        rw [hos]
        simp only [← hp']
    · obtain ⟨p, hp, hos⟩ := factory_one hf
      have hp := bosonic_inner hp
      unfold tauLinear at hp
      split at hp
      · cases hp
      · have hp' := Except.ok.inj hp
        rw [hos]
        simp only [← hp']

/-- The default points of an augmented basis are those which the underlying basis gives for as many points as there are
functions in the augmented basis. -/
theorem C71_augmented_default {svds : Svds} (hs : svds.Ok) {b : FiniteTemp.Basis} {augs : List AugArg} {a : AugBasis}
    (ha : augInit b augs = .ok a) (q : Search) :
    (∀ p w, b.defaultTau q.tol (q.u b.sve) (q.du b.sve) (some (augs.length + b.size)) = some (.ok (p, w)) →
      tauInit svds (a.sampled q) none = tauInit svds (a.sampled q) (some (1, p))) ∧
    ∀ ns w po, b.defaultMatsubara (q.uhat b.statistics b.sve) (some (augs.length + b.size)) po = some (.ok (ns, w)) →
      ns.Pairwise (· ≤ ·) → (po = true → ns ≠ [] ∧ ∀ n ∈ ns, 0 ≤ n) →
      matsInit svds (a.sampled q) none po = matsInit svds (a.sampled q) (some (1, .ints ns)) po := by
  obtain ⟨rfl, hl, -⟩ := C47_basis b augs a ha
  rw [← hl]
  constructor
  · intro p w hp
    refine (C63_default hs (b := a.sampled q)).1 p ?_
    show outcome (a.defaultTau q.tol (q.u a.basis.sve) (q.du a.basis.sve) none) = _
    rw [(C49_sampling a q.tol (q.u a.basis.sve) (q.du a.basis.sve) (q.uhat a.basis.statistics a.basis.sve) false).1, hp]
    rfl
  · intro ns w po hp hso hpo
    refine (C63_default hs (b := a.sampled q)).2.2.1 po ns ?_ hso hpo
    show outcome (a.defaultMatsubara (q.uhat a.basis.statistics a.basis.sve) none po) = _
    rw [(C49_sampling a q.tol (q.u a.basis.sve) (q.du a.basis.sve) (q.uhat a.basis.statistics a.basis.sve) po).2.1, hp]
    rfl

end Verif.Props
