import Verif.Props.C47_AugmentedIndex
import Verif.Props.C48_Augmentations
import Verif.Props.C11_Deriv
/-!
# C49 — metadata of an augmented basis
-/

namespace Verif.Props
open Verif Verif.Np Verif.Poly Verif.FiniteTemp Verif.Augment

/-- What "as for the underlying basis" means for the accessors in question. -/
structure Forwards (a : AugBasis) : Prop where
  statistics : a.statistics = .ok a.basis.statistics
  xmin : a.uXmin = a.basis.u.xmin
  xmax : a.uXmax = a.basis.u.xmax
  deriv : ∀ n : ℕ, ∃ d, a.uDeriv n = .ok d ∧ d.faug = a.augs.map (·.deriv n) ∧
    ∀ t : TArg, (d.fbasis.call t).map List.ofFn = ((a.basis.u.deriv n).call t.tau).map fun v => List.ofFn fun l => some (v l)

section
variable {fp : Fp} {compute : KernelInfo → Option ℝ → PyM SveResult} {stat : String} {beta wmax : ℝ}
    {eps : Option ℝ} {maxSize : Option ℕ} {kernel : Option KernelInfo} {sve : Option SveResult} {k : KernelInfo}
    {lam : ℝ} {r : Verif.FiniteTemp.SveResult} {h : Good r} {e : ℝ} {m : ℕ}

/-- Three of the four claims are false for every augmented basis over every validly constructed basis:
`statistics` and `deriv` raise TypeError, and `xmax` is zero instead of `beta`. -/
theorem C49_negation (v : Valid fp compute stat beta wmax eps maxSize kernel sve k lam r h e m) :
    ∃ b, make fp compute stat beta wmax eps maxSize kernel sve = .ok b ∧
      ∀ augs a, augInit b augs = .ok a → a.statistics = .error .typeError ∧
        (∀ n, a.uDeriv n = .error .typeError) ∧ a.uXmax = 0 ∧ a.uXmax ≠ a.basis.u.xmax ∧ ¬ Forwards a := by
  obtain ⟨b, hb, d⟩ := v.ok
  refine ⟨b, hb, fun augs a ha => ?_⟩
  obtain ⟨rfl, -⟩ := C47_basis b augs a ha
  have hx : a.uXmax ≠ a.basis.u.xmax := by
    unfold AugBasis.uXmax
    rw [d.umin, d.umax]
    exact v.hbeta.ne
  refine ⟨rfl, fun n => ?_, d.umin, hx, fun H => hx H.xmax⟩
  unfold AugBasis.uDeriv
  rcases a.augs with _ | ⟨o, _ | ⟨o', os⟩⟩ <;> rfl

/-- What does hold: `xmin`, `beta`, `wmax`, `lambda_` and `accuracy` are those of the basis; the sampling points are
those the basis gives for `naug + basis.size` points. -/
theorem C49_forwarded_partial (b : Basis) (augs : List AugArg) (a : AugBasis) (ha : augInit b augs = .ok a) :
    a.uXmin = b.u.xmin ∧ a.beta = b.beta ∧ a.wmax = b.wmax ∧ a.lambda fp = b.lambda fp ∧ a.accuracy = b.accuracy := by
  obtain ⟨rfl, -⟩ := C47_basis b augs a ha
  exact ⟨rfl, rfl, rfl, rfl, rfl⟩

/-- The sampling points of an augmented basis are those of the basis for as many points as the augmented
basis has functions. -/
theorem C49_sampling (a : AugBasis) (pts : ℝ) (F G) (H) (po : Bool) :
    a.defaultTau pts F G none = a.basis.defaultTau pts F G (some (a.augs.length + a.basis.size)) ∧
    a.defaultMatsubara H none po = a.basis.defaultMatsubara H (some (a.augs.length + a.basis.size)) po ∧
    ∀ n, a.defaultTau pts F G (some n) = a.basis.defaultTau pts F G (some n) ∧
      a.defaultMatsubara H (some n) po = a.basis.defaultMatsubara H (some n) po :=
  ⟨rfl, rfl, fun _ => ⟨rfl, rfl⟩⟩

/-- `significance` has one entry per function of the underlying basis only, so it is shorter than `size` as soon
as there is an augmentation (the base class documents "one for each basis function"). -/
theorem C49_significance (v : Valid fp compute stat beta wmax eps maxSize kernel sve k lam r h e m) :
    ∃ b, make fp compute stat beta wmax eps maxSize kernel sve = .ok b ∧
      ∀ augs a, augInit b augs = .ok a → ∃ sig, a.significance = .ok sig ∧ sig.length + augs.length = a.size := by
  obtain ⟨b, sig, hb, hsig, -⟩ := C40_significance v
  refine ⟨b, hb, fun augs a ha => ?_⟩
  obtain ⟨rfl, -, hs, -⟩ := C47_basis b augs a ha
  refine ⟨List.ofFn sig, ?_, ?_⟩
  · unfold AugBasis.significance
    rw [hsig]
    rfl
  · rw [hs, List.length_ofFn, Nat.add_comm]

/-- A basis augmented with `MatsubaraConst` only is reported well conditioned; no augmentation, or `TauConst` and
`TauLinear`, are not. -/
theorem C49_conditioned (b : Basis) (npc : Bool) (hb : 0 < b.beta) :
    (∃ a, augInit b [MatsubaraConst] = .ok a ∧ a.isWellConditioned = true) ∧
    (∃ a, augInit b [] = .ok a ∧ a.isWellConditioned = false) ∧
    (b.statistics = "B" → ∃ a, augInit b [TauConst npc, TauLinear] = .ok a ∧ a.isWellConditioned = false) := by
  refine ⟨?_, ⟨⟨b, []⟩, rfl, rfl⟩, fun hs => ?_⟩
  · obtain ⟨o, ho, h1, -⟩ := C48_matsubara b.statistics b.beta hb
    exact ⟨⟨b, [o]⟩, by simp only [augInit, ho], h1⟩
  · obtain ⟨o1, o2, ho, -⟩ := (C48_bosonic_only npc b.statistics b.beta hb).1 hs
    exact ⟨⟨b, [o1, o2]⟩, by simp only [augInit, ho], rfl⟩

/-- The whole augmented basis of the class documentation is a set of Fourier pairs below the asymptotic region:
entry `l` of `uhat` at an even frequency of an array argument is the Fourier integral of entry `l` of `u`.  Needs
a numpy with `np.complex` (see C48). -/
theorem C48_fourier_pairs (v : Valid fp compute "B" beta wmax eps maxSize kernel sve k lam r h e m) (n : ℤ)
    (hn : |(n : ℝ)| < 40 * lam) (he : Even n) :
    ∃ b a, make fp compute "B" beta wmax eps maxSize kernel sve = .ok b ∧
      augInit b [TauConst true, TauLinear] = .ok a ∧ ∃ (f : Fin (2 + b.size) → ℝ → ℝ) (vs : List ℂ),
        (∀ t : TArg, 0 ≤ t.tau → t.tau ≤ beta → a.u.call t = .ok (List.ofFn fun l => some (f l t.tau))) ∧
        a.uhat.call ⟨n, false⟩ = .ok vs ∧ vs = List.ofFn fun l => Spec.ftTau beta (f l) n := by
  obtain ⟨b, hb, h1, -⟩ := C59_uhat v n hn
  obtain ⟨b', hb', d⟩ := v.ok
  obtain rfl : b = b' := Except.ok.inj (hb.symm.trans hb')
  have hbeta : b.beta = beta := d.beta_eq
  obtain ⟨o1, o2, ho, hc1, hc2⟩ := (C48_bosonic_only true b.statistics b.beta (by rw [hbeta]; exact v.hbeta)).1
    d.statistics
  rw [hbeta] at hc1 hc2
  refine ⟨b, ⟨b, [o1, o2]⟩, hb, by simp only [augInit, ho],
    Fin.append ![unitConst beta, unitLinear beta] (fun l => fn b.u l), _, fun t ht ht' => ?_, ?_, rfl⟩
  · have hcall : b.u.call t.tau = .ok fun l => fn b.u l t.tau := by
      obtain ⟨i, hi⟩ := d.uwf.exists_inSeg (x := t.tau) (by rw [d.umin]; exact ht) (by rw [d.umax]; exact ht')
      have hc := PPoly.call_eq d.uwf hi
      rw [hc]
      congr 1
      funext l
      unfold fn
      rw [hc]
    unfold AugFn.call AugBasis.u tauFn
    simp only [hcall, Except.map, List.map, AugFn.callAll, (C48_const_call true beta o1 hc1 t).1 ⟨ht, ht'⟩,
      (C48_linear_call beta o2 hc2 t).1 ⟨ht, ht'⟩]
    congr 1
    rw [List.ofFn_add]
    simp [List.ofFn_succ, Fin.append_left, Fin.append_right]
  · have hodd : ("B" = "F" ↔ Odd n) := by
      simp [Int.not_odd_iff_even.2 he]
    unfold AugFn.call AugBasis.uhat matsFn
    simp only [h1 hodd, Except.map, List.map, AugFn.callAll, (C48_const_hat_partial beta o1 hc1 ⟨n, false⟩).1 he,
      (C48_linear_hat_partial beta o2 hc2 ⟨n, false⟩ rfl).1 he]
    congr 1
    rw [List.ofFn_add]
    simp [List.ofFn_succ, Fin.append_left, Fin.append_right]
    rfl

end

/-- A concrete basis for the hypotheses: two functions, one augmentation. -/
example : ∃ b a, make Fp.exact (fun _ _ => .error .valueError) "F" 10 4 (some 0.01) none none
    (some (exSve 0.01)) = .ok b ∧ augInit b [MatsubaraConst] = .ok a ∧ a.size = 3 ∧ a.uXmax = 0 ∧ a.uXmin = 0 := by
  have v := exValid 0.01 0.01 (by norm_num) fun _ _ => .error .valueError
  obtain ⟨b, hb, H⟩ := C49_negation v
  obtain ⟨b', hb', d⟩ := v.ok
  obtain rfl : b = b' := Except.ok.inj (hb.symm.trans hb')
  obtain ⟨a, ha, -⟩ := (C49_conditioned b true (by rw [d.beta_eq]; norm_num)).1
  obtain ⟨-, -, hx, -⟩ := H _ a ha
  obtain ⟨e1, -, hs, -⟩ := C47_basis b _ a ha
  refine ⟨b, a, hb, ha, ?_, hx, ?_⟩
  · rw [hs, d.size_eq]; rfl
  · exact hx

end Verif.Props
