import Verif.Props.C16_PowerModel
/-!
# C10 — selection commutes with evaluation
-/

namespace Verif.Props
open Verif Verif.Np Verif.Poly Verif.Spec

variable {ι κ : Type _}

/-- `p[l](x) == p(x)[l]` for every selection `σ` and every argument, errors included. -/
theorem C10_poly_select (p : PPoly ι) (σ : κ → ι) (x : ℝ) :
    (p.select σ).call x = (p.call x).map fun v k => v (σ k) := by
  have h : (p.select σ).split x = p.split x := rfl
  unfold PPoly.call
  rw [h]
  cases p.split x <;> rfl

/-- `p.value(l, x) == p(x)[l]`. -/
theorem C10_poly_value (p : PPoly ι) (l : ι) (x : ℝ) :
    p.value l x = (p.call x).map fun v => v l := by
  unfold PPoly.call PPoly.value
  cases p.split x <;> rfl

/-- `p[σ][τ] == p[σ∘τ]`. -/
theorem C10_select_select {μ : Type _} (p : PPoly ι) (σ : κ → ι) (τ : μ → κ) :
    (p.select σ).select τ = p.select (σ ∘ τ) := rfl

/-- Selection also commutes with differentiation. -/
theorem C10_select_deriv (p : PPoly ι) (σ : κ → ι) (n : ℕ) :
    (p.select σ).deriv n = (p.deriv n).select σ := rfl

/-- The data array is rectangular. -/
def Rectangular (p : PPoly ι) : Prop := ∀ i l i' l', (p.coef i l).length = (p.coef i' l').length

theorem unl_select [Nonempty κ] (p : PPoly ι) (hr : Rectangular p) (σ : κ → ι) (n : ℤ) :
    (p.select σ).computeUnl n = (p.computeUnl n).map fun v k => v (σ k) := by
  unfold PPoly.computeUnl
  by_cases h : ∀ i l, (p.coef i l).length = p.polyorder
  · rw [if_pos h, if_pos (show ∀ i l, ((p.select σ).coef i l).length = (p.select σ).polyorder
      from fun i l => h i (σ l))]
    by_cases h2 : ∀ i, ∃ z, p.phaseStable n i = .ok z
    · rw [dif_pos h2, dif_pos (show ∀ i, ∃ z, (p.select σ).phaseStable n i = .ok z from h2)]
      rfl
    · rw [dif_neg h2, dif_neg (show ¬ ∀ i, ∃ z, (p.select σ).phaseStable n i = .ok z from h2)]
      rfl
  · rw [if_neg h, if_neg]
    · rfl
    · intro h2
      apply h
      intro i l
      obtain ⟨k⟩ := ‹Nonempty κ›
      rw [hr i l i (σ k)]
      exact h2 i k

theorem call_select [Nonempty κ] (f : PFT ι) (hr : Rectangular f.poly) (σ : κ → ι) (g : PFT κ)
    (hp : g.poly = f.poly.select σ) (hf : g.freq = f.freq) (hn : g.nAsymp = f.nAsymp)
    (hm : f.nAsymp ≠ none → g.model = f.model.map fun m => m.map fun v k => v (σ k)) (n : ℤ) :
    g.call n = (f.call n).map fun v k => v (σ k) := by
  unfold PFT.call
  rw [hf, hp, hn, unl_select f.poly hr σ n]
  cases Util.checkReducedMatsubara (.ints [n]) f.freq.zeta with
  | error e => rfl
  | ok _ =>
    simp only
    cases f.poly.computeUnl n with
    | error e => rfl
    | ok v =>
      simp only [Except.map]
      cases hna : f.nAsymp with
      | none => rfl
      | some na =>
        simp only
        split
        · rw [hm (by simp [hna])]
          cases f.model with
          | none => rfl
          | some m =>
            simp only [Option.map_some, Except.ok.injEq]
            funext k
            unfold giw
            simp only [← List.map_reverse, List.foldl_map]
        · rfl

/-- `uhat[l](n) == uhat(n)[l]` for every transform with an asymptotic model (below and above
`n_asymp`), every selection and every frequency, errors included. -/
theorem C10_ft_select [Nonempty κ] (pos : ι → ℕ) (pos' : κ → ℕ) (p : PPoly ι) (hr : Rectangular p)
    (freq : Freq) (na : ℝ) (model : Option (List (ι → ℝ))) (f : PFT ι)
    (hf : PFT.ctor pos p freq (some na) model = .ok f) (σ : κ → ι) :
    ∃ g, f.select pos' σ = .ok g ∧ ∀ n, g.call n = (f.call n).map fun v k => v (σ k) := by
  unfold PFT.ctor at hf
  split at hf
  · cases hf
  rename_i hx
  obtain ⟨m, rfl⟩ : ∃ m, f = ⟨p, freq, some na, some m⟩ := by
    simp only at hf
    split at hf
    · exact ⟨_, (Except.ok.inj hf).symm⟩
    · split at hf
      · cases hf
      · exact ⟨_, (Except.ok.inj hf).symm⟩
  refine ⟨⟨p.select σ, freq, some na, some (m.map fun v l => v (σ l))⟩, ?_, ?_⟩
  · unfold PFT.select
    simp only
    rw [if_neg (show ¬ ((p.select σ).xmin ≠ -1 ∨ (p.select σ).xmax ≠ 1) from hx)]
  · intro n
    exact call_select (f := ⟨p, freq, some na, some m⟩) hr σ _ rfl rfl rfl (fun _ => rfl) n

/-- Without asymptotic model the same holds for `freq='even'` and `'odd'` (the model that is built
on selection is never used). -/
theorem C10_ft_select_noasymp_partial [Nonempty κ] (pos : ι → ℕ) (pos' : κ → ℕ) (p : PPoly ι)
    (h : p.WF) (hr : Rectangular p) (freq : Freq) (hfreq : freq ≠ .any)
    (model : Option (List (ι → ℝ))) (f : PFT ι)
    (hf : PFT.ctor pos p freq none model = .ok f) (σ : κ → ι) :
    ∃ g, f.select pos' σ = .ok g ∧ ∀ n, g.call n = (f.call n).map fun v k => v (σ k) := by
  unfold PFT.ctor at hf
  split at hf
  · cases hf
  rename_i hx
  simp only [Except.ok.injEq] at hf
  subst hf
  push Not at hx
  obtain ⟨s, hs⟩ : ∃ s, freq.statsign = .ok s := by
    cases freq with
    | any => exact absurd rfl hfreq
    | even => exact ⟨1, rfl⟩
    | odd => exact ⟨-1, rfl⟩
  have hw : (p.select σ).WF := ⟨h.pos, h.mono, h.dx_eq⟩
  have hpm : ∃ m, powerModel pos' freq (p.select σ) = .ok m := by
    unfold powerModel
    rw [derivsLoop_spec hw (last_inSeg hw hx.2), hs]
    exact ⟨_, rfl⟩
  obtain ⟨m, hm⟩ := hpm
  refine ⟨⟨p.select σ, freq, none, some m⟩, ?_, ?_⟩
  · unfold PFT.select
    simp only
    rw [if_neg (show ¬ ((p.select σ).xmin ≠ -1 ∨ (p.select σ).xmax ≠ 1) by
      push Not; exact hx), hm]
  · intro n
    exact call_select (f := ⟨p, freq, none, none⟩) hr σ _ rfl rfl rfl (fun h => absurd rfl h) n

/-- Disagreement: a transform over all frequencies (`freq='any'`, no `n_asymp`) can be evaluated but
not indexed: `uhat[l]` raises KeyError, for every well-formed polynomial on `[-1, 1]`. -/
theorem C10_any_select_raises (pos : ι → ℕ) (pos' : κ → ℕ) (p : PPoly ι) (h : p.WF)
    (hmin : p.xmin = -1) (hmax : p.xmax = 1) (hlen : ∀ i l, (p.coef i l).length = p.polyorder)
    (σ : κ → ι) :
    ∃ f, PFT.ctor pos p .any none none = .ok f ∧
      (∀ n, f.call n = .ok fun l => ft (fn p l) n) ∧ f.select pos' σ = .error .keyError := by
  have hw : (p.select σ).WF := ⟨h.pos, h.mono, h.dx_eq⟩
  refine ⟨⟨p, .any, none, none⟩, ?_, ?_, ?_⟩
  · unfold PFT.ctor
    rw [if_neg (by rw [hmin, hmax]; simp)]
  · intro n
    exact (C14_call ⟨p, .any, none, none⟩ h hmin hmax hlen n (by intro na h; cases h)).1 trivial
  · unfold PFT.select
    simp only
    rw [if_neg (show ¬ ((p.select σ).xmin ≠ -1 ∨ (p.select σ).xmax ≠ 1) by
      push Not; exact ⟨hmin, hmax⟩)]
    unfold powerModel
    rw [derivsLoop_spec hw (last_inSeg hw hmax)]
    rfl

/-! Non-vacuity: two functions `1/√2·P₀`-like and `x` on `[-1, 1]`. -/

/-- Functions `1` and `x` on `[-1, 1]`. -/
noncomputable def exPair : PPoly (Fin 2) :=
  ⟨1, 2, ![-1, 1], fun _ => 2, fun _ l => if l = 0 then [1, 0] else [0, 1], fun l => (-1) ^ (l : ℕ)⟩

theorem exPair_WF : exPair.WF := ⟨exPoly_WF.pos, exPoly_WF.mono, exPoly_WF.dx_eq⟩

theorem exPair_len (i : Fin 1) (l : Fin 2) : (exPair.coef i l).length = exPair.polyorder := by
  change (if l = 0 then [1, 0] else [(0 : ℝ), 1]).length = 2
  split <;> rfl

theorem exPair_rect : Rectangular exPair := fun i l i' l' => by
  rw [exPair_len i l, exPair_len i' l']

example : ∃ f, PFT.ctor (fun l : Fin 2 => l) exPair .even (some 1) none = .ok f := by
  unfold PFT.ctor
  rw [if_neg (by simp [PPoly.xmin, PPoly.xmax, exPair])]
  simp only
  rw [powerModel_eq exPair exPair_WF rfl (by decide) _ .even 1 rfl]
  exact ⟨_, rfl⟩

end Verif.Props
