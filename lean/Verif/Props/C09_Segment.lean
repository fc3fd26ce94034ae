import Verif.Lemmas.Poly
import Mathlib.Tactic.NormNum
/-!
# C09 — piecewise evaluation selects the right segment
-/

namespace Verif.Props
open Verif Verif.Np Verif.Spec Verif.Poly

variable {ι : Type _}

/-- For strictly increasing knots construction succeeds, every point of the closed interval lies in
exactly one segment (half-open, the last one closed), the local coordinate lies in `[-1, 1]`, and the
value is the normalised Legendre sum of that segment; all other arguments raise ValueError. -/
theorem C09_eval (nseg ncoef : ℕ) (coef : Fin nseg → ι → List ℝ) (knots : List ℝ)
    (symm : Option (ι → ℝ)) (hpos : 0 < nseg) (hlen : knots.length = nseg + 1)
    (hk : knots.Pairwise (· < ·)) :
    ∃ p, PPoly.ctor nseg ncoef coef knots none symm = .ok p ∧
      (∀ x, (∀ v, p.call x = .ok v → knots[0] ≤ x ∧ x ≤ knots[nseg]) ∧
        ((x < knots[0] ∨ knots[nseg] < x) → p.call x = .error .valueError)) ∧
      ∀ x, knots[0] ≤ x → x ≤ knots[nseg] →
        ∃! i : Fin nseg,
          (knots[(i : ℕ)] ≤ x ∧ (x < knots[(i : ℕ) + 1] ∨ ((i : ℕ) + 1 = nseg ∧ x = knots[nseg]))) ∧
          (-1 ≤ (2 * x - (knots[(i : ℕ)] + knots[(i : ℕ) + 1])) / (knots[(i : ℕ) + 1] - knots[(i : ℕ)]) ∧
            (2 * x - (knots[(i : ℕ)] + knots[(i : ℕ) + 1])) / (knots[(i : ℕ) + 1] - knots[(i : ℕ)]) ≤ 1) ∧
          p.call x = .ok fun l => segFun knots[(i : ℕ)] knots[(i : ℕ) + 1] (coef i l) x := by
  have hsm : StrictMono fun j : Fin (nseg + 1) => knots.get (j.cast hlen.symm) := by
    intro i j hij
    exact List.pairwise_iff_getElem.1 hk _ _ _ _ hij
  have hle : ∀ i : Fin nseg, knots.get (i.succ.cast hlen.symm) ≥ knots.get (i.castSucc.cast hlen.symm) :=
    fun i => (hsm Fin.castSucc_lt_succ).le
  refine ⟨⟨nseg, ncoef, fun j => knots.get (j.cast hlen.symm),
    fun i => knots.get (i.succ.cast hlen.symm) - knots.get (i.castSucc.cast hlen.symm), coef,
    symm.getD fun _ => 0⟩, ?_, ?_, ?_⟩
  · unfold PPoly.ctor
    rw [dif_pos hlen]
    simp only
    rw [if_pos hle]
  all_goals
    set p : PPoly ι := ⟨nseg, ncoef, fun j => knots.get (j.cast hlen.symm),
      fun i => knots.get (i.succ.cast hlen.symm) - knots.get (i.castSucc.cast hlen.symm), coef,
      symm.getD fun _ => 0⟩ with hp
    have hwf : p.WF := ⟨hpos, hsm, fun _ => rfl⟩
    have hmin : p.xmin = knots[0] := rfl
    have hmax : p.xmax = knots[nseg] := rfl
  · intro x
    refine ⟨?_, ?_⟩
    · intro v hv
      by_contra h
      rw [← hmin, ← hmax] at h
      rw [PPoly.call_out h] at hv
      cases hv
    · intro h
      apply PPoly.call_out
      rw [hmin, hmax]
      rintro ⟨h1, h2⟩
      rcases h with h | h
      · exact absurd h1 (not_le.2 h)
      · exact absurd h2 (not_le.2 h)
  · intro x h1 h2
    obtain ⟨i, hi⟩ := hwf.exists_inSeg (x := x) h1 h2
    refine ⟨i, ⟨hi, ?_, PPoly.call_eq hwf hi⟩, ?_⟩
    · have hw : 0 < knots[(i : ℕ) + 1] - knots[(i : ℕ)] := hwf.dx_pos i
      have e1 : knots[(i : ℕ)] ≤ x := hi.1
      have e2 : x ≤ knots[(i : ℕ) + 1] := hi.le
      rw [le_div_iff₀ hw, div_le_iff₀ hw]
      constructor <;> linarith
    · rintro j ⟨hj, -, -⟩
      exact (PPoly.inSeg_unique hwf hi hj).symm

/-- The constructor refuses a wrong number of knots and decreasing knots. -/
theorem C09_ctor_rejects (nseg ncoef : ℕ) (coef : Fin nseg → ι → List ℝ) (knots : List ℝ)
    (dx : Option (Fin nseg → ℝ)) (symm : Option (ι → ℝ))
    (h : knots.length ≠ nseg + 1 ∨ ∃ i : ℕ, ∃ hi : i + 1 < knots.length,
      knots[i + 1] < knots[i]) :
    PPoly.ctor nseg ncoef coef knots dx symm = .error .valueError := by
  unfold PPoly.ctor
  by_cases hl : knots.length = nseg + 1
  · rcases h with h | ⟨i, hi, h⟩
    · exact absurd hl h
    · rw [dif_pos hl]
      simp only
      rw [if_neg]
      intro hall
      have := hall ⟨i, by omega⟩
      simp only [List.get_eq_getElem, Fin.val_cast, Fin.val_succ, Fin.val_castSucc] at this
      exact absurd h (not_lt.2 this)
  · rw [dif_neg hl]

/-- A polynomial without segments can be constructed, but not evaluated: at its only knot there is no segment to look up
(IndexError), elsewhere it is out of range. -/
theorem C09_no_segments (ncoef : ℕ) (coef : Fin 0 → ι → List ℝ) (a : ℝ) (symm : Option (ι → ℝ)) :
    ∃ p, PPoly.ctor 0 ncoef coef [a] none symm = .ok p ∧ p.call a = .error .indexError ∧
      ∀ x, x ≠ a → p.call x = .error .valueError := by
  unfold PPoly.ctor
  rw [dif_pos (show [a].length = 0 + 1 from rfl)]
  simp only
  rw [if_pos (fun i : Fin 0 => i.elim0)]
  refine ⟨_, rfl, ?_, fun x hx => ?_⟩
  · unfold PPoly.call PPoly.split
    rw [if_neg (by simp [PPoly.xmin]), if_neg (by simp [PPoly.xmax])]
    simp
  · unfold PPoly.call PPoly.split
    rcases lt_or_gt_of_ne hx with h | h
    · rw [if_pos (by simpa [PPoly.xmin] using h)]
    · by_cases h' : x ≥ a
      · rw [if_neg (by simpa [PPoly.xmin] using h'), if_pos (by simpa [PPoly.xmax] using h)]
      · exact absurd h.le h'

/-- Repeated knots pass the constructor, but a zero-width last segment evaluates to NaN at `xmax`:
the hypothesis "strictly increasing" is needed. -/
theorem C09_zero_width_nan : ∃ p : PPoly Unit,
    PPoly.ctor 1 1 (fun _ _ => [1]) [0, 0] none none = .ok p ∧ p.call 0 = .error .nanResult := by
  refine ⟨⟨1, 1, fun _ => 0, fun _ => 0, fun _ _ => [1], fun _ => 0⟩, ?_, ?_⟩
  · have e : (fun j : Fin (1 + 1) => ([0, 0] : List ℝ).get (j.cast rfl)) = fun _ => 0 := by
      funext j; fin_cases j <;> rfl
    unfold PPoly.ctor
    rw [dif_pos (show ([0, 0] : List ℝ).length = 1 + 1 from rfl)]
    simp only [e, sub_zero]
    simp
  · unfold PPoly.call PPoly.split
    simp [PPoly.xmin, PPoly.xmax, PPoly.searchsortedRight]

/- Non-vacuity: two segments of width 1 and 2; the second one is used at the knot `x = 1`. -/
example : ∃ p : PPoly Unit,
    PPoly.ctor 2 2 (fun i _ => if i = 0 then [1, 0] else [0, 1]) [0, 1, 3] none none = .ok p ∧
    p.call 1 = .ok fun _ => segFun 1 3 [0, 1] 1 := by
  obtain ⟨p, h1, -, h3⟩ := C09_eval (ι := Unit) 2 2 (fun i _ => if i = 0 then [1, 0] else [0, 1])
    [0, 1, 3] none (by norm_num) rfl
    (by simp only [List.pairwise_cons, List.mem_cons, List.not_mem_nil, or_false]; norm_num)
  refine ⟨p, h1, ?_⟩
  obtain ⟨i, ⟨⟨hi1, hi2⟩, -, hi3⟩, -⟩ := h3 1 (by simp) (by simp)
  match i with
  | 0 => simp at hi2
  | 1 => simpa using hi3

end Verif.Props
