import Verif.Lemmas.Sampling
import Mathlib.LinearAlgebra.Matrix.Notation
/-!
# C61 — a supplied decomposition is checked for shape and kept faithfully
-/

namespace Verif.Props
open Verif Verif.Np Verif.Util Verif.Sampling

/-- `check_svd_result` accepts exactly the triples whose shapes fit each other and, if given, the matrix. -/
theorem C61_check (mu ku ks kv nv : ℕ) (shape : Option (ℕ × ℕ)) :
    (checkSvdResult mu ku ks kv nv shape = .ok ks ↔ ku = ks ∧ ks = kv ∧ ∀ m n, shape = some (m, n) → mu = m ∧ nv = n) ∧
      (checkSvdResult mu ku ks kv nv shape = .ok ks ∨ checkSvdResult mu ku ks kv nv shape = .error .valueError) := by
  unfold checkSvdResult
  by_cases h : ku ≠ ks ∨ ks ≠ kv
  · rw [if_pos h]
    refine ⟨⟨fun e => (by cases e), fun ⟨h1, h2, _⟩ => ?_⟩, Or.inr rfl⟩
    rcases h with h | h
    · exact absurd h1 h
    · exact absurd h2 h
  · rw [if_neg h]
    obtain ⟨h1, h2⟩ := not_or.1 h
    rw [not_not] at h1 h2
    match shape with
    | none => exact ⟨⟨fun _ => ⟨h1, h2, fun _ _ e => by cases e⟩, fun _ => rfl⟩, Or.inl rfl⟩
    | some (m, n) =>
      simp only
      by_cases h' : mu ≠ m ∨ nv ≠ n
      · rw [if_pos h']
        refine ⟨⟨fun e => (by cases e), fun ⟨_, _, h3⟩ => ?_⟩, Or.inr rfl⟩
        have := h3 m n rfl
        rcases h' with h' | h'
        · exact absurd this.1 h'
        · exact absurd this.2 h'
      · rw [if_neg h']
        obtain ⟨h3, h4⟩ := not_or.1 h'
        rw [not_not] at h3 h4
        refine ⟨⟨fun _ => ⟨h1, h2, fun _ _ e => ?_⟩, fun _ => rfl⟩, Or.inl rfl⟩
        cases e
        exact ⟨h3, h4⟩

/-- Specification: the shapes of a triple fit each other and a matrix. -/
def Fits (m n mu ku ks kv nv : ℕ) : Prop := ku = ks ∧ ks = kv ∧ mu = m ∧ nv = n

/-- `DecomposedMatrix`: everything else is refused. -/
theorem C61_refuse {𝕜 : Type} [Star 𝕜] {m n : ℕ} (a : Matrix (Fin m) (Fin n) 𝕜) (t : Triple 𝕜)
    (h : ¬ Fits m n t.mu t.ku t.ks t.kv t.nv) : decompose a t = .error .valueError := by
  unfold decompose
  rw [dif_neg fun h' => h ⟨h'.2.1.1, h'.2.1.2, h'.2.2.1, h'.2.2.2⟩]

theorem C61_refuse_split {m n : ℕ} (a : Matrix (Fin m) (Fin n) ℂ) (t : SplitTriple)
    (h : ¬ Fits m n t.mu t.ku t.ks t.kv t.nv) : splitDecompose a t = .error .valueError := by
  unfold splitDecompose
  rw [dif_neg fun h' => h ⟨h'.2.1.1, h'.2.1.2, h'.2.2.1, h'.2.2.2⟩]

/-- `DecomposedMatrix` with fitting shapes, whatever the values: the matrix is kept, the singular values are the
non-zero ones in the given order, with the columns of `u` and the rows of `vH` belonging to them, and `(u * s) @ vH` is
that of the given triple. -/
theorem C61_accept {𝕜 : Type} [RCLike 𝕜] {m n k : ℕ} (a : Matrix (Fin m) (Fin n) 𝕜) (u : Matrix (Fin m) (Fin k) 𝕜)
    (s : Fin k → ℝ) (vH : Matrix (Fin k) (Fin n) 𝕜) :
    ∃ (d : DecMat 𝕜 m n) (e : Fin d.r → Fin k), decompose a ⟨m, k, k, k, n, u, s, vH⟩ = .ok d ∧ d.a = a ∧
      StrictMono e ∧ (∀ i, s i ≠ 0 ↔ ∃ j, e j = i) ∧ (∀ j, d.s j = s (e j)) ∧ (∀ i j, d.uCols i j = u i (e j)) ∧
      (∀ j i, d.vHRows j i = vH (e j) i) ∧
      ∀ i l, ∑ j, d.uCols i j * (d.s j : 𝕜) * d.vHRows j l = ∑ j, u i j * (s j : 𝕜) * vH j l := by
  have hc : checkSvdResult m k k k n (some (m, n)) = .ok k :=
    (C61_check m k k k n _).1.2 ⟨rfl, rfl, fun _ _ e => by cases e; exact ⟨rfl, rfl⟩⟩
  unfold decompose
  rw [dif_pos ⟨hc, ⟨rfl, rfl⟩, rfl, rfl⟩]
  refine ⟨_, (keep s).get, rfl, rfl, keep_mono s, fun i => ⟨keep_surj s i, ?_⟩, fun j => rfl, fun i j => star_star _,
    fun j i => star_star _, fun i l => ?_⟩
  · rintro ⟨j, rfl⟩; exact keep_ne_zero s j
  · refine Eq.trans (Finset.sum_congr rfl fun j _ => ?_)
      (keep_sum s (fun j => u i j * (s j : 𝕜) * vH j l) fun j hj => by rw [hj]; simp)
    simp only [DecMat.uCols, DecMat.vHRows, star_star]
    rfl

/-- The same for `SplitDecomposedMatrix`. -/
theorem C61_accept_split {m n k : ℕ} (a : Matrix (Fin m) (Fin n) ℂ) (u : Matrix (Fin m) (Fin k) ℂ)
    (s : Fin k → ℝ) (vT : Matrix (Fin k) (Fin n) ℝ) :
    ∃ (d : SplitMat m n) (e : Fin d.r → Fin k), splitDecompose a ⟨m, k, k, k, n, u, s, vT⟩ = .ok d ∧ d.a = a ∧
      StrictMono e ∧ (∀ i, s i ≠ 0 ↔ ∃ j, e j = i) ∧ (∀ j, d.s j = s (e j)) ∧ (∀ i j, d.uCols i j = u i (e j)) ∧
      (∀ j i, d.vHRows j i = vT (e j) i) ∧
      ∀ i l, ∑ j, d.uCols i j * (d.s j : ℂ) * (d.vHRows j l : ℂ) = ∑ j, u i j * (s j : ℂ) * (vT j l : ℂ) := by
  have hc : checkSvdResult m k k k n (some (m, n)) = .ok k :=
    (C61_check m k k k n _).1.2 ⟨rfl, rfl, fun _ _ e => by cases e; exact ⟨rfl, rfl⟩⟩
  unfold splitDecompose
  rw [dif_pos ⟨hc, ⟨rfl, rfl⟩, rfl, rfl⟩]
  refine ⟨_, (keep s).get, rfl, rfl, keep_mono s, fun i => ⟨keep_surj s i, ?_⟩, fun j => rfl, fun i j => rfl,
    fun j i => rfl, fun i l => ?_⟩
  · rintro ⟨j, rfl⟩; exact keep_ne_zero s j
  · exact keep_sum s (fun j => u i j * (s j : ℂ) * (vT j l : ℂ)) fun j hj => by rw [hj]; simp

/-- The values are not checked: a triple of ones is accepted for the zero matrix. -/
theorem C61_values_negation : ∃ (a u vH : Matrix (Fin 1) (Fin 1) ℂ) (s : Fin 1 → ℝ) (d : DecMat ℂ 1 1),
    decompose a ⟨1, 1, 1, 1, 1, u, s, vH⟩ = .ok d ∧ d.a ≠ fun i l => ∑ j, d.uCols i j * (d.s j : ℂ) * d.vHRows j l := by
  obtain ⟨d, e, h1, h2, -, -, -, -, -, h3⟩ := C61_accept (𝕜 := ℂ) (m := 1) (n := 1) (k := 1) 0 (fun _ _ => 1)
    (fun _ => 1) (fun _ _ => 1)
  refine ⟨0, fun _ _ => 1, fun _ _ => 1, fun _ => 1, d, h1, fun h => ?_⟩
  have h4 := congrFun (congrFun h 0) 0
  rw [h2] at h4
  have h5 := h3 0 0
  have h6 := h4.trans h5
  simp at h6

/-- One vanishing singular value of two. -/
example : ∃ d : DecMat ℂ 1 1, decompose (fun _ _ => 2) ⟨1, 2, 2, 2, 1, fun _ _ => 1, ![2, 0], fun _ _ => 1⟩ = .ok d ∧
    d.r = 1 := by
  obtain ⟨d, e, h1, -, h3, h4, -⟩ := C61_accept (𝕜 := ℂ) (m := 1) (n := 1) (k := 2) (fun _ _ => 2) (fun _ _ => 1)
    ![2, 0] (fun _ _ => 1)
  refine ⟨d, h1, ?_⟩
  have hc : Fintype.card (Fin d.r) = Fintype.card {i : Fin 2 // (![2, 0] : Fin 2 → ℝ) i ≠ 0} := by
    refine Fintype.card_congr (Equiv.ofBijective (fun j => ⟨e j, (h4 _).2 ⟨j, rfl⟩⟩) ⟨fun a b hab => ?_, ?_⟩)
    · exact h3.injective (Subtype.ext_iff.1 hab)
    · rintro ⟨i, hi⟩
      obtain ⟨j, rfl⟩ := (h4 i).1 hi
      exact ⟨j, rfl⟩
  rw [Fintype.card_fin, Fintype.card_subtype] at hc
  rw [hc, Finset.card_eq_one]
  refine ⟨0, ?_⟩
  ext i
  fin_cases i <;> simp

end Verif.Props
