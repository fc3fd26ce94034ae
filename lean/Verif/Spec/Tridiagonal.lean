import Mathlib.Analysis.Matrix.Spectrum
/-! Contract of `scipy.linalg.eigvalsh_tridiagonal`. -/

namespace Verif.Spec

/-- The symmetric tridiagonal matrix with diagonal `d[0..n-1]` and off-diagonal `e[0..n-2]`. -/
def tridiag (n : ℕ) (d e : ℕ → ℝ) : Matrix (Fin n) (Fin n) ℝ := fun i j =>
  if i = j then d i else if (i : ℕ) + 1 = j then e i else if (j : ℕ) + 1 = i then e j else 0

theorem tridiag_isHermitian (n : ℕ) (d e : ℕ → ℝ) : (tridiag n d e).IsHermitian := by
  ext i j
  simp only [tridiag, Matrix.conjTranspose_apply, star_trivial]
  by_cases h : i = j
  · subst h; rfl
  · rw [if_neg h, if_neg (Ne.symm h)]
    by_cases h1 : (i : ℕ) + 1 = j
    · have h2 : ¬ (j : ℕ) + 1 = i := by omega
      simp [h1, h2]
    · simp [h1]

/-- `x` lists the eigenvalues of the tridiagonal matrix, with multiplicity, in ascending order. -/
def IsEigvals (n : ℕ) (d e : ℕ → ℝ) (x : List ℝ) : Prop :=
  x.Pairwise (· ≤ ·) ∧ x.Perm (List.ofFn (tridiag_isHermitian n d e).eigenvalues)

end Verif.Spec
