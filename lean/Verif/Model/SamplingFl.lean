import Verif.Model.Sampling
import Verif.Model.KernelFl
/-!
`DecomposedMatrix` and `SplitDecomposedMatrix` (`sampling.py:217-378`) in floating-point arithmetic: the same steps as in
`Model/Sampling.lean`, with the products and quotients of numpy as parameters.
-/

namespace Verif.Sampling
open Verif Verif.Np Matrix

/-- Matrix-vector product, quotient by a real number and sum as computed.  The product of a matrix with an array is
modelled as the product with every fibre. -/
structure FlMat (𝕜 : Type) where
  mv : ∀ {m n : ℕ}, Matrix (Fin m) (Fin n) 𝕜 → (Fin n → 𝕜) → Fin m → 𝕜
  div : 𝕜 → ℝ → 𝕜
  add : 𝕜 → 𝕜 → 𝕜

/-- Computations without rounding. -/
noncomputable def FlMat.exact {𝕜 : Type} [NonUnitalNonAssocSemiring 𝕜] (cast : ℝ → 𝕜) : FlMat 𝕜 where
  mv := fun B x => B *ᵥ x
  div := fun z s => z * cast s⁻¹
  add := fun a b => a + b

/-- `a @ x` as in `matmul` of `Model/Sampling.lean`. -/
def matmulFl {𝕜 : Type} (F : FlMat 𝕜) {m n : ℕ} (a : Matrix (Fin m) (Fin n) 𝕜) (x : NdArray 𝕜) : PyM (NdArray 𝕜) :=
  if x.ndim = 0 then .error .valueError
  else if x.ndim = 1 then x.alongAxis (F.mv a) 0
  else x.alongAxis (F.mv a) (x.ndim - 2)

/-- `r / (s[:, None] if r.ndim > 1 else s)` -/
noncomputable def divRowsFl {𝕜 : Type} (F : FlMat 𝕜) {k : ℕ} (r : NdArray 𝕜) (s : Fin k → ℝ) : PyM (NdArray 𝕜) :=
  open Classical in
  if ∃ i, s i = 0 then .error .nanResult
  else if r.ndim > 1 then r.alongAxis (fun v (i : Fin k) => F.div (v i) (s i)) (r.ndim - 2)
  else r.alongAxis (fun v (i : Fin k) => F.div (v i) (s i)) 0

/-- `r += q` for arrays of the same shape (ValueError otherwise). -/
def addArrFl (F : FlMat ℝ) (r q : NdArray ℝ) : PyM (NdArray ℝ) :=
  if h : r.shape = q.shape then
    .ok ⟨r.shape, List.zipWith F.add r.data q.data, by
      rw [List.length_zipWith, r.size_eq, q.size_eq, h, Nat.min_self]⟩
  else .error .valueError

namespace DecMat
variable {m n : ℕ}

/-- `sampling.py:249-251`, `DecomposedMatrix.matmul(x, axis)`. -/
def matmulAxisFl (F : FlMat ℂ) (d : DecMat ℂ m n) (x : NdArray ℂ) (axis : Option ℤ) : PyM (NdArray ℂ) :=
  matopAlongAxis (matmulFl F d.a) x axis

/-- `sampling.py:253-256`, `DecomposedMatrix._lstsq(x)`. -/
noncomputable def lstsqOpFl (F : FlMat ℂ) (d : DecMat ℂ m n) (x : NdArray ℂ) : PyM (NdArray ℂ) :=
  match matmulFl F d.uH x with
  | .error e => .error e
  | .ok r => match divRowsFl F r d.s with
    | .error e => .error e
    | .ok r => matmulFl F d.v r

/-- `sampling.py:258-260`, `DecomposedMatrix.lstsq(x, axis)`. -/
noncomputable def lstsqFl (F : FlMat ℂ) (d : DecMat ℂ m n) (x : NdArray ℂ) (axis : Option ℤ) : PyM (NdArray ℂ) :=
  matopAlongAxis (d.lstsqOpFl F) x axis

end DecMat

namespace SplitMat
variable {m n : ℕ}

/-- `sampling.py:337-339`, `SplitDecomposedMatrix.matmul(x, axis)`. -/
def matmulAxisFl (F : FlMat ℂ) (d : SplitMat m n) (x : NdArray ℂ) (axis : Option ℤ) : PyM (NdArray ℂ) :=
  matopAlongAxis (matmulFl F d.a) x axis

/-- `sampling.py:341-345`, `SplitDecomposedMatrix._lstsq(x)`. -/
noncomputable def lstsqOpFl (F : FlMat ℝ) (d : SplitMat m n) (x : NdArray ℂ) : PyM (NdArray ℝ) :=
  match matmulFl F d.urealT (mapArr Complex.re x) with
  | .error e => .error e
  | .ok r => match matmulFl F d.uimagT (mapArr Complex.im x) with
    | .error e => .error e
    | .ok q => match addArrFl F r q with
      | .error e => .error e
      | .ok r => match divRowsFl F r d.s with
        | .error e => .error e
        | .ok r => matmulFl F d.v r

/-- `sampling.py:347-349`, `SplitDecomposedMatrix.lstsq(x, axis)`. -/
noncomputable def lstsqFl (F : FlMat ℝ) (d : SplitMat m n) (x : NdArray ℂ) (axis : Option ℤ) : PyM (NdArray ℝ) :=
  matopAlongAxis (d.lstsqOpFl F) x axis

end SplitMat

namespace Mat
variable {m n : ℕ}

/-- `matrix.matmul(al, axis)` -/
def matmulAxisFl (F : FlMat ℂ) : Mat m n → NdArray ℂ → Option ℤ → PyM (NdArray ℂ)
  | .full d, x, axis => d.matmulAxisFl F x axis
  | .split d, x, axis => d.matmulAxisFl F x axis

/-- `matrix.lstsq(ax, axis)`; the split form computes with real numbers. -/
noncomputable def lstsqFl (F : FlMat ℂ) (G : FlMat ℝ) : Mat m n → NdArray ℂ → Option ℤ → PyM (NdArray ℂ)
  | .full d, x, axis => d.lstsqFl F x axis
  | .split d, x, axis => (d.lstsqFl G x axis).map (mapArr Complex.ofReal)

end Mat

/-- `sampling.py:54` without `points`: `evaluate(al, axis)`. -/
def Obj.evaluateHereFl (F : FlMat ℂ) {b : SBasis} {P : Type} (o : Obj b P) (al : NdArray ℂ) (axis : Option ℤ) :
    PyM (NdArray ℂ) := o.matrix.matmulAxisFl F al axis

/-- `sampling.py:85-90` without `points`: `fit(ax, axis)`, with the flag of the ConditioningWarning; the quotient
`cond`, which only that flag depends on, is left unrounded. -/
noncomputable def Obj.fitHereFl (F : FlMat ℂ) (G : FlMat ℝ) {b : SBasis} {P : Type} (o : Obj b P) (ax : NdArray ℂ)
    (axis : Option ℤ) : PyM (NdArray ℂ × Bool) :=
  let warned : PyM Bool :=
    if b.wellConditioned then o.matrix.cond.map fun c => decide (¬ c ≤ 10 ^ 8) else .ok false
  match warned with
  | .error e => .error e
  | .ok w => (o.matrix.lstsqFl F G ax axis).map fun y => (y, w)

/-! ## Dot products in an order of summation -/

/-- Order in which the products of a dot product are added. -/
inductive SumTree (n : ℕ)
  | empty
  | leaf (j : Fin n)
  | node (l r : SumTree n)

namespace SumTree
variable {n : ℕ}

/-- Indices added, from left to right. -/
def leaves : SumTree n → List (Fin n)
  | empty => []
  | leaf j => [j]
  | node l r => l.leaves ++ r.leaves

/-- Number of additions on the longest path. -/
def depth : SumTree n → ℕ
  | empty => 0
  | leaf _ => 0
  | node l r => max l.depth r.depth + 1

/-- The sum in this order. -/
def sum {𝕜 : Type} [Zero 𝕜] (add : 𝕜 → 𝕜 → 𝕜) (f : Fin n → 𝕜) : SumTree n → 𝕜
  | empty => 0
  | leaf j => f j
  | node l r => add (l.sum add f) (r.sum add f)

/-- From left to right, as a plain loop does, starting from zero. -/
def loop (n : ℕ) : SumTree n := (List.finRange n).foldl (fun t j => node t (leaf j)) empty

end SumTree

/-- Product of complex numbers as computed: four products, a difference and a sum. -/
def mulC (A : Kernel.Arith) (z w : ℂ) : ℂ :=
  ⟨A.sub (A.mul z.re w.re) (A.mul z.im w.im), A.add (A.mul z.re w.im) (A.mul z.im w.re)⟩

/-- Sum of complex numbers as computed. -/
def addC (A : Kernel.Arith) (z w : ℂ) : ℂ := ⟨A.add z.re w.re, A.add z.im w.im⟩

/-- Quotient of a complex and a real number as computed: numpy multiplies with the reciprocal (the terms of its
algorithm with the vanishing imaginary part of the denominator are left out). -/
def divC (A : Kernel.Arith) (z : ℂ) (s : ℝ) : ℂ := ⟨A.mul z.re (A.div 1 s), A.mul z.im (A.div 1 s)⟩

/-- Matrix operations on complex numbers by dot products in the given order, which may depend on shape and row. -/
def FlMat.complexDot (A : Kernel.Arith) (order : ∀ (m n : ℕ), Fin m → SumTree n) : FlMat ℂ where
  mv := fun {m n} B x i => (order m n i).sum (addC A) fun j => mulC A (B i j) (x j)
  div := divC A
  add := addC A

/-- The same for real numbers. -/
def FlMat.realDot (A : Kernel.Arith) (order : ∀ (m n : ℕ), Fin m → SumTree n) : FlMat ℝ where
  mv := fun {m n} B x i => (order m n i).sum A.add fun j => A.mul (B i j) (x j)
  div := A.div
  add := A.add

end Verif.Sampling
