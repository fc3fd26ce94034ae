import Verif.Np.Axis
import Verif.Model.Util
import Mathlib.Analysis.Complex.Basic
import Mathlib.LinearAlgebra.Matrix.ConjTranspose
import Mathlib.Data.Real.Basic
/-!
# Model of `src/sparse_ir/sampling.py`

Real arrays are embedded in the complex ones.  The two SVD routines (complex, and real for the split form) are
parameters.
-/

namespace Verif.Sampling
open Verif Verif.Np Verif.Util
open scoped Matrix

/-- A triple `(u, s, vH)` as returned by an SVD routine, with the shapes as they are. -/
structure Triple (𝕜 : Type) where
  (mu ku ks kv nv : ℕ)
  u : Matrix (Fin mu) (Fin ku) 𝕜
  s : Fin ks → ℝ
  vH : Matrix (Fin kv) (Fin nv) 𝕜

/-- `sampling.py:217-243`, attributes of `DecomposedMatrix`: `_a`, `_uH`, `_s`, `_v`. -/
structure DecMat (𝕜 : Type) (m n : ℕ) where
  a : Matrix (Fin m) (Fin n) 𝕜
  r : ℕ
  uH : Matrix (Fin r) (Fin m) 𝕜
  s : Fin r → ℝ
  v : Matrix (Fin n) (Fin r) 𝕜

/-- `sampling.py:235-238` and `319-322`: indices of the singular values which are not exactly zero
(`s.astype(bool)`). -/
noncomputable def keep {k : ℕ} (s : Fin k → ℝ) : List (Fin k) :=
  (List.finRange k).filter fun i => decide (s i ≠ 0)

/-- `sampling.py:226-243`, `DecomposedMatrix.__init__(a, svd_result)`, for an `a` which is a matrix; `t` is the
given triple (checked for shape by `check_svd_result`) or that of `np.linalg.svd(a, full_matrices=False)`. -/
noncomputable def decompose {𝕜 : Type} [Star 𝕜] {m n : ℕ} (a : Matrix (Fin m) (Fin n) 𝕜) (t : Triple 𝕜) :
    PyM (DecMat 𝕜 m n) :=
  if h : checkSvdResult t.mu t.ku t.ks t.kv t.nv (some (m, n)) = .ok t.ks ∧
      (t.ku = t.ks ∧ t.ks = t.kv) ∧ t.mu = m ∧ t.nv = n then
    let idx := keep t.s
    .ok {
      a := a
      r := idx.length
      uH := fun i j => star (t.u (Fin.cast h.2.2.1.symm j) (Fin.cast h.2.1.1.symm (idx.get i)))
      s := fun i => t.s (idx.get i)
      v := fun j i => star (t.vH (Fin.cast h.2.1.2 (idx.get i)) (Fin.cast h.2.2.2.symm j)) }
  else .error .valueError

/-- `a @ x` for a matrix `a`: contraction with axis 0 of a vector, with axis -2 of anything of higher rank;
ValueError for scalars and mismatching lengths. -/
def matmul {𝕜 : Type} [NonUnitalNonAssocSemiring 𝕜] {m n : ℕ} (a : Matrix (Fin m) (Fin n) 𝕜) (x : NdArray 𝕜) :
    PyM (NdArray 𝕜) :=
  if x.ndim = 0 then .error .valueError
  else if x.ndim = 1 then x.alongAxis a.mulVec 0
  else x.alongAxis a.mulVec (x.ndim - 2)

/-- `r / (s[:, None] if r.ndim > 1 else s)`; division by zero would give inf or NaN. -/
noncomputable def divRows {k : ℕ} {𝕜 : Type} [Mul 𝕜] (cast : ℝ → 𝕜) (r : NdArray 𝕜) (s : Fin k → ℝ) :
    PyM (NdArray 𝕜) :=
  open Classical in
  if ∃ i, s i = 0 then .error .nanResult
  else if r.ndim > 1 then r.alongAxis (fun v (i : Fin k) => v i * cast (s i)⁻¹) (r.ndim - 2)
  else r.alongAxis (fun v (i : Fin k) => v i * cast (s i)⁻¹) 0

/-- `sampling.py:392-400`, `_matop_along_axis(op, x, axis)`. -/
def matopAlongAxis {α β : Type} (op : NdArray α → PyM (NdArray β)) (x : NdArray α) (axis : Option ℤ) :
    PyM (NdArray β) :=
  match axis with
  | none => op x
  | some axis =>
    let target : ℕ := max (x.ndim - 2) 0
    match x.moveaxis axis target with
    | .error e => .error e
    | .ok x =>
      match op x with
      | .error e => .error e
      | .ok r => r.moveaxis target axis

namespace DecMat
variable {m n : ℕ} 

/-- `sampling.py:249-251`, `DecomposedMatrix.matmul(x, axis)`. -/
def matmulAxis (d : DecMat ℂ m n) (x : NdArray ℂ) (axis : Option ℤ) : PyM (NdArray ℂ) :=
  matopAlongAxis (matmul d.a) x axis

/-- `sampling.py:253-256`, `DecomposedMatrix._lstsq(x)`. -/
noncomputable def lstsqOp (d : DecMat ℂ m n) (x : NdArray ℂ) : PyM (NdArray ℂ) :=
  match matmul d.uH x with
  | .error e => .error e
  | .ok r => match divRows Complex.ofReal r d.s with
    | .error e => .error e
    | .ok r => matmul d.v r

/-- `sampling.py:258-260`, `DecomposedMatrix.lstsq(x, axis)`. -/
noncomputable def lstsq (d : DecMat ℂ m n) (x : NdArray ℂ) (axis : Option ℤ) : PyM (NdArray ℂ) :=
  matopAlongAxis d.lstsqOp x axis

/-- `sampling.py:272-274`, property `u`: `_uH.conj().T` -/
def uCols {𝕜 : Type} [Star 𝕜] (d : DecMat 𝕜 m n) : Matrix (Fin m) (Fin d.r) 𝕜 := fun i j => star (d.uH j i)

/-- `sampling.py:281-284`, property `vH`: `_v.conj().T` -/
def vHRows {𝕜 : Type} [Star 𝕜] (d : DecMat 𝕜 m n) : Matrix (Fin d.r) (Fin n) 𝕜 := fun i j => star (d.v j i)

end DecMat

/-- `sampling.py:286-289` and `375-378`, `cond`: first over last retained singular value, IndexError if there
is none. -/
noncomputable def condOf {r : ℕ} (s : Fin r → ℝ) : PyM ℝ :=
  if h : 0 < r then .ok (s ⟨0, h⟩ / s ⟨r - 1, by omega⟩) else .error .indexError

/-- `sampling.py:292-328`, attributes of `SplitDecomposedMatrix`: `_a`, `_urealT`, `_uimagT`, `_s`, `_v`. -/
structure SplitMat (m n : ℕ) where
  a : Matrix (Fin m) (Fin n) ℂ
  r : ℕ
  urealT : Matrix (Fin r) (Fin m) ℝ
  uimagT : Matrix (Fin r) (Fin m) ℝ
  s : Fin r → ℝ
  v : Matrix (Fin n) (Fin r) ℝ

/-- A triple with complex `u` and real `vT`; the dtype checks of `sampling.py:314-317` are part of the type. -/
structure SplitTriple where
  (mu ku ks kv nv : ℕ)
  u : Matrix (Fin mu) (Fin ku) ℂ
  s : Fin ks → ℝ
  vT : Matrix (Fin kv) (Fin nv) ℝ

/-- `sampling.py:308-328`, `SplitDecomposedMatrix.__init__(a, ssvd_result)`. -/
noncomputable def splitDecompose {m n : ℕ} (a : Matrix (Fin m) (Fin n) ℂ) (t : SplitTriple) : PyM (SplitMat m n) :=
  if h : checkSvdResult t.mu t.ku t.ks t.kv t.nv (some (m, n)) = .ok t.ks ∧
      (t.ku = t.ks ∧ t.ks = t.kv) ∧ t.mu = m ∧ t.nv = n then
    let idx := keep t.s
    .ok {
      a := a
      r := idx.length
      urealT := fun i j => (t.u (Fin.cast h.2.2.1.symm j) (Fin.cast h.2.1.1.symm (idx.get i))).re
      uimagT := fun i j => (t.u (Fin.cast h.2.2.1.symm j) (Fin.cast h.2.1.1.symm (idx.get i))).im
      s := fun i => t.s (idx.get i)
      v := fun j i => t.vT (Fin.cast h.2.1.2 (idx.get i)) (Fin.cast h.2.2.2.symm j) }
  else .error .valueError

/-- Element-wise map (`x.real`, `x.imag`). -/
def mapArr {α β : Type} (f : α → β) (x : NdArray α) : NdArray β :=
  ⟨x.shape, x.data.map f, by rw [List.length_map, x.size_eq]⟩

/-- `r += q` for arrays of the same shape (ValueError otherwise). -/
def addArr (r q : NdArray ℝ) : PyM (NdArray ℝ) :=
  if h : r.shape = q.shape then
    .ok ⟨r.shape, List.zipWith (· + ·) r.data q.data, by
      rw [List.length_zipWith, r.size_eq, q.size_eq, h, Nat.min_self]⟩
  else .error .valueError

namespace SplitMat
variable {m n : ℕ}

/-- `sampling.py:337-339`, `SplitDecomposedMatrix.matmul(x, axis)` (of the array `_a`, without the warning of
`__matmul__`). -/
def matmulAxis (d : SplitMat m n) (x : NdArray ℂ) (axis : Option ℤ) : PyM (NdArray ℂ) :=
  matopAlongAxis (matmul d.a) x axis

/-- `sampling.py:341-345`, `SplitDecomposedMatrix._lstsq(x)`. -/
noncomputable def lstsqOp (d : SplitMat m n) (x : NdArray ℂ) : PyM (NdArray ℝ) :=
  match matmul d.urealT (mapArr Complex.re x) with
  | .error e => .error e
  | .ok r => match matmul d.uimagT (mapArr Complex.im x) with
    | .error e => .error e
    | .ok q => match addArr r q with
      | .error e => .error e
      | .ok r => match divRows id r d.s with
        | .error e => .error e
        | .ok r => matmul d.v r

/-- `sampling.py:360-363`, property `u`: `(_urealT + 1j * _uimagT).T` -/
def uCols (d : SplitMat m n) : Matrix (Fin m) (Fin d.r) ℂ := fun i j => ⟨d.urealT j i, d.uimagT j i⟩

/-- `sampling.py:370-373`, property `vH`: `_v.conj().T`, of a real array. -/
def vHRows (d : SplitMat m n) : Matrix (Fin d.r) (Fin n) ℝ := fun i j => d.v j i

/-- `sampling.py:347-349`, `SplitDecomposedMatrix.lstsq(x, axis)`. -/
noncomputable def lstsq (d : SplitMat m n) (x : NdArray ℂ) (axis : Option ℤ) : PyM (NdArray ℝ) :=
  matopAlongAxis d.lstsqOp x axis

end SplitMat

/-- `sampling.py:409-411`, `np.vstack((mat.real, mat[offset_imag:].imag))`. -/
def stacked {m n : ℕ} (off : ℕ) (mat : Matrix (Fin m) (Fin n) ℂ) : Matrix (Fin (m + (m - off))) (Fin n) ℝ :=
  fun i j =>
    if h : i.1 < m then (mat ⟨i.1, h⟩ j).re
    else (mat ⟨off + (i.1 - m), by omega⟩ j).im

/-- `sampling.py:411-421`, body of `_split_complex` for a value of `offset_imag`: split into real and imaginary part,
real SVD, undo the split.  The SVD result has `m + (m - off)` rows in `ur`. -/
noncomputable def splitOff {m n : ℕ} (svd : ∀ p q : ℕ, Matrix (Fin p) (Fin q) ℝ → PyM (Triple ℝ))
    (mat : Matrix (Fin m) (Fin n) ℂ) (off : ℕ) : PyM SplitTriple :=
  match svd _ _ (stacked off mat) with
  | .error e => .error e
  | .ok t =>
    if h : t.mu = m + (m - off) then
      .ok {
        mu := m
        ku := t.ku
        ks := t.ks
        kv := t.kv
        nv := t.nv
        u := fun i j =>
          ⟨t.u (Fin.cast h.symm ⟨i.1, by omega⟩) j,
           if hi : i.1 < off then 0 else t.u (Fin.cast h.symm ⟨m + (i.1 - off), by omega⟩) j⟩
        s := t.s
        vT := t.vH }
    else .error .valueError

/-- `sampling.py:410`, `offset_imag` -/
def offsetImag (hasZero : Bool) : ℕ := if hasZero then 1 else 0

/-- `sampling.py:403-421`, `_split_complex(mat, has_zero, svd_algo)` for a complex matrix. -/
noncomputable def splitComplex {m n : ℕ} (svd : ∀ p q : ℕ, Matrix (Fin p) (Fin q) ℝ → PyM (Triple ℝ))
    (mat : Matrix (Fin m) (Fin n) ℂ) (hasZero : Bool) : PyM SplitTriple :=
  splitOff svd mat (offsetImag hasZero)

/-! ## Sampling objects -/

/-- What the sampling classes need of a basis. -/
structure SBasis where
  size : ℕ
  u : ℝ → PyM (Fin size → ℝ)
  uhat : ℤ → PyM (Fin size → ℂ)
  wellConditioned : Bool
  defaultTau : PyM (List ℝ)
  defaultMatsubara : Bool → PyM (List ℤ)

/-- The matrix stored in a sampling object. -/
inductive Mat (m n : ℕ)
  | full (d : DecMat ℂ m n)
  | split (d : SplitMat m n)

namespace Mat
variable {m n : ℕ}

/-- `matrix.matmul(al, axis)` -/
def matmulAxis : Mat m n → NdArray ℂ → Option ℤ → PyM (NdArray ℂ)
  | .full d, x, axis => d.matmulAxis x axis
  | .split d, x, axis => d.matmulAxis x axis

/-- `matrix.lstsq(ax, axis)` -/
noncomputable def lstsq : Mat m n → NdArray ℂ → Option ℤ → PyM (NdArray ℂ)
  | .full d, x, axis => d.lstsq x axis
  | .split d, x, axis => (d.lstsq x axis).map (mapArr Complex.ofReal)

/-- `matrix.cond` -/
noncomputable def cond : Mat m n → PyM ℝ
  | .full d => condOf d.s
  | .split d => condOf d.s

end Mat

/-- Attributes of `TauSampling` and `MatsubaraSampling`. -/
structure Obj (b : SBasis) (P : Type) where
  points : List P
  positiveOnly : Bool
  matrix : Mat points.length b.size

/-- `sampling.py:54` without `points`: `evaluate(al, axis)`. -/
def Obj.evaluateHere {b : SBasis} {P : Type} (o : Obj b P) (al : NdArray ℂ) (axis : Option ℤ) : PyM (NdArray ℂ) :=
  o.matrix.matmulAxis al axis

/-- `sampling.py:85-90` without `points`: `fit(ax, axis)`, with the flag of the ConditioningWarning. -/
noncomputable def Obj.fitHere {b : SBasis} {P : Type} (o : Obj b P) (ax : NdArray ℂ) (axis : Option ℤ) :
    PyM (NdArray ℂ × Bool) :=
  let warned : PyM Bool :=
    if b.wellConditioned then o.matrix.cond.map fun c => decide (¬ c ≤ 10 ^ 8) else .ok false
  match warned with
  | .error e => .error e
  | .ok w => (o.matrix.lstsq ax axis).map fun y => (y, w)

/-- Rows `f(x)` for a list of points: `basis.u(points).T`. -/
def rowsOf {P : Type} {n : ℕ} (f : P → PyM (Fin n → ℂ)) : List P → PyM (List (Fin n → ℂ))
  | [] => .ok []
  | x :: xs => match f x with
    | .error e => .error e
    | .ok r => (rowsOf f xs).map (r :: ·)

/-- The rows as a matrix. -/
def toMatrix {m n : ℕ} (rows : List (Fin n → ℂ)) (h : rows.length = m) : Matrix (Fin m) (Fin n) ℂ :=
  fun i l => rows.get (Fin.cast h.symm i) l

theorem length_rowsOf {P : Type} {n : ℕ} {f : P → PyM (Fin n → ℂ)} {xs : List P} {rows : List (Fin n → ℂ)}
    (h : rowsOf f xs = .ok rows) : rows.length = xs.length := by
  induction xs generalizing rows with
  | nil => cases h; rfl
  | cons x xs ih =>
    unfold rowsOf at h
    cases hf : f x with
    | error e => rw [hf] at h; cases h
    | ok r =>
      rw [hf] at h
      cases hr : rowsOf f xs with
      | error e => rw [hr] at h; cases h
      | ok rs =>
        rw [hr] at h
        cases h
        simp [ih hr]

/-- `basis.u(points).T` or `basis.uhat(points).T` -/
def evalMatrix {P : Type} {n : ℕ} (f : P → PyM (Fin n → ℂ)) (xs : List P) :
    PyM (Matrix (Fin xs.length) (Fin n) ℂ) :=
  match h : rowsOf f xs with
  | .error e => .error e
  | .ok rows => .ok (toMatrix rows (length_rowsOf h))

/-- Parameters: the two SVD routines. -/
structure Svds where
  complex : ∀ p q : ℕ, Matrix (Fin p) (Fin q) ℂ → PyM (Triple ℂ)
  real : ∀ p q : ℕ, Matrix (Fin p) (Fin q) ℝ → PyM (Triple ℝ)

/-- `DecomposedMatrix(matrix)` -/
noncomputable def fullMatrix (svds : Svds) {m n : ℕ} (a : Matrix (Fin m) (Fin n) ℂ) : PyM (Mat m n) :=
  match svds.complex _ _ a with
  | .error e => .error e
  | .ok t => (decompose a t).map .full

/-- `sampling.py:186-188`, `SplitDecomposedMatrix(matrix, _split_complex(matrix, has_zero))` -/
noncomputable def splitMatrix (svds : Svds) {m n : ℕ} (a : Matrix (Fin m) (Fin n) ℂ) (hasZero : Bool) :
    PyM (Mat m n) :=
  match splitComplex svds.real a hasZero with
  | .error e => .error e
  | .ok t => (splitDecompose a t).map .split

/-- `sampling.py:130-133`: the part of `TauSampling.__init__` after the points are known. -/
noncomputable def tauFrom (svds : Svds) (b : SBasis) (points : List ℝ) : PyM (Obj b ℝ) :=
  match evalMatrix (fun t => (b.u t).map fun f l => (f l : ℂ)) points with
  | .error e => .error e
  | .ok a => (fullMatrix svds a).map fun M => ⟨points, false, M⟩

/-- `sampling.py:122-133`, `TauSampling.__init__(basis, sampling_points)`; points are given with their number of
dimensions, ravelled. -/
noncomputable def tauInit (svds : Svds) (b : SBasis) (points : Option (ℕ × List ℝ)) : PyM (Obj b ℝ) :=
  match points with
  | none => match b.defaultTau with
    | .error e => .error e
    | .ok p => tauFrom svds b p
  | some (ndim, p) => if ndim ≠ 1 then .error .valueError else tauFrom svds b p

/-- `np.sort` of integers. -/
def npSort (l : List ℤ) : List ℤ := l.mergeSort fun a b => decide (a ≤ b)

/-- `sampling.py:181-190`: the part of `MatsubaraSampling.__init__` after the points are known;
`sampling_points[0]` of no points at all is IndexError. -/
noncomputable def matsFrom (svds : Svds) (b : SBasis) (points : List ℤ) (positiveOnly : Bool) : PyM (Obj b ℤ) :=
  match evalMatrix b.uhat points with
  | .error e => .error e
  | .ok a =>
    if positiveOnly then
      match points.head? with
      | none => .error .indexError
      | some p0 => (splitMatrix svds a (decide (p0 = 0))).map fun M => ⟨points, true, M⟩
    else (fullMatrix svds a).map fun M => ⟨points, false, M⟩

/-- `sampling.py:174-179`: given points are checked to be integers, to form a vector, are sorted, and, with
`positive_only`, checked to be non-negative. -/
def matsPoints (ndim : ℕ) (p : NumArr) (positiveOnly : Bool) : PyM (List ℤ) :=
  match checkReducedMatsubara p none with
  | .error e => .error e
  | .ok p =>
    if ndim ≠ 1 then .error .valueError
    else
      let p := npSort p
      if positiveOnly then
        match p.head? with
        | none => .error .indexError
        | some p0 => if ¬ p0 ≥ 0 then .error .valueError else .ok p
      else .ok p

/-- `sampling.py:169-190`, `MatsubaraSampling.__init__(basis, sampling_points, positive_only)`. -/
noncomputable def matsInit (svds : Svds) (b : SBasis) (points : Option (ℕ × NumArr)) (positiveOnly : Bool) :
    PyM (Obj b ℤ) :=
  match points with
  | none => match b.defaultMatsubara positiveOnly with
    | .error e => .error e
    | .ok p => matsFrom svds b p positiveOnly
  | some (ndim, p) => match matsPoints ndim p positiveOnly with
    | .error e => .error e
    | .ok p => matsFrom svds b p positiveOnly

/-- `sampling.py:51-54`, `TauSampling.evaluate(al, axis, points=...)`, with `_for_sampling_points` (149-151). -/
noncomputable def tauEvaluate (svds : Svds) {b : SBasis} (o : Obj b ℝ) (al : NdArray ℂ) (axis : Option ℤ)
    (points : Option (ℕ × List ℝ)) : PyM (NdArray ℂ) :=
  match points with
  | none => o.evaluateHere al axis
  | some p => match tauInit svds b (some p) with
    | .error e => .error e
    | .ok o' => o'.evaluateHere al axis

/-- `sampling.py:82-90`, `TauSampling.fit(ax, axis, points=...)`. -/
noncomputable def tauFit (svds : Svds) {b : SBasis} (o : Obj b ℝ) (ax : NdArray ℂ) (axis : Option ℤ)
    (points : Option (ℕ × List ℝ)) : PyM (NdArray ℂ × Bool) :=
  match points with
  | none => o.fitHere ax axis
  | some p => match tauInit svds b (some p) with
    | .error e => .error e
    | .ok o' => o'.fitHere ax axis

/-- `sampling.py:51-54`, `MatsubaraSampling.evaluate(al, axis, points=...)`, with `_for_sampling_points`
(211-214). -/
noncomputable def matsEvaluate (svds : Svds) {b : SBasis} (o : Obj b ℤ) (al : NdArray ℂ) (axis : Option ℤ)
    (points : Option (ℕ × NumArr)) : PyM (NdArray ℂ) :=
  match points with
  | none => o.evaluateHere al axis
  | some p => match matsInit svds b (some p) o.positiveOnly with
    | .error e => .error e
    | .ok o' => o'.evaluateHere al axis

/-- `sampling.py:82-90`, `MatsubaraSampling.fit(ax, axis, points=...)`. -/
noncomputable def matsFit (svds : Svds) {b : SBasis} (o : Obj b ℤ) (ax : NdArray ℂ) (axis : Option ℤ)
    (points : Option (ℕ × NumArr)) : PyM (NdArray ℂ × Bool) :=
  match points with
  | none => o.fitHere ax axis
  | some p => match matsInit svds b (some p) o.positiveOnly with
    | .error e => .error e
    | .ok o' => o'.fitHere ax axis

end Verif.Sampling
