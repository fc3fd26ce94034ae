import Verif.Py
import Mathlib.Analysis.RCLike.Basic
import Mathlib.LinearAlgebra.Matrix.ConjTranspose
import Mathlib.LinearAlgebra.Matrix.Rank
import Mathlib.Data.Real.Basic
/-!
# Model of `src/sparse_ir/svd.py` and of the choice of precision in `sve.py`

The numerical libraries are parameters; optional ones may be missing (`none`).
-/

namespace Verif.Svd
open Verif
open scoped Matrix

/-- A triple of factors `u` (`m × k`), `s`, `v` (`n × k`). -/
structure Factors (𝕜 : Type) (m n : ℕ) where
  k : ℕ
  u : Matrix (Fin m) (Fin k) 𝕜
  s : Fin k → ℝ
  v : Matrix (Fin n) (Fin k) 𝕜

/-- Warnings issued by `svd.py`. -/
inductive Warning
  | noDgejsv
  | denormalized
  | notConverged
  deriving DecidableEq

/-- What LAPACK's `dgejsv` returns: factors, `istat[2]` and `info`. -/
structure Gejsv (𝕜 : Type) (m n : ℕ) where
  factors : Factors 𝕜 m n
  istat2 : ℤ
  info : ℤ

/-- The libraries: `xprec.linalg.svd_trunc` and `np.linalg.svd` return `(u, s, vh)`, here with `vh` transposed back
(`vhT`, the plain transpose); `interpolative.svd(a, k)`; `dgejsv(a, joba)`. -/
structure Libs (𝕜 : Type) where
  xprec : Option (∀ m n : ℕ, Matrix (Fin m) (Fin n) 𝕜 → PyM (Factors 𝕜 m n))
  idsvd : ∀ m n : ℕ, Matrix (Fin m) (Fin n) 𝕜 → ℕ → PyM (Factors 𝕜 m n)
  npSvd : ∀ m n : ℕ, Matrix (Fin m) (Fin n) 𝕜 → PyM (Factors 𝕜 m n)
  dgejsv : Option (∀ m n : ℕ, Matrix (Fin m) (Fin n) 𝕜 → ℕ → PyM (Gejsv 𝕜 m n))

variable {𝕜 : Type} [RCLike 𝕜] {m n : ℕ}

/-- `svd.py:85-86`, `dict(zip("CEFGAR", range(6)))[mode.upper()]` -/
def jobaOf (mode : String) : PyM ℕ :=
  match mode.toUpper with
  | "C" => .ok 0
  | "E" => .ok 1
  | "F" => .ok 2
  | "G" => .ok 3
  | "A" => .ok 4
  | "R" => .ok 5
  | _ => .error .keyError

/-- `svd.py:85-95`, the rest of `_dgejsv` for a matrix that is not wide. -/
def dgejsvTall (lapack : ∀ m n : ℕ, Matrix (Fin m) (Fin n) 𝕜 → ℕ → PyM (Gejsv 𝕜 m n)) (a : Matrix (Fin m) (Fin n) 𝕜)
    (mode : String) : PyM (Factors 𝕜 m n × List Warning) :=
  match jobaOf mode with
  | .error e => .error e
  | .ok joba => match lapack _ _ a joba with
    | .error e => .error e
    | .ok r =>
      if r.info < 0 then .error .valueError
      else .ok (r.factors, (if r.istat2 ≠ 0 then [.denormalized] else []) ++ if r.info > 0 then [.notConverged] else [])

/-- `svd.py:76-95`, `_dgejsv(a, mode)`: wide matrices are transposed, and the factors swapped. -/
def dgejsv (lapack : ∀ m n : ℕ, Matrix (Fin m) (Fin n) 𝕜 → ℕ → PyM (Gejsv 𝕜 m n)) (a : Matrix (Fin m) (Fin n) 𝕜)
    (mode : String) : PyM (Factors 𝕜 m n × List Warning) :=
  if m < n then
    match dgejsvTall lapack aᵀ mode with
    | .error e => .error e
    | .ok (f, w) => .ok (⟨f.k, f.v, f.s, f.u⟩, w)
  else dgejsvTall lapack a mode

/-- `svd.py:50-53`, the 'default' strategy: `v = vh.T.conj()`. -/
def computeDefault (libs : Libs 𝕜) (a : Matrix (Fin m) (Fin n) 𝕜) : PyM (Factors 𝕜 m n × List Warning) :=
  match libs.npSvd _ _ a with
  | .error e => .error e
  | .ok f => .ok (⟨f.k, f.u, f.s, f.v.map star⟩, [])

/-- `svd.py:48-63`: the strategies for data types other than `ddouble`.  The call of `compute` on line 60 ends up in
`computeDefault`. -/
def computeDouble (libs : Libs 𝕜) (a : Matrix (Fin m) (Fin n) 𝕜) (hint : ℕ) (strategy : String) :
    PyM (Factors 𝕜 m n × List Warning) :=
  if strategy = "fast" then (libs.idsvd _ _ a hint).map fun f => (f, [])
  else if strategy = "default" then computeDefault libs a
  else if strategy = "accurate" then
    match libs.dgejsv with
    | none => match computeDefault libs a with
      | .error e => .error e
      | .ok (f, w) => .ok (f, .noDgejsv :: w)
    | some lapack => dgejsv lapack a "F"
  else .error .valueError

/-- `svd.py:27-65`, `compute(a_matrix, n_sv_hint, strategy)`.  `isDdouble`: the dtype of `a_matrix` is `ddouble`. -/
def compute (libs : Libs 𝕜) (isDdouble : Bool) (a : Matrix (Fin m) (Fin n) 𝕜) (hint : Option ℕ) (strategy : String) :
    PyM (Factors 𝕜 m n × List Warning) :=
  match libs.xprec, isDdouble with
  | some svdTrunc, true => (svdTrunc _ _ a).map fun f => (f, [])
  | _, _ => computeDouble libs a (min (min m n) (hint.getD (min m n))) strategy

/-! ## Working precision -/

/-- Data types as far as `_safe_eps` distinguishes them. -/
inductive Dtype
  | float64
  | ddouble
  | other (id : ℕ)
  deriving DecidableEq

/-- A float: a real number or NaN. -/
inductive Flt
  | real (x : ℝ)
  | nan

/-- `eps < x` -/
def Flt.lt : Flt → ℝ → Prop
  | .real y, x => y < x
  | .nan, _ => False

/-- Machine epsilons (`svd.finfo`; ValueError for types that are not floating point) and whether xprec is there. -/
structure Platform where
  haveXprec : Bool
  finfoEps : Dtype → PyM ℝ

/-- `svd.py:11` and `17`, `MAX_DTYPE` -/
def Platform.maxDtype (p : Platform) : Dtype := if p.haveXprec then .ddouble else .float64

/-- Result of `_safe_eps`: accuracy, data type, strategy, and whether a warning is issued. -/
structure Choice where
  safeEps : ℝ
  dtype : Dtype
  strategy : String
  warned : Bool

open Classical in
/-- `sve.py:300-306` -/
noncomputable def chooseDtype (p : Platform) (eps : Option Flt) (work : Option Dtype) : Dtype :=
  match work with
  | some d => d
  | none => match eps with
    | none => p.maxDtype
    | some e => if e.lt 1e-8 then p.maxDtype else .float64

/-- `sve.py:309-314` -/
noncomputable def safeEpsOf (p : Platform) (d : Dtype) : PyM ℝ :=
  if d = .float64 then .ok 1e-8 else (p.finfoEps d).map Real.sqrt

open Classical in
/-- `sve.py:298-337`, `_safe_eps(eps_required, work_dtype, svd_strat)`. -/
noncomputable def safeEps (p : Platform) (eps : Option Flt) (work : Option Dtype) (strat : Option String) : PyM Choice :=
  let d := chooseDtype p eps work
  match safeEpsOf p d with
  | .error e => .error e
  | .ok safe =>
    match strat with
    | some s => .ok ⟨safe, d, s, false⟩
    | none =>
      if ∃ e ∈ eps, e.lt safe then .ok ⟨safe, d, "accurate", true⟩
      else .ok ⟨safe, d, "fast", false⟩

/-- `sve.py:78-79`, the default of `cutoff`. -/
noncomputable def cutoffOf (p : Platform) (d : Dtype) (cutoff : Option ℝ) : PyM ℝ :=
  match cutoff with
  | some c => .ok c
  | none => (p.finfoEps d).map (2 * ·)

end Verif.Svd
