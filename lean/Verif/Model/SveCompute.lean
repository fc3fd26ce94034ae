import Verif.Model.Sve
import Verif.Model.Svd
import Verif.Model.FiniteTemp
/-!
# Model of `sve.compute` (`src/sparse_ir/sve.py:14-84`)

Puts together the pieces modelled in `Model/Kernel.lean` (kernels and hints), `Model/Svd.lean` (precision and
SVD), and `Model/Sve.lean` (discretisation, truncation, post-processing).  Warnings are left out here.
Constructing a symmetrised kernel can only fail together with calling it, see `Plain.obj`.
-/

namespace Verif.SveCompute
open Verif Verif.Np Verif.Poly Verif.Gauss Verif.Kernel Verif.Sve Verif.Svd Verif.FiniteTemp

/-- What `SamplingSVE` uses of a kernel: calling it with arrays of any shape, and `sve_hints(eps)`.  An error in
the constructor of the kernel shows when the kernel is called (in the code before the hints are asked for). -/
structure Plain where
  obj : ∀ ι : Type, PyM (KernelObj ι)
  hints : ℝ → Hints

/-- What `compute` uses of a kernel: itself, `is_centrosymmetric`, and `get_symmetrized(sign)`. -/
structure Kern where
  full : Plain
  centro : Bool
  symmetrized : ℝ → Plain

/-- `kernel.py:167-168` and `211-248`, `LogisticKernel.sve_hints(eps)`. -/
noncomputable def logisticHints (lam eps : ℝ) : Hints :=
  ⟨ngauss eps, logisticNsvals lam, logisticSegX lam, logisticSegY lam⟩

/-- `kernel.py:293-294` and `318-355`, `RegularizedBoseKernel.sve_hints(eps)`. -/
noncomputable def boseHints (lam eps : ℝ) : Hints :=
  ⟨ngauss eps, boseNsvals lam, boseSegX lam, boseSegY lam⟩

/-- `seg >>= _symm_segments`, for `reducedHints`. -/
noncomputable def halfSegments : PyM (List ℝ) → PyM (List ℝ)
  | .error e => .error e
  | .ok g => symmSegments g

/-- `kernel.py:405-406` and `423-437`, `_SVEHintsReduced(inner_hints)`. -/
noncomputable def reducedHints (h : Hints) : Hints :=
  ⟨h.ngauss, reducedNsvals h.nsvals, halfSegments h.segX, halfSegments h.segY⟩

/-- `LogisticKernel(lambda_)` -/
noncomputable def logisticKern (lam : ℝ) : Kern where
  full := ⟨fun _ => .ok (logistic lam), logisticHints lam⟩
  centro := (logistic (ι := Unit) lam).centrosymmetric
  symmetrized sign := ⟨fun _ => logisticSymmetrized lam sign, fun eps => reducedHints (logisticHints lam eps)⟩

/-- `RegularizedBoseKernel(lambda_)` -/
noncomputable def boseKern (lam : ℝ) : Kern where
  full := ⟨fun _ => .ok (bose lam), boseHints lam⟩
  centro := (bose (ι := Unit) lam).centrosymmetric
  symmetrized sign := ⟨fun _ => boseSymmetrized lam sign, fun eps => reducedHints (boseHints lam eps)⟩

/-- The environment: `_gauss.legendre`, the SVD libraries, the floating-point types, and `argsort`. -/
structure Env where
  legendre : ℕ → PyM Rule
  libs : Libs ℝ
  platform : Platform
  argsort : ∀ k : ℕ, (Fin k → ℝ) → Fin k → Fin k

/-- The factors of an SVD as one block for `_truncate` (columns of `u`, singular values, columns of `v`). -/
def blockOf {m n : ℕ} (f : Factors ℝ m n) : Block (List ℝ) (List ℝ) :=
  ⟨List.ofFn fun l => List.ofFn fun i => f.u i l, List.ofFn f.s, List.ofFn fun l => List.ofFn fun j => f.v j l⟩

/-- `sve.py:81-82` for one matrix: `svd.compute(matrix, sve.nsvals_hint, svd_strat)` with `matrix` from
`SamplingSVE.matrices` (lines 180-184).  (The hints of the two kernels are positive.) -/
noncomputable def solve (env : Env) (c : Choice) (hint : ℤ) (K : Plain) (sv : Sampling) :
    PyM (Block (List ℝ) (List ℝ)) :=
  match K.obj _ with
  | .error e => .error e
  | .ok obj => match matrix sv obj with
    | .error e => .error e
    | .ok A =>
      match Svd.compute env.libs (decide (c.dtype = .ddouble)) (Matrix.of fun i j => A (i, j)) (some hint.toNat)
          c.strategy with
      | .error e => .error e
      | .ok (f, _) => .ok (blockOf f)

/-- Column `l` of a block. -/
def column (u : List (List ℝ)) (l : ℕ) : List ℝ := (u[l]?).getD []

/-- `sve.py:80-84` with `SamplingSVE`. -/
noncomputable def computeSampling (env : Env) (K : Plain) (c : Choice) (cutoff : ℝ) (nSv : Option PyNum)
    (nGauss : Option ℕ) : PyM SveResult :=
  match samplingInit env.legendre (K.hints c.safeEps) nGauss with
  | .error e => .error e
  | .ok sv => match solve env c sv.nsvals K sv with
    | .error e => .error e
    | .ok b => match truncate [b] cutoff nSv with
      | .error e => .error e
      | .ok [b] =>
        match postprocess sv (fun l : Fin b.s.length => column b.u l) b.s.get (fun l => column b.v l) with
        | .error e => .error e
        | .ok r => .ok ⟨b.s.length, r.u, r.s, r.v, some c.safeEps⟩
      | .ok _ => .error .valueError

/-- `sve.py:80-84` with `CentrosymmSVE` (lines 242-260: one `SamplingSVE` for either sign). -/
noncomputable def computeCentrosymm (env : Env) (K : Kern) (c : Choice) (cutoff : ℝ) (nSv : Option PyNum)
    (nGauss : Option ℕ) : PyM SveResult :=
  match samplingInit env.legendre ((K.symmetrized 1).hints c.safeEps) nGauss with
  | .error e => .error e
  | .ok even => match samplingInit env.legendre ((K.symmetrized (-1)).hints c.safeEps) nGauss with
    | .error e => .error e
    | .ok odd =>
      let hint := max even.nsvals odd.nsvals
      match solve env c hint (K.symmetrized 1) even with
      | .error e => .error e
      | .ok be => match solve env c hint (K.symmetrized (-1)) odd with
        | .error e => .error e
        | .ok bo => match truncate [be, bo] cutoff nSv with
          | .error e => .error e
          | .ok [be, bo] =>
            match centrosymmPostprocess (env.argsort _) even odd (fun l : Fin be.s.length => column be.u l) be.s.get
                (fun l => column be.v l) (fun l : Fin bo.s.length => column bo.u l) bo.s.get
                (fun l => column bo.v l) (K.full.hints c.safeEps) with
            | .error e => .error e
            | .ok r => .ok ⟨be.s.length + bo.s.length, r.u, r.s, r.v, some c.safeEps⟩
          | .ok _ => .error .valueError

/-- `SamplingSVE` or `CentrosymmSVE` -/
inductive Strat
  | sampling
  | centrosymm

/-- `sve.py:75-84`, `compute(K, eps, cutoff, n_sv, n_gauss, dtype, work_dtype, sve_strat, svd_strat)`. -/
noncomputable def compute (env : Env) (K : Kern) (eps : Option Flt) (cutoff : Option ℝ) (nSv : Option PyNum)
    (nGauss : Option ℕ) (work : Option Dtype) (sveStrat : Option Strat) (svdStrat : Option String) : PyM SveResult :=
  match safeEps env.platform eps work svdStrat with
  | .error e => .error e
  | .ok c =>
    let strat := sveStrat.getD (if K.centro then .centrosymm else .sampling)
    match cutoffOf env.platform c.dtype cutoff with
    | .error e => .error e
    | .ok cutoff => match strat with
      | .sampling => computeSampling env K.full c cutoff nSv nGauss
      | .centrosymm => computeCentrosymm env K c cutoff nSv nGauss

/-- `basis.py:57-58`, `sve.compute(kernel, eps)`, for the two kernels of the package (told apart by `ypower`, see
`logisticInfo`, `boseInfo`). -/
noncomputable def computeOf (env : Env) (k : KernelInfo) (eps : Option ℝ) : PyM SveResult :=
  match k.lambda with
  | none => .error .attributeError
  | some lam => compute env (if k.ypower = 0 then logisticKern lam else boseKern lam) (eps.map .real) none none none
      none none none

end Verif.SveCompute
