import Verif.Model.FiniteTemp
import Verif.Model.Sampling
/-!
# Model of sampling a `FiniteTempBasis`, and of `src/sparse_ir/basis_set.py`
-/

namespace Verif.FiniteTemp
open Verif Verif.Np Verif.Poly Verif.Sampling

/-- The tolerance and the float values seen by the searches for default sampling points: of the functions of
`sve_result.u`, of the derivative of the last of them, and of the transforms (which depend on the statistics). -/
structure Search where
  tol : ℝ
  u : (r : SveResult) → Fin r.n → ℝ → FVal ℝ
  du : SveResult → ℝ → FVal ℝ
  uhat : String → (r : SveResult) → Fin r.n → ℤ → FVal ℝ

/-- The outcome of a search without the flag of its warning.  A search which does not terminate has no outcome;
here it stands for an error. -/
def outcome {α : Type} : Option (PyM (α × Bool)) → PyM α
  | none => .error .runtimeError
  | some r => r.map (·.1)

/-- What `sampling.py` uses of a `FiniteTempBasis`: `u`, `uhat`, `is_well_conditioned` (`abstract.py:181-184`) and
the default points (`basis.py:172-183`). -/
noncomputable def Basis.sampled (b : Basis) (q : Search) : SBasis where
  size := b.size
  u := b.u.call
  uhat := b.uhat.call
  wellConditioned := true
  defaultTau := outcome (b.defaultTau q.tol (q.u b.sve) (q.du b.sve) none)
  defaultMatsubara := fun po => outcome (b.defaultMatsubara (q.uhat b.statistics b.sve) none po)

/-- `basis_set.py:27-49`, attributes of `FiniteTempBasisSet`. -/
structure BasisSet (q : Search) where
  basisF : Basis
  basisB : Basis
  smplTauF : Obj (basisF.sampled q) ℝ
  smplTauB : Obj (basisB.sampled q) ℝ
  smplWnF : Obj (basisF.sampled q) ℤ
  smplWnB : Obj (basisB.sampled q) ℤ

namespace BasisSet
variable {q : Search}

/-- `basis_set.py:43-49`: the sampling objects. -/
noncomputable def fromBases (svds : Svds) (q : Search) (bf bb : Basis) : PyM (BasisSet q) := do
  let tf ← tauInit svds (bf.sampled q) none
  let tb ← tauInit svds (bb.sampled q) none
  let wf ← matsInit svds (bf.sampled q) none false
  let wb ← matsInit svds (bb.sampled q) none false
  .ok ⟨bf, bb, tf, tb, wf, wb⟩

/-- `basis_set.py:27-49`, `FiniteTempBasisSet.__init__(beta, wmax, eps, sve_result)` -/
noncomputable def init (fp : Fp) (compute : KernelInfo → Option ℝ → PyM SveResult) (svds : Svds) (q : Search)
    (beta wmax : ℝ) (eps : Option ℝ) (sveResult : Option SveResult) : PyM (BasisSet q) :=
  match finiteTempBases fp compute beta wmax eps sveResult with
  | .error e => .error e
  | .ok (bf, bb) => fromBases svds q bf bb

/-- `basis_set.py:51-54`, `lambda_` -/
def lambda (fp : Fp) (s : BasisSet q) : ℝ := s.basisF.lambda fp
/-- `basis_set.py:56-59`, `beta` -/
def beta (s : BasisSet q) : ℝ := s.basisF.beta
/-- `basis_set.py:61-64`, `wmax` -/
def wmax (s : BasisSet q) : ℝ := s.basisF.wmax
/-- `basis_set.py:66-69`, `accuracy` -/
def accuracy (s : BasisSet q) : ℝ := s.basisF.accuracy
/-- `basis_set.py:71-74`, `sve_result` -/
def sveResult (s : BasisSet q) : SveResult := s.basisF.sve
/-- `basis_set.py:76-79`, `tau` -/
def tau (s : BasisSet q) : List ℝ := s.smplTauF.points
/-- `basis_set.py:81-84`, `wn_f` -/
def wnF (s : BasisSet q) : List ℤ := s.smplWnF.points
/-- `basis_set.py:86-89`, `wn_b` -/
def wnB (s : BasisSet q) : List ℤ := s.smplWnB.points

end BasisSet
end Verif.FiniteTemp
