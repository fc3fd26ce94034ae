import Verif.Model.Adapter
import Verif.Model.SveCompute
/-!
# Model of `load` and `Basis` of `src/sparse_ir/adapter.py:35-138`

Warnings are left out.  `compute_unl` is modelled for one frequency; `np.squeeze` only drops axes of length one.
-/

namespace Verif.Adapter
open Verif Verif.Np Verif.Poly Verif.FiniteTemp Verif.SveCompute

/-- `adapter.py:47-59`, attributes of `Basis`. -/
structure IrBasis where
  statistics : String
  Lambda : ℝ
  dim : ℕ
  u : PPoly (Fin dim)
  s : Fin dim → ℝ
  v : PPoly (Fin dim)
  uhat : PFT (Fin dim)

/-- Index `l` of an axis of length `n`: negative ones count from the end, IndexError outside. -/
def axisIndex (n : ℕ) (l : ℤ) : PyM (Fin n) :=
  if h : 0 ≤ l ∧ l < n then .ok ⟨l.toNat, by omega⟩
  else if h : -(n : ℤ) ≤ l ∧ l < 0 then .ok ⟨(n + l).toNat, by omega⟩
  else .error .indexError

/-- `adapter.py:48-58`, `Basis.__init__(statistics, Lambda, sve_result)`. -/
noncomputable def IrBasis.init (statistics : String) (Lambda : ℝ) (r : SveResult) : PyM IrBasis := do
  let idx ← r.part none none
  let freq ← freqOf statistics
  let uhat ← PFT.ctor (fun l => l.1) (r.u.select idx.get) freq (some (40 * Lambda)) none
  .ok ⟨statistics, Lambda, idx.length, r.u.select idx.get, fun l => r.s (idx.get l), r.v.select idx.get, uhat⟩

/-- `adapter.py:40-41`: the kernel by statistics, KeyError for others. -/
noncomputable def kernelFor (statistics : String) (Lambda : ℝ) : PyM Kern :=
  if statistics = "F" then .ok (logisticKern Lambda)
  else if statistics = "B" then .ok (boseKern Lambda)
  else .error .keyError

/-- `adapter.py:35-44`, `load(statistics, Lambda)`. -/
noncomputable def load (env : Env) (statistics : String) (Lambda : ℝ) : PyM IrBasis :=
  match kernelFor statistics Lambda with
  | .error e => .error e
  | .ok K => match SveCompute.compute env K none none none none none none none with
    | .error e => .error e
    | .ok r => IrBasis.init statistics Lambda r

namespace IrBasis

/-- `adapter.py:74-76` and `132-133`, `sl(l)` for an integer. -/
def sl (b : IrBasis) (l : ℤ) : PyM ℝ :=
  match axisIndex b.dim l with
  | .error e => .error e
  | .ok i => .ok (b.s i)

/-- `adapter.py:136-137`, `_selectvals(p, l, x)` for an integer `l`; the point is checked before the index
(`poly.py:91-103`). -/
noncomputable def selectvals {n : ℕ} (p : PPoly (Fin n)) (l : ℤ) (x : ℝ) : PyM ℝ :=
  match p.split x with
  | .error e => .error e
  | .ok _ => match axisIndex n l with
    | .error e => .error e
    | .ok i => p.value i x

/-- `adapter.py:78-80`, `ulx(l, x)` -/
noncomputable def ulx (b : IrBasis) (l : ℤ) (x : ℝ) : PyM ℝ := selectvals b.u l x

/-- `adapter.py:82-84`, `d_ulx(l, x, order)` -/
noncomputable def dUlx (b : IrBasis) (l : ℤ) (x : ℝ) (order : ℕ) : PyM ℝ := selectvals (b.u.deriv order) l x

/-- `adapter.py:86-88`, `vly(l, y)` -/
noncomputable def vly (b : IrBasis) (l : ℤ) (y : ℝ) : PyM ℝ := selectvals b.v l y

/-- `adapter.py:90-92`, `d_vly(l, y, order)` -/
noncomputable def dVly (b : IrBasis) (l : ℤ) (y : ℝ) (order : ℕ) : PyM ℝ := selectvals (b.v.deriv order) l y

/-- `b._uhat[l](nn)` -/
noncomputable def hat (b : IrBasis) (l nn : ℤ) : PyM ℂ :=
  match axisIndex b.dim l with
  | .error e => .error e
  | .ok i => match b.uhat.select (fun _ : Unit => 0) (fun _ => i) with
    | .error e => .error e
    | .ok f => match f.call nn with
      | .error e => .error e
      | .ok z => .ok (z ())

/-- `adapter.py:94-98`, `compute_unl(n, whichl)` for one frequency and an integer `whichl`; `zeta` is that of `poly.py:218`
(never None here). -/
noncomputable def computeUnl (b : IrBasis) (n l : ℤ) : PyM ℂ :=
  match b.uhat.freq.zeta with
  | none => .error .typeError
  | some zeta => b.hat l (2 * n + zeta)

/-- The basis as seen by `sampling_points_matsubara`. -/
noncomputable def sampled (b : IrBasis) : Basis := ⟨b.statistics, b.dim, b.hat⟩

/-- `adapter.py:126-128` -/
noncomputable def samplingPointsMatsubara (b : IrBasis) (whichl : ℤ) : PyM (List ℤ) :=
  Adapter.samplingPointsMatsubara b.sampled whichl

end IrBasis
end Verif.Adapter
