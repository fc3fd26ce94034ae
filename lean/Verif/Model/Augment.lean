import Verif.Model.FiniteTemp
import Mathlib.Analysis.Complex.Basic
/-!
# Model of `src/sparse_ir/augment.py`

One argument value at a time (all functions work element by element).  What remains of the array argument is whether
it is zero-dimensional (frequencies) and whether it has an integer dtype (times), as both make a difference.
NaN is a regular result here and is represented by `none`.
-/

namespace Verif.Augment
open Verif Verif.Np Verif.Poly Verif.FiniteTemp

/-- Element of an argument `n`, and whether the argument is zero-dimensional. -/
structure MArg where
  n : ℤ
  scalar : Bool

/-- Element of an argument `tau`, and whether it has an integer dtype. -/
structure TArg where
  tau : ℝ
  isInt : Bool

/-- `_util.py:64-71` for one finite value. -/
noncomputable def checkRangeR (x lo hi : ℝ) : PyM ℝ :=
  if ¬ x ≥ lo then .error .valueError else if ¬ x ≤ hi then .error .valueError else .ok x

/-- `augment.py:198-223`, an instance of `AbstractAugmentation`: `__call__`, `deriv(n)`, `hat`, and whether its class
is `MatsubaraConst`. -/
structure AugObj where
  call : TArg → PyM (Option ℝ)
  deriv : ℕ → TArg → PyM (Option ℝ)
  hat : MArg → PyM ℂ
  isMatsubaraConst : Bool

/-- `augment.py:238-240`, `TauConst.__call__` -/
noncomputable def tauConstCall (beta : ℝ) (t : TArg) : PyM (Option ℝ) :=
  match checkRangeR t.tau 0 beta with
  | .error e => .error e
  | .ok _ => .ok (some (1 / Real.sqrt beta))

/-- `augment.py:226-250`, `TauConst(beta)`.  `npComplex`: the installed numpy still has the name `np.complex`
(removed in numpy 1.24), which `hat` uses. -/
noncomputable def tauConst (npComplex : Bool) (beta : ℝ) : PyM AugObj :=
  if beta ≤ 0 then .error .valueError
  else .ok {
    call := tauConstCall beta
    deriv := fun n t => if n = 0 then tauConstCall beta t else .ok (some 0)
    hat := fun a => match Util.checkReducedMatsubara (.ints [a.n]) (some 0) with
      | .error e => .error e
      | .ok _ => if npComplex then .ok (Real.sqrt beta * (if a.n = 0 then 1 else 0)) else .error .attributeError
    isMatsubaraConst := false }

/-- `augment.py:266-269`, `TauLinear.__call__` -/
noncomputable def tauLinearCall (beta : ℝ) (t : TArg) : PyM (Option ℝ) :=
  match checkRangeR t.tau 0 beta with
  | .error e => .error e
  | .ok tau => .ok (some (Real.sqrt (3 / beta) * (2 / beta * tau - 1)))

/-- Conversion of a float to an integer dtype: truncation. -/
noncomputable def truncR (x : ℝ) : ℝ := if 0 ≤ x then ⌊x⌋ else ⌈x⌉

/-- `augment.py:253-284`, `TauLinear(beta)`.  `np.full_like(tau, c)` (line 276) has the dtype of `tau`.  For
zero-dimensional `n`, `inv_w` is a numpy scalar, which `np.reciprocal` refuses as `out` (line 283); for `n = 0` the
entry is not written and stays zero. -/
noncomputable def tauLinear (beta : ℝ) : PyM AugObj :=
  if beta ≤ 0 then .error .valueError
  else .ok {
    call := tauLinearCall beta
    deriv := fun n t =>
      if n = 0 then tauLinearCall beta t
      else if n = 1 then
        let c := Real.sqrt (3 / beta) * 2 / beta
        .ok (some (if t.isInt then truncR c else c))
      else .ok (some 0)
    hat := fun a => match Util.checkReducedMatsubara (.ints [a.n]) (some 0) with
      | .error e => .error e
      | .ok _ =>
        if a.scalar then .error .typeError
        else
          let w : ℝ := Real.pi / beta * a.n
          let invW : ℝ := if a.n ≠ 0 then 1 / w else w
          .ok (Real.sqrt (3 / beta) * 2 / Complex.I * invW)
    isMatsubaraConst := false }

/-- `augment.py:287-307`, `MatsubaraConst(beta)`. -/
noncomputable def matsubaraConst (beta : ℝ) : PyM AugObj :=
  let call : TArg → PyM (Option ℝ) := fun t => match checkRangeR t.tau 0 beta with
    | .error e => .error e
    | .ok _ => .ok none
  if beta ≤ 0 then .error .valueError
  else .ok {
    call := call
    deriv := fun _ => call
    hat := fun a => match Util.checkReducedMatsubara (.ints [a.n]) none with
      | .error e => .error e
      | .ok _ => .ok 1
    isMatsubaraConst := true }

/-- `augment.py:318-324`, `_check_bosonic_statistics(statistics)`. -/
def checkBosonic (statistics : String) : PyM Unit :=
  if statistics = "B" then .ok ()
  else if statistics = "F" then .error .valueError
  else .error .valueError

/-- `augment.py:310-315`: an augmentation is given as instance or as class; the class is represented by its method
`create`, depending on `statistics` and `beta` of the basis. -/
inductive AugArg
  | inst (a : AugObj)
  | cls (create : String → ℝ → PyM AugObj)

/-- `augment.py:228-231`, the class `TauConst` -/
noncomputable def TauConst (npComplex : Bool) : AugArg :=
  .cls fun stat beta => match checkBosonic stat with
    | .error e => .error e
    | .ok _ => tauConst npComplex beta

/-- `augment.py:255-258`, the class `TauLinear` -/
noncomputable def TauLinear : AugArg :=
  .cls fun stat beta => match checkBosonic stat with
    | .error e => .error e
    | .ok _ => tauLinear beta

/-- `augment.py:289-291`, the class `MatsubaraConst` -/
noncomputable def MatsubaraConst : AugArg := .cls fun _ beta => matsubaraConst beta

/-- `augment.py:310-315`, `_augmentation_factory(basis, *augs)`. -/
noncomputable def factory (stat : String) (beta : ℝ) : List AugArg → PyM (List AugObj)
  | [] => .ok []
  | a :: as =>
    let one : PyM AugObj := match a with
      | .inst o => .ok o
      | .cls create => create stat beta
    match one with
    | .error e => .error e
    | .ok o => (factory stat beta as).map (o :: ·)

/-! ## Vectors of functions -/

/-- What `_AugmentedFunction` needs of the vector of functions `fbasis`. -/
structure VecFn (X V : Type) where
  size : ℕ
  call : X → PyM (Fin size → V)

namespace VecFn
variable {X V : Type}

/-- `fbasis[l]` for an integer: numpy indexing. -/
def getInt (f : VecFn X V) (l : ℤ) : PyM (X → PyM V) :=
  let i := if 0 ≤ l then l else l + f.size
  if h : 0 ≤ i ∧ i < f.size then
    .ok fun x => (f.call x).map fun v => v ⟨i.toNat, by omega⟩
  else .error .indexError

/-- `fbasis[:k]` for `k > 0`: Python slice. -/
def take (f : VecFn X V) (k : ℕ) : VecFn X V :=
  ⟨min k f.size, fun x => (f.call x).map fun v i => v ⟨i.1, by omega⟩⟩

end VecFn

/-- Index expression of a vector of functions: integer, slice, anything else (`int(l)` fails). -/
inductive Idx
  | int (l : ℤ)
  | slice (start stop step : Option ℤ)
  | other

/-- `augment.py:133-139`, attributes of `_AugmentedFunction`. -/
structure AugFn (X V : Type) where
  fbasis : VecFn X V
  faug : List (X → PyM V)

/-- What an index expression gives. -/
inductive Item (X V : Type)
  | fn (f : X → PyM V)
  | vec (g : AugFn X V)

namespace AugFn
variable {X V : Type}

/-- `augment.py:139`, `_naug` -/
def naug (f : AugFn X V) : ℕ := f.faug.length

/-- `augment.py:149-151`, `size` -/
def size (f : AugFn X V) : ℕ := f.naug + f.fbasis.size

/-- Values of a list of functions, in order. -/
def callAll (fs : List (X → PyM V)) (x : X) : PyM (List V) :=
  match fs with
  | [] => .ok []
  | f :: fs => match f x with
    | .error e => .error e
    | .ok v => (callAll fs x).map (v :: ·)

/-- `augment.py:153-159`, `__call__(x)`. -/
def call (f : AugFn X V) (x : X) : PyM (List V) :=
  match f.fbasis.call x with
  | .error e => .error e
  | .ok fb => match callAll f.faug x with
    | .error e => .error e
    | .ok fa => .ok (fa ++ List.ofFn fb)

/-- `self._faug[l]`, Python list indexing. -/
def pyGet {α : Type} (fs : List α) (l : ℤ) : PyM α :=
  let i := if 0 ≤ l then l else l + fs.length
  if 0 ≤ i then
    match fs[i.toNat]? with
    | none => .error .indexError
    | some f => .ok f
  else .error .indexError

/-- `augment.py:161-173`, `__getitem__(l)`.  `None <= int` is a TypeError. -/
def getitem (f : AugFn X V) : Idx → PyM (Item X V)
  | .other => .error .typeError
  | .slice start stop step => match sliceToSize (.slice start stop step) with
    | .error e => .error e
    | .ok none => .error .typeError
    | .ok (some stop) =>
      if stop ≤ f.naug then .error .notImplementedError
      else .ok (.vec ⟨f.fbasis.take (stop - f.naug).toNat, f.faug⟩)
  | .int l =>
    if l < f.naug then (pyGet f.faug l).map .fn
    else (f.fbasis.getInt (l - f.naug)).map .fn

end AugFn

/-! ## The basis -/

/-- `augment.py:52-60`, attributes of `AugmentedBasis`. -/
structure AugBasis where
  basis : Basis
  augs : List AugObj

/-- `basis.u` as vector of functions. -/
noncomputable def tauFn (b : Basis) : VecFn TArg (Option ℝ) :=
  ⟨b.size, fun t => (b.u.call t.tau).map fun v l => some (v l)⟩

/-- `basis.uhat` as vector of functions. -/
noncomputable def matsFn (b : Basis) : VecFn MArg ℂ := ⟨b.size, fun a => b.uhat.call a.n⟩

/-- `augment.py:52-60`, `AugmentedBasis.__init__(basis, *augmentations)`. -/
noncomputable def augInit (b : Basis) (augs : List AugArg) : PyM AugBasis :=
  match factory b.statistics b.beta augs with
  | .error e => .error e
  | .ok augs => .ok ⟨b, augs⟩

/-- `raise obj` where `obj` is a string: "exceptions must derive from BaseException". -/
def pyRaise {α : Type} (_ : String) : PyM α := .error .typeError

/-- Positional argument of `AugmentedTauFunction(fbasis, ...)`: a list of functions, or a single function. -/
inductive PyArg (X V : Type)
  | list (fs : List (X → PyM V))
  | fn (f : X → PyM V)

/-- `augment.py:134-139` called as `AugmentedTauFunction(fbasis, *args)`: exactly one further argument, and it must
have a length. -/
def augFnInit {X V : Type} (fbasis : VecFn X V) (args : List (PyArg X V)) : PyM (AugFn X V) :=
  match args with
  | [.list fs] => .ok ⟨fbasis, fs⟩
  | [.fn _] => .error .typeError
  | _ => .error .typeError

namespace AugBasis

/-- `augment.py:58` and `62-64`, `u` -/
noncomputable def u (a : AugBasis) : AugFn TArg (Option ℝ) := ⟨tauFn a.basis, a.augs.map (·.call)⟩

/-- `augment.py:59-60` and `66-68`, `uhat` -/
noncomputable def uhat (a : AugBasis) : AugFn MArg ℂ := ⟨matsFn a.basis, a.augs.map (·.hat)⟩

/-- `augment.py:70-72`, `statistics` -/
def statistics (a : AugBasis) : PyM String := pyRaise a.basis.statistics

/-- `augment.py:74-79`, `__getitem__(index)`. -/
noncomputable def getitem (fp : Fp) (compute : KernelInfo → Option ℝ → PyM SveResult) (a : AugBasis)
    (index : PyIndex) : PyM AugBasis :=
  match sliceToSize index with
  | .error e => .error e
  | .ok none => .error .typeError
  | .ok (some stop) =>
    if stop ≤ a.augs.length then .error .valueError
    else match a.basis.getitem fp compute (.slice none (some (stop - a.augs.length)) none) with
      | .error e => .error e
      | .ok b => .ok ⟨b, a.augs⟩

/-- `augment.py:85-87`, `size` -/
def size (a : AugBasis) : ℕ := a.augs.length + a.basis.size

/-- `augment.py:177-179`, `u.xmin` -/
noncomputable def uXmin (a : AugBasis) : ℝ := a.basis.u.xmin

/-- `augment.py:181-183`, `u.xmax` -/
noncomputable def uXmax (a : AugBasis) : ℝ := a.basis.u.xmin

/-- `augment.py:185-189`, `u.deriv(n)` -/
noncomputable def uDeriv (a : AugBasis) (n : ℕ) : PyM (AugFn TArg (Option ℝ)) :=
  let dbasis : VecFn TArg (Option ℝ) := ⟨a.basis.size, fun t => ((a.basis.u.deriv n).call t.tau).map fun v l => some (v l)⟩
  let daug := a.augs.map fun o => o.deriv n
  augFnInit dbasis (daug.map .fn)

/-- `augment.py:89-91`, `significance` -/
noncomputable def significance (a : AugBasis) : PyM (List ℝ) := a.basis.significance.map List.ofFn

/-- `augment.py:97-99`, `lambda_` -/
def lambda (fp : Fp) (a : AugBasis) : ℝ := a.basis.lambda fp

/-- `augment.py:101-103`, `beta` -/
def beta (a : AugBasis) : ℝ := a.basis.beta

/-- `augment.py:105-107`, `wmax` -/
def wmax (a : AugBasis) : ℝ := a.basis.wmax

/-- `augment.py:93-95`, `accuracy` -/
def accuracy (a : AugBasis) : ℝ := a.basis.accuracy

/-- `augment.py:109-116`, `default_tau_sampling_points(npoints)`. -/
noncomputable def defaultTau (a : AugBasis) (eps : ℝ) (F : Fin a.basis.sve.n → ℝ → FVal ℝ) (G : ℝ → FVal ℝ)
    (npoints : Option ℕ) : Option (PyM (List ℝ × Bool)) :=
  a.basis.defaultTau eps F G (some (npoints.getD a.size))

/-- `augment.py:118-123`, `default_matsubara_sampling_points(npoints, positive_only)`. -/
noncomputable def defaultMatsubara (a : AugBasis) (F : Fin a.basis.sve.n → ℤ → FVal ℝ) (npoints : Option ℕ)
    (positiveOnly : Bool) : Option (PyM (List ℤ × Bool)) :=
  a.basis.defaultMatsubara F (some (npoints.getD a.size)) positiveOnly

/-- `augment.py:125-130`, `is_well_conditioned`, where that of the underlying basis is True (`abstract.py`). -/
def isWellConditioned (a : AugBasis) : Bool :=
  match a.augs with
  | [o] => o.isMatsubaraConst
  | _ => false

end AugBasis

/-- `augment.py:233-236`, `260-264`, `293-296` over IEEE values: the check of `beta` in the constructors. -/
def checkBeta (beta : IEEE) : PyM Unit := if beta.le (.fin 0) then .error .valueError else .ok ()

end Verif.Augment
