import Verif.Np.NdArray
/-!
# Model of `src/sparse_ir/_util.py`, `RavelArgumentDecorator`
-/

namespace Verif.Util
open Verif Verif.Np

/-- `_util.py:28-37`, `RavelArgumentDecorator.__call__`: evaluate the wrapped function on the
ravelled argument, then restore the shape: `res.shape[:-1] + x.shape` with `last_dim`, else
`x.shape + res.shape[1:]`.  `inner` is the wrapped function (already bound to its instance). -/
def ravelCall {α β : Type _} (lastDim : Bool) (inner : NdArray α → PyM (NdArray β))
    (x : NdArray α) : PyM (NdArray β) :=
  match inner x.ravel with
  | .error e => .error e
  | .ok res =>
    if lastDim then res.reshape (res.shape.dropLast ++ x.shape)
    else res.reshape (x.shape ++ res.shape.tail)

/-! ## The descriptor protocol (`__get__` stores the instance on the shared descriptor) -/

/-- What client code does with a decorated method, in program (or interleaving) order.
`access h o`: evaluate the attribute `o.method` and remember the result under the name `h`;
`accessClass h`: evaluate `Cls.method`; `call h x`: call the remembered object with `x`. -/
inductive Event (Obj Arg : Type _)
  | access (h : ℕ) (o : Obj)
  | accessClass (h : ℕ)
  | call (h : ℕ) (x : Arg)
  deriving DecidableEq, Repr

/-- State: the field `self.instance` of the one decorator object stored in the class, and the set
of names bound to it (every attribute access returns that same decorator object, `_util.py:26`). -/
structure DescState (Obj : Type _) where
  instance_ : Option Obj
  bound : List ℕ

/-- `_util.py:18-22`: initially `self.instance = None`. -/
def DescState.init {Obj : Type _} : DescState Obj := ⟨none, []⟩

/-- One event.
* `__get__` (lines 24-26) overwrites `self.instance` and returns `self`;
* `__call__` (lines 28-33) uses the *current* `self.instance`; with `None` the wrapped function is
  called without `self`, which for a method is a missing-argument `TypeError`.
Calling an unbound name is a programming error outside the model (`none`). -/
def descStep {Obj Arg Out : Type _} (inner : Obj → Arg → Out)
    (s : DescState Obj) : Event Obj Arg → DescState Obj × Option (PyM Out)
  | .access h o => (⟨some o, h :: s.bound⟩, none)
  | .accessClass h => (⟨none, h :: s.bound⟩, none)
  | .call h x =>
    if h ∈ s.bound then
      (s, some (match s.instance_ with
        | some o => .ok (inner o x)
        | none => .error .typeError))
    else (s, none)

/-- Outputs of a whole history. -/
def descRun {Obj Arg Out : Type _} (inner : Obj → Arg → Out) :
    DescState Obj → List (Event Obj Arg) → List (Option (PyM Out))
  | _, [] => []
  | s, e :: es => (descStep inner s e).2 :: descRun inner (descStep inner s e).1 es

end Verif.Util
