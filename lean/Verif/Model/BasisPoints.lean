import Verif.Model.FTExtrema
/-!
# Model of the default sampling points, `src/sparse_ir/basis.py:172-197, 228-312`

The functions that are searched are given by their float values (`F`), as in `Model.FTExtrema` and
`Model.Poly`; every statement about the points holds for all of them.
-/

namespace Verif.Basis
open Verif Verif.Np Verif.Poly

/-- `np.unique` of an integer array: sorted, without repetitions. -/
def npUnique (l : List ℤ) : List ℤ := l.dedup.mergeSort fun a b => decide (a ≤ b)

/-- `basis.py:261-269`: `l_requested`. -/
def lRequested (freq : Freq) (L : ℕ) : ℕ :=
  if freq = .odd ∧ L % 2 = 1 then L + 1
  else if freq = .even ∧ L % 2 = 0 then L + 1
  else L

/-- `basis.py:277-283`: the fall-back, given the extrema found: zero is added if the first frequency
is even (`wn[0]` of an empty array raises IndexError). -/
def addZero (wn : List ℤ) : PyM (List ℤ) :=
  match wn with
  | [] => .error .indexError
  | w0 :: rest => if w0 % 2 = 0 then .ok (npUnique (0 :: w0 :: rest)) else .ok (w0 :: rest)

/-- `basis.py:285-287`: `expected_size`. -/
def expectedSize (lreq : ℕ) (positiveOnly : Bool) : ℕ :=
  if positiveOnly then (lreq + 1) / 2 else lreq

/-- `basis.py:306`, `wn_outer`: `wn[-1:]` or `wn[[0, -1]]` (IndexError if empty). -/
def fenceOuter (wn : List ℤ) (positiveOnly : Bool) : PyM (List ℤ) :=
  if positiveOnly then .ok (wn.drop (wn.length - 1))
  else match wn.head?, wn.getLast? with
    | some a, some b => .ok [a, b]
    | _, _ => .error .indexError

/-- `basis.py:307`, `wn_diff = 2 * np.round(0.025 * wn_outer).astype(int)` -/
noncomputable def fenceDiff (w : ℤ) : ℤ := 2 * npRound (0.025 * (w : ℝ))

/-- `basis.py:298-312`, `_fence_matsubara_sampling(wn, positive_only)`. -/
noncomputable def fence (wn : List ℤ) (positiveOnly : Bool) : PyM (List ℤ) :=
  match fenceOuter wn positiveOnly with
  | .error e => .error e
  | .ok outer =>
    let wn := if wn.length ≥ 20 then wn ++ outer.map (fun w => w - w.sign * fenceDiff w) else wn
    let wn := if wn.length ≥ 42 then wn ++ outer.map (fun w => w + w.sign * fenceDiff w) else wn
    .ok (npUnique wn)

/-- `basis.py:260-295`, `_default_matsubara_sampling_points(uhat, L, fence, positive_only)`.  The
second component tells whether the UserWarning is issued.  `F l` are the values of function `l` of
`uhat` as seen by the search.  `none`: no termination. -/
noncomputable def defaultMatsubara {size : ℕ} (uhat : PFT (Fin size)) (F : Fin size → ℤ → FVal ℝ)
    (L : ℕ) (doFence positiveOnly : Bool) : Option (PyM (List ℤ × Bool)) :=
  let lreq := lRequested uhat.freq L
  let wn : Option (PyM (List ℤ)) :=
    if h : lreq < size then
      match uhat.select (fun _ => 0) (fun _ : Unit => ⟨lreq, h⟩) with
      | .error e => some (.error e)
      | .ok g => g.signChanges (F ⟨lreq, h⟩) .none defaultGrid positiveOnly
    else if h : 0 < size then
      match uhat.select (fun _ => 0) (fun _ : Unit => ⟨size - 1, by omega⟩) with
      | .error e => some (.error e)
      | .ok g => match g.extrema (F ⟨size - 1, by omega⟩) .none defaultGrid positiveOnly with
        | .error e => some (.error e)
        | .ok wn => some (addZero wn)
    else some (.error .indexError)
  match wn with
  | none => none
  | some (.error e) => some (.error e)
  | some (.ok wn) =>
    let warned := decide (wn.length ≠ expectedSize lreq positiveOnly)
    if doFence then
      match fence wn positiveOnly with
      | .error e => some (.error e)
      | .ok wn => some (.ok (wn, warned))
    else some (.ok (wn, warned))

open Classical in
/-- `basis.py:228-257`, `_default_sampling_points(u, L)`, with the flag of the UserWarning.  `F` are
the values of `u[L]`, `G` those of `u[-1].deriv()`, as seen by the root search; `alpha = 2` is the
default of `roots`. -/
noncomputable def defaultPoints {size : ℕ} (u : PPoly (Fin size)) (eps : ℝ)
    (F : Fin size → ℝ → FVal ℝ) (G : ℝ → FVal ℝ) (L : ℕ) : Option (PyM (List ℝ × Bool)) :=
  if u.xmin ≠ -1 ∨ u.xmax ≠ 1 then some (.error .valueError)
  else
    let x0 : Option (PyM (List ℝ)) :=
      if h : L < size then (u.select fun _ : Unit => ⟨L, h⟩).roots eps (F ⟨L, h⟩) 2
      else if h : 0 < size then
        match ((u.select fun _ : Unit => ⟨size - 1, by omega⟩).deriv 1).roots eps G 2 with
        | none => none
        | some (.error e) => some (.error e)
        | some (.ok maxima) =>
          let left := (maxima.take 1).map fun m => 0.5 * (m + u.xmin)
          let right := (maxima.drop (maxima.length - 1)).map fun m => 0.5 * (m + u.xmax)
          some (.ok (left ++ maxima ++ right))
      else some (.error .indexError)
    match x0 with
    | none => none
    | some (.error e) => some (.error e)
    | some (.ok x0) => some (.ok (x0, decide (x0.length ≠ L)))

/-- `basis.py:172-176`, `default_tau_sampling_points`: scaled to `[0, beta]`. -/
noncomputable def scaleTau (beta : ℝ) (x : List ℝ) : List ℝ := x.map fun x => beta / 2 * (x + 1)

/-- `basis.py:185-197`, `default_omega_sampling_points`: scaled to `[-wmax, wmax]`. -/
noncomputable def scaleOmega (wmax : ℝ) (y : List ℝ) : List ℝ := y.map fun y => wmax * y

end Verif.Basis
