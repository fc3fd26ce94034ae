import Verif.Model.Poly
import Verif.Model.Gauss
import Mathlib.Data.Finset.Sort
import Mathlib.Data.Finset.Lattice.Fold
/-!
# Model of the overlap integral, `src/sparse_ir/poly.py:105-134, 469-525`

`ι` numbers the polynomials, `φ` the (at least one) components of the function `f`, which is assumed to always return
arrays of the same shape.  `radix`, which no caller sets, is 2.
-/

namespace Verif.Overlap
open Verif Verif.Np Verif.Poly Verif.Gauss

variable {ι φ : Type}

/-- Values of all polynomials at a list of points, `poly(rule.x)` on `poly.py:499`. -/
noncomputable def evalNodes (p : PPoly ι) : List ℝ → PyM (List (ι → ℝ))
  | [] => .ok []
  | x :: xs => match p.call x with
    | .error e => .error e
    | .ok v => match evalNodes p xs with
      | .error e => .error e
      | .ok vs => .ok (v :: vs)

/-- A segment together with its two integral estimates. -/
structure Est (ι φ : Type) where
  seg : ℝ × ℝ
  int21 : ι → φ → ℝ
  int10 : ι → φ → ℝ

/-- `poly.py:490-501` for one segment: `int21` uses all points, `int10` every second point, with weights `v`. -/
noncomputable def estimate (rule : NestedRule) (p : PPoly ι) (f : ℝ → φ → ℝ) (s : ℝ × ℝ) : PyM (Est ι φ) :=
  let r := rule.reseat s.1 s.2
  match evalNodes p r.x with
  | .error e => .error e
  | .ok pv =>
    let valx : List (ι → φ → ℝ) := List.zipWith (fun v x => fun l q => v l * f x q) pv r.x
    .ok ⟨s, fun l q => (List.zipWith (fun v w => v l q * w) valx r.w).sum,
      fun l q => (List.zipWith (fun v w => v l q * w) (vsel valx) r.v).sum⟩

/-- The same for all segments. -/
noncomputable def estimates (rule : NestedRule) (p : PPoly ι) (f : ℝ → φ → ℝ) : List (ℝ × ℝ) → PyM (List (Est ι φ))
  | [] => .ok []
  | s :: ss => match estimate rule p f s with
    | .error e => .error e
    | .ok v => match estimates rule p f ss with
      | .error e => .error e
      | .ok vs => .ok (v :: vs)

/-- `poly.py:502`, `intdiff` -/
noncomputable def Est.diff (e : Est ι φ) (l : ι) (q : φ) : ℝ := |e.int21 l q - e.int10 l q|

/-- `poly.py:481-483`, `res_value`, `res_error`, `res_magn`. -/
structure Acc (ι φ : Type) where
  value : ι → φ → ℝ
  error : ι → φ → ℝ
  magn : ι → ℝ

/-- The maximum over the components of the function, `.max(-1)`. -/
noncomputable def maxF [Fintype φ] [Nonempty φ] (g : φ → ℝ) : ℝ := Finset.univ.sup' Finset.univ_nonempty g

/-- `poly.py:505`, `magn` -/
noncomputable def magnOf [Fintype φ] [Nonempty φ] (acc : Acc ι φ) (es : List (Est ι φ)) (l : ι) : ℝ :=
  acc.magn l + maxF fun q => (es.map fun e => |e.int10 l q|).sum

/-- `poly.py:506-508`, whether a segment has converged.  For zero `magn` the relative error is NaN or infinite. -/
def Converged [Fintype φ] [Nonempty φ] (rtol : ℝ) (magn : ι → ℝ) (e : Est ι φ) : Prop :=
  ∀ l, magn l ≠ 0 ∧ maxF (e.diff l) / magn l ≤ rtol

/-- `poly.py:509-511`, adding the converged segments. -/
noncomputable def Acc.add [Fintype φ] [Nonempty φ] (acc : Acc ι φ) (es : List (Est ι φ)) : Acc ι φ where
  value l q := acc.value l q + (es.map fun e => e.int10 l q).sum
  error l q := acc.error l q + (es.map fun e => e.diff l q).sum
  magn l := acc.magn l + maxF fun q => (es.map fun e => |e.int10 l q|).sum

/-- `poly.py:518-520`, cutting a segment in two. -/
noncomputable def halves (s : ℝ × ℝ) : List (ℝ × ℝ) := [(s.1, s.1 + (s.2 - s.1) / 2), (s.1 + (s.2 - s.1) / 2, s.2)]

/-- The warnings on `poly.py:487` and `poly.py:522`. -/
inductive Warning
  | tooBroad
  | notConverged

/-- Result and warning of `_compute_overlap`. -/
structure Outcome (ι φ : Type) where
  value : ι → φ → ℝ
  error : ι → φ → ℝ
  warning : Option Warning

open Classical in
/-- `poly.py:484-522`, the loop; the first argument is the number of remaining levels. -/
noncomputable def loop [Fintype φ] [Nonempty φ] (rule : NestedRule) (p : PPoly ι) (f : ℝ → φ → ℝ) (rtol : ℝ)
    (maxPoints : ℕ) : ℕ → List (ℝ × ℝ) → Acc ι φ → PyM (Outcome ι φ)
  | 0, _, acc => .ok ⟨acc.value, acc.error, some .notConverged⟩
  | n + 1, segs, acc =>
    if segs.length > maxPoints then .ok ⟨acc.value, acc.error, some .tooBroad⟩
    else match estimates rule p f segs with
      | .error e => .error e
      | .ok es =>
        let magn := magnOf acc es
        let acc' := acc.add (es.filter fun e => decide (Converged rtol magn e))
        if ∀ e ∈ es, Converged rtol magn e then .ok ⟨acc'.value, acc'.error, none⟩
        else loop rule p f rtol maxPoints n
          (((es.filter fun e => decide (¬ Converged rtol magn e)).map Est.seg).flatMap halves) acc'

/-- `poly.py:472-476`, `knots`: `np.unique` sorts and removes repetitions. -/
noncomputable def allKnots (p : PPoly ι) (points : Option (List ℝ)) : List ℝ :=
  match points with
  | none => List.ofFn p.knots
  | some pts => (List.ofFn p.knots ++ pts).toFinset.sort

/-- `poly.py:477-478`, `xstart`, `xstop`. -/
noncomputable def segments (knots : List ℝ) : List (ℝ × ℝ) := knots.zip knots.tail

/-- `poly.py:469-525`, `_compute_overlap` with `max_refine_levels` and `max_refine_points`.  If the loop is left
before `f` has been called, `f_shape` is None and adding it to a tuple on `poly.py:524` raises TypeError. -/
noncomputable def computeOverlap [Fintype φ] [Nonempty φ] (rule : NestedRule) (p : PPoly ι) (f : ℝ → φ → ℝ) (rtol : ℝ)
    (maxLevels maxPoints : ℕ) (points : Option (List ℝ)) : PyM (Outcome ι φ) :=
  let segs := segments (allKnots p points)
  if maxLevels = 0 ∨ segs.length > maxPoints then .error .typeError
  else loop rule p f rtol maxPoints maxLevels segs ⟨fun _ _ => 0, fun _ _ => 0, fun _ => 0⟩

/-- `poly.py:105-134`, `overlap(f, rtol, points)`; the warning is part of the result. -/
noncomputable def overlap [Fintype φ] [Nonempty φ] (p : PPoly ι) (f : ℝ → φ → ℝ) (rtol : ℝ)
    (points : Option (List ℝ)) : PyM (Outcome ι φ) :=
  computeOverlap kronrod31_15 p f rtol 40 2000 points

end Verif.Overlap
