import Verif.Model.KernelFl
import Verif.Model.Gauss
import Verif.Model.Sve
/-!
# Model of the quadrature rules and of the kernel matrix in floating-point arithmetic

The same functions as in `Model/Gauss.lean` and `Model/Sve.lean`, with every operation on floats replaced by one of a
given arithmetic, in the order in which `src/sparse_ir/_gauss.py`, `kernel.py` and `sve.py` perform them.
-/

namespace Verif.Gauss
open Verif Verif.Kernel

/-- `_gauss.py:34-41`, `Rule.reseat(a, b)`. -/
noncomputable def Rule.reseatFl (A : Arith) (r : Rule) (a b : ℝ) : Rule :=
  let scaling := A.div (A.sub b a) (A.sub r.b r.a)
  ⟨r.x.map fun x => A.add (A.mul scaling (A.sub x (A.div (A.add r.b r.a) 2))) (A.div (A.add b a) 2),
   r.w.map (A.mul · scaling), r.xForward.map (A.mul · scaling), r.xBackward.map (A.mul · scaling), a, b⟩

open Classical in
/-- `_gauss.py:76-82`, the loop of `join`. -/
noncomputable def joinLoopFl (A : Arith) (a b : ℝ) : ℝ → List Rule → PyM (List (List ℝ × List ℝ × List ℝ × List ℝ))
  | _, [] => .ok []
  | prev, curr :: rest =>
    if curr.a ≠ prev then .error .valueError
    else match joinLoopFl A a b curr.b rest with
      | .error e => .error e
      | .ok parts => .ok ((curr.x, curr.w, curr.xForward.map (A.add · (A.sub curr.a a)),
          curr.xBackward.map (A.add · (A.sub b curr.b))) :: parts)

/-- `_gauss.py:65-85`, `Rule.join(*gauss_list)`. -/
noncomputable def Rule.joinFl (A : Arith) (rules : List Rule) : PyM Rule :=
  match rules.head?, rules.getLast? with
  | some r0, some r1 =>
    match joinLoopFl A r0.a r1.b r0.a rules with
    | .error e => .error e
    | .ok parts => .ok ⟨(parts.map (·.1)).flatten, (parts.map (·.2.1)).flatten,
        (parts.map (·.2.2.1)).flatten, (parts.map (·.2.2.2)).flatten, r0.a, r1.b⟩
  | _, _ => .ok (Rule.new [] [] (-1) 1)

open Classical in
/-- `_gauss.py:48-57`, `Rule.piecewise(edges)`. -/
noncomputable def Rule.piecewiseFl (A : Arith) (r : Rule) (edges : List ℝ) : PyM Rule :=
  let segs := edges.dropLast.zip edges.tail
  if segs.all fun p => decide (p.2 > p.1) then Rule.joinFl A (segs.map fun p => r.reseatFl A p.1 p.2)
  else .error .valueError

end Verif.Gauss

namespace Verif.Sve
open Verif Verif.Kernel Verif.Gauss

open Classical in
/-- `sve.py:176-177` and `180-184`, `SamplingSVE.matrices`, for a kernel on `[lo, 1] x [lo, 1]` which computes
`call x y x_plus x_minus` after the check of the domain (`kernel.py:497-508`); `rt` is `np.sqrt`. -/
noncomputable def matrixFl (A : Arith) (rt : ℝ → ℝ) (lo : ℝ) (call : ℝ → ℝ → ℝ → ℝ → ℝ) (gx gy : Rule) :
    PyM (Fin gx.x.length × Fin gy.x.length → ℝ) :=
  if (∀ x ∈ gx.x, lo ≤ x ∧ x ≤ 1) ∧ ∀ y ∈ gy.x, lo ≤ y ∧ y ≤ 1 then
    .ok fun i =>
      A.mul (A.mul (call (gx.x.get i.1) (gy.x.get i.2) ((gx.xForward[i.1.1]?).getD 0) ((gx.xBackward[i.1.1]?).getD 0))
        (rt ((gx.w[i.1.1]?).getD 0))) (rt ((gy.w[i.2.1]?).getD 0))
  else .error .valueError

/-- The kernels as `matrixFl` calls them. -/
noncomputable def callFull (k : ℝ → ℝ → Option ℝ → Option ℝ → ℝ) (x y xp xm : ℝ) : ℝ := k x y (some xp) (some xm)

/-- The symmetrised kernels as `matrixFl` calls them. -/
noncomputable def callHalf (k : ℝ → ℝ → ℝ → Option ℝ → ℝ) (x y xp xm : ℝ) : ℝ := k x y xp (some xm)

end Verif.Sve
