import Verif.Py
import Verif.Np.Legendre
import Mathlib.Data.Real.Basic
import Mathlib.Analysis.Real.Sqrt
/-!
# Model of `src/sparse_ir/_gauss.py`

Exact real arithmetic; arrays are lists.  `astype` (lines 59-63) only changes the number format and is
not modelled.
-/

namespace Verif.Gauss
open Verif Verif.Np

/-- `_gauss.py:10-32`, the attributes of `Rule`. -/
structure Rule where
  x : List ℝ
  w : List ℝ
  xForward : List ℝ
  xBackward : List ℝ
  a : ℝ
  b : ℝ

/-- `_gauss.py:20-32`, `Rule.__init__` without `x_forward` and `x_backward`. -/
noncomputable def Rule.new (x w : List ℝ) (a b : ℝ) : Rule :=
  ⟨x, w, x.map (· - a), x.map (b - ·), a, b⟩

/-- `_gauss.py:34-41`, `Rule.reseat(a, b)`. (`self.b = self.a` gives inf/NaN in numpy; excluded in the
theorems.) -/
noncomputable def Rule.reseat (r : Rule) (a b : ℝ) : Rule :=
  let scaling := (b - a) / (r.b - r.a)
  ⟨r.x.map fun x => scaling * (x - (r.b + r.a) / 2) + (b + a) / 2,
   r.w.map (· * scaling), r.xForward.map (· * scaling), r.xBackward.map (· * scaling), a, b⟩

/-- `_gauss.py:43-46`, `Rule.scale(factor)`. -/
noncomputable def Rule.scale (r : Rule) (factor : ℝ) : Rule :=
  { r with w := r.w.map (· * factor) }

open Classical in
/-- `_gauss.py:76-82`, the loop of `join`: `a` is the start of the first rule, `b` the end of the last,
`prev` the end of the previous one. -/
noncomputable def joinLoop (a b : ℝ) : ℝ → List Rule → PyM (List (List ℝ × List ℝ × List ℝ × List ℝ))
  | _, [] => .ok []
  | prev, curr :: rest =>
    if curr.a ≠ prev then .error .valueError
    else match joinLoop a b curr.b rest with
      | .error e => .error e
      | .ok parts => .ok ((curr.x, curr.w, curr.xForward.map (· + (curr.a - a)),
          curr.xBackward.map (· + (b - curr.b))) :: parts)

/-- `_gauss.py:65-85`, `Rule.join(*gauss_list)`. -/
noncomputable def Rule.join (rules : List Rule) : PyM Rule :=
  match rules.head?, rules.getLast? with
  | some r0, some r1 =>
    match joinLoop r0.a r1.b r0.a rules with
    | .error e => .error e
    | .ok parts => .ok ⟨(parts.map (·.1)).flatten, (parts.map (·.2.1)).flatten,
        (parts.map (·.2.2.1)).flatten, (parts.map (·.2.2.2)).flatten, r0.a, r1.b⟩
  | _, _ => .ok (Rule.new [] [] (-1) 1)

open Classical in
/-- `_gauss.py:48-57`, `Rule.piecewise(edges)`. -/
noncomputable def Rule.piecewise (r : Rule) (edges : List ℝ) : PyM Rule :=
  let segs := edges.dropLast.zip edges.tail
  if segs.all fun p => decide (p.2 > p.1) then Rule.join (segs.map fun p => r.reseat p.1 p.2)
  else .error .valueError

/-! ## Orthogonal polynomials from a three-term recurrence -/

/-- `_gauss.py:172-179`, the loop of `_polyvalderiv` for one `x`; the state is `(p1, dp1, p0, dp0)`. -/
def pvdLoop (x : ℝ) : List ℝ → List ℝ → ℝ × ℝ × ℝ × ℝ → PyM (ℝ × ℝ × ℝ × ℝ)
  | [], _, s => .ok s
  | _ :: _, [], _ => .error .indexError
  | alpha :: as, beta :: bs, (p1, dp1, p0, dp0) =>
    let xma := x - alpha
    pvdLoop x as bs (xma * p1 - beta * p0, p1 + xma * dp1 - beta * dp0, p1, dp1)

/-- `_gauss.py:160-181`, `_polyvalderiv(x, alpha, beta)` for one `x`: `(p1, dp1, p0, dp0)`.
(`beta[0]` is not used.) -/
def polyValDeriv (x : ℝ) (alpha beta : List ℝ) : PyM (ℝ × ℝ × ℝ × ℝ) :=
  match alpha with
  | [] => .error .indexError
  | a0 :: as => pvdLoop x as beta.tail (x - a0 * 1, 1, 1, 0)

/-- `_gauss.py:184-200`, `_legendre_recurrence(n)`: `(alpha, beta, -1, 1)`. -/
noncomputable def legendreRecurrence (n : ℕ) : PyM (List ℝ × List ℝ × ℝ × ℝ) :=
  let ksq := (List.range n).map fun k : ℕ => ((k : ℝ)) ^ 2
  match ksq.map fun k => k / (4 * k - 1) with
  | [] => .error .indexError
  | _ :: beta => .ok (List.replicate n 0, 2 :: beta, -1, 1)

/-- `_gauss.py:138-139`: the Newton correction `p / dp` in exact arithmetic.  `dp = 0` gives inf or
NaN. -/
noncomputable def newtonDiff (alpha beta x : List ℝ) : PyM (List ℝ) :=
  x.mapM fun t => match polyValDeriv t alpha beta with
    | .error e => .error e
    | .ok (p, dp, _, _) => if dp = 0 then .error .nanResult else .ok (p / dp)

/-- `_gauss.py:135-148`, the `for`/`else` loop.  `diff` computes the correction (in floating point it
is only approximately `newtonDiff`, so it is left arbitrary), `sub` is the rounded subtraction.  The
result tells whether the loop was left by `break`. `n` is the number of iterations left. -/
noncomputable def newtonLoop (diff : List ℝ → PyM (List ℝ)) (sub : ℝ → ℝ → ℝ) :
    ℕ → ℝ → List ℝ → PyM (List ℝ × Bool)
  | 0, _, x => .ok (x, false)
  | n + 1, prevdiff, x =>
    match diff x with
    | .error e => .error e
    | .ok d =>
      let x := List.zipWith sub x d
      match (d.map fun t => |t|).max? with
      | none => .error .valueError
      | some currdiff =>
        if ¬ (2 * currdiff ≤ prevdiff) then .ok (x, true) else newtonLoop diff sub n currdiff x

/-- `_gauss.py:152-155`, the unnormalised weight `1 / (dp1 * p0)` at the node `t`; a zero denominator
gives inf. -/
noncomputable def rawWeight (alpha beta : List ℝ) (t : ℝ) : PyM ℝ :=
  match polyValDeriv t alpha beta with
  | .error e => .error e
  | .ok (_, dp1, p0, _) => if dp1 * p0 = 0 then .error .nanResult else .ok (1 / (dp1 * p0))

/-- `_gauss.py:152-155`: weights from the final nodes; zero denominators give inf/NaN. -/
noncomputable def weightsOf (alpha beta x : List ℝ) (beta0 : ℝ) : PyM (List ℝ) :=
  match x.mapM (rawWeight alpha beta) with
  | .error e => .error e
  | .ok w => if w.sum = 0 then .error .nanResult else .ok (w.map (· * (beta0 / w.sum)))

open Classical in
/-- `_gauss.py:106-157`, `rule_from_recurrence(alpha, beta, a, b)`.  `eig` is scipy's
`eigvalsh_tridiagonal`.  If the loop ends without `break`, formatting the warning text with `{.2g}`
raises AttributeError (line 149: `.2g` is read as an attribute name). -/
noncomputable def ruleFromRecurrence (eig : List ℝ → List ℝ → List ℝ)
    (diff : List ℝ → List ℝ → List ℝ → PyM (List ℝ)) (sub : ℝ → ℝ → ℝ) (alpha beta : List ℝ) (a b : ℝ) :
    PyM Rule :=
  match beta with
  | [] => .error .indexError
  | _ :: bs =>
    let beta := (b - a) :: bs
    if ¬ (beta.all fun t => decide (t ≥ 0)) then .error .notImplementedError
    else
      let x := eig alpha (bs.map Real.sqrt)
      match newtonLoop (diff alpha beta) sub 5 1 x with
      | .error e => .error e
      | .ok (_, false) => .error .attributeError
      | .ok (x, true) =>
        match weightsOf alpha beta x (b - a) with
        | .error e => .error e
        | .ok w => .ok ⟨x, w, x.map (· - a), x.map (b - ·), a, b⟩

/-- `_gauss.py:88-90`, `legendre(n)`. -/
noncomputable def legendreRule (eig : List ℝ → List ℝ → List ℝ)
    (diff : List ℝ → List ℝ → List ℝ → PyM (List ℝ)) (sub : ℝ → ℝ → ℝ) (n : ℕ) : PyM Rule :=
  match legendreRecurrence n with
  | .error e => .error e
  | .ok (alpha, beta, a, b) => ruleFromRecurrence eig diff sub alpha beta a b

/-- `_gauss.py:93-103`, `legendre_collocation(rule, n)`: row `k`, column `i`.  `legvander` with
negative degree raises ValueError. -/
noncomputable def legendreCollocation (r : Rule) (n : Option ℕ) : PyM (List (List ℝ)) :=
  let n := n.getD r.x.length
  if n = 0 then .error .valueError
  else .ok ((List.range n).map fun k : ℕ =>
    List.zipWith (fun (x w : ℝ) => (((legvander x (n - 1))[k]?).getD 0 * w) * (0.5 + (k : ℝ))) r.x r.w)

/-! ## Nested rules -/

/-- `_gauss.py:203-208`, `NestedRule`: additional weights `v` for the nodes `x[1::2]`. -/
structure NestedRule extends Rule where
  v : List ℝ

/-- `_gauss.py:208`, `x[vsel]` with `vsel = slice(1, None, 2)`. -/
def vsel {α : Type _} : List α → List α
  | [] => []
  | [_] => []
  | _ :: y :: l => y :: vsel l

/-- `_gauss.py:210-215`, `NestedRule.reseat`. -/
noncomputable def NestedRule.reseat (r : NestedRule) (a b : ℝ) : NestedRule :=
  { r.toRule.reseat a b with v := r.v.map ((b - a) / (r.b - r.a) * ·) }

/-- `_gauss.py:217-222`, `NestedRule.scale`. -/
noncomputable def NestedRule.scale (r : NestedRule) (factor : ℝ) : NestedRule :=
  { r.toRule.scale factor with v := r.v.map (factor * ·) }

/-- `_gauss.py:233-243`, the nodes of `kronrod_31_15`, as the decimal numbers in the source (rounding to double is
not modelled). -/
def kronrodX : List ℚ := [-0.99800229869339710, -0.98799251802048540, -0.96773907567913910,
    -0.93727339240070600, -0.89726453234408190, -0.84820658341042720,
    -0.79041850144246600, -0.72441773136017010, -0.65099674129741700,
    -0.57097217260853880, -0.48508186364023970, -0.39415134707756340,
    -0.29918000715316884, -0.20119409399743451, -0.10114206691871750,
    0.00000000000000000, 0.10114206691871750, 0.20119409399743451,
    0.29918000715316884, 0.39415134707756340, 0.48508186364023970,
    0.57097217260853880, 0.65099674129741700, 0.72441773136017010,
    0.79041850144246600, 0.84820658341042720, 0.89726453234408190,
    0.93727339240070600, 0.96773907567913910, 0.98799251802048540,
    0.99800229869339710]

/-- `_gauss.py:244-254`, the weights of the 31 point rule. -/
def kronrodW : List ℚ := [0.005377479872923349, 0.015007947329316122, 0.025460847326715320,
    0.035346360791375850, 0.044589751324764880, 0.053481524690928090,
    0.062009567800670640, 0.069854121318728260, 0.076849680757720380,
    0.083080502823133020, 0.088564443056211760, 0.093126598170825320,
    0.096642726983623680, 0.099173598721791960, 0.100769845523875590,
    0.101330007014791540, 0.100769845523875590, 0.099173598721791960,
    0.096642726983623680, 0.093126598170825320, 0.088564443056211760,
    0.083080502823133020, 0.076849680757720380, 0.069854121318728260,
    0.062009567800670640, 0.053481524690928090, 0.044589751324764880,
    0.035346360791375850, 0.025460847326715320, 0.015007947329316122,
    0.005377479872923349]

/-- `_gauss.py:255-259`, the weights of the 15 point rule. -/
def kronrodV : List ℚ := [0.03075324199611727, 0.07036604748810812, 0.10715922046717194,
    0.13957067792615432, 0.16626920581699392, 0.18616100001556220,
    0.19843148532711158, 0.20257824192556130, 0.19843148532711158,
    0.18616100001556220, 0.16626920581699392, 0.13957067792615432,
    0.10715922046717194, 0.07036604748810812, 0.03075324199611727]

/-- `_gauss.py:232-260`, `kronrod_31_15()`. -/
noncomputable def kronrod31_15 : NestedRule :=
  { Rule.new (kronrodX.map fun q : ℚ => (q : ℝ)) (kronrodW.map fun q : ℚ => (q : ℝ)) (-1) 1 with
    v := kronrodV.map fun q : ℚ => (q : ℝ) }

end Verif.Gauss
