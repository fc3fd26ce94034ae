import Mathlib.Algebra.Field.Basic
import Mathlib.Data.Nat.Cast.Basic
import Mathlib.Logic.Function.Basic
import Mathlib.Data.List.OfFn
/-!
# `numpy.polynomial.legendre`: `legval`, `legder`, `legvander`

Transcribed from the numpy source (numpy/polynomial/legendre.py), for one element of the trailing
axes; exact arithmetic in a field.
-/

namespace Verif.Np

variable {K : Type _} [Field K]

/-- The loop of `legval` (Clenshaw).  `rest` are the coefficients `c[-3], c[-4], ...` still to be
read, `nd` is the loop variable:
```
for i in range(3, len(c) + 1):
    tmp = c0
    nd = nd - 1
    c0 = c[-i] - (c1*(nd - 1))/nd
    c1 = tmp + (c1*x*(2*nd - 1))/nd
return c0 + c1*x
``` -/
def clenshaw (x : K) : List K → ℕ → K → K → K
  | [], _, c0, c1 => c0 + c1 * x
  | c :: rest, nd, c0, c1 =>
    let nd := nd - 1
    clenshaw x rest nd (c - c1 * ((nd : K) - 1) / nd) (c0 + c1 * x * (2 * (nd : K) - 1) / nd)

/-- `legval(x, c)`.  (`c` empty raises in numpy; it does not occur, the value here is irrelevant.) -/
def legval (x : K) (c : List K) : K :=
  match c.reverse with
  | [] => 0
  | [c0] => c0 + 0 * x
  | c1 :: c0 :: rest => clenshaw x rest c.length c0 c1

/-- The inner loop of `legder`, `for j in range(n, 2, -1)`, acting on the arrays `c` and `der`
(as functions of the index):
```
    der[j - 1] = (2*j - 1)*c[j]
    c[j - 2] += c[j]
``` -/
def legderLoop (c der : ℕ → K) : ℕ → (ℕ → K) × (ℕ → K)
  | j + 3 => legderLoop (Function.update c (j + 1) (c (j + 1) + c (j + 3)))
      (Function.update der (j + 2) ((2 * ((j + 3 : ℕ) : K) - 1) * c (j + 3))) (j + 2)
  | _ => (c, der)

/-- One pass of the outer loop of `legder` on an array of length `n + 1`, giving one of length `n`:
the inner loop, then `if n > 1: der[1] = 3*c[2]`, `der[0] = c[1]`. -/
def legderPass (c : List K) : List K :=
  let n := c.length - 1
  let r := legderLoop (fun i => c.getD i 0) (fun _ => 0) n
  let der := if n > 1 then Function.update r.2 1 (3 * r.1 2) else r.2
  let der := Function.update der 0 (r.1 1)
  (List.range n).map der

/-- `legder(c, m)`: for `m >= len(c)` it is `c[:1]*0`, else `m` passes. -/
def legder (c : List K) (m : ℕ) : List K :=
  if m = 0 then c
  else if m ≥ c.length then (c.take 1).map (· * 0)
  else legderPass^[m] c

/-- The loop of `legvander(x, deg)`: given `v[i-2], v[i-1]`, the entries `v[i], ..., v[deg]`:
`v[i] = (v[i-1]*x*(2*i - 1) - v[i-2]*(i - 1))/i`. `n` is the number of entries to produce. -/
def legvanderLoop (x : K) : ℕ → ℕ → K → K → List K
  | 0, _, _, _ => []
  | n + 1, i, v2, v1 =>
    let v := (v1 * x * (2 * (i : K) - 1) - v2 * ((i : K) - 1)) / i
    v :: legvanderLoop x n (i + 1) v1 v

/-- `legvander(x, deg)` for one point: `[v[0], ..., v[deg]]`. -/
def legvander (x : K) (deg : ℕ) : List K :=
  match deg with
  | 0 => [x * 0 + 1]
  | d + 1 => (x * 0 + 1) :: x :: legvanderLoop x d 2 (x * 0 + 1) x

end Verif.Np
