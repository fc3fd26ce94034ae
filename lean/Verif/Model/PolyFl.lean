import Verif.Model.KernelFl
import Verif.Model.Poly
/-!
# Model of the evaluation of `PiecewiseLegendrePoly` in floating-point arithmetic (`src/sparse_ir/poly.py`)

The same functions as in `Model/Poly.lean` and `Np/Legendre.lean`, with every operation on floats replaced by one of a
given arithmetic, in the order in which the code performs them.  The knots, `dx` and the coefficients are given numbers;
comparisons are exact.  The loop counter `nd` of `legval` is a Python integer: `nd - 1` and `2*nd - 1` are exact.
-/

namespace Verif.Np
open Verif.Kernel

/-- The loop of `numpy.polynomial.legendre.legval` (see `Np.clenshaw`). -/
noncomputable def clenshawFl (A : Arith) (x : ℝ) : List ℝ → ℕ → ℝ → ℝ → ℝ
  | [], _, c0, c1 => A.add c0 (A.mul c1 x)
  | c :: rest, nd, c0, c1 =>
    let nd := nd - 1
    clenshawFl A x rest nd (A.sub c (A.div (A.mul c1 ((nd : ℝ) - 1)) nd))
      (A.add c0 (A.div (A.mul (A.mul c1 x) (2 * (nd : ℝ) - 1)) nd))

/-- `legval(x, c)` (see `Np.legval`). -/
noncomputable def legvalFl (A : Arith) (x : ℝ) (c : List ℝ) : ℝ :=
  match c.reverse with
  | [] => 0
  | [c0] => A.add c0 (A.mul 0 x)
  | c1 :: c0 :: rest => clenshawFl A x rest c.length c0 c1

end Verif.Np

namespace Verif.Poly
open Verif Verif.Np Verif.Kernel

namespace PPoly
variable {ι : Type _}

/-- `poly.py:62`, `_xm = .5 * (knots[1:] + knots[:-1])` -/
noncomputable def xmFl (A : Arith) (p : PPoly ι) (i : Fin p.nseg) : ℝ :=
  A.mul 0.5 (A.add (p.knots i.succ) (p.knots i.castSucc))

/-- `poly.py:63`, `_inv_xs = 2/dx` -/
noncomputable def invXsFl (A : Arith) (p : PPoly ι) (i : Fin p.nseg) : ℝ := A.div 2 (p.dx i)

/-- `poly.py:64`, `_norm = np.sqrt(_inv_xs)`; `rt` is `np.sqrt`. -/
noncomputable def normFl (A : Arith) (rt : ℝ → ℝ) (p : PPoly ι) (i : Fin p.nseg) : ℝ := rt (p.invXsFl A i)

/-- `poly.py:188-195`, `_split(x)`, for one point (see `PPoly.split`). -/
noncomputable def splitFl (A : Arith) (p : PPoly ι) (x : ℝ) : PyM (Fin p.nseg × ℝ) :=
  if ¬ x ≥ p.xmin then .error .valueError
  else if ¬ x ≤ p.xmax then .error .valueError
  else
    let i := min (p.searchsortedRight x) p.nseg - 1
    if h : i < p.nseg then
      if p.dx ⟨i, h⟩ = 0 then .error .nanResult
      else .ok (⟨i, h⟩, A.mul (A.sub x (p.xmFl A ⟨i, h⟩)) (p.invXsFl A ⟨i, h⟩))
    else .error .indexError

/-- `poly.py:75-89`, `__call__(x)`, for one point. -/
noncomputable def callFl (A : Arith) (rt : ℝ → ℝ) (p : PPoly ι) (x : ℝ) : PyM (ι → ℝ) :=
  match p.splitFl A x with
  | .error e => .error e
  | .ok (i, xt) => .ok fun l => A.mul (legvalFl A xt (p.coef i l)) (p.normFl A rt i)

/-- `poly.py:91-103`, `value(l, x)`, for one `l` and one `x`. -/
noncomputable def valueFl (A : Arith) (rt : ℝ → ℝ) (p : PPoly ι) (l : ι) (x : ℝ) : PyM ℝ :=
  match p.splitFl A x with
  | .error e => .error e
  | .ok (i, xt) => .ok (A.mul (legvalFl A xt (p.coef i l)) (p.normFl A rt i))

end PPoly
end Verif.Poly
