import Verif.Py
import Verif.Np.Legendre
import Verif.Np.Basic
import Verif.Model.Roots
import Mathlib.Analysis.SpecialFunctions.Pow.Real
/-!
# Model of `src/sparse_ir/poly.py`, `PiecewiseLegendrePoly`

Real arithmetic.  The trailing ("function") axes of the data array are an arbitrary index type `ι`
(`Unit` for a single polynomial), the coefficients of segment `i` and function `l` are the list
`coef i l` (= `data[:, i, l]`).
-/

namespace Verif.Poly
open Verif Verif.Np

/-- `poly.py:53-64`, the attributes of `PiecewiseLegendrePoly`.  `polyorder` is a stored attribute
which is *not* updated by `deriv` (line 27 copies it), so it is kept separately from the actual
number of coefficients. -/
structure PPoly (ι : Type _) where
  nseg : ℕ
  polyorder : ℕ
  knots : Fin (nseg + 1) → ℝ
  dx : Fin nseg → ℝ
  coef : Fin nseg → ι → List ℝ
  symm : ι → ℝ

namespace PPoly
variable {ι : Type _}

/-- `poly.py:55`, `xmin` -/
def xmin (p : PPoly ι) : ℝ := p.knots 0
/-- `poly.py:56`, `xmax` -/
def xmax (p : PPoly ι) : ℝ := p.knots (Fin.last p.nseg)
/-- `poly.py:62`, `_xm` -/
noncomputable def xm (p : PPoly ι) (i : Fin p.nseg) : ℝ := 0.5 * (p.knots i.succ + p.knots i.castSucc)
/-- `poly.py:63`, `_inv_xs = 2/dx` -/
noncomputable def invXs (p : PPoly ι) (i : Fin p.nseg) : ℝ := 2 / p.dx i
/-- `poly.py:64`, `_norm = sqrt(_inv_xs)` -/
noncomputable def norm (p : PPoly ι) (i : Fin p.nseg) : ℝ := Real.sqrt (p.invXs i)

open Classical in
/-- `poly.py:20-64`, `__init__` for an array of knots (second argument not a polynomial).  `ncoef`
and `nseg` are `data.shape[:2]`; checks: number of knots, monotonicity, `allclose` of `dx`.
Simplified: data are reals (the NaN check of line 22 cannot trigger); the shape of `symm` is right by
typing; `symm=None` is the zero function. -/
noncomputable def ctor (nseg ncoef : ℕ) (coef : Fin nseg → ι → List ℝ) (knots : List ℝ)
    (dx : Option (Fin nseg → ℝ)) (symm : Option (ι → ℝ)) : PyM (PPoly ι) :=
  if h : knots.length = nseg + 1 then
    let kn : Fin (nseg + 1) → ℝ := fun j => knots.get (j.cast h.symm)
    if ∀ i : Fin nseg, kn i.succ ≥ kn i.castSucc then
      let diff : Fin nseg → ℝ := fun i => kn i.succ - kn i.castSucc
      let mk := fun d => (⟨nseg, ncoef, kn, d, coef, symm.getD fun _ => 0⟩ : PPoly ι)
      match dx with
      | none => .ok (mk diff)
      | some d => if ∀ i, isClose (d i) (diff i) then .ok (mk d) else .error .valueError
    else .error .valueError
  else .error .valueError

/-- `poly.py:66-73`, `__getitem__`: any index expression on the function axes is a map `σ` from the
positions of the result to positions of the source. -/
def select {κ : Type _} (p : PPoly ι) (σ : κ → ι) : PPoly κ :=
  ⟨p.nseg, p.polyorder, p.knots, p.dx, fun i l => p.coef i (σ l), fun l => p.symm (σ l)⟩

/-- `knots.searchsorted(x, 'right')`: the number of knots `<= x` (knots are ascending). -/
noncomputable def searchsortedRight (p : PPoly ι) (x : ℝ) : ℕ :=
  (Finset.univ.filter fun j => p.knots j ≤ x).card

/-- `poly.py:188-195`, `_split(x)` for one point.  `i = searchsorted.clip(None, nseg) - 1`; with no
segments indexing `_xm[-1]` raises IndexError; a zero-width segment gives NaN (`0 * inf`). -/
noncomputable def split (p : PPoly ι) (x : ℝ) : PyM (Fin p.nseg × ℝ) :=
  if ¬ x ≥ p.xmin then .error .valueError
  else if ¬ x ≤ p.xmax then .error .valueError
  else
    let i := min (p.searchsortedRight x) p.nseg - 1
    if h : i < p.nseg then
      if p.dx ⟨i, h⟩ = 0 then .error .nanResult
      else .ok (⟨i, h⟩, (x - p.xm ⟨i, h⟩) * p.invXs ⟨i, h⟩)
    else .error .indexError

/-- `poly.py:75-89`, `__call__(x)` for one point, all functions. -/
noncomputable def call (p : PPoly ι) (x : ℝ) : PyM (ι → ℝ) :=
  match p.split x with
  | .error e => .error e
  | .ok (i, xt) => .ok fun l => legval xt (p.coef i l) * p.norm i

/-- `poly.py:91-103`, `value(l, x)` for one `l` and one `x`. -/
noncomputable def value (p : PPoly ι) (l : ι) (x : ℝ) : PyM ℝ :=
  match p.split x with
  | .error e => .error e
  | .ok (i, xt) => .ok (legval xt (p.coef i l) * p.norm i)

/-- `poly.py:136-143`, `deriv(n)`. -/
noncomputable def deriv (p : PPoly ι) (n : ℕ) : PPoly ι :=
  ⟨p.nseg, p.polyorder, p.knots, p.dx,
    fun i l => (legder (p.coef i l) n).map (· * p.invXs i ^ n),
    fun l => (-1) ^ n * p.symm l⟩

/-- Knots as a list. -/
def knotList (p : PPoly ι) : List ℝ := List.ofFn p.knots

end PPoly

/-- `poly.py:449-452`, `_refine_grid(knots, alpha)`: `linspace` over all intervals at once, then the
last knot. (`alpha` is a natural number; negative `num` raises in numpy.) -/
noncomputable def refineGrid (knots : List ℝ) (alpha : ℕ) : PyM (List ℝ) :=
  match knots.getLast? with
  | none => .error .indexError
  | some last =>
    .ok (((knots.zip knots.tail).flatMap fun q => linspaceOpen q.1 q.2 alpha) ++ [last])

namespace PPoly

/-- `poly.py:154-160`: the grid before refinement. -/
noncomputable def rootGrid (p : PPoly Unit) : List ℝ :=
  let grid := p.knotList
  let xmid := (p.xmax + p.xmin) / 2
  if p.symm () ≠ 0 then
    if grid[p.nseg / 2]? = some xmid then grid.drop (p.nseg / 2)
    else xmid :: grid.filter (fun t => decide (t > xmid))
  else grid

/-- `poly.py:165-175`: the mirror images are added to the roots found on the grid.
`spurious` is the condition `self(xmid) * self.deriv()(xmid) < 0`. -/
noncomputable def mirrorRoots (p : PPoly Unit) (spurious : Bool) (roots : List ℝ) : List ℝ :=
  let xmid := (p.xmax + p.xmin) / 2
  if p.symm () = 1 then
    (roots.reverse.map fun r => (p.xmax + p.xmin) - r) ++ roots
  else if p.symm () = -1 then
    let roots := match roots with
      | [] => []
      | r0 :: rest => if r0 = xmid ∨ spurious = true then rest else r0 :: rest
    (roots.reverse.map fun r => (p.xmax + p.xmin) - r) ++ xmid :: roots
  else roots

/-- The product `self(xmid) * self.deriv()(xmid) < 0` of line 172 (an error of either call is
passed on). -/
noncomputable def spuriousMid (p : PPoly Unit) : PyM Bool :=
  let xmid := (p.xmax + p.xmin) / 2
  match p.call xmid with
  | .error e => .error e
  | .ok v => match (p.deriv 1).call xmid with
    | .error e => .error e
    | .ok d => .ok (decide (v () * d () < 0))

/-- `poly.py:145-177`, `roots(alpha)` of a single polynomial.  `F` is the polynomial as a function
into floats (values with sign bit), called inside `find_all`; `eps` is the machine epsilon.
`none`: the search does not terminate.  The condition of line 172 is only evaluated for odd
functions with at least one root found. -/
noncomputable def roots (p : PPoly Unit) (eps : ℝ) (F : ℝ → FVal ℝ) (alpha : ℕ) :
    Option (PyM (List ℝ)) :=
  match refineGrid p.rootGrid alpha with
  | .error e => some (.error e)
  | .ok grid =>
    match Roots.findAllCont eps F grid with
    | none => none
    | some (.error e) => some (.error e)
    | some (.ok rs) =>
      if p.symm () = -1 ∧ rs ≠ [] ∧ rs.head? ≠ some ((p.xmax + p.xmin) / 2) then
        match p.spuriousMid with
        | .error e => some (.error e)
        | .ok b => some (.ok (p.mirrorRoots b rs))
      else some (.ok (p.mirrorRoots false rs))

end PPoly
end Verif.Poly
