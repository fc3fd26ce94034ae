import Verif.Model.Util
/-!
# Model of the domain checks of `kernel.py` and `dlr.py` (over IEEE values)
-/

namespace Verif.Kernel
open Verif

/-- `kernel.py:497-508`, `_check_domain(kernel, x, y)`; `xr`, `yr` are `kernel.xrange/yrange`. -/
def checkDomain (xr yr : ℚ × ℚ) (x y : List IEEE) : PyM (List IEEE × List IEEE) :=
  if !(x.all fun t => t.ge (.fin xr.1)) || !(x.all fun t => t.le (.fin xr.2)) then
    .error .valueError
  else if !(y.all fun t => t.ge (.fin yr.1)) || !(y.all fun t => t.le (.fin yr.2)) then
    .error .valueError
  else .ok (x, y)

/-- `kernel.py:47-55`: default ranges. -/
def fullRange : ℚ × ℚ := (-1, 1)
/-- `kernel.py:395-403`: ranges of `ReducedKernel` over a kernel with full range. -/
def reducedRange : ℚ × ℚ := (0, 1)

/-- `dlr.py:156-168`, `TauPoles.__call__` up to the kernel evaluation: the range check on `tau`
(line 159), the map `x = 2*tau/beta - 1` (line 162, exact arithmetic on finite values) and the
domain check of the kernel (called on line 166).  `ys` are the values `poles/wmax` of line 163. -/
def tauPolesArgs (beta : ℚ) (ys : List IEEE) (tau : List IEEE) : PyM (List IEEE × List IEEE) :=
  if (tau.any fun t => t.lt (.fin 0)) || (tau.any fun t => t.gt (.fin beta)) then
    .error .runtimeError
  else
    checkDomain fullRange fullRange
      (tau.map fun t => (t.mulPos (2 / beta)).addConst (-1)) ys

end Verif.Kernel
