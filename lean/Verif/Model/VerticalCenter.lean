import Verif.Num
import Verif.Model.Center
import Mathlib.Algebra.Order.Floor.Ring

/-!
Model of the search loop of `find_center_vertical_slice` (algotom/rec/vertrec.py:1264-1428).  The image metric at a
candidate centre is an arbitrary function `metric`.
-/

namespace Verif.VerticalCenter

variable {K : Type _} [Field K] [LinearOrder K] [FloorRing K]

/-- `list_center = np.arange(start, stop + step, step)` (vertrec.py:1337). -/
def centers (start stop step : K) : List K :=
  (List.range ⌈(stop + step - start) / step⌉.toNat).map fun k : Nat => start + (k : K) * step

/-- `np.max` of a list (0 for the empty list, where numpy raises; guarded by `argmin`). -/
def listMax : List K → K
  | [] => 0
  | x :: l => l.foldl max x

/-- Loop and selection (vertrec.py:1338, 1386-1410, 1419-1428).  `isInt` says that `start`, `stop` and `step` are all
Python ints: then `np.zeros_like(list_center)` is an integer array and every stored metric is truncated.  A candidate
outside `[0, width-1]` makes `vertical_reconstruction` raise (vertrec.py:546-548). -/
def findCenter (isInt invert : Bool) (width : Nat) (metric : K → K) (start stop step : K) : Py K := do
  let cs := centers start stop step
  let ms ← cs.mapM fun c =>
    if c < 0 ∨ c > (width : K) - 1 then (.error .valueError : Py K) else .ok (storeAs isInt (metric c))
  let ms := if invert then ms.map fun m => listMax ms - m else ms
  let i ← Center.argmin ms
  pure (cs.getD i 0)

end Verif.VerticalCenter
