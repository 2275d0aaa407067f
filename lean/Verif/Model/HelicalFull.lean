import Verif.Model.Helical

/-!
Model of `generate_full_sinogram_helical_scan` (algotom/prep/conversion.py:578-696), without the optional blob mask.  Exact arithmetic; the crop margins
are natural numbers that leave at least one row.
-/

namespace Verif.Helical

variable {K : Type _} [Field K] [LinearOrder K] [FloorRing K]

/-- `num_proj_used` (conversion.py:652). -/
def numFull (p : Params K) (height : Nat) : Int := ⌊p.pixel * (height : K) / yStep p⌋ - 1

/-- `i0` (conversion.py:645-654). -/
def firstFull (p : Params K) (index : Int) : Int :=
  let s := recHeight p.yStart p.yStop p.pitch p.is360
  ⌈(s.2 - (((index : K) - 1) * p.pixel + s.1)) / yStep p⌉

/-- `generate_full_sinogram_helical_scan` (conversion.py:629-696): the loop body (667-694) is that of the short sinogram; `np.zeros` raises
`ValueError` for a negative number of rows (666).  Rows of the result are returned as a list. -/
def helicalFull (p : Params K) (index : Int) (data : Arr3 K) (flat dark : Mat K) (angles : List K) : Py (List (Nat → K) × List K) :=
  let s := recHeight p.yStart p.yStop p.pitch p.is360
  let height := data.h - p.cropBottom - p.cropTop
  let num := numFull p height
  let yPos : K := ((index : K) - 1) * p.pixel + s.1
  let i0 := firstFull p index
  if i0 < 0 ∨ i0 ≥ data.d then .error .valueError
  else if i0 + num ≥ data.d then .error .valueError
  else if num < 0 then .error .valueError
  else do
    let rows ← (List.range num.toNat).mapM fun k : Nat => helicalRow p data flat dark s.2 yPos height (i0 + (k : Int))
    pure (rows, pySlice angles i0 (i0 + num))

end Verif.Helical
