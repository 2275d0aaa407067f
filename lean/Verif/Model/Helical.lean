import Verif.Num

/-!
Model of helical-scan sinogram generation: algotom/prep/calculation.py:904-966 and
algotom/prep/conversion.py:457-575 (without the optional blob mask).  Exact arithmetic.
-/

namespace Verif.Helical

variable {K : Type _} [Field K] [LinearOrder K] [FloorRing K]

/-- `calculate_reconstructable_height` (calculation.py:927-935). -/
def recHeight (yStart yStop pitch : K) (is360 : Bool) : K × K :=
  if is360 then (yStart + pitch, yStop - pitch) else (yStart + pitch / 2, yStop - pitch / 2)

/-- `calculate_maximum_index` (calculation.py:963-966). -/
def maxIndex (yStart yStop pitch pixel : K) (is360 : Bool) : Int :=
  let s := recHeight yStart yStop pitch is360
  pyTrunc ((s.2 - s.1) / pixel) + 1

/-- Scan parameters. -/
structure Params (K : Type _) where
  numProj : Nat
  pixel : K
  yStart : K
  yStop : K
  pitch : K
  is360 : Bool
  cropTop : Nat
  cropBottom : Nat
  cropLeft : Nat
  cropRight : Nat

/-- `y_step` (conversion.py:534). -/
def yStep (p : Params K) : K := p.pitch / (2 * ((p.numProj : K) - 1))

/-- `num_proj_used` (conversion.py:535-538). -/
def numUsed (p : Params K) : Nat := if p.is360 then 2 * (p.numProj - 1) + 1 else p.numProj

/-- One flat-field corrected detector row `j` of projection `i`, cropped (conversion.py:556-559, 564-566).  A row or
projection outside the stored data is an `IndexError` (a negative one, which numpy would wrap, as well). -/
def corrRow (data : Arr3 K) (flat dark : Mat K) (left : Nat) (i j : Int) : Py (Nat → K) :=
  if 0 ≤ i ∧ i < data.d ∧ 0 ≤ j ∧ j < data.h then
    .ok fun x => (data.get i.toNat j.toNat (left + x) - dark.get j.toNat (left + x))
      / (flat.get j.toNat (left + x) - dark.get j.toNat (left + x))
  else .error .indexError

/-- One iteration of the loop (conversion.py:547-573). -/
def helicalRow (p : Params K) (data : Arr3 K) (flat dark : Mat K) (ye yPos : K) (height : Nat) (i : Int) :
    Py (Nat → K) :=
  let fov : K := p.pixel * (height : K)
  let j0 : K := (ye + fov - (i : K) * yStep p - yPos) / p.pixel - 1
  if j0 < 0 ∨ (height : K) ≤ j0 then .error .valueError
  else
    let j0 := min (max j0 0) ((height : K) - 1)
    let jd := ⌊j0⌋
    let ju := ⌈j0⌉
    do
      let down ← corrRow data flat dark p.cropLeft i (jd + p.cropTop)
      if ju ≠ jd then
        let up ← corrRow data flat dark p.cropLeft i (ju + p.cropTop)
        pure fun x => down x * ((ju : K) - j0) / ((ju : K) - (jd : K)) + up x * (j0 - (jd : K)) / ((ju : K) - (jd : K))
      else pure down

/-- `generate_sinogram_helical_scan` (conversion.py:507-575); `angles` has one entry per projection.  Rows of the
result are returned as a list. -/
def helical (p : Params K) (index : Int) (data : Arr3 K) (flat dark : Mat K) (angles : List K) :
    Py (List (Nat → K) × List K) :=
  let mx := maxIndex p.yStart p.yStop p.pitch p.pixel p.is360
  let s := recHeight p.yStart p.yStop p.pitch p.is360
  if index < 0 ∨ index > mx then .error .valueError
  else
    let height := data.h - p.cropBottom - p.cropTop
    let yPos : K := ((index : K) - 1) * p.pixel + s.1
    let i0 : Int := ⌈(s.2 - yPos) / yStep p⌉
    if i0 < 0 ∨ i0 ≥ data.d then .error .valueError
    else do
      let rows ← (List.range (numUsed p)).mapM fun k : Nat =>
        helicalRow p data flat dark s.2 yPos height (i0 + (k : Int))
      pure (rows, pySlice angles i0 (i0 + numUsed p))

end Verif.Helical
