import Verif.Model.Stitch

/-!
Model of `join_image` with a fractional joint width and of `join_image_multiple`: algotom/prep/conversion.py:174-188, 300-315.

Exact arithmetic.  Joint widths are not negative (a negative one makes the images overlap, which is not modelled), images have at least two rows (scipy needs
them) and are wide enough that columns remain on both sides of the seam.
-/

namespace Verif.JoinMany
open Verif.Stitch

variable {K : Type _} [Field K] [LinearOrder K] [FloorRing K]

/-- `join_image` (conversion.py:174-188, then Stitch.joinImage): the images are shifted by the fraction of the joint width first. -/
def joinReal (shift : Mat K → K → Mat K) (m1 m2 : Mat K) (jw : K) (side : Int) (norm : Bool) (totalWidth : Option Nat) : Py (Mat K) :=
  let g : Int := npRound (jw + 1 / 1000)
  let sub : K := jw - (g : K)
  if sub ≠ 0 then
    if side = 1 then joinImage (shift m1 sub) (shift m2 (-sub)) g.toNat side norm totalWidth
    else joinImage (shift m1 (-sub)) (shift m2 sub) g.toNat side norm totalWidth
  else joinImage m1 m2 g.toNat side norm totalWidth

/-- The loop of `join_image_multiple` (conversion.py:303-306). -/
def joinLoop (shift : Mat K → K → Mat K) (norm : Bool) : Mat K → List (Mat K) → List (K × Int) → Py (Mat K)
  | acc, [], _ => .ok acc
  | _, _ :: _, [] => .error .indexError
  | acc, m :: ms, j :: js => (joinReal shift acc m j.1 j.2 norm none).bind fun a => joinLoop shift norm a ms js

/-- Padding to the width asked for (conversion.py:307-312). -/
def padTo (totalWidth : Option Nat) (m : Mat K) : Mat K :=
  if m.w < totalWidth.getD m.w then m.padRightEdge (totalWidth.getD m.w - m.w) else m

/-- `join_image_multiple` (conversion.py:300-315). -/
def joinMany (shift : Mat K → K → Mat K) (norm : Bool) (totalWidth : Option Nat) : List (Mat K) → List (K × Int) → Py (Mat K)
  | m0 :: m1 :: ms, js => (joinLoop shift norm m0 (m1 :: ms) js).map (padTo totalWidth)
  | _, _ => .error .valueError

end Verif.JoinMany
