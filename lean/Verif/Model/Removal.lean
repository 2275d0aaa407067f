import Verif.Model.Chunks
import Verif.Model.Interp
import Verif.Model.Sorting

/-!
Model of algotom/prep/removal.py: normalisation (450-523), large/dead stripes (241-371), interpolation (720-818),
zingers (868-908), blobs (947-1016), and algotom/util/utility.py:617-660.  Exact arithmetic; scipy/numpy smoothing
filters and the stripe detector are parameters.
-/

namespace Verif.Removal
open Verif.Sorting

variable {K : Type _} [Field K] [LinearOrder K] [Inhabited K]

/-- `np.mean(m[b:e], axis=0)[c]`. -/
def rowMean (m : Nat → Nat → K) (b e c : Nat) : K := (∑ i ∈ Finset.Ico b e, m i c) / ((e - b : Nat) : K)

/-- The loop of `remove_stripe_based_normalization` (removal.py:489-520); `filt` is the 1D smoothing filter. -/
def normalizeRows (filt : (Nat → K) → Nat → K) (numChunk : Nat) (sino : Mat K) : Py (Mat K) := do
  let bs ← chunkBounds 0 sino.h numChunk
  .ok ⟨sino.h, sino.w, bs.foldl (fun s p i =>
    if p.1 ≤ i ∧ i < p.2 then
      (fun c => s i c + (filt (rowMean s p.1 p.2) c - rowMean s p.1 p.2 c))
    else s i) sino.get⟩

/-- `remove_stripe_based_normalization` (removal.py:450-523). -/
def removeNormalization (as1 : Argsort K) (as2 : Argsort Nat) (filt : (Nat → K) → Nat → K) (numChunk : Nat)
    (sort : Bool) (sino : Mat K) : Py (Mat K) :=
  if sort then do
    let si := sortForward as1 0 sino
    let r ← normalizeRows filt numChunk si.1
    .ok (sortBackward as2 0 r si.2)
  else normalizeRows filt numChunk sino

/-! ### zingers -/

/-- `np.roll(np.roll(mat, i, axis=0), j, axis=1)[y, x]` (removal.py:900). -/
def rolled (mat : Mat K) (i j : Int) (y x : Nat) : K :=
  mat.get (((y : Int) - i) % (mat.h : Int)).toNat (((x : Int) - j) % (mat.w : Int)).toNat

/-- The offsets `(i, j)` of the double loop (removal.py:894-900). -/
def zingerOffsets (size : Nat) : List (Int × Int) :=
  let r := pyRange (-(size : Int)) ((size : Int) + 1) (max size 1)
  (r.flatMap fun i => r.map fun j => (i, j)).filter fun p => p.1 ≠ 0 || p.2 ≠ 0

/-- `mat_ave` after the zero guard (removal.py:896-902). -/
def zingerAve (size : Nat) (mat : Mat K) (y x : Nat) : K :=
  let offs := zingerOffsets size
  let m := (offs.map fun p => rolled mat p.1 p.2 y x).sum / (offs.length : K)
  if m = 0 then 1 else m

/-- `remove_zinger` (removal.py:868-908).  `sel` is `select_zinger` (only when `check_size`); an empty neighbour
list (`size = 0`) makes `mat_ave` a scalar `nan` whose item assignment raises `TypeError`. -/
def removeZinger (sel : (Nat → Nat → Bool) → Nat → Nat → Bool) (mat : Mat K) (threshold : K) (size : Nat)
    (checkSize : Bool) : Py (Mat K) :=
  if zingerOffsets size = [] then .error .typeError
  else
    let mask : Nat → Nat → Bool := fun y x => decide (mat.get y x / zingerAve size mat y x - 1 > threshold)
    let mask := if checkSize then sel mask else mask
    .ok ⟨mat.h, mat.w, fun y x => if mask y x then zingerAve size mat y x else mat.get y x⟩

/-! ### stripes and blobs -/

/-- `mask[0:2] = 0; mask[-2:] = 0` on a mask of length `n` (removal.py:357-358, 977-978; utility.py:641-642). -/
def zeroEdges (n : Nat) (mask : Nat → Bool) (j : Nat) : Bool := if j < 2 ∨ n - 2 ≤ j then false else mask j

/-- `ndi.binary_dilation(mask, iterations=1)` in 1D (removal.py:356). -/
def dilate (n : Nat) (mask : Nat → Bool) (j : Nat) : Bool :=
  mask j || (decide (1 ≤ j) && mask (j - 1)) || (decide (j + 1 < n) && mask (j + 1))

/-- Replace the entries at `miss` by linear interpolation from the entries at `good`
(`interp1d`/`RectBivariateSpline(kx=1, ky=1)` on grid rows); `ValueError` if a point is outside the good range. -/
def fillLine (good miss : Nat → Bool) (n : Nat) (f : Nat → K) : Py (Nat → K) :=
  if (List.range n).all (fun j => !miss j || (linInterp good n f j).isOk) then
    .ok fun j => if miss j then (linInterp good n f j).toOption.getD default else f j
  else .error .valueError

/-- Row-wise `fillLine`: `RectBivariateSpline(ylist, xlist, mat[:, xlist], kx=1, ky=1)` evaluated on the grid rows.  FITPACK
rejects fewer than two rows or two good columns (modelled as `ValueError`), also when there is nothing to fill. -/
def fillMat (good miss : Nat → Bool) (m : Mat K) : Py (Mat K) :=
  if m.h < 2 ∨ ((List.range m.w).filter good).length < 2 then .error .valueError
  else do
    let rows ← (List.range m.h).mapM fun i => fillLine good miss m.w (m.get i)
    .ok ⟨m.h, m.w, fun i j => rows.getD i (m.get i) j⟩

/-- `interpolate_inside_stripe(mat, list_mask, kind="linear")` (utility.py:617-660); binary mask. -/
def interpolateInside (m : Mat K) (maskLen : Nat) (mask : Nat → Bool) : Py (Mat K) :=
  if maskLen ≠ m.w then .error .valueError
  else
    let mk := zeroEdges m.w mask
    fillMat (fun j => !mk j) mk m

/-- `remove_large_stripe` (removal.py:241-315): `smooth` is the filter on the sorted image, `detect` is
`detect_stripe`, `ndrop = int(0.5*drop_ratio*nrow)`. -/
def largeFact (as1 : Argsort K) (smooth : Mat K → Mat K) (ndrop : Nat) (sino : Mat K) (c : Nat) : K :=
  let s := (sortForward as1 0 sino).1
  let l1 := rowMean s.get ndrop (sino.h - ndrop) c
  let l2 := rowMean (smooth s).get ndrop (sino.h - ndrop) c
  if l2 ≠ 0 then l1 / l2 else 1

/-- Mask of `remove_large_stripe` (removal.py:308-309). -/
def largeMask (as1 : Argsort K) (smooth : Mat K → Mat K) (detect : (Nat → K) → Py (Nat → Bool)) (ndrop : Nat)
    (sino : Mat K) : Py (Nat → Bool) := do
  let d ← detect (largeFact as1 smooth ndrop sino)
  .ok (dilate sino.w d)

/-- `remove_large_stripe` (removal.py:275-315). -/
def removeLarge (as1 : Argsort K) (as2 : Argsort Nat) (smooth : Mat K → Mat K) (detect : (Nat → K) → Py (Nat → Bool))
    (ndrop : Nat) (norm : Bool) (sino : Mat K) : Py (Mat K) := do
  let si := sortForward as1 0 sino
  let mask ← largeMask as1 smooth detect ndrop sino
  let corr := sortBackward as2 0 (smooth si.1) si.2
  .ok ⟨sino.h, sino.w, fun i c =>
    if mask c then corr.get i c
    else if norm then sino.get i c / largeFact as1 smooth ndrop sino c else sino.get i c⟩

/-- Mask of `remove_dead_stripe` (removal.py:355-358). -/
def deadMask (detect : Mat K → Py (Nat → Bool)) (sino : Mat K) : Py (Nat → Bool) := do
  let d ← detect sino
  .ok (zeroEdges sino.w (dilate sino.w d))

/-- `remove_dead_stripe` (removal.py:346-371); `detect` is lines 348-355; `large` is `remove_large_stripe`.  The interpolator is
built (and can fail) even if no column is filled. -/
def removeDead (detect : Mat K → Py (Nat → Bool)) (large : Mat K → Py (Mat K)) (residual : Bool) (sino : Mat K) : Py (Mat K) := do
  let mk ← deadMask detect sino
  let cnt := ((List.range sino.w).filter mk).length
  let f ← fillMat (fun j => !mk j) mk sino
  let s := if cnt < sino.w / 3 ∧ 0 < cnt then f else sino
  if residual then large s else .ok s

/-- `remove_blob_1d` (removal.py:973-982): the interpolant is built from the mask *before* its edges are
zeroed, and the caller's mask is modified.  Returns (result, caller's mask afterwards). -/
def removeBlob1d (n : Nat) (line : Nat → K) (mask : Nat → Bool) : Py ((Nat → K) × (Nat → Bool)) := do
  let mk := zeroEdges n mask
  let r ← fillLine (fun j => !mask j) mk n line
  .ok (r, mk)

/-- `remove_blob` (removal.py:1001-1016); the caller's mask is modified row by row.  Returns
(result, caller's mask afterwards). -/
def removeBlob (m : Mat K) (maskH maskW : Nat) (mask : Nat → Nat → Bool) : Py (Mat K × (Nat → Nat → Bool)) := do
  if (m.h, m.w) ≠ (maskH, maskW) then .error .valueError
  else
    let rows ← (List.range m.h).mapM fun i =>
      let mk := zeroEdges m.w (mask i)
      fillLine (fun j => !mk j) mk m.w (m.get i)
    .ok (⟨m.h, m.w, fun i j => rows.getD i (m.get i) j⟩, fun i => if i < m.h then zeroEdges m.w (mask i) else mask i)

end Verif.Removal
