import Verif.Model.Removal
import Mathlib.Data.List.Sort

/-!
Stripe detection and the stripe-removal methods built on it: algotom/util/utility.py:336-379 (`detect_stripe`),
algotom/prep/removal.py:241-371, 720-818, 911-944.  Exact arithmetic (no float32 rounding); detectors of at most 131071
pixels (beyond that `np.int16(0.25 * npoint)` overflows).
-/

namespace Verif.Stripe
open Verif.Removal Verif.Sorting

variable {K : Type _} [Field K] [LinearOrder K] [Inhabited K]

/-- `np.sort` of a list (utility.py:359): ascending rearrangement; the result does not depend on the algorithm. -/
def npSort (l : List K) : List K := l.insertionSort (· ≤ ·)

/-- `np.polyfit(x[a:b], y[a:b], 1)` for `x = 0., 1., 2., …`: (slope, intercept) of the least-squares line (utility.py:362).  For
fewer than two points numpy's minimum-norm answer is not modelled (theorems assume two points). -/
def polyfit1 (a b : Nat) (y : Nat → K) : K × K :=
  let m : K := ((b - a : Nat) : K)
  let sx := ∑ i ∈ Finset.Ico a b, (i : K)
  let sy := ∑ i ∈ Finset.Ico a b, y i
  let sxx := ∑ i ∈ Finset.Ico a b, (i : K) * i
  let sxy := ∑ i ∈ Finset.Ico a b, (i : K) * y i
  let slope := (m * sxy - sx * sy) / (m * sxx - sx * sx)
  (slope, (sy - slope * sx) / m)

/-- `detect_stripe(list_data, snr)` (utility.py:358-379).  `int(0.25 * n) = n / 4`; the slice `[ndrop:-ndrop - 1]` ends at
`n - ndrop - 1`; `polyfit` of no point raises `TypeError`. -/
def detectStripe (l : List K) (snr : K) : Py (List Bool) :=
  let n := l.length
  let ndrop := n / 4
  let s := npSort l
  if n - ndrop - 1 ≤ ndrop then .error .typeError
  else
    let p := polyfit1 ndrop (n - ndrop - 1) fun k => s.getD k 0
    let slope := p.1
    let intercept := p.2
    let yEnd := intercept + slope * ((n : K) - 1)
    let noise := |yEnd - intercept|
    if noise < 1 / 100000 then .error .valueError
    else
      let val1 := |s.getD (n - 1) 0 - yEnd| / noise
      let val2 := |intercept - s.getD 0 0| / noise
      .ok (l.map fun x => (decide (val1 ≥ snr) && decide (x > yEnd + noise * snr * (1 / 2))) ||
        (decide (val2 ≥ snr) && decide (x ≤ intercept - noise * snr * (1 / 2))))

/-- `detect_stripe` on the first `n` entries of `v`, the mask as a function. -/
def detectFn (n : Nat) (snr : K) (v : Nat → K) : Py (Nat → Bool) := do
  let m ← detectStripe ((List.range n).map v) snr
  .ok fun j => m.getD j false

/-- `remove_large_stripe` with its own detector (removal.py:275-315). -/
def removeLargeStripe (as1 : Argsort K) (as2 : Argsort Nat) (smooth : Mat K → Mat K) (snr : K) (ndrop : Nat) (norm : Bool)
    (sino : Mat K) : Py (Mat K) :=
  removeLarge as1 as2 smooth (detectFn sino.w snr) ndrop norm sino

/-- `list_fact` of `remove_dead_stripe` (removal.py:348-354): `unif` is `uniform_filter1d` down a column of the given length, `med`
the median filter of a list of the given length. -/
def deadFact (unif med : Nat → (Nat → K) → Nat → K) (sino : Mat K) (c : Nat) : K :=
  let diff : Nat → K := fun c => ∑ i ∈ Finset.range sino.h, |sino.get i c - unif sino.h (fun i => sino.get i c) i|
  let bck := med sino.w diff
  let nmean := (∑ c ∈ Finset.range sino.w, |bck c|) / (sino.w : K)
  diff c / (if bck c = 0 then nmean else bck c)

/-- `remove_dead_stripe` with its own detector (removal.py:346-371).  Simplification: where `list_diff_bck` is identically zero the
division gives 0 here, nan in numpy. -/
def removeDeadStripe (unif med : Nat → (Nat → K) → Nat → K) (snr : K) (large : Mat K → Py (Mat K)) (residual : Bool)
    (sino : Mat K) : Py (Mat K) :=
  removeDead (fun s => detectFn s.w snr (deadFact unif med s)) large residual sino

/-- Column `c` of `np.sort(sinogram, axis=0)` (removal.py:761). -/
def sortCols (m : Mat K) : Mat K := ⟨m.h, m.w, fun i c => (npSort ((List.range m.h).map fun i => m.get i c)).getD i 0⟩

/-- `list_fact` of `remove_stripe_based_interpolation` (removal.py:786-790); zero means are replaced by one first. -/
def interpFact (smooth : Mat K → Mat K) (ndrop : Nat) (sino : Mat K) (c : Nat) : K :=
  let s := sortCols sino
  let l1 := rowMean s.get ndrop (sino.h - ndrop) c
  let l2 := rowMean (smooth s).get ndrop (sino.h - ndrop) c
  let l1 := if l1 = 0 then 1 else l1
  if l2 ≠ 0 then l1 / l2 else 1

/-- Interpolation order asked for: `kind="linear"`, `"cubic"`, `"quintic"`. -/
inductive Kind where
  | linear | cubic | quintic
  deriving DecidableEq

/-- Spline degree used by `remove_stripe_based_interpolation` (removal.py:800-811). -/
def degRemoval : Kind → Nat
  | .linear => 1
  | .cubic => 2
  | .quintic => 2

/-- Spline degree used by `interpolate_inside_stripe` (utility.py:645-653). -/
def degInside : Kind → Nat
  | .linear => 1
  | .cubic => 2
  | .quintic => 3

/-- Replace the masked columns by a spline of degree `k` through the unmasked ones, row by row (`RectBivariateSpline` is a
tensor product that interpolates the data, so on the grid rows it is the 1D spline `sp k` of the row).  FITPACK rejects fewer
than `k + 1` rows or unmasked columns (modelled as `ValueError`). -/
def splineMat (sp : Nat → (Nat → Bool) → Nat → (Nat → K) → Nat → K) (k : Nat) (mk : Nat → Bool) (m : Mat K) : Py (Mat K) :=
  if m.h < k + 1 ∨ ((List.range m.w).filter fun j => !mk j).length < k + 1 then .error .valueError
  else .ok ⟨m.h, m.w, fun i j => if mk j then sp k (fun j => !mk j) m.w (m.get i) j else m.get i j⟩

/-- `remove_stripe_based_interpolation` (removal.py:755-818); `smooth` is the filter on the sorted image (762-785), `sp` the spline. -/
def removeInterpolation (sp : Nat → (Nat → Bool) → Nat → (Nat → K) → Nat → K) (smooth : Mat K → Mat K) (snr : K) (ndrop : Nat)
    (norm : Bool) (kind : Kind) (sino : Mat K) : Py (Mat K) := do
  let d ← detectFn sino.w snr (interpFact smooth ndrop sino)
  let mk := zeroEdges sino.w (dilate sino.w d)
  let s : Mat K := if norm then ⟨sino.h, sino.w, fun i c => sino.get i c / interpFact smooth ndrop sino c⟩ else sino
  splineMat sp (degRemoval kind) mk s

/-- `interpolate_inside_stripe(mat, list_mask, kind)` for every kind (utility.py:635-660). -/
def interpolateKind (sp : Nat → (Nat → Bool) → Nat → (Nat → K) → Nat → K) (kind : Kind) (m : Mat K) (maskLen : Nat)
    (mask : Nat → Bool) : Py (Mat K) :=
  if maskLen ≠ m.w then .error .valueError else splineMat sp (degInside kind) (zeroEdges m.w mask) m

/-- `generate_blob_mask(flat, size, snr)` (removal.py:933-944): `med2` is the 2×2 median filter, `med` the 1D median filter of a
line of the given length.  Every row is processed in turn; the first row for which the detector raises ends the call.
Simplification: a row with only zeros after `med` divides by 0 (0 here, nan in numpy). -/
def generateBlobMask (med2 : Mat K → Mat K) (med : Nat → (Nat → K) → Nat → K) (snr : K) (flat : Mat K) : Py (Mat Bool) := do
  let mat := med2 flat
  let rows ← (List.range mat.h).mapM fun i => do
    let fil := med mat.w (mat.get i)
    let mean := (∑ j ∈ Finset.range mat.w, fil j) / (mat.w : K)
    let d ← detectFn mat.w snr fun j => mat.get i j / (if fil j = 0 then mean else fil j)
    .ok (dilate mat.w (zeroEdges mat.w d))
  .ok ⟨mat.h, mat.w, fun i j => rows.getD i (fun _ => false) j⟩

end Verif.Stripe
