import Verif.Model.SliceMetric

/-!
Model of the visual centre searches: `find_center_visual_slices` (algotom/rec/reconstruction.py:1507-1533) and
`find_center_visual_sinograms` (algotom/util/utility.py:1401-1421).

Exact real arithmetic.  A written image is listed with its file name; the name shows the centre with two decimals and is represented by the
integer number of hundredths.  The making of the output folder is the subject of C20.
-/

namespace Verif.VisualCenter
open Verif.SliceMetric

/-- The candidates (reconstruction.py:1511-1513, 1523; utility.py:1405-1407, 1410). -/
noncomputable def grid (ncol : ℕ) (start stop step : ℝ) : List ℝ :=
  let step := clip step 0.05 ((ncol : ℝ) - 1)
  let start := clip start 0 ((ncol : ℝ) - 1)
  let stop := clip (stop + step) (start + step) ((ncol : ℝ) - 1)
  arange start stop step

/-- The candidates in pixels of the zoomed sinogram (reconstruction.py:1511-1519). -/
noncomputable def zoomGrid (ncol : ℕ) (start stop step zoom : ℝ) : List ℝ :=
  let step := clip step 0.05 ((ncol : ℝ) - 1)
  let start := clip start 0 ((ncol : ℝ) - 1)
  let stop := clip (stop + step) (start + step) ((ncol : ℝ) - 1)
  arange (start * zoom) (stop * zoom) (step * zoom)

/-- `"center_{0:.2f}"`: the number of hundredths (reconstruction.py:1529, utility.py:1417). -/
noncomputable def nameOf (c : ℝ) : ℤ := npRound (100 * c)

/-- The loop: the files written until the end or until a reconstruction raises (reconstruction.py:1526-1532). -/
noncomputable def loop (rec : ℝ → Py (Mat ℝ)) (zoom : ℝ) : List ℝ → List (ℤ × Mat ℝ) × Option PyErr
  | [] => ([], none)
  | c :: cs =>
    match rec c with
    | .error e => ([], some e)
    | .ok img =>
      let r := loop rec zoom cs
      ((nameOf (c / zoom), img) :: r.1, r.2)

/-- `ndi.zoom`: size of the result. -/
noncomputable def zoomSize (n : ℕ) (zoom : ℝ) : ℕ := (npRound ((n : ℝ) * zoom)).toNat

/-- Linear interpolation of a row of `n` samples at coordinate `x` (coordinates outside are moved to the edge). -/
noncomputable def lerp (n : ℕ) (f : ℕ → ℝ) (x : ℝ) : ℝ :=
  let x := clip x 0 ((n : ℝ) - 1)
  let k := ⌊x⌋₊
  f k * (1 - (x - k)) + f (min (k + 1) (n - 1)) * (x - k)

/-- Output pixel `k` of `ndi.zoom(..., order=1, mode="nearest")` along an axis of `n` samples with `m` samples in the result: the first and the last
sample are mapped onto each other. -/
noncomputable def zoomLine (n m : ℕ) (f : ℕ → ℝ) (k : ℕ) : ℝ := lerp n f ((k : ℝ) * (((n : ℝ) - 1) / ((m : ℝ) - 1)))

/-- `find_center_visual_slices` after the folder is made (reconstruction.py:1510-1533): `zoomed` is the sinogram resized by `ndi.zoom`,
`rec m c` the reconstruction with the (resized) angles. -/
noncomputable def visualSlices (rec : Mat ℝ → ℝ → Py (Mat ℝ)) (m zoomed : Mat ℝ) (start stop step zoom : ℝ) : List (ℤ × Mat ℝ) × Option PyErr :=
  if zoom ≠ 1 then loop (rec zoomed) zoom (zoomGrid m.w start stop step zoom)
  else loop (rec m) zoom (grid m.w start stop step)

/-- `ndi.shift(..., order=3, prefilter=False, mode="nearest")` of a row at coordinate `x`: cubic B-spline with the samples as coefficients;
`bnd` maps indices outside the row to samples. -/
noncomputable def bspline (bnd : ℕ → ℤ → ℕ) (n : ℕ) (f : ℕ → ℝ) (x : ℝ) : ℝ :=
  let x := clip x 0 ((n : ℝ) - 1)
  let k := ⌊x⌋
  let t : ℝ := x - k
  f (bnd n (k - 1)) * ((1 - t) ^ 3 / 6) + f (bnd n k) * ((4 - 6 * t ^ 2 + 3 * t ^ 3) / 6) +
    f (bnd n (k + 1)) * ((4 - 6 * (1 - t) ^ 2 + 3 * (1 - t) ^ 3) / 6) + f (bnd n (k + 2)) * (t ^ 3 / 6)

/-- The 360-degree sinogram for a candidate (utility.py:1408-1414): the sinogram above its shifted mirror image. -/
noncomputable def fullSinogram (bnd : ℕ → ℤ → ℕ) (m : Mat ℝ) (center : ℝ) : Mat ℝ :=
  let shift := 2 * (center - ((m.w : ℝ) - 1) / 2)
  ⟨m.h + m.h, m.w, fun i j =>
    if i < m.h then m.get i j else bspline bnd m.w (fun l => m.get (i - m.h) (m.w - 1 - l)) ((j : ℝ) - shift)⟩

/-- `find_center_visual_sinograms` after the folder is made (utility.py:1402-1421): `resize z` is `ndi.zoom(..., z, mode="nearest")` on an image;
the folder's content after the last save. -/
noncomputable def visualSinograms (bnd : ℕ → ℤ → ℕ) (resize : ℝ → Mat ℝ → Mat ℝ) (m : Mat ℝ) (start stop step zoom : ℝ) : List (ℤ × Mat ℝ) :=
  (grid m.w start stop step).map fun c =>
    (nameOf c, if zoom ≠ 1 then resize zoom (fullSinogram bnd m c) else fullSinogram bnd m c)

end Verif.VisualCenter
