import Verif.Model.Center
import Verif.Model.Post
import Mathlib.Analysis.SpecialFunctions.Log.Base

/-!
Model of the centre search on a reconstructed slice and of the visual centre searches (algotom/rec/reconstruction.py:1211-1533,
algotom/util/utility.py:1376-1421).

Exact real arithmetic.  `rec m c` is `_reconstruct_slice(sinogram, center, ...)` without logarithm (reconstruction.py:1177-1208): an arbitrary
partial function, which Props/SliceMetric.lean instantiates with the driver of Model/Recon.lean.  The candidates are evaluated one after the
other or by `joblib.Parallel`, which keeps the order of the results (C30); a candidate that raises makes the whole search raise.
-/

namespace Verif.SliceMetric

/-- `np.arange(start, stop, step)` for floats: `start + k * step` for `0 <= k < ceil((stop - start) / step)`. -/
noncomputable def arange (start stop step : ℝ) : List ℝ :=
  (List.range ⌈(stop - start) / step⌉.toNat).map fun k : ℕ => start + (k : ℝ) * step

/-- The entries of an image in row-major order. -/
def entries (m : Mat ℝ) : List ℝ := (List.range m.h).flatMap fun i => (List.range m.w).map fun j => m.get i j

/-- `np.clip(v, lo, hi)`. -/
noncomputable def clip (v lo hi : ℝ) : ℝ := min (max v lo) hi

/-! ### Metrics -/

/-- `np.uint8(v * 255)` for `0 <= v <= 1` (reconstruction.py:1217). -/
noncomputable def level (v : ℝ) : ℕ := ⌊v * 255⌋₊

/-- `1.0 + ndi.histogram(recon, 0, 255, 256)` (reconstruction.py:1218): 256 bins of width `255/256` over `[0, 255]`, the last one closed, so
that each of the levels `0 .. 255` has a bin of its own. -/
noncomputable def hist (m : Mat ℝ) (k : ℕ) : ℝ := 1 + (((entries m).filter fun v => decide (level v = k)).length : ℝ)

/-- `signal.convolve(hist, boxcar(7), mode='valid')` (reconstruction.py:1219): entry `k` of 250. -/
noncomputable def smoothHist (m : Mat ℝ) (k : ℕ) : ℝ := ∑ t ∈ Finset.range 7, hist m (k + t)

/-- `__calculate_histogram_entropy` (reconstruction.py:1215-1220). -/
noncomputable def entropyOf (m : Mat ℝ) : ℝ :=
  -∑ k ∈ Finset.range 250, smoothHist m k * Real.logb 2 (smoothHist m k)

/-- `np.gradient` of a vector of `n` values (unit spacing, edge_order=1). -/
noncomputable def grad (n : ℕ) (f : ℕ → ℝ) (i : ℕ) : ℝ :=
  if i = 0 then f 1 - f 0
  else if i = n - 1 then f (n - 1) - f (n - 2)
  else (f (i + 1) - f (i - 1)) / 2

/-- `__calculate_edge_sharpness(image)` (reconstruction.py:1227-1228): `np.gradient` raises `ValueError` if an axis has fewer than two
entries. -/
noncomputable def sharpness (m : Mat ℝ) : Py ℝ :=
  if m.h < 2 ∨ m.w < 2 then .error .valueError
  else .ok ((∑ i ∈ Finset.range m.h, ∑ j ∈ Finset.range m.w,
    Real.sqrt (grad m.h (fun i => m.get i j) i ^ 2 + grad m.w (fun j => m.get i j) j ^ 2)) / ((m.h : ℝ) * m.w))

/-- `metric="entropy"`, any other string, or a `metric_function`. -/
inductive Metric where
  | entropy
  | sharpness
  | custom (f : Mat ℝ → Py ℝ)

/-- The options of the search: `smooth` is `gaussian_filter1d` along the rows when `sigma > 0`. -/
structure Opt where
  metric : Metric
  invert : Bool
  smooth : Option (Mat ℝ → Mat ℝ)
  applyLog : Bool

/-- `__get_slice_metric` on the reconstructed image (reconstruction.py:1238-1251). -/
noncomputable def metricOf (mt : Metric) (nmin nmax : ℝ) (img : Mat ℝ) : Py ℝ :=
  match mt with
  | .entropy => .ok (entropyOf (img.map fun v => clip ((v - nmin) / (nmax - nmin)) 0 1))
  | .sharpness => sharpness img
  | .custom f => f img

/-- Smoothing and logarithm before the loop (reconstruction.py:1317-1325). -/
noncomputable def prepare (o : Opt) (m : Mat ℝ) : Mat ℝ :=
  let m := match o.smooth with
    | some g => g m
    | none => m
  if o.applyLog then m.map fun v => -Real.log (if v ≤ 0 then 1 else v) else m

/-- Smallest and largest value of the image at the mean candidate (reconstruction.py:1328-1336); `(0, 1)` unless the metric is the entropy. -/
noncomputable def range (o : Opt) (rec : Mat ℝ → ℝ → Py (Mat ℝ)) (m : Mat ℝ) (cs : List ℝ) : Py (ℝ × ℝ) :=
  match o.metric with
  | .entropy => do
    let ref ← rec m (cs.sum / cs.length)
    let e := entries ref
    if e = [] then .error .valueError
    else if Post.npMin e = Post.npMax e then .error .valueError
    else .ok (Post.npMin e, Post.npMax e)
  | _ => .ok (0, 1)

/-- The metric of one candidate (reconstruction.py:1231-1251). -/
noncomputable def valueAt (o : Opt) (rec : Mat ℝ → ℝ → Py (Mat ℝ)) (m : Mat ℝ) (r : ℝ × ℝ) (c : ℝ) : Py ℝ := do
  let img ← rec m c
  metricOf o.metric r.1 r.2 img

/-- `if invert_metric: list_metric = np.max(list_metric) - list_metric` (reconstruction.py:1356-1357). -/
noncomputable def inverted (inv : Bool) (ms : List ℝ) : List ℝ := if inv then ms.map fun v => Post.npMax ms - v else ms

/-- `_find_center_based_slice_metric(..., return_metric=True)` (reconstruction.py:1312-1360). -/
noncomputable def search (o : Opt) (rec : Mat ℝ → ℝ → Py (Mat ℝ)) (m : Mat ℝ) (start stop step : ℝ) : Py (List ℝ × List ℝ) :=
  let cs := arange start stop step
  if cs = [] then .error .valueError
  else do
    let p := prepare o m
    let r ← range o rec p cs
    let ms ← cs.mapM (valueAt o rec p r)
    pure (cs, inverted o.invert ms)

/-- `_find_center_based_slice_metric(..., return_metric=False)` (reconstruction.py:1358, 1362). -/
noncomputable def searchOpt (o : Opt) (rec : Mat ℝ → ℝ → Py (Mat ℝ)) (m : Mat ℝ) (start stop step : ℝ) : Py ℝ := do
  let (cs, ms) ← search o rec m start stop step
  let i ← Center.argmin ms
  pure (cs.getD i 0)

/-- The zoom factor in use (reconstruction.py:1427). -/
noncomputable def zoomOf (zoom : ℝ) : ℝ := clip zoom 0.01 1

/-- The coarse centre (reconstruction.py:1427-1446): `zm`, `recz` are the zoomed sinogram and the reconstruction with the zoomed angles, used
if the zoom is below one. -/
noncomputable def coarseCenter (o : Opt) (rec recz : Mat ℝ → ℝ → Py (Mat ℝ)) (m zm : Mat ℝ) (start stop zoom : ℝ) : Py ℝ :=
  let z := zoomOf zoom
  let s := if z < 1 then start * z else start
  let t := if z < 1 then stop * z else stop
  if s < t then do
    let c ← searchOpt o (if z < 1 then recz else rec) (if z < 1 then zm else m) s (t + 1) 1
    pure (c / z)
  else .ok (s / z)

/-- The radius in use (reconstruction.py:1448). -/
noncomputable def radiusOf (radius step zoom : ℝ) : ℝ := max radius (step + 1 / zoomOf zoom)

/-- `find_center_based_slice_metric(...)` (reconstruction.py:1427-1458). -/
noncomputable def findCenter (o : Opt) (rec recz : Mat ℝ → ℝ → Py (Mat ℝ)) (m zm : Mat ℝ) (start stop step radius zoom : ℝ) : Py ℝ := do
  let c ← coarseCenter o rec recz m zm start stop zoom
  if radius ≠ 0 then searchOpt o rec m (c - radiusOf radius step zoom) (c + radiusOf radius step zoom + step) step
  else pure c

end Verif.SliceMetric
