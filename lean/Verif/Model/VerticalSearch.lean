import Verif.Model.VerticalDriver
import Verif.Model.VerticalCenter
import Verif.Model.VisualCenter
import Verif.Model.LogStep

/-!
Model of the two centre searches on vertical slices (algotom/rec/vertrec.py): `find_center_vertical_slice` (1264-1428) and
`find_center_visual_vertical_slices` (1431-1535), on top of the driver of `vertical_reconstruction` in Model/VerticalDriver.lean, and of
`__calculate_autocorrelation_coefficient` (1255-1261).

Exact real arithmetic; start, stop and step are floats (C49 treats integers) and the step is positive.  Each call of `vertical_reconstruction` may use another
kernel (device, number of threads, schedule): `bp` gives it for every candidate.  `ndi.gaussian_filter` is a parameter.  The making of the name of the output folder is the subject of C20.
-/

namespace Verif.VerticalSearch
open Verif.Vertical Verif.VerticalDriver Verif.Recon Verif.Fourier Verif.SliceMetric

/-- The arguments of `vertical_reconstruction` for a candidate (vertrec.py:1335-1336, 1364, 1387-1396; 1503-1504, 1512, 1516-1526). -/
noncomputable def searchArgs (angles : Option (List ℝ)) (ramp : Ramp) (w : ℕ) (c : ℝ) : VArgs where
  center := c
  flat := none
  dark := none
  angles := angles
  top := 0
  bottom := 0
  left := 0
  right := 0
  projStart := 0
  projStop := -1
  ramp := if ramp = .none then .after else ramp
  filter := .hann
  pad := some (defaultPad w)
  padIdx := edgeIdx
  applyLog := false
  masking := false

/-- `-np.log(projections)`, values that are not positive replaced by 1 first (vertrec.py:1345-1354, 1493-1502), with the effect on the caller's array. -/
noncomputable def logged (applyLog : Bool) (p : Arr3 ℝ) : LogStep.St (ℕ × ℕ × ℕ) ℝ :=
  LogStep.directCall (fun v => -Real.log v) applyLog fun q => p.get q.1 q.2.1 q.2.2

/-- The projections the slices are reconstructed from (vertrec.py:1493-1502). -/
noncomputable def prepare (applyLog : Bool) (p : Arr3 ℝ) : Arr3 ℝ := ⟨p.d, p.h, p.w, fun n i j => (logged applyLog p).read (n, i, j)⟩

/-- The caller's projections afterwards (vertrec.py:1501). -/
noncomputable def callerAfter (applyLog : Bool) (p : Arr3 ℝ) : Arr3 ℝ := ⟨p.d, p.h, p.w, fun n i j => (logged applyLog p).caller (n, i, j)⟩

/-- `np.min` of a list that is not empty. -/
noncomputable def listMin : List ℝ → ℝ
  | [] => 0
  | x :: l => l.foldl min x

/-- The factor for column `j` in all slices (vertrec.py:1356-1362, 1505-1511): the mask of `vertical_reconstruction` for the smallest candidate.  `np.min` of an
empty list and `np.ones` of a negative length raise `ValueError`. -/
noncomputable def commonMask (masking : Bool) (cs : List ℝ) (w : ℕ) : Py (ℕ → ℝ) :=
  if masking = false then .ok fun _ => 1
  else if cs = [] then .error .valueError
  else if pyTrunc (min (listMin cs) ((w : ℝ) - listMin cs)) < 0 then .error .valueError
  else .ok (maskCol (listMin cs) w)

/-- `recon * mask` (vertrec.py:1397-1398, 1527-1528). -/
noncomputable def masked (f : ℕ → ℝ) (m : Mat ℝ) : Mat ℝ := ⟨m.h, m.w, fun i j => m.get i j * f j⟩

/-- The slice of a candidate before masking (vertrec.py:1387-1396, 1516-1526). -/
noncomputable def slice (bp : ℝ → Kernel) (chunkSize : Option ℤ) (angles : Option (List ℝ)) (ramp : Ramp) (p : Arr3 ℝ) (idx alpha c : ℝ) : Py (Mat ℝ) :=
  single (searchArgs angles ramp p.w c) (bp c) chunkSize p idx alpha

/-- `find_center_visual_vertical_slices` (vertrec.py:1489-1535): the files written (hundredths in the name, image) in their order, the exception, and the
caller's projections afterwards. -/
noncomputable def visualVertical (bp : ℝ → Kernel) (chunkSize : Option ℤ) (angles : Option (List ℝ)) (ramp : Ramp) (applyLog masking : Bool) (p : Arr3 ℝ)
    (idx start stop step alpha : ℝ) : (List (ℤ × Mat ℝ) × Option PyErr) × Arr3 ℝ :=
  let cs := VerticalCenter.centers start stop step
  (match commonMask masking cs p.w with
    | .error e => ([], some e)
    | .ok f => VisualCenter.loop (fun c => (slice bp chunkSize angles ramp (prepare applyLog p) idx alpha c).map (masked f)) 1 cs,
    callerAfter applyLog p)

/-- `__calculate_autocorrelation_coefficient(image)` (vertrec.py:1259-1261); `np.max` of an empty row raises, the mean of no rows is nan (`ValueError` here). -/
noncomputable def autocorrelation (m : Mat ℝ) : Py ℝ :=
  if m.h = 0 ∨ m.w = 0 then .error .valueError
  else
    let auto (i n : ℕ) : ℝ := ‖idft m.w (fun k => ((‖dft m.w (fun j => ((m.get i j : ℝ) : ℂ)) k‖ ^ 2 : ℝ) : ℂ)) n‖
    .ok ((∑ i ∈ Finset.range m.h, Post.npMax ((List.range m.w).map (auto i))) / (m.h : ℝ))

/-- `metric` and `metric_function` (vertrec.py:1330-1334). -/
inductive VMetric where
  | entropy
  | sharpness
  | autocorrelation
  | custom (f : Mat ℝ → Py ℝ)
  | unknown

/-- `np.clip((v - nmin) / (nmax - nmin), 0, 1)` (vertrec.py:1401-1402); for `nmin = nmax` the quotient is infinite or nan, and nan is stored as 0. -/
noncomputable def stretch (nmin nmax v : ℝ) : ℝ := if nmin = nmax then (if nmin < v then 1 else 0) else clip ((v - nmin) / (nmax - nmin)) 0 1

/-- The metric of a slice (vertrec.py:1399-1409). -/
noncomputable def metricOf (mt : VMetric) (r : ℝ × ℝ) (img : Mat ℝ) : Py ℝ :=
  match mt with
  | .entropy => .ok (entropyOf (img.map (stretch r.1 r.2)))
  | .sharpness => SliceMetric.sharpness img
  | .autocorrelation => autocorrelation img
  | .custom f => f img
  | .unknown => .error .valueError

/-- Smallest and largest value of the slice at the mean candidate, used by the entropy (vertrec.py:1365-1382). -/
noncomputable def rangeAt (mt : VMetric) (rec : ℝ → Py (Mat ℝ)) (cs : List ℝ) : Py (ℝ × ℝ) :=
  match mt with
  | .entropy => (rec (cs.sum / cs.length)).bind fun m =>
      if entries m = [] then .error .valueError else .ok (Post.npMin (entries m), Post.npMax (entries m))
  | _ => .ok (0, 1)

/-- The Gaussian filter, applied if `sigma > 0` (vertrec.py:1343-1344). -/
def smoothed (smooth : Option (Arr3 ℝ → Arr3 ℝ)) (p : Arr3 ℝ) : Arr3 ℝ :=
  match smooth with
  | some g => g p
  | none => p

/-- The search in prepared projections (vertrec.py:1337, 1356-1420).  An empty list of candidates fails in `np.min` or `np.argmin` at the latest (with
`return_metric=True` and neither mask nor entropy two empty arrays are returned, which is not modelled). -/
noncomputable def searchOn (bp : ℝ → Kernel) (chunkSize : Option ℤ) (mt : VMetric) (angles : Option (List ℝ)) (ramp : Ramp) (masking invert : Bool)
    (q : Arr3 ℝ) (idx start stop step alpha : ℝ) : Py (List ℝ × List ℝ) :=
  let cs := VerticalCenter.centers start stop step
  (commonMask masking cs q.w).bind fun f =>
  if cs = [] then .error .valueError
  else
    (rangeAt mt (slice bp chunkSize angles ramp q idx alpha) cs).bind fun r =>
    (cs.mapM fun c => (slice bp chunkSize angles ramp q idx alpha c).bind fun m => metricOf mt r (masked f m)).bind fun ms =>
    .ok (cs, inverted invert ms)

/-- Is the metric one of the known ones?  (vertrec.py:1330-1334) -/
def VMetric.known : VMetric → Bool
  | .unknown => false
  | _ => true

/-- `find_center_vertical_slice(..., return_metric=True)` (vertrec.py:1330-1426): candidates and metrics.  `smooth` is the Gaussian filter if `sigma > 0`. -/
noncomputable def searchList (bp : ℝ → Kernel) (chunkSize : Option ℤ) (mt : VMetric) (angles : Option (List ℝ)) (ramp : Ramp) (smooth : Option (Arr3 ℝ → Arr3 ℝ))
    (applyLog masking invert : Bool) (p : Arr3 ℝ) (idx start stop step alpha : ℝ) : Py (List ℝ × List ℝ) :=
  if mt.known = false then .error .valueError
  else searchOn bp chunkSize mt angles ramp masking invert (prepare applyLog (smoothed smooth p)) idx start stop step alpha

/-- `find_center_vertical_slice(...)` (vertrec.py:1421-1428). -/
noncomputable def findCenterVertical (bp : ℝ → Kernel) (chunkSize : Option ℤ) (mt : VMetric) (angles : Option (List ℝ)) (ramp : Ramp)
    (smooth : Option (Arr3 ℝ → Arr3 ℝ)) (applyLog masking invert : Bool) (p : Arr3 ℝ) (idx start stop step alpha : ℝ) : Py ℝ :=
  (searchList bp chunkSize mt angles ramp smooth applyLog masking invert p idx start stop step alpha).bind fun r =>
    (Center.argmin r.2).bind fun i => .ok (r.1.getD i 0)

end Verif.VerticalSearch
