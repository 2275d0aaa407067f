import Verif.Model.Center
import Verif.Model.Fourier

/-!
Model of the search for the rotation centre of a 180-degree sinogram from the sinogram to the result: the inverse double-wedge mask
(algotom/prep/calculation.py:46-96), the metric (99-144), the two searches (147-264), down-sampling (267-293) and `find_center_vo`
(296-368).

Exact real arithmetic.  `scipy.ndimage.shift` by a non-integer number of columns and `scipy.ndimage.gaussian_filter` are parameters.
-/

namespace Verif.CenterMetric
open Verif.Fourier Verif.Sched Verif.Center

/-- `ndrop` (calculation.py:78-81): `min(20, int(0.05 * height))` or the given number, clipped to `[1, height // 3]`. -/
def horDrop (height : ℕ) : Option ℤ → ℤ
  | none => min 20 ((height / 20 : ℕ) : ℤ)
  | some d => npClip d 1 ((height / 3 : ℕ) : ℤ)

/-- `ver_drop` (calculation.py:82-85). -/
def verDrop (width : ℕ) : Option ℤ → ℤ
  | none => 1
  | some d => npClip d 1 ((width / 3 : ℕ) : ℤ)

/-- `make_inverse_double_wedge_mask(height, width, radius, hor_drop, ver_drop)` (calculation.py:76-96) for a mask with pixels and a radius
that is not zero (otherwise the divisions raise). -/
noncomputable def invWedge (height width : ℕ) (radius : ℝ) (hor ver : Option ℤ) : Mat ℝ :=
  let du : ℝ := 1 / width
  let dv : ℝ := ((height : ℝ) - 1) / (height * 2 * Real.pi)
  let nd := horDrop height hor
  let vd := verDrop width ver
  let yc : ℤ := ⌈((height : ℝ) - 1) / 2⌉
  let xc : ℤ := ⌈((width : ℝ) - 1) / 2⌉
  ⟨height, width, fun i j =>
    let num : ℤ := ⌈(((i : ℝ) - yc) * dv / radius) / du⌉
    let p1 := npClip (min (-num + xc) (num + xc)) 0 ((width : ℤ) - 1)
    let p2 := npClip (max (-num + xc) (num + xc)) 0 ((width : ℤ) - 1)
    if pyBound width (xc - vd) ≤ j ∧ j < pyBound width (xc + vd + 1) then 0
    else if pyBound height (yc - nd) ≤ i ∧ i < pyBound height (yc + nd + 1) then 0
    else if p1 ≤ j ∧ (j : ℤ) < p2 + 1 then 1 else 0⟩

/-- `np.roll(sino_flip, sh, axis=1)` with the columns that wrapped around replaced (calculation.py:125-130). -/
def rollFill (flip comp : Mat ℝ) (sh : ℤ) : Mat ℝ :=
  ⟨flip.h, flip.w, fun i j =>
    if 0 ≤ sh then (if (j : ℤ) < sh then comp.get i j else flip.get i (((j : ℤ) - sh) % flip.w).toNat)
    else (if (flip.w : ℤ) + sh ≤ j then comp.get i j else flip.get i (((j : ℤ) - sh) % flip.w).toNat)⟩

/-- `ndi.shift(sino_flip, (0, s), order=3)` with the columns that came from outside replaced (calculation.py:133-140). -/
noncomputable def shiftFill (S : Mat ℝ → ℝ → Mat ℝ) (flip comp : Mat ℝ) (s : ℝ) : Mat ℝ :=
  let m := S flip s
  ⟨flip.h, flip.w, fun i j =>
    open Classical in
    if 0 ≤ s then (if (j : ℤ) < ⌈s⌉ then comp.get i j else m.get i j)
    else (if (flip.w : ℤ) + ⌊s⌋ ≤ j then comp.get i j else m.get i j)⟩

/-- `np.vstack((a, b))`. -/
def vstack (a b : Mat ℝ) : Mat ℝ := ⟨a.h + b.h, a.w, fun i j => if i < a.h then a.get i j else b.get (i - a.h) j⟩

open Classical in
/-- The 360-degree sinogram made for a centre (calculation.py:121-141). -/
noncomputable def completed (S : Mat ℝ → ℝ → Mat ℝ) (center : ℝ) (sino flip comp : Mat ℝ) : Mat ℝ :=
  let s := 2 * (center - ((sino.w : ℝ) - 1) / 2)
  vstack sino (if |s - ⌊s⌋| = 0 then rollFill flip comp ⌊s⌋ else shiftFill S flip comp s)

/-- `np.mean(np.abs(fftshift(fft2(mat))) * mask)` (calculation.py:142-143). -/
noncomputable def spectrumMean (mat mask : Mat ℝ) : ℝ :=
  (∑ i ∈ Finset.range mat.h, ∑ j ∈ Finset.range mat.w,
    ‖dft2 mat.h mat.w (fun i j => (mat.get i j : ℂ)) (fftshiftIdx mat.h i) (fftshiftIdx mat.w j)‖ * mask.get i j) / (mat.h * mat.w)

/-- `calculate_center_metric(center, sino_180, sino_flip, sino_comp, mask)` (calculation.py:121-144). -/
noncomputable def centerMetric (S : Mat ℝ → ℝ → Mat ℝ) (center : ℝ) (sino flip comp mask : Mat ℝ) : ℝ :=
  spectrumMean (completed S center sino flip comp) mask

/-- `np.flipud`. -/
def flipud (m : Mat ℝ) : Mat ℝ := ⟨m.h, m.w, fun i j => m.get (m.h - 1 - i) j⟩

/-- The options of the searches. -/
structure Opts where
  ratio : ℝ
  hor : Option ℤ
  ver : Option ℤ
  ncore : ℕ

/-- The search over a list of centres common to `coarse_search_cor` and `fine_search_cor` (calculation.py:180-208, 246-264), after the
denoising; the metrics are not rounded to float32. -/
noncomputable def searchCor (S : Mat ℝ → ℝ → Mat ℝ) (o : Opts) (sino : Mat ℝ) (cors : List ℝ) (sched : List Ev) : Option (Py ℝ) :=
  let mask := invWedge (2 * sino.h) sino.w (0.5 * o.ratio * sino.w) o.hor o.ver
  search o.ncore id (fun c => centerMetric S c sino sino.fliplr (flipud sino) mask) cors sched

/-- `coarse_search_cor` after the denoising (calculation.py:178-208). -/
noncomputable def coarse (S : Mat ℝ → ℝ → Mat ℝ) (o : Opts) (sino : Mat ℝ) (start stop : ℝ) (sched : List Ev) : Option (Py ℝ) :=
  searchCor S o sino (coarseList sino.w start stop) sched

/-- `fine_search_cor` after the denoising (calculation.py:244-264). -/
noncomputable def fine (S : Mat ℝ → ℝ → Mat ℝ) (o : Opts) (sino : Mat ℝ) (start radius step : ℝ) (sched : List Ev) : Option (Py ℝ) :=
  searchCor S o sino (fineList sino.w start radius step) sched

/-- `downsample_cor(image, f0, f1)` (calculation.py:285-293) for factors that are at least 1 after clipping, i.e. images with at least two
rows and columns. -/
noncomputable def downsample (m : Mat ℝ) (f0 f1 : ℕ) : Mat ℝ :=
  let d0 := min (max f0 1) (m.h / 2)
  let d1 := min (max f1 1) (m.w / 2)
  ⟨m.h / d0, m.w / d1, fun i j =>
    (∑ a ∈ Finset.range d0, (∑ b ∈ Finset.range d1, m.get (i * d0 + a) (j * d1 + b)) / d1) / d0⟩

/-- `find_center_vo(sino_180, start, stop, step, radius, ratio, dsp, ncore, hor_drop, ver_drop)` (calculation.py:336-368); `gauss31`,
`gauss22`: `ndi.gaussian_filter` with sigma (3, 1) and (2, 2). -/
noncomputable def findCenterVo (S : Mat ℝ → ℝ → Mat ℝ) (gauss31 gauss22 : Mat ℝ → Mat ℝ) (o : Opts) (sino : Mat ℝ) (start stop : Option ℝ)
    (step radius : ℝ) (dsp : Bool) (sched1 sched2 : List Ev) : Option (Py ℝ) :=
  let nrow := sino.h
  let ncol := sino.w
  let start := start.getD (((ncol / 2 : ℕ) : ℝ) - ((ncol / 16 : ℕ) : ℝ))
  let stop := stop.getD (((ncol / 2 : ℕ) : ℝ) + ((ncol / 16 : ℕ) : ℝ))
  if dsp then
    let dcol := if 1000 < ncol then ncol / 640 else 1
    let drow := if 1000 < nrow then nrow / 900 else 1
    let small := downsample (gauss31 sino) drow dcol
    match coarse S o small ⌊start / dcol⌋ ⌈stop / dcol⌉ sched1 with
    | none => none
    | some (.error e) => some (.error e)
    | some (.ok raw) => fine S o (gauss22 sino) (raw * dcol + 0.5 * dcol) (max radius dcol) step sched2
  else
    match coarse S o (gauss31 sino) start stop sched1 with
    | none => none
    | some (.error e) => some (.error e)
    | some (.ok raw) => fine S o (gauss22 sino) raw radius step sched2

end Verif.CenterMetric
