import Verif.Model.Phase
import Verif.Model.Stripe
import Verif.Model.Fourier
import Verif.Model.Blobs

/-!
Model of the quality map and weight mask of phase unwrapping (algotom/prep/phase.py:108-183) and of background normalisation and automatic threshold
(algotom/util/calibration.py:42-104, 129-157).

Exact real arithmetic.  `scipy.ndimage.zoom` (cubic splines) and `scipy.signal.savgol_filter` are parameters; the properties say what is assumed of them.
-/

namespace Verif.Quality
open Verif.Phase Verif.Sorting Verif.Stripe Verif.Fourier

/-! ### quality map -/

/-- `np.pad(mat, 1, mode="reflect")` (phase.py:132). -/
def padded (m : Mat ℝ) : Mat ℝ := ⟨m.h + 2, m.w + 2, fun i j => m.get (reflectPadIdx m.h 1 i) (reflectPadIdx m.w 1 j)⟩

/-- `rho_x` (phase.py:133): differences of neighbouring columns of the padded image, first `height` rows and `width` columns. -/
noncomputable def rhoX (m : Mat ℝ) : Mat ℝ := ⟨m.h, m.w, fun i j => wrapToPi ((padded m).get i (j + 1) - (padded m).get i j)⟩

/-- `rho_y` (phase.py:134). -/
noncomputable def rhoY (m : Mat ℝ) : Mat ℝ := ⟨m.h, m.w, fun i j => wrapToPi ((padded m).get (i + 1) j - (padded m).get i j)⟩

/-- `ndi.convolve(m, kernel, mode="reflect")` with the box of `2 rad + 1` pixels (phase.py:135-137). -/
noncomputable def boxMean (rad : ℕ) (m : Mat ℝ) : Mat ℝ :=
  ⟨m.h, m.w, fun i j => ∑ a ∈ Finset.range (2 * rad + 1), ∑ b ∈ Finset.range (2 * rad + 1),
    m.get (reflectIdx m.h ((i : ℤ) + a - rad)) (reflectIdx m.w ((j : ℤ) + b - rad)) / ((2 * rad + 1 : ℕ) : ℝ) ^ 2⟩

/-- Source of entry `i` of `np.roll(_, s)` on an axis of length `n`. -/
def rollIdx (n : ℕ) (s : ℤ) (i : ℕ) : ℕ := (((i : ℤ) - s) % n).toNat

/-- `sum_x`, `sum_y` (phase.py:139-146). -/
noncomputable def spread (rad : ℕ) (m mean : Mat ℝ) : Mat ℝ :=
  ⟨m.h, m.w, fun i j => ∑ a ∈ Finset.range (2 * rad + 1), ∑ b ∈ Finset.range (2 * rad + 1),
    (m.get (rollIdx m.h ((a : ℤ) - rad) i) (rollIdx m.w ((b : ℤ) - rad) j) - mean.get i j) ^ 2⟩

/-- `get_quality_map(mat, size)` (phase.py:130-147).  `np.pad` refuses an empty axis, `np.ones` a negative size. -/
noncomputable def qualityMap (m : Mat ℝ) (size : ℤ) : Py (Mat ℝ) :=
  let win := 2 * (size / 2) + 1
  if m.h = 0 ∨ m.w = 0 ∨ win < 0 then .error .valueError
  else
    let rad := (win / 2).toNat
    let sx := spread rad (rhoX m) (boxMean rad (rhoX m))
    let sy := spread rad (rhoY m) (boxMean rad (rhoY m))
    .ok ⟨m.h, m.w, fun i j => (Real.sqrt (sx.get i j) + Real.sqrt (sy.get i j)) / (win : ℝ) ^ 2⟩

/-! ### weight mask -/

/-- `np.ndarray.flatten`. -/
def flatten (m : Mat ℝ) : List ℝ := (List.range m.h).flatMap fun i => (List.range m.w).map fun j => m.get i j

/-- The threshold of `get_weight_mask` (phase.py:171-181): `zoom l n` is `ndi.zoom(l, n / len(l), mode="nearest")`.  `polyfit` of no point raises
`TypeError`.  Two values leave one point at `x = 0`: the column of the system is divided by its norm 0 and `lstsq` refuses the result.  Four values leave
one point at `x = 1`, for which `lstsq` returns the solution of smallest norm, slope and intercept equal. -/
noncomputable def maskLevel (zoom : List ℝ → ℕ → List ℝ) (m : Mat ℝ) (snr : ℝ) : Py ℝ :=
  let s := npSort (flatten m)
  if s.length = 0 then .error .zeroDivision
  else
    let d := zoom s (max m.h m.w)
    let n := d.length
    let ndrop := n / 4
    if n - ndrop - 1 ≤ ndrop then .error .typeError
    else if n = 2 then .error .valueError
    else
      let p := if n = 4 then (d.getD 1 0 / 2, d.getD 1 0 / 2) else polyfit1 ndrop (n - ndrop - 1) fun k => d.getD k 0
      let yEnd := p.2 + p.1 * ((n : ℝ) - 1)
      .ok (yEnd + |yEnd - p.2| * snr * (1 / 2))

/-- `get_weight_mask(mat, snr)` (phase.py:171-183). -/
noncomputable def weightMask (zoom : List ℝ → ℕ → List ℝ) (m : Mat ℝ) (snr : ℝ) : Py (Mat ℝ) :=
  (maskLevel zoom m snr).bind fun t => .ok ⟨m.h, m.w, fun i j => if m.get i j > t then 1 else 0⟩

/-! ### background normalisation -/

/-- `ndi.median_filter(mat, size, mode="reflect")` (calibration.py:58): the window starts `size // 2` above and left of the pixel; element of rank
`size² // 2`. -/
noncomputable def medianFilter (size : ℕ) (m : Mat ℝ) : Mat ℝ :=
  ⟨m.h, m.w, fun i j =>
    (npSort ((List.range size).flatMap fun a => (List.range size).map fun b =>
      m.get (reflectIdx m.h ((i : ℤ) - (size / 2 : ℕ) + a)) (reflectIdx m.w ((j : ℤ) - (size / 2 : ℕ) + b)))).getD (size * size / 2) 0⟩

/-- `np.mean`. -/
noncomputable def meanOf (m : Mat ℝ) : ℝ := Blobs.total m / ((m.h : ℝ) * m.w)

/-- Division by a background (calibration.py:59-63, 100-104): zeros of the background are replaced by its mean. -/
noncomputable def divideBack (bck m : Mat ℝ) : Mat ℝ :=
  ⟨m.h, m.w, fun i j => meanOf bck * m.get i j / (if bck.get i j = 0 then meanOf bck else bck.get i j)⟩

/-- `normalize_background(mat, size)` (calibration.py:58-63); scipy's RuntimeError for size 0 is represented by `valueError`. -/
noncomputable def normalizeBackground (m : Mat ℝ) (size : ℕ) : Py (Mat ℝ) :=
  if size = 0 then .error .valueError else .ok (divideBack (medianFilter size m) m)

/-- `apply_gaussian_filter(mat, sigma_x, sigma_y, pad, mode="reflect")` (utility.py:857-870, with `mode1 = mode2 = "reflect"`). -/
noncomputable def gaussianReflect (m : Mat ℝ) (sx sy : ℝ) (pad : ℕ) : Mat ℝ :=
  gaussianCore m.h m.w (fun i j => m.get (reflectPadIdx m.h pad i) (reflectPadIdx m.w pad j)) sx sy pad

/-- `sigma_x`, `sigma_y` (calibration.py:90-97). -/
noncomputable def sigmas (h w : ℕ) (sigma : ℝ) : ℝ × ℝ :=
  if h ≤ w then ((⌈sigma / ((h : ℝ) / w)⌉ : ℤ), sigma) else (sigma, (⌈sigma / ((w : ℝ) / h)⌉ : ℤ))

/-- `normalize_background_based_fft(mat, sigma, pad, "reflect")` (calibration.py:89-104); the default `pad` is that of utility.py:859. -/
noncomputable def normalizeFft (m : Mat ℝ) (sigma : ℝ) (pad : Option ℕ) : Py (Mat ℝ) :=
  if m.h = 0 ∨ m.w = 0 then .error .zeroDivision
  else
    let s := sigmas m.h m.w sigma
    .ok (divideBack (gaussianReflect m s.1 s.2 (pad.getD (pad10 (min m.h m.w)))) m)

/-! ### threshold -/

/-- `calculate_threshold(mat, bgr)` (calibration.py:149-157): `savgol l win` is `sig.savgol_filter(l, win, 3)`, which demands `3 < win`. -/
noncomputable def calculateThreshold (zoom : List ℝ → ℕ → List ℝ) (savgol : List ℝ → ℕ → List ℝ) (m : Mat ℝ) (bright : Bool) : Py ℝ :=
  let s := npSort (flatten m)
  if s.length = 0 then .error .zeroDivision
  else
    let d := zoom s (max m.h m.w)
    let win := 2 * (d.length / 2) - 1
    if win ≤ 3 then .error .valueError
    else
      let r := savgol d win
      .ok (if bright then r.getD 0 0 else r.getD (r.length - 1) 0)

end Verif.Quality
