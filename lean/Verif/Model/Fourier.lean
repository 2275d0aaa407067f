import Verif.Np
import Mathlib.Analysis.SpecialFunctions.Trigonometric.Basic
import Mathlib.Analysis.SpecialFunctions.Log.Basic
import Mathlib.Analysis.SpecialFunctions.Complex.Log

/-!
Discrete Fourier transforms as numpy/scipy define them, and the Fourier-domain filters of algotom:
prep/filtering.py:40-223, prep/correction.py:295-331, util/utility.py:251-303, 416-447, 796-870,
prep/removal.py:590-632, rec/reconstruction.py:86-153.  Exact complex arithmetic (no float32 rounding).
-/

namespace Verif.Fourier
open Complex

/-! ### transforms -/

/-- `fft`: `y[k] = Σ x[n] exp(-2πi k n / N)`. -/
noncomputable def dft (N : ℕ) (x : ℕ → ℂ) (k : ℕ) : ℂ := ∑ n ∈ Finset.range N, x n * exp (-(2 * Real.pi * I * (k * n / N)))

/-- `ifft`: `x[n] = (1/N) Σ y[k] exp(2πi k n / N)`. -/
noncomputable def idft (N : ℕ) (y : ℕ → ℂ) (n : ℕ) : ℂ := (∑ k ∈ Finset.range N, y k * exp (2 * Real.pi * I * (k * n / N))) / N

/-- `fft2` of an `h × w` array. -/
noncomputable def dft2 (h w : ℕ) (x : ℕ → ℕ → ℂ) (k l : ℕ) : ℂ := dft h (fun i => dft w (x i) l) k

/-- `ifft2` of an `h × w` array. -/
noncomputable def idft2 (h w : ℕ) (y : ℕ → ℕ → ℂ) (i j : ℕ) : ℂ := idft h (fun k => idft w (y k) j) i

/-- Position read by entry `i` of `fftshift` along an axis of length `n`: `out[i] = x[(i - n//2) mod n]`. -/
def fftshiftIdx (n i : ℕ) : ℕ := (i + (n - n / 2)) % n

/-- Position read by entry `i` of `ifftshift`: `out[i] = x[(i + n//2) mod n]`. -/
def ifftshiftIdx (n i : ℕ) : ℕ := (i + n / 2) % n

/-! ### padding (`numpy.pad`) -/

/-- Source index of entry `i` of an axis of length `n` padded by `p` with mode "edge". -/
def edgeIdx (n p i : ℕ) : ℕ := min (i - p) (n - 1)

/-- Source index with mode "reflect" (the edge sample is not repeated). -/
def reflectPadIdx (n p i : ℕ) : ℕ :=
  if n ≤ 1 then 0
  else
    let r := ((i : ℤ) - p) % (2 * ((n : ℤ) - 1))
    if r < n then r.toNat else (2 * ((n : ℤ) - 1) - r).toNat

/-! ### filters -/

/-- `real(ifft2(fft2(m) * mult))`. -/
noncomputable def filter2 (m : Mat ℝ) (mult : ℕ → ℕ → ℂ) : Mat ℝ :=
  ⟨m.h, m.w, fun i j => (idft2 m.h m.w (fun k l => dft2 m.h m.w (fun i j => (m.get i j : ℂ)) k l * mult k l) i j).re⟩

/-- `np.pad(m, p, mode="edge")`. -/
def padEdge (m : Mat ℝ) (py px : ℕ) : Mat ℝ :=
  ⟨m.h + 2 * py, m.w + 2 * px, fun i j => m.get (edgeIdx m.h py i) (edgeIdx m.w px j)⟩

/-- `m[py:py+h, px:px+w]`. -/
def crop (m : Mat ℝ) (py px h w : ℕ) : Mat ℝ := ⟨h, w, fun i j => m.get (py + i) (px + j)⟩

/-- `make_fresnel_window` (filtering.py:59-70); `ceil((n-1)/2) = n/2`. -/
noncomputable def fresnelWindow (dim2 : Bool) (h w : ℕ) (ratio : ℝ) (i j : ℕ) : ℝ :=
  let u : ℝ := ((j : ℝ) - (⌈((w : ℝ) - 1) * (1 / 2)⌉ : ℤ)) / w
  let v : ℝ := ((i : ℝ) - (⌈((h : ℝ) - 1) * (1 / 2)⌉ : ℤ)) / h
  if dim2 then 1 + ratio * (u ^ 2 + v ^ 2) else 1 + ratio * u ^ 2

/-- The filtering step of `fresnel_filter` (filtering.py:109-123). -/
noncomputable def fresnelCore (dim2 : Bool) (m : Mat ℝ) (window : ℕ → ℕ → ℝ) (pad : ℕ) : Mat ℝ :=
  if dim2 then
    let mp := padEdge m pad pad
    let wp := padEdge ⟨m.h, m.w, window⟩ pad pad
    crop (filter2 mp fun k l => 1 / ((wp.get (ifftshiftIdx mp.h k) (ifftshiftIdx mp.w l) : ℝ) : ℂ)) pad pad m.h m.w
  else
    let mp := padEdge m 0 pad
    let wp := padEdge ⟨m.h, m.w, window⟩ 0 pad
    crop ⟨mp.h, mp.w, fun i j => (idft mp.w (fun l =>
      -- ifftshift (fftshift (fft line) / win)
      dft mp.w (fun j => (mp.get i j : ℂ)) (fftshiftIdx mp.w (ifftshiftIdx mp.w l)) /
        ((wp.get i (ifftshiftIdx mp.w l) : ℝ) : ℂ)) j).re⟩ 0 pad m.h m.w

/-- `fresnel_filter(mat, ratio, dim, None, pad, apply_log)` (filtering.py:106-126). -/
noncomputable def fresnelFilter (m : Mat ℝ) (ratio : ℝ) (dim2 : Bool) (pad : ℕ) (applyLog : Bool) : Mat ℝ :=
  let m1 : Mat ℝ := if applyLog then ⟨m.h, m.w, fun i j => -Real.log (m.get i j)⟩ else m
  let d := fresnelCore dim2 m1 (fresnelWindow dim2 m.h m.w ratio) pad
  if applyLog then ⟨d.h, d.w, fun i j => Real.exp (-d.get i j)⟩ else d

/-- `make_double_wedge_mask` (filtering.py:152-164), without the wrap-around of int16. -/
noncomputable def wedgeMask (h w : ℕ) (radius : ℝ) (i j : ℕ) : ℝ :=
  open Classical in
  let du : ℝ := 1 / w
  let dv : ℝ := ((h : ℝ) - 1) / (h * 2 * Real.pi)
  let yc : ℤ := ⌈((h : ℝ) - 1) / 2⌉
  let xc : ℤ := ⌈((w : ℝ) - 1) / 2⌉
  let num : ℤ := ⌈(((i : ℝ) - yc) * dv / radius) / du⌉
  let p1 := npClip (min (-num + xc) (num + xc)) 0 ((w : ℤ) - 1)
  let p2 := npClip (max (-num + xc) (num + xc)) 0 ((w : ℤ) - 1)
  if yc - 1 ≤ i ∧ i < yc + 1 + 1 then 1 else if p1 ≤ j ∧ (j : ℤ) < p2 + 1 then 0 else 1

/-- One iteration of the loop of `double_wedge_filter` (filtering.py:217-220). -/
noncomputable def wedgeStep (mask : ℕ → ℕ → ℝ) (pad : ℕ) (m : Mat ℝ) : Mat ℝ :=
  let mp := padEdge m 0 pad
  crop ⟨mp.h, mp.w, fun i j => (idft2 mp.h mp.w (fun k l =>
    let k' := ifftshiftIdx mp.h k
    let l' := ifftshiftIdx mp.w l
    dft2 mp.h mp.w (fun i j => (mp.get i j : ℂ)) (fftshiftIdx mp.h k') (fftshiftIdx mp.w l') * ((mask k' l' : ℝ) : ℂ)) i j).re⟩
    0 pad m.h m.w

/-- `double_wedge_filter` for a 360-degree sinogram (filtering.py:206-223); `mask = none` is the default mask. -/
noncomputable def wedgeFilter (m : Mat ℝ) (iteration : ℕ) (mask : Option (ℕ → ℕ → ℝ)) (ratio : ℝ) (pad : ℕ) : Mat ℝ :=
  let mk := mask.getD (wedgeMask m.h (m.w + 2 * pad) (ratio * m.w / 2))
  (wedgeStep mk pad)^[iteration] m

/-- `mtf_deconvolution` (correction.py:318-331). -/
noncomputable def mtfDeconvolution (m : Mat ℝ) (window : Mat ℝ) (pad : ℕ) : Py (Mat ℝ) :=
  if m.h > window.h ∨ m.w > window.w then .error .valueError
  else
    let m1 : Mat ℝ := ⟨window.h, window.w, fun i j => m.get (min i (m.h - 1)) (min j (m.w - 1))⟩
    let mp : Mat ℝ := ⟨m1.h + 2 * pad, m1.w + 2 * pad, fun i j => m1.get (reflectPadIdx m1.h pad i) (reflectPadIdx m1.w pad j)⟩
    let wp : ℕ → ℕ → ℝ := fun i j => if pad ≤ i ∧ i < pad + window.h ∧ pad ≤ j ∧ j < pad + window.w
      then window.get (i - pad) (j - pad) else 1
    .ok (crop (filter2 mp fun k l => 1 / ((wp (ifftshiftIdx mp.h k) (ifftshiftIdx mp.w l) : ℝ) : ℂ)) pad pad m.h m.w)

/-- `real(ifft(fft(line * sign) * window) * sign)[pad:ncol+pad]` (utility.py:292-298), the line padded with mode "reflect". -/
noncomputable def signFilterLine (ncol pad : ℕ) (window : ℕ → ℝ) (line : ℕ → ℝ) (j : ℕ) : ℝ :=
  let n := ncol + 2 * pad
  let lp : ℕ → ℝ := fun j => line (reflectPadIdx ncol pad j)
  (idft n (fun k => dft n (fun j => ((lp j * (-1) ^ j : ℝ) : ℂ)) k * ((window k : ℝ) : ℂ)) (pad + j) * ((((-1 : ℝ) ^ (pad + j)) : ℝ) : ℂ)).re

/-- `min(150, int(0.1 * n))`. -/
def pad10 (n : ℕ) : ℕ := min 150 (n / 10)

/-- Window argument of `separate_frequency_component`: an array of given length, or `{"name": "gaussian", "sigma": s}`. -/
inductive FreqWindow where
  | array (len : ℕ) (w : ℕ → ℝ)
  | gaussian (sigma : ℝ)

/-- The window actually used (utility.py:278-290); `scipy.signal.windows.gaussian(M, s)` is `exp(-(n-(M-1)/2)²/(2 s²))`. -/
noncomputable def FreqWindow.resolve (ncol pad : ℕ) : FreqWindow → Py (ℕ → ℝ)
  | .array len w => if len ≠ ncol then .error .valueError
      else .ok fun k => if pad ≤ k ∧ k < pad + ncol then w (k - pad) else 1
  | .gaussian s => .ok fun k => Real.exp (-(((k : ℝ) - ((ncol + 2 * pad : ℕ) - 1 : ℝ) / 2) ^ 2 / (2 * s ^ 2)))

/-- `separate_frequency_component(mat, axis, window)` (utility.py:274-303): (low-pass, high-pass). -/
noncomputable def separateFrequency (m : Mat ℝ) (axis0 : Bool) (win : FreqWindow) : Py (Mat ℝ × Mat ℝ) := do
  let mt := if axis0 then m.T else m
  let pad := pad10 mt.w
  let w ← win.resolve mt.w pad
  let smooth : Mat ℝ := ⟨mt.h, mt.w, fun i j => signFilterLine mt.w pad w (mt.get i) j⟩
  let sharp : Mat ℝ := ⟨mt.h, mt.w, fun i j => mt.get i j - smooth.get i j⟩
  return if axis0 then (smooth.T, sharp.T) else (smooth, sharp)

/-- `make_2d_gaussian_window` (utility.py:814-820). -/
noncomputable def gaussianWindow (h w : ℕ) (sx sy : ℝ) (i j : ℕ) : ℝ :=
  Real.exp (-(((j : ℝ) - ((w : ℝ) - 1) / 2) ^ 2 / (2 * sx ^ 2) + ((i : ℝ) - ((h : ℝ) - 1) / 2) ^ 2 / (2 * sy ^ 2)))

/-- `apply_gaussian_filter` after the padding (utility.py:862-870): `mp` is the padded image of an `h × w` image. -/
noncomputable def gaussianCore (h w : ℕ) (mp : ℕ → ℕ → ℝ) (sx sy : ℝ) (pad : ℕ) : Mat ℝ :=
  let nrow := h + 2 * pad
  let ncol := w + 2 * pad
  ⟨h, w, fun i j => (idft2 nrow ncol (fun k l => dft2 nrow ncol (fun i j => ((mp i j * (-1) ^ (j + i) : ℝ) : ℂ)) k l *
    ((gaussianWindow nrow ncol sx sy k l : ℝ) : ℂ)) (pad + i) (pad + j) * ((((-1 : ℝ) ^ ((pad + j) + (pad + i))) : ℝ) : ℂ)).re⟩

/-- `apply_gaussian_filter(mat, sigma_x, sigma_y, pad)` with the default modes: columns padded with mode "edge", then rows with mode
"mean" (utility.py:848-870). -/
noncomputable def gaussianFilter (m : Mat ℝ) (sx sy : ℝ) (pad : ℕ) : Mat ℝ :=
  let m1 : ℕ → ℕ → ℝ := fun i j => m.get i (edgeIdx m.w pad j)
  gaussianCore m.h m.w (fun i j => if pad ≤ i ∧ i < pad + m.h then m1 (i - pad) j else (∑ r ∈ Finset.range m.h, m1 r j) / m.h) sx sy pad

/-- `make_2d_butterworth_window(width, height, u, v, n)` (utility.py:439-447), for `v ≤ ycenter`. -/
noncomputable def butterworth (w h : ℕ) (u : ℝ) (v n : ℕ) (i j : ℕ) : ℝ :=
  open Classical in
  let xc : ℝ := (⌈(w : ℝ) / 2⌉ : ℝ) - 1
  let yc : ℤ := ⌈(h : ℝ) / 2⌉ - 1
  if yc - v ≤ i ∧ (i : ℤ) < yc + v + 1 then 1 / (1 + (((j : ℝ) - xc) / u) ^ (2 * n)) else 1

/-! ### ramp filter -/

/-- The spatial ramp kernel `ramp_win` before the transform (reconstruction.py:106-111). -/
noncomputable def rampKernel (w i : ℕ) : ℝ :=
  let d : ℤ := (i : ℤ) - ⌈((w : ℝ) - 1) / 2⌉
  if d = 0 then 1 / 4 else if d % 2 = 0 then 0 else -1 / ((d : ℝ) * Real.pi) ^ 2

/-- Row of `make_2d_ramp_window(height, width, filter_name)` (reconstruction.py:112-115); `smooth` is the smoothing window. -/
noncomputable def rampWindow (w : ℕ) (smooth : ℕ → ℝ) (l : ℕ) : ℂ :=
  dft w (fun i => (rampKernel w i : ℂ)) (fftshiftIdx w l) * ((smooth l : ℝ) : ℂ)

/-- `apply_ramp_filter(sinogram, None, filter_name, pad, pad_mode)` (reconstruction.py:144-153); `padIdx` is the source index given by the pad
mode. -/
noncomputable def applyRamp (m : Mat ℝ) (smooth : ℕ → ℝ) (pad : ℕ) (padIdx : ℕ → ℕ) : Mat ℝ :=
  let n := m.w + 2 * pad
  ⟨m.h, m.w, fun i j =>
    -- ifftshift (ifft (ifftshift (fftshift (fft row) * ramp_win)))
    (idft n (fun l =>
      let l' := ifftshiftIdx n l
      dft n (fun j => ((m.get i (padIdx j) : ℝ) : ℂ)) (fftshiftIdx n l') * rampWindow n smooth l') (ifftshiftIdx n (pad + j))).re⟩

end Verif.Fourier
