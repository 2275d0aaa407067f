import Verif.Model.BackProj
import Verif.Model.Fourier
import Verif.Model.Polar
import Verif.Model.Simulation

/-!
Model of the smoothing windows and of the drivers `fbp_reconstruction` and `bpf_reconstruction`
(algotom/rec/reconstruction.py:50-153, 362-684).

Exact real arithmetic (float32 rounding is not modelled).  The back-projection of a slice is the GPU kernel of Model/BackProj.lean with an
arbitrary order of its threads; by C03 the chunk kernel gives the same slice by slice, and the CPU routine gives the same unless two threads
lose an update (C02).
-/

namespace Verif.Recon
open Verif.Fourier Verif.BackProj Verif.Simulation

/-! ### Smoothing windows -/

/-- `filter_name` (reconstruction.py:67-82); `other`: None and every other string. -/
inductive Filter where
  | hann | bartlett | blackman | hamming | nuttall | parzen | triang | other
  deriving DecidableEq

/-- `scipy.signal.windows.general_cosine(M, a)` with at most four coefficients: `sum_k a[k] cos(k * linspace(-pi, pi, M))`, ones for `M <= 1`. -/
noncomputable def generalCosine (a0 a1 a2 a3 : ℝ) (M n : ℕ) : ℝ :=
  if M ≤ 1 then 1
  else
    let fac : ℝ := -Real.pi + 2 * Real.pi * n / ((M : ℝ) - 1)
    a0 + a1 * Real.cos fac + a2 * Real.cos (2 * fac) + a3 * Real.cos (3 * fac)

/-- `scipy.signal.windows.bartlett(M)`. -/
noncomputable def bartlett (M n : ℕ) : ℝ :=
  if M ≤ 1 then 1
  else if 2 * n ≤ M - 1 then 2 * (n : ℝ) / ((M : ℝ) - 1) else 2 - 2 * (n : ℝ) / ((M : ℝ) - 1)

/-- `scipy.signal.windows.triang(M)`: the rising half `n = 1 .. (M+1)//2`, then its mirror image. -/
noncomputable def triang (M n : ℕ) : ℝ :=
  if M ≤ 1 then 1
  else
    let k := if n < (M + 1) / 2 then n + 1 else M - n
    if M % 2 = 0 then (2 * (k : ℝ) - 1) / M else 2 * (k : ℝ) / ((M : ℝ) + 1)

/-- `scipy.signal.windows.parzen(M)`. -/
noncomputable def parzen (M n : ℕ) : ℝ :=
  if M ≤ 1 then 1
  else
    let t : ℝ := |(n : ℝ) - ((M : ℝ) - 1) / 2|
    let u : ℝ := t / ((M : ℝ) / 2)
    if t ≤ ((M : ℝ) - 1) / 4 then 1 - 6 * u ^ 2 + 6 * u ^ 3 else 2 * (1 - u) ^ 3

/-- `make_smoothing_window(filter_name, width)` (reconstruction.py:67-83). -/
noncomputable def smoothingWindow (f : Filter) (M n : ℕ) : ℝ :=
  match f with
  | .hann => generalCosine 0.5 0.5 0 0 M n
  | .hamming => generalCosine 0.54 0.46 0 0 M n
  | .blackman => generalCosine 0.42 0.5 0.08 0 M n
  | .nuttall => generalCosine 0.3635819 0.4891775 0.1365995 0.0106411 M n
  | .bartlett => bartlett M n
  | .parzen => parzen M n
  | .triang => triang M n
  | .other => 1

/-! ### Filters -/

/-- `pad = min(int(0.15 * ncol), 150)` (reconstruction.py:146, 442, 554, 643), in exact arithmetic. -/
def defaultPad (ncol : ℕ) : ℕ := min (3 * ncol / 20) 150

/-- `make_2d_ramp_window(height, width, filter_name)` (reconstruction.py:106-115). -/
noncomputable def ramp2d (h w : ℕ) (f : Filter) : Mat ℂ := ⟨h, w, fun _ l => rampWindow w (smoothingWindow f w) l⟩

/-- `if (ramp_win is None) or (ramp_win.shape != ...): ramp_win = ...` (reconstruction.py:148-149, 556-557). -/
def fitting {R : Type} (win : Option (Mat R)) (h w : ℕ) (dflt : Mat R) : Mat R :=
  match win with
  | some v => if v.h = h ∧ v.w = w then v else dflt
  | none => dflt

/-- `apply_ramp_filter(sinogram, ramp_win, filter_name, pad, pad_mode)` (reconstruction.py:144-153); `padIdx n p j` is the source index of
entry `j` of an axis of length `n` padded by `p` (modes that copy samples: "edge", "reflect", "symmetric", "wrap").  `pad` is not None. -/
noncomputable def applyRampFilter (m : Mat ℝ) (win : Option (Mat ℂ)) (f : Filter) (pad : ℕ) (padIdx : ℕ → ℕ → ℕ → ℕ) : Mat ℝ :=
  let n := m.w + 2 * pad
  let dflt := ramp2d m.h n f
  let W := fitting win m.h n dflt
  ⟨m.h, m.w, fun i j =>
    (idft n (fun l =>
      let l' := ifftshiftIdx n l
      dft n (fun j => ((m.get i (padIdx m.w pad j) : ℝ) : ℂ)) (fftshiftIdx n l') * W.get i l') (ifftshiftIdx n (pad + j))).re⟩

/-- `make_circular_ramp_window(width, filter_name)` (reconstruction.py:514-524).  `transform_1d_window_to_2d` is called with
mode="nearest"; linear interpolation reaches at most one sample beyond the last one, where it agrees with the "reflect" of
`Polar.window2d`. -/
noncomputable def circRamp (w : ℕ) (f : Filter) : Mat ℝ :=
  Polar.window2d w fun l => ‖dft w (fun i => (rampKernel w i : ℂ)) (fftshiftIdx w l)‖ * smoothingWindow f w l

/-- `apply_circular_ramp_filter(rec_img, ramp_win, filter_name, pad, pad_mode)` (reconstruction.py:552-560) for a square image. -/
noncomputable def applyCircFilter (m : Mat ℝ) (win : Option (Mat ℝ)) (f : Filter) (pad : ℕ) (padIdx : ℕ → ℕ → ℕ → ℕ) : Mat ℝ :=
  let n := m.h + 2 * pad
  let W := fitting win n n (circRamp n f)
  let p : Mat ℝ := ⟨n, n, fun i j => m.get (padIdx m.h pad i) (padIdx m.h pad j)⟩
  let r := filter2 p fun k l => ((W.get (ifftshiftIdx n k) (ifftshiftIdx n l) : ℝ) : ℂ)
  ⟨m.h, m.h, fun i j => r.get (pad + i) (pad + j)⟩

/-! ### Drivers -/

/-- A sinogram `(nrow, ncol)` or a chunk `(nrow, num_sino, ncol)`; also the type of the result: an image or `(ncol, num_sino, ncol)`. -/
inductive Arr where
  | one (m : Mat ℝ)
  | chunk (s : Arr3 ℝ)

/-- First axis (reconstruction.py:406-411). -/
def Arr.nrow : Arr → ℕ
  | .one m => m.h
  | .chunk s => s.d

/-- Last axis. -/
def Arr.ncol : Arr → ℕ
  | .one m => m.w
  | .chunk s => s.w

/-- `num_sino`. -/
def Arr.num : Arr → ℕ
  | .one _ => 1
  | .chunk s => s.h

/-- Slice `[:, j, :]`; the array itself if it is 2D. -/
def Arr.slice (x : Arr) (j : ℕ) : Mat ℝ :=
  match x with
  | .one m => m
  | .chunk s => chunkSino s j

/-- The arguments of `fbp_reconstruction` and `bpf_reconstruction`; `isInt`: the sinogram has an integer dtype; `ncore` after clipping
(reconstruction.py:427-430); `bx`, `order`: block size and order of the GPU threads. -/
structure Args (W : Type) where
  center : ℝ
  angles : Option (List ℝ)
  ratio : Option ℝ
  rampWin : Option W
  filter : Filter
  pad : Option ℕ
  padIdx : ℕ → ℕ → ℕ → ℕ
  applyLog : Bool
  isInt : Bool
  ncore : ℕ
  bx : ℕ
  order : List ℕ

variable {W : Type}

/-- Angle `i` (reconstruction.py:414-419). -/
noncomputable def Args.angle (a : Args W) (nrow i : ℕ) : ℝ :=
  match a.angles with
  | none => Real.pi * i / ((nrow : ℝ) - 1)
  | some l => l.getD i 0

/-- `(cos(-angle), sin(-angle))` as used by the kernels (reconstruction.py:170-171). -/
noncomputable def Args.cs (a : Args W) (nrow i : ℕ) : ℝ × ℝ := (Real.cos (-a.angle nrow i), Real.sin (-a.angle nrow i))

/-- `if apply_log: sinogram[sinogram <= 0] = 1; sinogram = -log(sinogram)` (reconstruction.py:431-436); the effect on the caller's array is
the subject of Model/LogStep.lean. -/
noncomputable def Args.logv (a : Args W) (v : ℝ) : ℝ := if a.applyLog then -Real.log (if v ≤ 0 then 1 else v) else v

/-- The same for a slice. -/
noncomputable def Args.logm (a : Args W) (m : Mat ℝ) : Mat ℝ := ⟨m.h, m.w, fun i j => a.logv (m.get i j)⟩

/-- `pad` (reconstruction.py:441-442). -/
def Args.padOf (a : Args W) (ncol : ℕ) : ℕ := a.pad.getD (defaultPad ncol)

/-- The factor by which `recon * mask` multiplies entry `(y, x)` (reconstruction.py:437-440, 458-459). -/
noncomputable def Args.maskAt (a : Args W) (ncol y x : ℕ) : ℝ :=
  match a.ratio with
  | none => 1
  | some r =>
    (circleMask ncol (if r = 0 then min a.center (ncol - a.center) / (0.5 * ncol) else r)).get y x

/-- The argument checks (reconstruction.py:412-419): True if one of them raises `ValueError`. -/
def Args.bad (a : Args W) (nrow ncol : ℕ) : Prop :=
  a.center < 0 ∨ (ncol : ℝ) ≤ a.center ∨ ∃ l, a.angles = some l ∧ l.length ≠ nrow

/-- `recon * mask`, then `* pi / (nrow - 1)` (reconstruction.py:458-459, 493). -/
noncomputable def Args.finish (a : Args W) (nrow ncol : ℕ) (img : ℕ → ℕ → ℝ) (y x : ℕ) : ℝ :=
  img y x * a.maskAt ncol y x * Real.pi / ((nrow : ℝ) - 1)

/-- Stack of images as array `(ncol, num_sino, ncol)`. -/
def stack (w : ℕ) (l : List (Mat ℝ)) : Arr3 ℝ := ⟨w, l.length, w, fun y j x => (l.getD j ⟨0, 0, fun _ _ => 0⟩).get y x⟩

/-- What is stored into `np.zeros_like(sinogram)` (reconstruction.py:462-464): integers if the array has an integer dtype (after the
logarithm it has not). -/
noncomputable def Args.store (a : Args W) (v : ℝ) : ℝ := if a.isInt ∧ a.applyLog = false then (truncInt v : ℝ) else v

/-- The filtered sinogram of a slice of a chunk (reconstruction.py:461-475). -/
noncomputable def filterChunkSlice (a : Args (Mat ℂ)) (win : Mat ℂ) (pad : ℕ) (m : Mat ℝ) : Mat ℝ :=
  let f := applyRampFilter m (some win) a.filter pad a.padIdx
  if a.ncore = 1 then ⟨f.h, f.w, fun i j => a.store (f.get i j)⟩ else f

/-- Back-projection of a slice as a matrix. -/
noncomputable def bpImage (a : Args W) (nrow : ℕ) (edge : Bool) (m : Mat ℝ) : Py (Mat ℝ) := do
  let img ← backProjectionGpu m (a.cs nrow) a.center edge a.bx a.order
  pure ⟨m.w, m.w, fun y x => img (y, x)⟩

open Classical in
/-- `fbp_reconstruction(sinogram, center, ...)` (reconstruction.py:405-493).  `np.squeeze` of a single sinogram with one row or one column
is no longer 2D and makes `apply_ramp_filter` raise `ValueError` (446-447, 144).  Simplifications: a chunk with one row divides by
`nrow - 1 = 0` (values inf/nan in numpy, 0 here); a chunk of no slices is not modelled (joblib raises). -/
noncomputable def fbp (a : Args (Mat ℂ)) (x : Arr) : Py Arr :=
  let nrow := x.nrow
  let ncol := x.ncol
  if a.bad nrow ncol then .error .valueError
  else
    let pad := a.padOf ncol
    let win := a.rampWin.getD (ramp2d nrow (ncol + 2 * pad) a.filter)
    if x.num = 1 then
      if nrow = 1 ∨ ncol = 1 then .error .valueError
      else do
        let f := applyRampFilter (a.logm (x.slice 0)) (some win) a.filter pad a.padIdx
        let img ← bpImage a nrow false f
        let out : Mat ℝ := ⟨ncol, ncol, a.finish nrow ncol img.get⟩
        match x with
        | .one _ => pure (.one out)
        | .chunk _ => pure (.chunk (stack ncol [out]))
    else do
      let imgs ← (List.range x.num).mapM fun j => do
        let img ← bpImage a nrow false (filterChunkSlice a win pad (a.logm (x.slice j)))
        pure (⟨ncol, ncol, a.finish nrow ncol img.get⟩ : Mat ℝ)
      pure (.chunk (stack ncol imgs))

open Classical in
/-- `bpf_reconstruction(sinogram, center, ...)` (reconstruction.py:606-684).  The filter of a single slice is called without `filter_name`
(658-659), that of a chunk with it (675-678); `parallel_process_slices` is the map over the slices (C01).  A squeezed single sinogram with
one row or one column is not 2D and makes numba raise a typing error (654-657).  Simplifications as in `fbp`. -/
noncomputable def bpf (a : Args (Mat ℝ)) (x : Arr) : Py Arr :=
  let nrow := x.nrow
  let ncol := x.ncol
  if a.bad nrow ncol then .error .valueError
  else
    let pad := a.padOf ncol
    let win := a.rampWin.getD (circRamp (ncol + 2 * pad) a.filter)
    if x.num = 1 then
      if nrow = 1 ∨ ncol = 1 then .error .typeError
      else do
        let img ← bpImage a nrow true (a.logm (x.slice 0))
        let r := applyCircFilter img (some win) .other pad a.padIdx
        let out : Mat ℝ := ⟨ncol, ncol, a.finish nrow ncol r.get⟩
        match x with
        | .one _ => pure (.one out)
        | .chunk _ => pure (.chunk (stack ncol [out]))
    else do
      let imgs ← (List.range x.num).mapM fun j => do
        let img ← bpImage a nrow true (a.logm (x.slice j))
        let r := applyCircFilter img (some win) a.filter pad a.padIdx
        pure (⟨ncol, ncol, a.finish nrow ncol r.get⟩ : Mat ℝ)
      pure (.chunk (stack ncol imgs))

end Verif.Recon
