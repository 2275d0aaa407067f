import Verif.Model.Recon
import Verif.Model.Calibration

/-!
Model of the direct Fourier inversion method: `generate_mapping_coordinate`, `__dfi_handle_angles`, `__dfi_handle_sinogram`,
`__dfi_single_slice`, `dfi_reconstruction` (algotom/rec/reconstruction.py:687-907).

Exact real and complex arithmetic.  The spline interpolations of scipy (`ndi.shift`, order 3; `ndi.map_coordinates`, order 5) are a
parameter; the theorems that need it assume that they reproduce the samples at the sample positions.
-/

namespace Verif.Dfi
open Verif.Fourier Verif.Simulation Verif.Recon Verif.BackProj Verif.Calibration

/-- The interpolation of scipy.ndimage: `line n g t` is the value at position `t ∈ [0, n-1]` of the samples `g 0 .. g (n-1)`;
`plane m y x` is the value of the array `m` at row `y`, column `x`. -/
structure Spline where
  line : ℕ → (ℕ → ℝ) → ℝ → ℝ
  plane : Mat ℂ → ℝ → ℝ → ℂ

/-- `np.clip(v, lo, hi)` for `lo ≤ hi`. -/
noncomputable def clip (v lo hi : ℝ) : ℝ := min (max v lo) hi

/-- `r_max` (reconstruction.py:712-714). -/
noncomputable def rMax (wr hr : ℕ) : ℝ := (⌊min (((wr : ℝ) - 1) * 0.5) (((hr : ℝ) - 1) * 0.5)⌋ : ℤ)

/-- Entry `(i, j)` of `theta_mat` before scaling and folding (reconstruction.py:715-719); column `j` of `x_mat` is
`(wr - 1 - j) - xcenter`. -/
noncomputable def theta0 (wr hr i j : ℕ) : ℝ :=
  Real.pi + arctan2 ((i : ℝ) - ((hr : ℝ) - 1) * 0.5) (((wr - 1 - j : ℕ) : ℝ) - ((wr : ℝ) - 1) * 0.5)

/-- `generate_mapping_coordinate(width_sino, height_sino, width_rec, height_rec)` (reconstruction.py:712-724): entries `(i, j)` of `r_mat`
and `theta_mat`; float32 rounding is not modelled. -/
noncomputable def mapCoord (ws hs wr hr i j : ℕ) : ℝ × ℝ :=
  let x : ℝ := ((wr - 1 - j : ℕ) : ℝ) - ((wr : ℝ) - 1) * 0.5
  let y : ℝ := (i : ℝ) - ((hr : ℝ) - 1) * 0.5
  let rm := rMax wr hr
  let r0 := clip (Real.sqrt (x ^ 2 + y ^ 2)) 0 rm
  let t := theta0 wr hr i j
  let r1 := if Real.pi < t then r0 * (-1) else r0
  let t1 := if Real.pi < t then t - Real.pi else t
  (clip (r1 + rm) 0 ((ws : ℝ) - 1), t1 * ((hs : ℝ) - 1) / Real.pi)

/-- `np.diff`. -/
def diff (l : List ℝ) : List ℝ := (l.drop 1).zipWith (· - ·) l

/-- Position in `[0, len - 1]` read by `ndi.shift(..., mode='wrap')` for the coordinate `t` (scipy `map_coordinate`, NI_EXTEND_WRAP): the
period is `len - 1`. -/
noncomputable def wrapPos (len : ℕ) (t : ℝ) : ℝ :=
  let sz : ℝ := (len : ℝ) - 1
  if t < 0 then t + sz * ((⌊-t / sz⌋ : ℤ) + 1)
  else if sz < t then t - sz * (⌊t / sz⌋ : ℤ)
  else t

/-- `__dfi_handle_angles(sinogram, angles)` (reconstruction.py:732-746).  Simplification: at least two rows. -/
noncomputable def handleAngles (I : Spline) (m : Mat ℝ) (angles : List ℝ) : Py (Mat ℝ) :=
  if angles.length ≠ m.h then .error .valueError
  else
    let tAng := ((diff (angles.map fun a => a * 180 / Real.pi)).map fun d => |d|).sum
    let fold : Prop := |tAng - 360| < 10
    let nrow := open Classical in if fold then m.h / 2 + 1 else m.h
    let s : ℕ → ℕ → ℝ := fun i c =>
      open Classical in if fold then (m.get i c + m.get (m.h - nrow + i) (m.w - 1 - c)) / 2 else m.get i c
    let step := ((diff angles).map fun d => |d|).sum / ((diff angles).length : ℝ)
    let a0 := angles.getD 0 0
    let b := a0 - (⌊a0 / (2 * Real.pi)⌋ : ℤ) * (2 * Real.pi)
    -- `np.vstack((sinogram[: nrow - 1], np.fliplr(sinogram)))`
    let len := nrow - 1 + nrow
    let s360 : ℕ → ℕ → ℝ := fun k c => if k < nrow - 1 then s k c else s (k - (nrow - 1)) (m.w - 1 - c)
    let shifted : ℕ → ℕ → ℝ := fun i c => I.line len (fun k => s360 k c) (wrapPos len ((i : ℝ) - b / step))
    if angles.getD (m.h - 1) 0 < a0 then .ok ⟨nrow, m.w, fun i c => shifted (nrow - 1 - i) (m.w - 1 - c)⟩
    else .ok ⟨nrow, m.w, shifted⟩

/-- The arguments of `dfi_reconstruction` (reconstruction.py:809-811); `ncore` only chooses the number of threads of a map over the slices. -/
structure DArgs where
  center : ℝ
  angles : Option (List ℝ)
  ratio : Option ℝ
  filter : Filter
  padRate : ℝ
  padIdx : ℕ → ℕ → ℕ → ℕ
  applyLog : Bool

/-- An even width is extended by one edge column (reconstruction.py:757-763). -/
def oddWidth (m : Mat ℝ) : Mat ℝ :=
  if m.w % 2 = 0 then ⟨m.h, m.w + 1, fun i j => m.get i (min j (m.w - 1))⟩ else m

/-- `ndi.shift(sinogram, (0, xshift), mode='nearest')` (reconstruction.py:765, 777). -/
noncomputable def centerShift (I : Spline) (center : ℝ) (m : Mat ℝ) : Mat ℝ :=
  let xshift := ((m.w : ℝ) - 1) / 2 - center
  ⟨m.h, m.w, fun i j => I.line m.w (m.get i) (clip ((j : ℝ) - xshift) 0 ((m.w : ℝ) - 1))⟩

/-- `np.pad(sinogram, ((0, 0), (pad, pad)), mode=pad_mode)` for a mode that copies samples (reconstruction.py:780). -/
def padCols (padIdx : ℕ → ℕ → ℕ → ℕ) (pad : ℕ) (m : Mat ℝ) : Mat ℝ := ⟨m.h, m.w + 2 * pad, fun i j => m.get i (padIdx m.w pad j)⟩

/-- `__dfi_handle_sinogram` for one sinogram (reconstruction.py:754-781); with several sinograms every step acts on each of them separately
(767-775). -/
noncomputable def handleSinogram (I : Spline) (a : DArgs) (m : Mat ℝ) : Py (Mat ℝ × ℕ) :=
  let m1 := oddWidth m
  let pad := truncInt (a.padRate * (m1.w : ℝ))
  let m2 := centerShift I a.center m1
  let r : Py (Mat ℝ) := match a.angles with
    | none => .ok m2
    | some l => handleAngles I m2 l
  match r with
  | .error e => .error e
  | .ok m3 => if pad < 0 then .error .valueError else .ok (padCols a.padIdx pad.toNat m3, pad.toNat)

/-- `sinogram[sinogram <= 0.0] = 1; -log(sinogram)` (reconstruction.py:862-867). -/
noncomputable def logMat (on : Bool) (m : Mat ℝ) : Mat ℝ :=
  if on then ⟨m.h, m.w, fun i j => -Real.log (if m.get i j ≤ 0 then 1 else m.get i j)⟩ else m

/-- `fftshift(fft(ifftshift(sinogram, axes=1)), axes=1) * window` (reconstruction.py:789-791). -/
noncomputable def spectrum (m : Mat ℝ) (f : Filter) : Mat ℂ :=
  ⟨m.h, m.w, fun i l =>
    dft m.w (fun j => ((m.get i (ifftshiftIdx m.w j) : ℝ) : ℂ)) (fftshiftIdx m.w l) * ((smoothingWindow f m.w l : ℝ) : ℂ)⟩

/-- `util.mapping(sino_fft, r_mat, theta_mat, order=5, mode="reflect") * mask` (reconstruction.py:803-804, 873-874). -/
noncomputable def regrid (I : Spline) (F : Mat ℂ) (i j : ℕ) : ℂ :=
  let rt := mapCoord F.w F.h F.w F.w i j
  I.plane F rt.2 rt.1 * (((circleMask F.w (1 : ℝ)).get i j : ℝ) : ℂ)

/-- `__dfi_single_slice` (reconstruction.py:789-806). -/
noncomputable def singleSlice (I : Spline) (m : Mat ℝ) (f : Filter) : Mat ℝ :=
  let n := m.w
  let F := spectrum m f
  ⟨n, n, fun i j =>
    (idft2 n n (fun k l => regrid I F (ifftshiftIdx n k) (ifftshiftIdx n l)) (fftshiftIdx n i) (fftshiftIdx n j)).re⟩

/-- The circle that is kept of the result (reconstruction.py:896-899). -/
noncomputable def DArgs.maskAt (a : DArgs) (ncol y x : ℕ) : ℝ :=
  match a.ratio with
  | none => 1
  | some r => (circleMask ncol (if r = 0 then min a.center (ncol - a.center) / (0.5 * ncol) else r)).get y x

/-- One sinogram from the padding to the masked image; `ncol` is the width of the caller's array (reconstruction.py:860-904). -/
noncomputable def dfiSlice (I : Spline) (a : DArgs) (ncol : ℕ) (m : Mat ℝ) : Py (Mat ℝ) :=
  match handleSinogram I a m with
  | .error e => .error e
  | .ok (s, pad) =>
    let rec0 := singleSlice I (logMat a.applyLog s) a.filter
    .ok ⟨ncol, ncol, fun y x => rec0.get (pad + y) (pad + x) * a.maskAt ncol y x⟩

/-- `np.squeeze(sinogram0)` and the unpacking of its shape (reconstruction.py:754-763): a list of sinograms; `ValueError` if fewer than two
axes are left. -/
def squeeze (x : Arr) : Py (List (Mat ℝ)) :=
  match x with
  | .one m => if m.h = 1 ∨ m.w = 1 then .error .valueError else .ok [m]
  | .chunk s =>
    if s.h = 1 then (if s.d = 1 ∨ s.w = 1 then .error .valueError else .ok [chunkSino s 0])
    else if s.d = 1 then (if s.w = 1 then .error .valueError else .ok [⟨s.h, s.w, fun i j => s.get 0 i j⟩])
    else if s.w = 1 then .ok [⟨s.d, s.h, fun i j => s.get i j 0⟩]
    else .ok ((List.range s.h).map (chunkSino s))

/-- `dfi_reconstruction(sinogram, center, ...)` (reconstruction.py:850-907).  Not modelled: empty arrays. -/
noncomputable def dfi (I : Spline) (a : DArgs) (x : Arr) : Py Arr :=
  let ncol := x.ncol
  open Classical in
  if a.center < 0 ∨ (ncol : ℝ) ≤ a.center then .error .valueError
  else do
    let l ← squeeze x
    let imgs ← l.mapM (dfiSlice I a ncol)
    match x with
    | .one _ => pure (.one (imgs.getD 0 ⟨0, 0, fun _ _ => 0⟩))
    | .chunk _ => pure (.chunk (stack ncol imgs))

end Verif.Dfi
