import Verif.Model.Vertical
import Verif.Model.Recon

/-!
Model of the drivers of algotom/rec/vertrec.py: `vertical_reconstruction` (450-695), `vertical_reconstruction_multiple` (709-977) and
`vertical_reconstruction_different_angles` (980-1252), with argument checks, filter before or after the back-projection, mask and scaling; the chunk
loop and the back-projection kernels are those of Model/Vertical.lean.

Exact real arithmetic.  The crop margins and `proj_start` are natural numbers (negative ones would count from the end of the axes) and `proj_stop` does not exceed the number of
projections (numpy's slicing would drop the missing ones).  With a single
projection the result is divided by `num_proj - 1 = 0` (inf or nan in numpy, 0 here).  The progress messages are not modelled.
-/

namespace Verif.VerticalDriver
open Verif.Vertical Verif.Recon Verif.Fourier Verif.BackProj

/-- `ramp_filter`: "before", "after", None, anything else. -/
inductive Ramp
  | before | after | none | other
  deriving DecidableEq

/-- The arguments shared by the three functions (vertrec.py:450-459, 709-718, 980-991); `padIdx` is the padding mode as in Model/Recon.lean. -/
structure VArgs where
  center : ℝ
  flat : Option (Mat ℝ)
  dark : Option (Mat ℝ)
  angles : Option (List ℝ)
  top : ℕ
  bottom : ℕ
  left : ℕ
  right : ℕ
  projStart : ℕ
  projStop : ℤ
  ramp : Ramp
  filter : Filter
  pad : Option ℕ
  padIdx : ℕ → ℕ → ℕ → ℕ
  applyLog : Bool
  masking : Bool

/-- `num_proj` (vertrec.py:527-529, 792-794, 1071-1073). -/
def VArgs.numProj (a : VArgs) (p : Arr3 ℝ) : ℤ := (if a.projStop = -1 then (p.d : ℤ) else a.projStop) - a.projStart

/-- `height` (vertrec.py:540, 543). -/
def VArgs.height (a : VArgs) (p : Arr3 ℝ) : ℤ := (p.h : ℤ) - a.bottom - a.top

/-- `width` (vertrec.py:541, 542). -/
def VArgs.width (a : VArgs) (p : Arr3 ℝ) : ℤ := (p.w : ℤ) - a.right - a.left

/-- Is a reference field given with another shape than the projections?  (vertrec.py:560-562, 566-568) -/
def badField (p : Arr3 ℝ) (f : Option (Mat ℝ)) : Prop := ∃ m, f = some m ∧ (m.h ≠ p.h ∨ m.w ≠ p.w)

/-- The checks common to the three functions (vertrec.py:518-548, 553-568; 783-813, 823-838; 1062-1093, 1098-1113): True if one of them raises
`ValueError`. -/
def VArgs.bad (a : VArgs) (p : Arr3 ℝ) : Prop :=
  a.ramp = .other ∨ a.numProj p < 1 ∨ (∃ l, a.angles = some l ∧ (l.length : ℤ) ≠ a.numProj p) ∨ a.height p < 1 ∨ a.width p < 1 ∨
    a.center < 0 ∨ a.center > ((a.width p - 1 : ℤ) : ℝ) ∨ badField p a.flat ∨ badField p a.dark

/-- Flat and dark field with their defaults; nothing if neither is given (vertrec.py:553-568). -/
def VArgs.flatDark (a : VArgs) (p : Arr3 ℝ) : Option (Mat ℝ × Mat ℝ) :=
  match a.flat, a.dark with
  | none, none => none
  | f, d => some (f.getD ⟨p.h, p.w, fun _ _ => 1⟩, d.getD ⟨p.h, p.w, fun _ _ => 0⟩)

/-- Angle `n`: given, or `deg2rad(linspace(0, 180, num_proj))` (vertrec.py:533-538). -/
noncomputable def VArgs.angle (a : VArgs) (numProj n : ℕ) : ℝ :=
  match a.angles with
  | none => Real.pi * n / ((numProj : ℝ) - 1)
  | some l => l.getD n 0

/-- `(cos(theta), sin(theta))` (vertrec.py:84-86, 146-148, 190-192, 270-272). -/
noncomputable def VArgs.cs (a : VArgs) (numProj n : ℕ) : ℝ × ℝ := (Real.cos (a.angle numProj n), Real.sin (a.angle numProj n))

/-- `pad` (vertrec.py:585-586, 856-857). -/
def VArgs.padOf (a : VArgs) (w : ℕ) : ℕ := a.pad.getD (defaultPad w)

/-- The filter of one projection (vertrec.py:588-591, 611-617). -/
noncomputable def VArgs.filtBefore (a : VArgs) (h w : ℕ) (m : Mat ℝ) : Mat ℝ :=
  if a.ramp = .before then applyRampFilter m (some (ramp2d h (w + 2 * a.padOf w) a.filter)) a.filter (a.padOf w) a.padIdx else m

/-- `edge_pad` (vertrec.py:587, 591). -/
def VArgs.edgePad (a : VArgs) : Bool := decide (a.ramp ≠ .before)

/-- What is done to the projections. -/
noncomputable def VArgs.opts (a : VArgs) (p : Arr3 ℝ) : Opts ℝ where
  top := a.top
  bot := p.h - a.bottom
  left := a.left
  right := p.w - a.right
  flatDark := a.flatDark p
  applyLog := a.applyLog
  lg := fun v => -Real.log v
  filt := a.filtBefore (a.height p).toNat (a.width p).toNat

/-- `__apply_ver_ramp_filter` with `ramp_win = abs(make_2d_ramp_window(...))` (vertrec.py:677-683, 702-706, 956-963). -/
noncomputable def filtAfter (f : Filter) (pad : ℕ) (padIdx : ℕ → ℕ → ℕ → ℕ) (m : Mat ℝ) : Mat ℝ :=
  let n := m.w + 2 * pad
  ⟨m.h, m.w, fun i j =>
    (idft n (fun l =>
      let l' := ifftshiftIdx n l
      dft n (fun j => ((m.get i (padIdx m.w pad j) : ℝ) : ℂ)) (fftshiftIdx n l') * ((‖(ramp2d m.h n f).get i l'‖ : ℝ) : ℂ)) (pad + j)).re⟩

/-- Column `j` of the mask (vertrec.py:688-693): `int(min(center, width - center))` ones on each side of the middle. -/
noncomputable def maskCol (center : ℝ) (w j : ℕ) : ℝ :=
  let rad := ⌊min center ((w : ℝ) - center)⌋₊
  let padLeft := (w - 2 * rad) / 2
  if padLeft ≤ j ∧ j < padLeft + 2 * rad then 1 else 0

/-- From the accumulated slice to the result: filter, mask, scaling (vertrec.py:677-695, 956-977, 1231-1252). -/
noncomputable def VArgs.finish (a : VArgs) (numProj h w : ℕ) (acc : ℕ → ℕ → ℝ) : Mat ℝ :=
  let m : Mat ℝ := ⟨h, w, acc⟩
  let r := if a.ramp = .after then filtAfter a.filter (a.padOf w) a.padIdx m else m
  ⟨h, w, fun i j => r.get i j * (if a.masking then maskCol a.center w j else 1) * Real.pi / ((numProj : ℝ) - 1)⟩

/-- A call of a single-slice kernel: points of the line, edge padding, number of the chunk, chunk, angles. -/
abbrev Kernel := (ℕ → ℝ) → (ℕ → ℝ) → Bool → ℕ → Arr3 ℝ → (ℕ → ℝ × ℝ) → Py (ℕ × ℕ → ℝ)

/-- A call of a multi-slice kernel. -/
abbrev KernelS := (ℕ → ℕ → ℝ) → (ℕ → ℕ → ℝ) → Bool → ℕ → Arr3 ℝ → (ℕ → ℝ × ℝ) → Py (ℕ × ℕ × ℕ → ℝ)

/-- Is the slice index outside the image?  (vertrec.py:549-551) -/
def VArgs.outside (a : VArgs) (p : Arr3 ℝ) (idx : ℝ) : Prop := idx < 0 ∨ idx > ((a.width p - 1 : ℤ) : ℝ)

open Classical in
/-- `vertical_reconstruction(projections, slice_index, center, alpha, ...)` (vertrec.py:518-695). -/
noncomputable def single (a : VArgs) (bp : Kernel) (chunkSize : Option ℤ) (p : Arr3 ℝ) (sliceIndex alpha : ℝ) : Py (Mat ℝ) :=
  if a.bad p ∨ a.outside p sliceIndex then .error .valueError
  else
    let N := (a.numProj p).toNat
    let w := (a.width p).toNat
    (getPointsSingleLine sliceIndex alpha w).bind fun pts =>
      (accumulate (a.opts p) p a.projStart (a.cs N) (bp pts.1 pts.2 a.edgePad) N chunkSize).bind fun acc =>
        .ok (a.finish N (a.height p).toNat w fun i j => acc (i, j))

/-- The part common to the multi-slice functions, from the points of the lines on.  Without a line `np.float32([])` is one-dimensional and the kernels
do not compile (vertrec.py:418, 447: numba's TypingError). -/
noncomputable def slices (a : VArgs) (bp : KernelS) (chunkSize : Option ℤ) (p : Arr3 ℝ) (lines : List ((ℕ → ℝ) × (ℕ → ℝ))) : Py (List (Mat ℝ)) :=
  if lines.length = 0 then .error .typeError
  else
    let N := (a.numProj p).toNat
    let d : (ℕ → ℝ) × (ℕ → ℝ) := (fun _ => 0, fun _ => 0)
    (accumulate (a.opts p) p a.projStart (a.cs N) (bp (fun s => (lines.getD s d).1) (fun s => (lines.getD s d).2) a.edgePad) N chunkSize).bind fun acc =>
      .ok ((List.range lines.length).map fun s => a.finish N (a.height p).toNat (a.width p).toNat fun i j => acc (s, i, j))

open Classical in
/-- `vertical_reconstruction_multiple(projections, start_index, stop_index, center, alpha, step_index, ...)` (vertrec.py:783-977); integer indices,
`step_index >= 0` (`np.arange` raises for 0). -/
noncomputable def multiple (a : VArgs) (bp : KernelS) (chunkSize : Option ℤ) (p : Arr3 ℝ) (start stop : ℤ) (step : ℕ) (alpha : ℝ) : Py (List (Mat ℝ)) :=
  let stop' : ℤ := if stop = -1 then a.width p - 1 else stop
  if a.bad p ∨ a.outside p start ∨ a.outside p stop' then .error .valueError
  else if step = 0 then .error .zeroDivision
  else (getPointsMultipleLines start stop' alpha (a.width p).toNat step).bind fun lines => slices a bp chunkSize p lines

open Classical in
/-- `vertical_reconstruction_different_angles(projections, slice_indices, alphas, center, ...)` (vertrec.py:1059-1252); both are lists. -/
noncomputable def different (a : VArgs) (bp : KernelS) (chunkSize : Option ℤ) (p : Arr3 ℝ) (indices alphas : List ℝ) : Py (List (Mat ℝ)) :=
  if indices.length ≠ alphas.length ∨ a.bad p ∨ ∃ idx ∈ indices, a.outside p idx then .error .valueError
  else (getPointsDifferentAngles (indices.zip alphas) (a.width p).toNat).bind fun lines => slices a bp chunkSize p lines

end Verif.VerticalDriver
