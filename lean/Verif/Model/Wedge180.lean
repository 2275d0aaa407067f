import Verif.Model.Dfi

/-!
Model of `convert_sinogram_180_to_360` (algotom/prep/conversion.py:387-392) and of all of `double_wedge_filter` (algotom/prep/filtering.py:198-223).

Exact real arithmetic.  `scipy.ndimage.shift` along the columns is the interpolation `I.line` of Model/Dfi.lean with mode "nearest".
-/

namespace Verif.Wedge180
open Verif.Dfi Verif.Fourier

/-- `shift(m, (0, s), mode='nearest')` (conversion.py:390-391). -/
noncomputable def shiftCols (I : Spline) (s : ℝ) (m : Mat ℝ) : Mat ℝ :=
  ⟨m.h, m.w, fun i j => I.line m.w (m.get i) (clip ((j : ℝ) - s) 0 ((m.w : ℝ) - 1))⟩

/-- `sino_flip` (conversion.py:387-391). -/
noncomputable def flipAbout (I : Spline) (center : ℝ) (m : Mat ℝ) : Mat ℝ :=
  let s := ((m.w : ℝ) - 1) / 2 - center
  shiftCols I (-s) (shiftCols I s m).fliplr

/-- `convert_sinogram_180_to_360` (conversion.py:387-392). -/
noncomputable def to360 (I : Spline) (center : ℝ) (m : Mat ℝ) : Mat ℝ :=
  ⟨m.h + (m.h - 1), m.w, fun i j => if i < m.h then m.get i j else (flipAbout I center m).get (i - m.h + 1) j⟩

/-- A mask is given whose shape is not that of the padded sinogram (filtering.py:210-214). -/
def BadMask (m : Mat ℝ) (mask : Option (Mat ℝ)) (pad : ℕ) : Prop := ∃ k, mask = some k ∧ (k.h ≠ m.h ∨ k.w ≠ m.w + 2 * pad)

/-- `double_wedge_filter` (filtering.py:198-223). -/
noncomputable def doubleWedge (I : Spline) (m : Mat ℝ) (center : ℝ) (sinoType : String) (iteration : ℕ) (mask : Option (Mat ℝ)) (ratio : ℝ) (pad : ℕ) : Py (Mat ℝ) :=
  open Classical in
  if ¬ (sinoType = "180" ∨ sinoType = "360") then .error .valueError
  else if sinoType = "180" ∧ center = 0 then .error .valueError
  else
    let m1 := if sinoType = "180" then to360 I center m else m
    if BadMask m1 mask pad then .error .valueError
    else
      let out := wedgeFilter m1 iteration (mask.map Mat.get) ratio pad
      .ok (if sinoType = "180" then ⟨min m.h out.h, out.w, out.get⟩ else out)

end Verif.Wedge180
