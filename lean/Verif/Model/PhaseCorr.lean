import Verif.Model.Fourier
import Verif.Model.Center
import Verif.Model.Peak
import Mathlib.Data.Real.Archimedean

/-!
Model of algotom/prep/calculation.py:727-828: image shift and centre of rotation by phase correlation.  Exact arithmetic; `fft2`/`ifft2` as the transforms
they define (Model/Fourier); `np.polyfit` of degree 2 on three points is exact (`Center.refine`).
-/

namespace Verif.PhaseCorr
open Verif.Fourier

/-- Horizontal part of `complex_gradient` (calculation.py:731-734): `np.roll(mat, -2, axis=1) - mat`, zero in the first and last two columns. -/
def gradX (m : Mat ℝ) (i j : ℕ) : ℝ :=
  if j < 2 ∨ m.w ≤ j + 2 then 0 else m.get i ((j + 2) % m.w) - m.get i j

/-- Vertical part of `complex_gradient` (calculation.py:735-738). -/
def gradY (m : Mat ℝ) (i j : ℕ) : ℝ :=
  if i < 2 ∨ m.h ≤ i + 2 then 0 else m.get ((i + 2) % m.h) j - m.get i j

/-- `complex_gradient(mat)` (calculation.py:727-740). -/
noncomputable def complexGradient (m : Mat ℝ) : Mat ℂ := ⟨m.h, m.w, fun i j => (gradX m i j : ℂ) + Complex.I * (gradY m i j : ℂ)⟩

/-- The image used for the correlation (calculation.py:767-769). -/
noncomputable def used (gradient : Bool) (m : Mat ℝ) : Mat ℂ :=
  if gradient then complexGradient m else ⟨m.h, m.w, fun i j => (m.get i j : ℂ)⟩

/-- `mat_tmp1 = fft2(mat1) * conjugate(fft2(mat2))` (calculation.py:771). -/
noncomputable def cross (g1 g2 : Mat ℂ) (k l : ℕ) : ℂ :=
  dft2 g1.h g1.w g1.get k l * (starRingEnd ℂ) (dft2 g2.h g2.w g2.get k l)

/-- `mat3 = |ifft2(mat_tmp1 / mat_tmp2)|`, where the magnitude `mat_tmp2` is replaced by 1 where it is 0 (calculation.py:772-774). -/
noncomputable def corrMap (g1 g2 : Mat ℂ) : Mat ℝ :=
  ⟨g1.h, g1.w, fun i j => ‖idft2 g1.h g1.w (fun k l => cross g1 g2 k l / ((if ‖cross g1 g2 k l‖ = 0 then 1 else ‖cross g1 g2 k l‖ : ℝ) : ℂ)) i j‖⟩

/-- Peak, three-point parabolas with wrapped neighbours, signed shifts (calculation.py:775-799); returns `(ty, tx)`. -/
noncomputable def locate (m : Mat ℝ) : Py (ℝ × ℝ) :=
  (Correlation.argmax2 m).bind fun p =>
    let ty := p.1
    let tx := p.2
    let x := Center.refine (tx : ℝ) (m.get ty ((tx + m.w - 1) % m.w)) (m.get ty tx) (m.get ty ((tx + 1) % m.w))
    let y := Center.refine (ty : ℝ) (m.get ((ty + m.h - 1) % m.h) tx) (m.get ty tx) (m.get ((ty + 1) % m.h) tx)
    .ok (Center.wrapShift m.h y, Center.wrapShift m.w x)

/-- `find_shift_based_phase_correlation(mat1, mat2, gradient)` (calculation.py:743-799).  Images of different shapes cannot be multiplied (`ValueError`; images
with one row or column, which numpy would broadcast, are counted as errors too).  `fft2` of an empty image raises `ValueError`. -/
noncomputable def findShift (gradient : Bool) (m1 m2 : Mat ℝ) : Py (ℝ × ℝ) :=
  if m1.h ≠ m2.h ∨ m1.w ≠ m2.w then .error .valueError
  else locate (corrMap (used gradient m1) (used gradient m2))

/-- `find_center_based_phase_correlation(mat1, mat2, flip, gradient)` (calculation.py:823-828). -/
noncomputable def findCenter (flip gradient : Bool) (m1 m2 : Mat ℝ) : Py ℝ :=
  (findShift gradient m1 (if flip then m2.fliplr else m2)).bind fun t => .ok (Center.centerPhase m1.w t.2)

end Verif.PhaseCorr
