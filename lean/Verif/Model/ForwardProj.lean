import Verif.Model.Fourier
import Verif.Model.SliceMetric
import Verif.Num

/-!
Model of the forward projection by the Fourier slice theorem: `make_sinogram` (algotom/util/simulation.py:351-380).

Exact arithmetic (no rounding of the coordinates to float32).  `util.mapping` (fifth-order spline interpolation of the real and the imaginary part of the
spectrum) is the parameter `interp`: image, row, column.  The warning about angles beyond π is not modelled.
-/

namespace Verif.ForwardProj
open Verif.Fourier Verif.SliceMetric

/-- `pad_mode`: "edge" (default) and "constant" (zeros) are modelled. -/
inductive PadMode where
  | edge | constant
  deriving DecidableEq

/-- `np.pad(mat, pad, mode=pad_mode)` (simulation.py:359). -/
def padImage (mode : PadMode) (pad : ℕ) (m : Mat ℝ) : Mat ℝ :=
  ⟨m.h + 2 * pad, m.w + 2 * pad, fun i j =>
    match mode with
    | .edge => m.get (edgeIdx m.h pad i) (edgeIdx m.w pad j)
    | .constant => if (pad ≤ i ∧ i < pad + m.h) ∧ pad ≤ j ∧ j < pad + m.w then m.get (i - pad) (j - pad) else 0⟩

/-- An image of even size gets one more row and column (simulation.py:360-361). -/
def makeOdd (m : Mat ℝ) : Mat ℝ :=
  if m.h % 2 = 0 then ⟨m.h + 1, m.w + 1, fun i j => m.get (min i (m.h - 1)) (min j (m.w - 1))⟩ else m

/-- `fftshift(fft2(ifftshift(m)))` (simulation.py:372). -/
noncomputable def spectrum (m : Mat ℝ) (k l : ℕ) : ℂ :=
  dft2 m.h m.w (fun i j => ((m.get (ifftshiftIdx m.h i) (ifftshiftIdx m.w j) : ℝ) : ℂ)) (fftshiftIdx m.h k) (fftshiftIdx m.w l)

/-- `x_mat`, `y_mat` for the radius with index `k` (simulation.py:363-371), as (x, y). -/
noncomputable def coords (nrow ncol : ℕ) (angle : ℝ) (k : ℕ) : ℝ × ℝ :=
  let xc : ℝ := ((ncol : ℝ) - 1) * 0.5
  let yc : ℝ := ((nrow : ℝ) - 1) * 0.5
  let rmax : ℝ := (⌊max xc yc⌋ : ℤ)
  let r := linspace (-rmax) rmax ncol k
  (clip (xc + r * Real.cos (-angle)) 0 ((ncol : ℝ) - 1), clip (yc + r * Real.sin (-angle)) 0 ((nrow : ℝ) - 1))

/-- `sino_real + 1j * sino_imag`, one row (simulation.py:373-376). -/
noncomputable def slice (interp : Mat ℝ → ℝ → ℝ → ℝ) (m : Mat ℝ) (angle : ℝ) (k : ℕ) : ℂ :=
  let xy := coords m.h m.w angle k
  ⟨interp ⟨m.h, m.w, fun i j => (spectrum m i j).re⟩ xy.2 xy.1, interp ⟨m.h, m.w, fun i j => (spectrum m i j).im⟩ xy.2 xy.1⟩

/-- One row before cropping (simulation.py:377-379). -/
noncomputable def rowOf (n : ℕ) (s : ℕ → ℂ) (j : ℕ) : ℝ := (idft n (fun l => s (ifftshiftIdx n l)) (fftshiftIdx n j)).re

/-- `make_sinogram(mat, angles, pad_rate, pad_mode)` (simulation.py:351-380); `np.max` of no angle and a negative pad raise ValueError. -/
noncomputable def makeSinogram (interp : Mat ℝ → ℝ → ℝ → ℝ) (m : Mat ℝ) (angles : List ℝ) (padRate : ℝ) (mode : PadMode) : Py (Mat ℝ) :=
  if m.h ≠ m.w then .error .valueError
  else if angles = [] then .error .valueError
  else
    let pad := pyTrunc (padRate * m.h)
    if pad < 0 then .error .valueError
    else
      let pad := pad.toNat
      let mp := makeOdd (padImage mode pad m)
      .ok ⟨angles.length, m.w, fun i j => rowOf mp.w (slice interp mp (angles.getD i 0)) (pad + j)⟩

end Verif.ForwardProj
