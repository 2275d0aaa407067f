import Verif.Model.Peak
import Verif.Model.CenterMetric

/-!
Model of `detect_sample` (algotom/util/utility.py:966-1011).  Exact real arithmetic; `scipy.ndimage.gaussian_filter` is a parameter `G` (size, image).
-/

namespace Verif.Detect
open Verif.Fourier Verif.Correlation Verif.CenterMetric

/-- The sinogram that is transformed (utility.py:990-991): a 180-degree sinogram is continued by its mirror image. -/
def full (ty : String) (m : Mat ℝ) : Mat ℝ := if ty = "180" then vstack m m.fliplr else m

/-- The upper left part of the shifted spectrum without the rows and columns next to the middle (utility.py:992-997);
`int(np.ceil(0.05 * n))` is `(n + 19) / 20`. -/
noncomputable def quadrant (m : Mat ℝ) : Mat ℝ :=
  let yc := m.h / 2
  let xc := m.w / 2
  let radi := min 20 ((min yc xc + 19) / 20)
  ⟨yc - radi, xc - radi, fun i j => ‖dft2 m.h m.w (fun i j => (m.get i j : ℂ)) (fftshiftIdx m.h i) (fftshiftIdx m.w j)‖⟩

/-- `size` (utility.py:998); `int(np.ceil(0.02 * n))` is `(n + 49) / 50`. -/
def smoothSize (m : Mat ℝ) : ℕ := min 30 ((min m.h m.w + 49) / 50)

/-- The decision on the smoothed spectrum (utility.py:1000-1011).  `sino_smooth[row]` without rows raises IndexError, `np.argmax` without columns
ValueError (that `gaussian_filter` lets arrays without pixels pass is assumed). -/
noncomputable def decideOn (q : Mat ℝ) : Py Bool :=
  let row := 4 * q.h / 5
  if q.h ≤ row then .error .indexError
  else do
    let pos ← npArgmax q.w (q.get row)
    let list ← (List.range (q.h - row)).mapM fun i => do
      let pos1 ← npArgmax q.w (q.get (row + i))
      .ok (decide (pos < pos1))
    .ok (decide (¬ ((list.count true : ℚ) / (list.length : ℚ) < 2 / 5)))

/-- `detect_sample(sinogram, sino_type)` (utility.py:987-1011). -/
noncomputable def detect (G : ℕ → Mat ℝ → Mat ℝ) (ty : String) (m : Mat ℝ) : Py Bool :=
  if ¬ (ty = "180" ∨ ty = "360") then .error .valueError
  else decideOn (G (smoothSize (full ty m)) (quadrant (full ty m)))

end Verif.Detect
