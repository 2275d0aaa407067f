import Verif.Model.GpuShifts
import Verif.Model.SpeckleTracking

/-!
Model of `find_local_shifts` on two single 2D images with a GPU (algotom/util/correlation.py:1889-1902, 1942-1970, 2014-2044, 2527-2542).  Exact real
arithmetic; one image is the stack of depth 1 of `Verif.Model.GpuShifts`.
-/

namespace Verif.GpuImage
open Verif.Correlation Verif.LocalShifts Verif.GpuShifts Verif.Sched

/-- Rows of a pair of images. -/
def imageRows (ref mat : Mat ℝ) : ℕ → Row × Row := fun i => (fun _ j => ref.get i j, fun _ j => mat.get i j)

/-- The normalisation of the `n` rows of one chunk: `normalize_image` of the two 2D slices (correlation.py:1954-1956). -/
noncomputable def chunkImage (norm : Bool) (w n : ℕ) (rows : ℕ → Row × Row) : ℕ → Row × Row :=
  if norm then fun i => (fun _ j => normalize2 n w (fun p q => (rows p).1 0 q) i j, fun _ j => normalize2 n w (fun p q => (rows p).2 0 q) i j)
  else rows

/-- Entry of a shift array; the kernel raises nothing. -/
def value (r : Py (ℝ × ℝ)) : ℝ × ℝ := match r with
  | .ok v => v
  | .error _ => (0, 0)

/-- `_get_2d_shift_full_image_2d_input_gpu` as called by `find_local_shifts`, which does not pass `norm_global` (correlation.py:2014-2044, 2539-2542): shape
checks, number of chunks, and for each chunk the search of correlation.py:1942-1970, whose result is stored in the rows of the chunk. -/
noncomputable def shiftsImage (ref mat : Mat ℝ) (winSize margin : ℕ) (chunkSize : Option ℤ) (block : ℕ × ℕ) (norm : Bool) : Py (Mat ℝ × Mat ℝ) :=
  let radi := winSize / 2
  let edge := margin + radi
  if ref.h ≠ mat.h ∨ ref.w ≠ mat.w then .error .valueError
  else if ref.h < 2 * edge + 1 then .error .valueError
  else (chunkLoop edge (ref.h - 2 * edge) (numChunk ref.h chunkSize) edge
      (fun n rows => multi2d (finishGpu margin) 1 ref.w radi margin block false n (chunkImage norm ref.w n rows))
      (imageRows ref mat) (fun _ => .ok (0, 0))).map fun out =>
    (⟨ref.h, ref.w, fun i j => (value (out i j)).1⟩, ⟨ref.h, ref.w, fun i j => (value (out i j)).2⟩)

/-- The `gpu` argument: False, True, "hybrid". -/
inductive Gpu where
  | off
  | on
  | hybrid

/-- Is the GPU function called?  `gpu=True` without a GPU falls back to the CPU; every other value than False takes the GPU branch
(correlation.py:2527-2542). -/
def useGpu (gpu : Gpu) (available : Bool) : Bool := match gpu with
  | .off => false
  | .on => available
  | .hybrid => true

/-- `find_local_shifts` on two 2D images (correlation.py:2527-2542).  `none`: the schedule is not a complete execution of the joblib pool. -/
noncomputable def findLocalShifts (gpu : Gpu) (available : Bool) (ref mat : Mat ℝ) (winSize margin : ℕ) (method : Method ℝ) (size : ℤ)
    (block : ℕ × ℕ) (ncore : ℕ) (norm : Bool) (chunkSize : Option ℤ) (sched : List Ev) : Option (Py (Mat ℝ × Mat ℝ)) :=
  if useGpu gpu available then some (shiftsImage ref mat winSize margin chunkSize block norm)
  else SpeckleTracking.shifts2d ref mat winSize margin true method size ncore norm sched

end Verif.GpuImage
