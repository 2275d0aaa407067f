import Verif.Model.GlobalNormStack
import Verif.Model.GpuImage

/-! `find_local_shifts` on two stacks of images: the choice of the function by `gpu` and `dim` (algotom/util/correlation.py:2527-2593).  Exact real
arithmetic; the cast to float32 at the end is not modelled. -/

namespace Verif.StackDispatch
open Verif.Correlation Verif.LocalShifts Verif.GpuShifts Verif.GpuImage

/-- Shifts at every pixel, x first; an entry is an error if the search of that pixel raises. -/
abbrev Shifts := ℕ → ℕ → Py (ℝ × ℝ)

/-- The two searches in one direction after each other (correlation.py:2545-2556, 2575-2584); `Y c` is column `c` of the search along y. -/
def oneDirection (w : ℕ) (X : Py (ℕ → ℕ → Py ℝ)) (Y : ℕ → Py (ℕ → Py ℝ)) : Py Shifts := do
  let x ← X
  let cols ← (List.range w).mapM Y
  .ok fun i j => (x i j).bind fun a => ((cols.getD j fun _ => .ok 0) i).bind fun b => .ok (a, b)

/-- Arguments of `find_local_shifts` other than the stacks; `dim1`: `dim == 1` (correlation.py:2473-2476). -/
structure Args where
  dim1 : Bool
  radi : ℕ
  margin : ℕ
  method : Method ℝ
  size : Int
  block : ℕ × ℕ
  norm : Bool
  normGlobal : Bool
  chunkSize : Option ℤ

/-- The search on the CPU (correlation.py:2543-2566). -/
noncomputable def onCpu (a : Args) (ref mat : Arr3 ℝ) : Py Shifts :=
  if a.dim1 then
    oneDirection ref.w (shiftsXG a.normGlobal ref mat a.radi a.margin a.chunkSize a.norm a.method a.size)
      fun c => shiftsYG a.normGlobal ref mat c a.radi a.margin a.chunkSize a.norm a.method a.size
  else shifts2dG a.normGlobal ref mat a.radi a.margin a.chunkSize a.norm true a.method a.size

/-- The search on the GPU (correlation.py:2574-2592). -/
noncomputable def onGpu (a : Args) (ref mat : Arr3 ℝ) : Py Shifts :=
  if a.dim1 then
    oneDirection ref.w (shiftsXGpuG a.normGlobal ref mat a.radi a.margin a.chunkSize a.block a.norm)
      fun c => shiftsYGpuG a.normGlobal ref mat c a.radi a.margin a.chunkSize a.block a.norm
  else shifts2d (finishGpu a.margin) ref mat a.radi a.margin a.chunkSize a.block a.norm a.normGlobal

/-- The search with coefficients from the GPU and peaks from the CPU (correlation.py:2567-2573). -/
noncomputable def onBoth (a : Args) (ref mat : Arr3 ℝ) : Py Shifts :=
  shifts2d (finishHybrid a.margin a.method a.size) ref mat a.radi a.margin a.chunkSize a.block a.norm a.normGlobal

/-- `find_local_shifts` on stacks (correlation.py:2527-2593); `available`: there is a GPU (without one, "hybrid" raises inside the CUDA library, which is
not modelled). -/
noncomputable def findLocalShifts (gpu : Gpu) (available : Bool) (a : Args) (ref mat : Arr3 ℝ) : Py Shifts := match gpu with
  | .off => onCpu a ref mat
  | .hybrid => onBoth a ref mat
  | .on => if available then onGpu a ref mat else onCpu a ref mat

end Verif.StackDispatch
