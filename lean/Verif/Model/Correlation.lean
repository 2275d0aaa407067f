import Verif.Np
import Mathlib.Analysis.Real.Sqrt
import Mathlib.Algebra.BigOperators.Group.Finset.Basic

/-!
Model of the correlation map and peak search of algotom/util/correlation.py (lines 69-143, 345-713, 716-825).
Exact real arithmetic (the code uses float32/float64).  A 2D image is the stack of depth 1: the 2D functions are the 3D ones
with the outer loop removed.
-/

namespace Verif.Correlation

open Finset

/-- `np.sum` over a `(d, h, w)` block. -/
noncomputable def sum3 (d h w : ℕ) (f : ℕ → ℕ → ℕ → ℝ) : ℝ :=
  ∑ i ∈ range d, ∑ j ∈ range h, ∑ k ∈ range w, f i j k

/-- `np.mean` over a `(d, h, w)` block (also `__mean_2d`/`__mean_3d`, correlation.py:146-170). -/
noncomputable def mean3 (d h w : ℕ) (f : ℕ → ℕ → ℕ → ℝ) : ℝ := sum3 d h w f / (d * h * w : ℕ)

/-- One entry of `_generate_correlation_map_{2d,3d}_input_cpu` (correlation.py:91-104, 131-143):
template `f`, reference patch `g`, both of shape `(d, h, w)`. -/
noncomputable def coefCpu (d h w : ℕ) (f g : ℕ → ℕ → ℕ → ℝ) : ℝ :=
  let f1 := fun i j k => f i j k - mean3 d h w f
  let num := sum3 d h w fun i j k => f1 i j k * f1 i j k
  let g1 := fun i j k => g i j k - mean3 d h w g
  let refNum := sum3 d h w fun i j k => g1 i j k * g1 i j k
  let num1 := Real.sqrt (num * refNum)
  if num1 ≠ 0 then sum3 d h w (fun i j k => f1 i j k * g1 i j k) / num1 else 0

/-- The patch of the reference at `(y, x)`: `ref_mat[:, y:y+h1, x:x+w1]` (correlation.py:98, 137). -/
def patch (a : Arr3 ℝ) (y x : ℕ) : ℕ → ℕ → ℕ → ℝ := fun i j k => a.get i (y + j) (x + k)

/-- One thread of `_generate_correlation_map_{2d,3d}_input_gpu` (correlation.py:377-392, 429-445): explicit loops over
`range(y, y+h1)`, `range(x, x+w1)` of the reference, the mean-subtracted template `mat1` and its square sum being
computed on the host (correlation.py:496-497, 505-506).  A thread outside the map writes nothing (`none`). -/
noncomputable def threadGpu (ref mat : Arr3 ℝ) (h2 w2 : ℕ) (x y : ℕ) : Option ℝ :=
  if y < h2 ∧ x < w2 then
    let mat1 := fun i j k => mat.get i j k - mean3 mat.d mat.h mat.w mat.get
    let sumSqr := sum3 mat.d mat.h mat.w fun i j k => mat1 i j k * mat1 i j k
    let refMean := mean3 ref.d mat.h mat.w (patch ref y x)
    let numSqr := ∑ i ∈ range ref.d, ∑ j ∈ Ico y (y + mat.h), ∑ k ∈ Ico x (x + mat.w),
      (ref.get i j k - refMean) * (ref.get i j k - refMean)
    let numMul := ∑ i ∈ range ref.d, ∑ j ∈ Ico y (y + mat.h), ∑ k ∈ Ico x (x + mat.w),
      mat1 i (j - y) (k - x) * (ref.get i j k - refMean)
    let num := Real.sqrt (numSqr * sumSqr)
    if num ≠ 0 then some (numMul / num) else none
  else none

/-- Size checks of `generate_correlation_map` (correlation.py:478-486) followed by the CPU loops
(correlation.py:94-104, 133-143, 516-519). -/
noncomputable def correlationMap (ref mat : Arr3 ℝ) : Py (Mat ℝ) :=
  if ref.h < mat.h ∨ ref.w < mat.w then .error .valueError
  else if ref.d ≠ mat.d then .error .valueError
  else .ok ⟨ref.h - mat.h + 1, ref.w - mat.w + 1, fun y x => coefCpu mat.d mat.h mat.w mat.get (patch ref y x)⟩

/-- `int(np.ceil(size / block))` (correlation.py:493-494). -/
def gridDim (size block : ℕ) : ℕ := (size + block - 1) / block

/-- The GPU branch of `generate_correlation_map` (correlation.py:487-514): zero map, then every thread of the
`grid x block` launch writes its own entry; `(bx, by)` is the block shape.  Threads write distinct cells, so the entry
`(y, x)` is what the thread with `cuda.grid(2) = (x, y)` wrote, if that thread exists. -/
noncomputable def correlationMapGpu (ref mat : Arr3 ℝ) (bx by' : ℕ) : Py (Mat ℝ) :=
  if ref.h < mat.h ∨ ref.w < mat.w then .error .valueError
  else if ref.d ≠ mat.d then .error .valueError
  else
    let h2 := ref.h - mat.h + 1
    let w2 := ref.w - mat.w + 1
    let size := max h2 w2
    .ok ⟨h2, w2, fun y x =>
      if x < gridDim size bx * bx ∧ y < gridDim size by' * by' then (threadGpu ref mat h2 w2 x y).getD 0 else 0⟩

end Verif.Correlation
