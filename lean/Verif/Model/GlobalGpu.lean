import Verif.Model.GlobalShift
import Verif.Model.GpuShifts

/-!
Model of the GPU branch of `find_global_shift_based_local_shifts`: algotom/util/correlation.py:2807-2820, 2866-2923, 2991-3006.  Exact arithmetic
(the kernel uses float32).  The random points are a parameter, as in `Verif.GlobalShift`.
-/

namespace Verif.GlobalGpu
open Verif.Correlation Verif.LocalShifts Verif.GpuShifts Verif.GlobalShift Verif.Sched

/-- `_get_local_shifts_gpu_kernel` for one point (correlation.py:2809-2820): `(shifts[0, idx], shifts[1, idx])`. -/
noncomputable def gpuPoint (ref mat : Mat ℝ) (radi margin : ℕ) (i j : ℤ) : ℝ × ℝ :=
  let radiRef : ℤ := radi + margin
  let coef := cellMap (crop ref (i - radiRef) (i + radiRef + 1) (j - radiRef) (j + radiRef + 1))
    (crop mat (i - radi) (i + radi + 1) (j - radi) (j + radi + 1))
  let p := scan2 coef
  let q := peak2 coef p.1 p.2
  (q.1 - margin, q.2 - margin)

/-- The launch `f_alias[grid, block]` with `grid = ceil(num_point / block)` threads blocks (correlation.py:2890-2898, 2807-2808): point `k` is
computed if there is a thread `k`, otherwise the zeros of `shifts` stay. -/
noncomputable def launch (block n : ℕ) (f : ℕ → ℝ × ℝ) (k : ℕ) : ℝ × ℝ :=
  if k < gridDim n block * block ∧ k < n then f k else (0, 0)

/-- `_find_global_shift_based_local_shifts_gpu(…, return_list=True)` (correlation.py:2866-2901): `(x_shifts, y_shifts)`.  `block = 0` is a division
by zero; a launch without points is refused by CUDA (the error class is not modelled faithfully). -/
noncomputable def gpuList (ref mat : Mat ℝ) (winSize margin : ℕ) (points : Option Points) (rnd : List (ℕ × ℕ)) (block : ℕ) (norm : Bool) :
    Py (List ℝ × List ℝ) :=
  if ref.h ≠ mat.h ∨ ref.w ≠ mat.w then .error .valueError
  else
    let winSize := 2 * (winSize / 2) + 1
    let radi := winSize / 2
    let edge := radi + margin
    let height1 := ref.h - 2 * edge
    let width1 := ref.w - 2 * edge
    if width1 < 1 ∨ height1 < 1 then .error .valueError
    else
      let ref := if norm then normImage ref else ref
      let mat := if norm then normImage mat else mat
      (usedPoints points rnd ref.h ref.w edge).bind fun l =>
        let n := l.1.length
        if block = 0 then .error .zeroDivision
        else if n = 0 then .error .valueError
        else
          let s := (List.range n).map (launch block n fun k => gpuPoint ref mat radi margin (l.1.getD k 0) (l.2.getD k 0))
          .ok (s.map Prod.fst, s.map Prod.snd)

/-- The options of `find_global_shift_based_local_shifts` that say where and how the search runs. -/
structure Opts where
  gpu : Bool
  cuda : Bool
  block : ℕ
  subPixel : Bool
  method : Method ℝ
  size : ℤ
  ncore : ℕ

/-- `find_global_shift_based_local_shifts(…, return_list=True)` (correlation.py:2991-3006). -/
noncomputable def shiftList (o : Opts) (ref mat : Mat ℝ) (winSize margin : ℕ) (points : Option Points) (rnd : List (ℕ × ℕ)) (norm : Bool)
    (sched : List Ev) : Option (Py (List ℝ × List ℝ)) :=
  if o.gpu && o.cuda then some (gpuList ref mat winSize margin points rnd o.block norm)
  else localList ref mat winSize margin points rnd o.subPixel o.method o.size o.ncore norm sched

/-- `find_global_shift_based_local_shifts(…, return_list=False)`: the aggregation code of the GPU function is a copy of that of the CPU function
(correlation.py:2752-2772, 2903-2923). -/
noncomputable def findGlobal (o : Opts) (ref mat : Mat ℝ) (winSize margin : ℕ) (points : Option Points) (rnd : List (ℕ × ℕ)) (agg : Agg)
    (norm : Bool) (sched : List Ev) : Option (Py (ℝ × ℝ)) :=
  (shiftList o ref mat winSize margin points rnd norm sched).map fun r => r.map fun p => (agg.value p.1, agg.value p.2)

end Verif.GlobalGpu
