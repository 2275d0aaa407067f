import Verif.Model.LocalShifts

/-!
Model of the GPU and hybrid variants of the local-shift search, algotom/util/correlation.py:146-342, 1366-1563, 1566-1642, 1645-1854, 1857-2470
and of the CPU search along x (876-986, 1056-1065).  Exact real arithmetic (the kernels use float32).  A 2D image is the stack of depth 1;
the normalisation of 2D inputs (rows and columns divided by their sums) is modelled for the one-direction search only.  Every thread writes its
own cells of the result and of the scratch array, so an entry is what the thread with `cuda.grid(2) = (x, y)` wrote, or 0 if no such thread was
launched.
-/

namespace Verif.GpuShifts
open Finset Verif.Correlation Verif.LocalShifts

/-! ### Device functions -/

/-- One cell of the coefficient arrays: `__gen_1d_corr_map_kernel`, `__gen_2d_corr_map_2d_input`, `__gen_2d_corr_map_3d_input`
(correlation.py:1389-1398, 1668-1681, 1709-1722), with the sums of lines 151-282: `none` is "not written". -/
noncomputable def cell (d h w : ℕ) (mat ref1 : ℕ → ℕ → ℕ → ℝ) : Option ℝ :=
  let matMean := mean3 d h w mat
  let matSqr := sum3 d h w fun i j k => (mat i j k - matMean) * (mat i j k - matMean)
  let refMean := mean3 d h w ref1
  let refSqr := sum3 d h w fun i j k => (ref1 i j k - refMean) * (ref1 i j k - refMean)
  let sumMul := sum3 d h w fun i j k => (ref1 i j k - refMean) * (mat i j k - matMean)
  let num := Real.sqrt (refSqr * matSqr)
  if num ≠ 0 then some (sumMul / num) else none

/-- The coefficient array of one thread, which starts as zeros (correlation.py:1391-1399, 1671-1682, 1712-1723, 1556, 1964, 2158). -/
noncomputable def cellMap (ref mat : Arr3 ℝ) : Mat ℝ :=
  ⟨ref.h - mat.h + 1, ref.w - mat.w + 1, fun i j => (cell mat.d mat.h mat.w mat.get (patch ref i j)).getD 0⟩

/-- The loop of `__locate_1d_peak_kernel` (correlation.py:1418-1425). -/
noncomputable def scan1 (n : ℕ) (f : ℕ → ℝ) : ℕ :=
  (List.range (n - 1)).foldl (fun p k => if f p < f (k + 1) then k + 1 else p) 0

/-- `__locate_1d_peak_kernel` (correlation.py:1418-1434). -/
noncomputable def peak1 (n : ℕ) (f : ℕ → ℝ) : ℝ :=
  let p := scan1 n f
  if p < n - 1 ∧ 0 < p then
    let d1 := (f (p + 1) - f (p - 1)) / 2
    let d2 := f (p + 1) + f (p - 1) - 2 * f p
    if d2 ≠ 0 then (p : ℝ) + -d1 / d2 else p
  else p

/-- One comparison of `__locate_max_value` (correlation.py:1747-1751); the state is `(y_max, x_max, val_max)`. -/
noncomputable def better (m : Mat ℝ) (i : ℕ) (s : ℕ × ℕ × ℝ) (j : ℕ) : ℕ × ℕ × ℝ :=
  if s.2.2 < m.get i j then (i, j, m.get i j) else s

/-- `__locate_max_value` (correlation.py:1741-1752), as `(y_max, x_max)`. -/
noncomputable def scan2 (m : Mat ℝ) : ℕ × ℕ :=
  let s := (List.range m.h).foldl (fun s i => (List.range m.w).foldl (better m i) s) (0, 0, m.get 0 0)
  (s.1, s.2.1)

/-- `__locate_2d_peak_kernel` (correlation.py:1827-1854) at the maximum `(y0, x0)`; returns `(x, y)`. -/
noncomputable def peak2 (m : Mat ℝ) (y0 x0 : ℕ) : ℝ × ℝ :=
  let xIn : Prop := x0 < m.w - 1 ∧ 0 < x0
  let yIn : Prop := y0 < m.h - 1 ∧ 0 < y0
  let xEdge : Prop := x0 = 0 ∨ x0 = m.w - 1
  let yEdge : Prop := y0 = 0 ∨ y0 = m.h - 1
  let d1fy := if (xEdge ∧ yIn) ∨ (yIn ∧ xIn) then (m.get (y0 + 1) x0 - m.get (y0 - 1) x0) / 2 else 0
  let d2fy := if (xEdge ∧ yIn) ∨ (yIn ∧ xIn) then m.get (y0 + 1) x0 + m.get (y0 - 1) x0 - 2 * m.get y0 x0 else 0
  let d1fx := if (yEdge ∧ xIn) ∨ (yIn ∧ xIn) then (m.get y0 (x0 + 1) - m.get y0 (x0 - 1)) / 2 else 0
  let d2fx := if (yEdge ∧ xIn) ∨ (yIn ∧ xIn) then m.get y0 (x0 + 1) + m.get y0 (x0 - 1) - 2 * m.get y0 x0 else 0
  let d1fxy := if yIn ∧ xIn then
    (m.get (y0 + 1) (x0 + 1) + m.get (y0 - 1) (x0 - 1) - m.get (y0 + 1) (x0 - 1) - m.get (y0 - 1) (x0 + 1)) / 4 else 0
  let num := d1fxy ^ 2 - d2fx * d2fy
  if num ≠ 0 then
    let xOff := (d2fy * d1fx - d1fxy * d1fy) / num
    let yOff := (d2fx * d1fy - d1fxy * d1fx) / num
    (if |xOff| < 1 ∧ 0 < |xOff| then x0 + xOff else x0, if |yOff| < 1 ∧ 0 < |yOff| then y0 + yOff else y0)
  else ((x0 : ℝ), (y0 : ℝ))

/-! ### Launch -/

/-- Is there a thread `(x, y)` in a launch with `block` on an array of `h` rows and `w` columns?  `grid = (ceil(w / block[0]), ceil(h / block[1]))`
(correlation.py:1551-1552, 1959-1960, 2153-2154, 2361-2362), and the guard of the kernels (1471, 1890, 2080, 2274). -/
def launched (h w : ℕ) (block : ℕ × ℕ) (y x : ℕ) : Bool :=
  decide (x < gridDim w block.1 * block.1 ∧ y < gridDim h block.2 * block.2 ∧ y < h ∧ x < w)

/-! ### Two directions -/

/-- What is done with the coefficient array of one pixel, and whether its thread was launched. -/
abbrev Finish := Bool → Mat ℝ → Py (ℝ × ℝ)

/-- `_get_2d_shift_multi_rows_{2d,3d}_input_kernel` (correlation.py:1899-1902, 2089-2092). -/
noncomputable def finishGpu (margin : ℕ) : Finish := fun run m =>
  if run then
    let p := scan2 m
    let q := peak2 m p.1 p.2
    .ok (q.1 - margin, q.2 - margin)
  else .ok (0, 0)

/-- The hybrid variant: coefficients on the GPU (correlation.py:2284-2286), `locate_peak` on the CPU (correlation.py:2366-2375). -/
noncomputable def finishHybrid (margin : ℕ) (method : Method ℝ) (size : Int) : Finish := fun run m =>
  (locatePeak (if run then m else ⟨m.h, m.w, fun _ _ => 0⟩) true method 2 size true).map fun r => (r.1 - margin, r.2 - margin)

/-- One chunk: `_get_2d_shift_multi_rows_3d_input_gpu` / `_cpu_gpu` without padding (correlation.py:2139-2164, 2348-2379), with the windows of
lines 1891-1898, 2081-2088, 2275-2283; then the assignment to the columns `edge:-edge` (correlation.py:2042, 2238, 2468), which for `edge = 0`
is an empty target: numpy refuses it unless there is a single column. -/
noncomputable def multi2d (fin : Finish) (d w radi margin : ℕ) (block : ℕ × ℕ) (norm : Bool) (n : ℕ) (rows : ℕ → Row × Row) :
    Py (ℕ → ℕ → Py (ℝ × ℝ)) :=
  let edge := radi + margin
  let h1 := n - 2 * edge
  let w1 := w - 2 * edge
  if w1 < 1 ∨ h1 < 1 then .error .valueError
  else if edge = 0 ∧ w1 ≠ 1 then .error .valueError
  else
    let s := chunkNorm d w norm n rows
    .ok fun y j =>
      if edge ≤ j ∧ j < w - edge ∧ edge ≠ 0 then
        let x := j - edge
        fin (launched h1 w1 block y x) (cellMap
          ⟨d, 2 * edge + 1, 2 * edge + 1, fun k p q => (s (y + p)).1 k (x + q)⟩
          ⟨d, 2 * radi + 1, 2 * radi + 1, fun k p q => (s (y + edge - radi + p)).2 k (x + edge - radi + q)⟩)
      else .ok (0, 0)

/-- `_get_2d_shift_full_image_3d_input_gpu` and `_get_2d_shift_full_image_3d_input_cpu_gpu` (correlation.py:2209-2240, 2439-2470), reached from
`find_local_shifts` with `gpu=True, dim=2` and `gpu="hybrid"` (correlation.py:2567-2573, 2586-2592): the global normalisation switches the one of
the chunks off. -/
noncomputable def shifts2d (fin : Finish) (ref mat : Arr3 ℝ) (radi margin : ℕ) (chunkSize : Option ℤ) (block : ℕ × ℕ) (norm normGlobal : Bool) :
    Py (ℕ → ℕ → Py (ℝ × ℝ)) :=
  let edge := margin + radi
  if ref.d ≠ mat.d ∨ ref.h ≠ mat.h ∨ ref.w ≠ mat.w then .error .valueError
  else if ref.h < 2 * edge + 1 then .error .valueError
  else chunkLoop edge (ref.h - 2 * edge) (numChunk ref.h chunkSize) edge
    (multi2d fin ref.d ref.w radi margin block (norm && !normGlobal))
    (chunkNorm ref.d ref.w normGlobal ref.h fun i => (rowsOf ref i, rowsOf mat i)) (fun _ => .ok (0, 0))

/-! ### One direction -/

/-- `_get_1d_shift_multi_rows_3d_input_kernel` for one position, from the `2*edge+1` positions around it (correlation.py:1472-1479). -/
noncomputable def pix1 (d radi margin : ℕ) (win : ℕ → Col × Col) : ℝ :=
  let m := cellMap ⟨1, d, 2 * (radi + margin) + 1, fun _ k q => (win q).1 k⟩ ⟨1, d, 2 * radi + 1, fun _ k q => (win (margin + q)).2 k⟩
  peak1 (2 * margin + 1) (fun q => m.get 0 q) - margin

/-- One line of positions, padded with zeros at both ends: `_get_1d_shift_single_row_2d_input` (correlation.py:876-898), or one row of the kernel
(correlation.py:1537-1560).  `w` positions, `pix` the search at one of them. -/
def lineShifts (w edge : ℕ) (zero : Py ℝ) (pix : (ℕ → Col × Col) → ℕ → Py ℝ) (s : ℕ → Col × Col) : ℕ → Py ℝ := fun j =>
  if edge ≤ j ∧ j + edge < w then pix (fun q => s (j - edge + q)) (j - edge) else zero

/-- Rows of a stack for the search along x: row `i` is a line of columns. -/
def linesOf (ref mat : Arr3 ℝ) : ℕ → ℕ → Col × Col := fun i j => (fun k => ref.get k i j, fun k => mat.get k i j)

/-- The x-shifts of `find_local_shifts(dim=1)` on the CPU (correlation.py:876-898, 963-973, 1040-1065, 2545-2551); `norm_global`: Model/GlobalNormStack. -/
noncomputable def shiftsX (ref mat : Arr3 ℝ) (radi margin : ℕ) (chunkSize : Option ℤ) (norm : Bool) (method : Method ℝ) (size : Int) :
    Py (ℕ → ℕ → Py ℝ) :=
  let edge := margin + radi
  if ref.d ≠ mat.d ∨ ref.h ≠ mat.h ∨ ref.w ≠ mat.w then .error .valueError
  else chunkLoop 0 ref.h (numChunk ref.h chunkSize) 0
    (fun _ rows => if ref.w < 2 * radi + 1 + 2 * margin then .error .valueError
      else .ok fun i => lineShifts ref.w edge (.ok 0) (fun win _ => pixCol ref.d radi margin method size win) (colNorm ref.d norm ref.w (rows i)))
    (linesOf ref mat) (fun _ => .ok 0)

/-- The x-shifts of `find_local_shifts(dim=1, gpu=True)` (correlation.py:1523-1563, 1608-1632, 2575-2580); `norm_global`: Model/GlobalNormStack. -/
noncomputable def shiftsXGpu (ref mat : Arr3 ℝ) (radi margin : ℕ) (chunkSize : Option ℤ) (block : ℕ × ℕ) (norm : Bool) :
    Py (ℕ → ℕ → Py ℝ) :=
  let edge := margin + radi
  if ref.d ≠ mat.d ∨ ref.h ≠ mat.h ∨ ref.w ≠ mat.w then .error .valueError
  else chunkLoop 0 ref.h (numChunk ref.h chunkSize) 0
    (fun n rows => if ref.w < 2 * edge + 1 then .error .valueError
      else .ok fun i => lineShifts ref.w edge (.ok 0)
        (fun win x => .ok (if launched n (ref.w - 2 * edge) block i x then pix1 ref.d radi margin win else 0)) (colNorm ref.d norm ref.w (rows i)))
    (linesOf ref mat) (fun _ => .ok 0)

/-- Column `c` of the y-shifts of `find_local_shifts(dim=1, gpu=True)` (correlation.py:1532-1537, 1633-1641, 2581-2584): the kernel sees the
transposed chunk, whose rows are the `ref.w` columns of the image; `norm_global`: Model/GlobalNormStack.  The CPU search is `findLocalShiftsY`. -/
noncomputable def shiftsYGpu (ref mat : Arr3 ℝ) (c radi margin : ℕ) (chunkSize : Option ℤ) (block : ℕ × ℕ) (norm : Bool) : Py (ℕ → Py ℝ) :=
  let edge := margin + radi
  chunkLoop edge (ref.h - 2 * edge) (numChunk ref.h chunkSize) edge
    (fun n rows => if n < 2 * edge + 1 then .error .valueError
      else .ok fun i => .ok (if launched ref.w (n - 2 * edge) block c i then pix1 ref.d radi margin fun q => colNorm ref.d norm n rows (i + q) else 0))
    (fun i => (fun k => ref.get k i c, fun k => mat.get k i c)) (.ok 0)

end Verif.GpuShifts
