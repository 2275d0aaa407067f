import Verif.Model.Umpa
import Verif.Model.GpuShifts
import Verif.Model.Recon
import Verif.Num

/-!
Model of the UMPA driver of algotom/util/correlation.py: `find_local_shifts_umpa` (3317-3388), its CPU chunk function (3039-3086) and the CUDA
device functions, kernel and wrapper (3089-3255, with 1755-1800).  Exact real arithmetic (the GPU branch uses float32); a division by zero gives 0
here and `inf` or `nan` in the program, so the theorems exclude it where it matters.
-/

namespace Verif.UmpaFull
open Finset Verif.Correlation Verif.LocalShifts Verif.GpuShifts Verif.Umpa
open Verif.Fourier (edgeIdx)

/-- One row of everything that is cut into chunks: `ref_mat[:, i]`, `mat[:, i]`, `L1[i]`, `L3[i]`, `L4[i]`, `L6[i]` (correlation.py:3361-3366). -/
structure Line where
  ref : ℕ → ℕ → ℝ
  mat : ℕ → ℕ → ℝ
  l1 : ℕ → ℝ
  l3 : ℕ → ℝ
  l4 : ℕ → ℝ
  l6 : ℕ → ℝ

/-- The arrays computed once on the whole images, row `i` (correlation.py:3340-3349). -/
noncomputable def lineOf (ref mat : Arr3 ℝ) (r : ℕ) (win : ℕ → ℕ → ℝ) (i : ℕ) : Line where
  ref := fun k j => ref.get k i j
  mat := fun k j => mat.get k i j
  l1 := correlateSame mat.h mat.w (sum0 mat (· ^ 2)) r win i
  l3 := correlateSame ref.h ref.w (sum0 ref (· ^ 2)) r win i
  l4 := fun j => imMean ref * correlateSame mat.h mat.w (sum0 mat id) r win i j
  l6 := fun j => imMean ref * correlateSame ref.h ref.w (sum0 ref id) r win i j

/-- `window = np.multiply.outer(win_1d, win_1d); window = window / np.sum(window)` with `win_1d = make_smoothing_window(filter_name, win_size)`
(correlation.py:3337-3339). -/
noncomputable def window (f : Recon.Filter) (r : ℕ) (u v : ℕ) : ℝ :=
  let w1 := Recon.smoothingWindow f (2 * r + 1)
  w1 u * w1 v / ∑ p ∈ range (2 * r + 1), ∑ q ∈ range (2 * r + 1), w1 p * w1 q

/-- One pixel of the result. -/
@[ext] structure Out where
  x : ℝ
  y : ℝ
  trans : ℝ
  dark : ℝ

/-! ### CPU -/

/-- The arguments of `__calc_shift_umpa` for the pixel `(i, j)` of a chunk with the rows `s`, as the six terms of map entry `(a, b)`: slices of
lines 3059-3063 and 3074-3077, `t5` of lines 3015-3017. -/
noncomputable def cpuTerms (d r m : ℕ) (win : ℕ → ℕ → ℝ) (L2 : ℝ) (s : ℕ → Line) (i j a b : ℕ) : Terms where
  t1 := (s i).l1 j
  t2 := L2
  t3 := (s (i - m + a)).l3 (j - m + b)
  t4 := (s i).l4 j
  t5 := ∑ k ∈ range d, correlateValid (fun p q => (s (i - (r + m) + p)).ref k (j - (r + m) + q)) r
    (fun u v => win u v * (s (i - r + u)).mat k (j - r + v)) a b
  t6 := (s (i - m + a)).l6 (j - m + b)

/-- `__calc_shift_umpa` (correlation.py:3018-3036) for the terms `T a b`: the position of the smallest cost, and, with `dark_signal`, transmission and
dark signal read at the rounded position (Python indexing).  Without it the last two values stay at the ones of line 3352. -/
noncomputable def cpuPixel (m : ℕ) (dark : Bool) (method : Method ℝ) (size : Int) (T : ℕ → ℕ → Terms) : Py Out := do
  let (x, y) ← locatePeak ⟨2 * m + 1, 2 * m + 1, fun a b => cost dark (T a b)⟩ true method 2 size false
  if dark then
    let i ← pyIndex (2 * m + 1) (npRound y)
    let j ← pyIndex (2 * m + 1) (npRound x)
    .ok ⟨x - m, y - m, (transDark (T i j)).1, (transDark (T i j)).2⟩
  else .ok ⟨x - m, y - m, 1, 1⟩

/-- `__get_2d_shift_multi_rows_3d_input_umpa_cpu` for a chunk of `n` rows, then the assignment to the columns `edge:-edge` (correlation.py:3047-3086,
3376-3380): the tasks `i in range(start, stop_row)`, `j in range(start, stop_col)` are independent, reshaped to `(n - 2*start, w - 2*start)`; as
`edge:-edge` is empty for `edge = 0`, numpy refuses the assignment unless there is a single column. -/
noncomputable def cpuChunk (d w r m : ℕ) (win : ℕ → ℕ → ℝ) (L2 : ℝ) (dark : Bool) (method : Method ℝ) (size : Int) (_n : ℕ) (s : ℕ → Line) :
    Py (ℕ → ℕ → Py Out) :=
  let start := r + m
  if start = 0 ∧ w - 2 * start ≠ 1 then .error .valueError
  else .ok fun y j =>
    if start ≤ j ∧ j < w - start ∧ start ≠ 0 then
      let x := j - start
      cpuPixel m dark method size (cpuTerms d r m win L2 s (start + y) (start + x))
    else .ok ⟨0, 0, 1, 1⟩

/-! ### GPU -/

/-- `__sum_multiply_no_norm_2d(ref_mat, mat, window)` for arrays of `n x n` entries (correlation.py:3107-3113). -/
noncomputable def sumMultiply (n : ℕ) (ref mat win : ℕ → ℕ → ℝ) : ℝ :=
  ∑ i ∈ range n, ∑ j ∈ range n, ref i j * mat i j * win i j

/-- `__accu_correlate(ref_mat, mat, window, coef_mat)`: one image is added (correlation.py:3136-3147). -/
noncomputable def accuCorrelate (n : ℕ) (ref mat win : ℕ → ℕ → ℝ) (coef : ℕ → ℕ → ℝ) (i j : ℕ) : ℝ :=
  coef i j + sumMultiply n (fun p q => ref (i + p) (j + q)) mat win

/-- `K` and `beta` of one map entry (correlation.py:3183-3186, 3194). -/
noncomputable def gpuFit (dark : Bool) (t : Terms) : ℝ × ℝ :=
  if dark then
    let num := t.t2 * t.t3 - t.t6 ^ 2
    ((t.t2 * t.t5 - t.t4 * t.t6) / num, (t.t3 * t.t4 - t.t5 * t.t6) / num)
  else (t.t5 / t.t3, 0)

/-- `D[u, v]` (correlation.py:3190-3196). -/
noncomputable def gpuCost (dark : Bool) (t : Terms) : ℝ :=
  let K := (gpuFit dark t).1
  let beta := (gpuFit dark t).2
  if dark then t.t1 + (beta ^ 2 * t.t2 + K ^ 2 * t.t3 - 2 * beta * t.t4 - 2 * K * t.t5 + 2 * beta * K * t.t6)
  else t.t1 + K ^ 2 * t.t3 - 2 * K * t.t5

/-- `A[u, v]` (correlation.py:3187). -/
noncomputable def gpuA (t : Terms) : ℝ := (gpuFit true t).2 + (gpuFit true t).1

/-- `V[u, v]`, zero before the kernel runs (correlation.py:3188-3189, 3238). -/
noncomputable def gpuV (t : Terms) : ℝ := if gpuA t ≠ 0 then (gpuFit true t).1 / gpuA t else 0

/-- `__get_max_value(mat)` (correlation.py:1770-1777). -/
noncomputable def getMax (m : Mat ℝ) : ℝ :=
  (List.range m.h).foldl (fun v i => (List.range m.w).foldl (fun v j => if v < m.get i j then m.get i j else v) v) (m.get 0 0)

/-- `__inverse_values(mat, val_max)` (correlation.py:1796-1800). -/
noncomputable def inverse (m : Mat ℝ) : Mat ℝ := ⟨m.h, m.w, fun i j => getMax m - m.get i j⟩

/-- The terms read by the thread `(x, y)` (correlation.py:3161-3180): `i = y + radi_ref`, `j = x + radi_ref`; `t5` starts as zeros (3236). -/
noncomputable def gpuTerms (d r m : ℕ) (win : ℕ → ℕ → ℝ) (L2 : ℝ) (s : ℕ → Line) (y x a b : ℕ) : Terms :=
  let i := y + (m + r)
  let j := x + (m + r)
  { t1 := (s i).l1 j
    t2 := L2
    t3 := (s (i - m + a)).l3 (j - m + b)
    t4 := (s i).l4 j
    t5 := (List.range d).foldl (fun t k => accuCorrelate (2 * r + 1) (fun p q => (s (i - (m + r) + p)).ref k (j - (m + r) + q))
      (fun u v => (s (i - r + u)).mat k (j - r + v)) win t) (fun _ _ => 0) a b
    t6 := (s (i - m + a)).l6 (j - m + b) }

/-- The rest of `__calc_shift_umpa_gpu_kernel` (correlation.py:3181-3206).  The rounded position is used as a plain array index (CUDA does not wrap
negative indices). -/
noncomputable def gpuPixel (m : ℕ) (dark : Bool) (T : ℕ → ℕ → Terms) : Out :=
  let D := inverse ⟨2 * m + 1, 2 * m + 1, fun a b => gpuCost dark (T a b)⟩
  let p := scan2 D
  let q := peak2 D p.1 p.2
  let j1 := (npRound q.1).toNat
  let i1 := (npRound q.2).toNat
  ⟨q.1 - m, q.2 - m, if dark then |gpuA (T i1 j1)| else 1, if dark then |gpuV (T i1 j1)| else 1⟩

/-- `__get_2d_shift_multi_rows_3d_input_umpa_gpu` and the assignment to the columns `edge:-edge` (correlation.py:3217-3255, 3376-3380); where no thread
runs, the arrays keep their initial zeros and ones. -/
noncomputable def gpuChunk (d w r m : ℕ) (win : ℕ → ℕ → ℝ) (L2 : ℝ) (dark : Bool) (block : ℕ × ℕ) (n : ℕ) (s : ℕ → Line) : Py (ℕ → ℕ → Py Out) :=
  let edge := r + m
  let h1 := n - 2 * edge
  let w1 := w - 2 * edge
  if w1 < 1 ∨ h1 < 1 then .error .valueError
  else if edge = 0 ∧ w1 ≠ 1 then .error .valueError
  else .ok fun y j =>
    if edge ≤ j ∧ j < w - edge ∧ edge ≠ 0 then
      let x := j - edge
      .ok (if launched h1 w1 block y x then gpuPixel m dark (gpuTerms d r m win L2 s y x) else ⟨0, 0, 1, 1⟩)
    else .ok ⟨0, 0, 1, 1⟩

/-! ### Driver -/

/-- Where and how the search runs: `gpu` (with its availability), `block`, `method`, `size`. -/
structure Opts where
  gpu : Bool
  cuda : Bool
  block : ℕ × ℕ
  method : Method ℝ
  size : Int

/-- The chunk loop of `find_local_shifts_umpa` (correlation.py:3317-3380) for window side `2*r+1`; all pixels, before the padding of the last two
images.  Without dark signal the CPU function gets zeros for `L2`, `L4`, `L6` and does not use them (`cost`, `used`). -/
noncomputable def pixels (o : Opts) (f : Recon.Filter) (ref mat : Arr3 ℝ) (r m : ℕ) (chunkSize : Option ℤ) (dark : Bool) : Py (ℕ → ℕ → Py Out) :=
  let edge := m + r
  let L2 := imMean ref ^ 2 * ref.d
  if ref.d ≠ mat.d ∨ ref.h ≠ mat.h ∨ ref.w ≠ mat.w then .error .valueError
  else if ref.w < 2 * r + 1 + 2 * m ∨ ref.h < 2 * r + 1 + 2 * m then .error .valueError
  else chunkLoop edge (ref.h - 2 * edge) (numChunk ref.h chunkSize) edge
    (fun n s => if o.gpu && o.cuda then gpuChunk ref.d ref.w r m (window f r) L2 dark o.block n s
      else cpuChunk ref.d ref.w r m (window f r) L2 dark o.method o.size n s)
    (lineOf ref mat r (window f r)) (fun _ => .ok ⟨0, 0, 1, 1⟩)

/-- `np.pad(a[edge:-edge, edge:-edge], edge, mode="edge")` (correlation.py:3382-3383) for an `h x w` image. -/
def padded {α : Type} (edge h w : ℕ) (a : ℕ → ℕ → α) (i j : ℕ) : α :=
  let inner : ℕ → ℕ → α := fun p q => a (edge + p) (edge + q)
  inner (edgeIdx (h - 2 * edge) edge i) (edgeIdx (w - 2 * edge) edge j)

/-- `find_local_shifts_umpa` (correlation.py:3317-3388): the x- and y-shifts, and with `dark_signal` transmission and dark signal. -/
noncomputable def findUmpa (o : Opts) (f : Recon.Filter) (ref mat : Arr3 ℝ) (r m : ℕ) (chunkSize : Option ℤ) (dark : Bool) :
    Py ((ℕ → ℕ → Py (ℝ × ℝ)) × Option (ℕ → ℕ → Py (ℝ × ℝ))) := do
  let p ← pixels o f ref mat r m chunkSize dark
  let xy := fun i j => (p i j).map fun q => (q.x, q.y)
  if dark then .ok (xy, some (padded (m + r) ref.h ref.w fun i j => (p i j).map fun q => (q.trans, q.dark)))
  else .ok (xy, none)

end Verif.UmpaFull
