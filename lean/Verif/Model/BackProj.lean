import Verif.Np
import Verif.Model.Sched
import Mathlib.Algebra.Order.Floor.Ring
import Mathlib.Algebra.Order.Field.Basic

/-!
Model of the back-projection routines of algotom/rec/reconstruction.py:156-359.

Arithmetic is exact in a linearly ordered field `K` with floor.  The angle list enters the code only
through `cos(-angle)` and `sin(-angle)`, which are given here as the pair list `cs`.
-/

namespace Verif.BackProj
open Verif.Sched

variable {K : Type _} [Field K] [LinearOrder K] [FloorRing K]

/-- `f_pos` (reconstruction.py:165-172, 243-245, 331-341): detector position of pixel
`(y_index, x_index)` for one angle. -/
def fPos (w : Nat) (cs : K × K) (center : K) (x y : Nat) : K :=
  let icenter : K := (1 / 2) * ((w : K) - 1)
  ((x : K) - icenter) * cs.1 + ((y : K) - icenter) * cs.2 + center

/-- The value added for one angle and pixel, with *checked* array reads
(reconstruction.py:173-189, 246-264, 342-358).  `none`: nothing is added. -/
def rayVal (sino : Mat K) (i : Nat) (f : K) (edgePad : Bool) : Py (Option K) :=
  if 0 ≤ f ∧ f ≤ (sino.w : K) - 1 then
    let dPos := ⌊f⌋
    let uPos := ⌈f⌉
    if uPos ≠ dPos then do
      let yd ← sino.read i dPos
      let yu ← sino.read i uPos
      pure (some (yd + (yu - yd) * (f - (dPos : K))))
    else do
      let v ← sino.read i dPos
      pure (some v)
  else if edgePad then
    if f < 0 then do
      let v ← sino.read i 0
      pure (some v)
    else do
      let v ← sino.read i ((sino.w : Int) - 1)
      pure (some v)
  else pure none

/-- Pixel loop `for y_index in range(w): for x_index in range(w)` (reconstruction.py:337-339). -/
def pixels (w : Nat) : List (Nat × Nat) :=
  (List.range w).flatMap fun y => (List.range w).map fun x => (y, x)

/-- Body of the `prange` loop for angle `i` (reconstruction.py:333-358): the sequence of updates
`recon[y, x] += val`. -/
def angleUpdates (sino : Mat K) (cs : Nat → K × K) (center : K) (edgePad : Bool) (i : Nat) :
    Py (List ((Nat × Nat) × K)) := do
  let l ← (pixels sino.w).mapM fun p => do
    let r ← rayVal sino i (fPos sino.w (cs i) center p.2 p.1) edgePad
    pure (r.map fun v => (p, v))
  pure (l.filterMap id)

/-- Work of one CPU thread: `prange` hands it a list of angles (reconstruction.py:333). -/
def threadUpdates (sino : Mat K) (cs : Nat → K × K) (center : K) (edgePad : Bool)
    (angles : List Nat) : Py (List ((Nat × Nat) × K)) := do
  let l ← angles.mapM (angleUpdates sino cs center edgePad)
  pure l.flatten

/-- `back_projection_cpu` (reconstruction.py:307-359) with `T` threads; thread `t` gets the angles
`assign t`; `sched` is the interleaving of the threads' loads and stores of the shared array
`recon`, initially zero.  Returns the final machine state. -/
def backProjectionCpu (sino : Mat K) (cs : Nat → K × K) (center : K) (edgePad : Bool)
    (T : Nat) (assign : Nat → List Nat) (sched : List Nat) : Py (Shared (Nat × Nat) K) := do
  let progs ← (List.range T).mapM fun t => threadUpdates sino cs center edgePad (assign t)
  pure ((Shared.init (fun _ => 0) T (fun t => progs.getD t [])).run sched)

/-- `int(np.ceil(1.0 * ncol / block))` (reconstruction.py:218-219, 294-295). -/
def gridDim (w b : Nat) : Nat := (w + b - 1) / b

/-- Thread coordinates `(x_index, y_index) = cuda.grid(2)` of linear thread number `t` in a grid of
`gx * bx` by ... threads. -/
def threadXY (nx t : Nat) : Nat × Nat := (t % nx, t / nx)

/-- `num += val` when a value is contributed (reconstruction.py:182, 189). -/
def addOpt (num : K) : Option K → K
  | some v => num + v
  | none => num

/-- The value `num` a single-slice GPU thread computes (reconstruction.py:164-189). -/
def gpuNum (sino : Mat K) (cs : Nat → K × K) (center : K) (edgePad : Bool) (x y : Nat) : Py K := do
  let l ← (List.range sino.h).mapM fun i =>
    rayVal sino i (fPos sino.w (cs i) center x y) edgePad
  pure (l.foldl addOpt 0)

/-- One GPU thread of the single-slice kernel: guard, compute, one store
(reconstruction.py:162-190). -/
def gpuThread (sino : Mat K) (cs : Nat → K × K) (center : K) (edgePad : Bool) (nx t : Nat)
    (recon : Nat × Nat → K) : Py (Nat × Nat → K) :=
  let x := (threadXY nx t).1
  let y := (threadXY nx t).2
  if x < sino.w ∧ y < sino.w then do
    let num ← gpuNum sino cs center edgePad x y
    pure (fun p => if p = (y, x) then num else recon p)
  else pure recon

/-- `back_projection_gpu` (reconstruction.py:193-226): the store of each thread happens once, in the
order `order` (a list of linear thread numbers). -/
def backProjectionGpu (sino : Mat K) (cs : Nat → K × K) (center : K) (edgePad : Bool)
    (bx : Nat) (order : List Nat) : Py (Nat × Nat → K) :=
  order.foldlM (fun rec t => gpuThread sino cs center edgePad (gridDim sino.w bx * bx) t rec)
    (fun _ => 0)

/-- Sinogram `j` of a chunk of shape `(nrow, num_sino, ncol)`. -/
def chunkSino (s : Arr3 K) (j : Nat) : Mat K := ⟨s.d, s.w, fun i c => s.get i j c⟩

/-- One GPU thread of the chunk kernel: its sequence of updates `recons[y, j, x] += val`
(reconstruction.py:236-264; the branch on `f_pos` is evaluated outside the `j` loop there, with
the same outcome for every `j`). -/
def gpuChunkUpdates (s : Arr3 K) (cs : Nat → K × K) (center : K) (edgePad : Bool) (nx t : Nat) :
    Py (List ((Nat × Nat × Nat) × K)) :=
  let x := (threadXY nx t).1
  let y := (threadXY nx t).2
  if x < s.w ∧ y < s.w then do
    let l ← (List.range s.d).mapM fun i => (List.range s.h).mapM fun j => do
      let r ← rayVal (chunkSino s j) i (fPos s.w (cs i) center x y) edgePad
      pure (r.map fun v => ((y, j, x), v))
    pure (l.flatten.filterMap id)
  else pure []

/-- `back_projection_gpu_chunk` (reconstruction.py:267-304): threads `0 .. nx*ny-1` interleaved by
`sched`. -/
def backProjectionGpuChunk (s : Arr3 K) (cs : Nat → K × K) (center : K) (edgePad : Bool)
    (bx bY : Nat) (sched : List Nat) : Py (Shared (Nat × Nat × Nat) K) := do
  let progs ← (List.range ((gridDim s.w bx * bx) * (gridDim s.w bY * bY))).mapM fun t =>
    gpuChunkUpdates s cs center edgePad (gridDim s.w bx * bx) t
  pure ((Shared.init (fun _ => 0) ((gridDim s.w bx * bx) * (gridDim s.w bY * bY))
    (fun t => progs.getD t [])).run sched)

end Verif.BackProj
