import Verif.Np
import Verif.Model.Sched
import Verif.Model.BackProj
import Mathlib.Analysis.SpecialFunctions.Trigonometric.Basic

/-!
Model of algotom/rec/vertrec.py: geometry of a vertical slice (338-447), vertical back-projection on
CPU and GPU (53-335) and the loop over chunks of projections of `vertical_reconstruction` (450-668) and
`vertical_reconstruction_multiple` (701-947).

Arithmetic is exact; `float32` rounding is not modelled.
-/

namespace Verif.Vertical
open Verif.Sched Verif.BackProj

/-! ### Geometry -/

/-- `np.deg2rad`. -/
noncomputable def deg2rad (a : ℝ) : ℝ := a * (Real.pi / 180)

/-- `_get_points_single_line` (vertrec.py:338-384): the lists `xlist`, `ylist` (entries `0 .. width-1`).
`np.arange(x_min, x_max)` has the `width` entries `-center + i`.  The tests `angle <= 45` and
`angle <= 90` (lines 368, 377) compare the angle in *radians*, exactly as the code does. -/
noncomputable def getPointsSingleLine (sliceIndex alpha : ℝ) (width : Nat) :
    Py ((Nat → ℝ) × (Nat → ℝ)) :=
  if alpha < 0 ∨ alpha > 180 then .error .valueError
  else if sliceIndex < 0 ∨ sliceIndex > (width : ℝ) - 1 then .error .valueError
  else
    let center : ℝ := (⌈(1 / 2 : ℝ) * ((width : ℝ) - 1)⌉ : ℤ)
    let xMin := -center
    let angle := deg2rad alpha
    let x0 := sliceIndex - center
    let y0 := x0
    if alpha ≤ 45 ∨ alpha ≥ 135 then
      let aFact := Real.tan angle
      let bFact := if angle ≤ 45 then -y0 / Real.cos angle else y0 / Real.cos angle
      let xcr := -aFact * bFact / (1 + aFact ^ 2)
      let xl := fun i : Nat => xcr + (xMin + (i : ℝ)) * Real.cos angle
      .ok (xl, fun i => aFact * xl i + bFact)
    else
      let aFact := Real.cos angle / Real.sin angle
      let bFact := if angle ≤ 90 then x0 / Real.sin angle else -x0 / Real.sin angle
      let ycr := -aFact * bFact / (1 + aFact ^ 2)
      let yl := fun i : Nat => ycr + (xMin + (i : ℝ)) * Real.sin angle
      .ok (fun i => aFact * yl i + bFact, yl)

/-- `_get_points_multiple_lines` (vertrec.py:387-418): one line for every index of
`np.arange(start_index, stop_index + 1, step_index)` (integer arguments, positive step). -/
noncomputable def getPointsMultipleLines (startIndex stopIndex : Int) (alpha : ℝ) (width step : Nat) :
    Py (List ((Nat → ℝ) × (Nat → ℝ))) :=
  (pyRange startIndex (stopIndex + 1) step).mapM fun (idx : Int) => getPointsSingleLine (idx : ℝ) alpha width

/-- `_get_points_multiple_lines_different_angles` (vertrec.py:421-447). -/
noncomputable def getPointsDifferentAngles (l : List (ℝ × ℝ)) (width : Nat) :
    Py (List ((Nat → ℝ) × (Nat → ℝ))) :=
  l.mapM fun p => getPointsSingleLine p.1 p.2 width

/-! ### Back-projection of vertical slices -/

variable {K : Type _} [Field K] [LinearOrder K] [FloorRing K]

/-- Projection image `n` of a stack. -/
def image (p : Arr3 K) (n : Nat) : Mat K := ⟨p.h, p.w, p.get n⟩

/-- `f_pos` (vertrec.py:88-91, 150-153, 193-194, 273-274). -/
def vPos (cs : K × K) (center x y : K) : K := x * cs.1 + y * cs.2 + center

/-- Body of the `prange` loop of `vertical_back_projection_cpu` for row `i` (vertrec.py:82-108): the
updates `recon[i, j] += val` in program order (loop over projections, then over columns). -/
def rowUpdates (p : Arr3 K) (cs : Nat → K × K) (xl yl : Nat → K) (center : K) (edgePad : Bool)
    (i : Nat) : Py (List ((Nat × Nat) × K)) := do
  let l ← (List.range p.d).mapM fun n => (List.range p.w).mapM fun j => do
    let r ← rayVal (image p n) i (vPos (cs n) center (xl j) (yl j)) edgePad
    pure (r.map fun v => ((i, j), v))
  pure (l.flatten.filterMap id)

/-- `vertical_back_projection_cpu` (vertrec.py:53-109): `T` threads, thread `t` gets the rows
`assign t`, interleaved by `sched`. -/
def verticalBpCpu (p : Arr3 K) (cs : Nat → K × K) (xl yl : Nat → K) (center : K) (edgePad : Bool)
    (T : Nat) (assign : Nat → List Nat) (sched : List Nat) : Py (Shared (Nat × Nat) K) := do
  let progs ← (List.range T).mapM fun t => do
    let l ← (assign t).mapM (rowUpdates p cs xl yl center edgePad)
    pure l.flatten
  pure ((Shared.init (fun _ => 0) T (fun t => progs.getD t [])).run sched)

/-- Body of the `prange` loop of `vertical_back_projection_cpu_chunk` for slice `s`
(vertrec.py:144-171): loops over projections, columns, rows; updates `recon[s, i, j] += val`. -/
def sliceUpdates (p : Arr3 K) (cs : Nat → K × K) (xm ym : Nat → Nat → K) (center : K) (edgePad : Bool)
    (s : Nat) : Py (List ((Nat × Nat × Nat) × K)) := do
  let l ← (List.range p.d).mapM fun n => do
    let l1 ← (List.range p.w).mapM fun j => (List.range p.h).mapM fun i => do
      let r ← rayVal (image p n) i (vPos (cs n) center (xm s j) (ym s j)) edgePad
      pure (r.map fun v => ((s, i, j), v))
    pure l1.flatten
  pure (l.flatten.filterMap id)

/-- `vertical_back_projection_cpu_chunk` (vertrec.py:112-172). -/
def verticalBpCpuChunk (p : Arr3 K) (cs : Nat → K × K) (xm ym : Nat → Nat → K) (center : K)
    (edgePad : Bool) (T : Nat) (assign : Nat → List Nat) (sched : List Nat) :
    Py (Shared (Nat × Nat × Nat) K) := do
  let progs ← (List.range T).mapM fun t => do
    let l ← (assign t).mapM (sliceUpdates p cs xm ym center edgePad)
    pure l.flatten
  pure ((Shared.init (fun _ => 0) T (fun t => progs.getD t [])).run sched)

/-- The value `val_acc` a GPU thread computes (vertrec.py:185-211, 268-291). -/
def gpuAcc (p : Arr3 K) (cs : Nat → K × K) (x y center : K) (edgePad : Bool) (i : Nat) : Py K := do
  let l ← (List.range p.d).mapM fun n => rayVal (image p n) i (vPos (cs n) center x y) edgePad
  pure (l.foldl addOpt 0)

/-- One store of the GPU chunk kernel (vertrec.py:263-292): thread number `t`
(`(i_index, j_index) = cuda.grid(2)`) stores its value for slice `s`. -/
def gpuStore (p : Arr3 K) (cs : Nat → K × K) (xm ym : Nat → Nat → K) (center : K) (edgePad : Bool)
    (nx t s : Nat) (recon : Nat × Nat × Nat → K) : Py (Nat × Nat × Nat → K) :=
  let i := (threadXY nx t).1
  let j := (threadXY nx t).2
  if i ≥ p.h ∨ j ≥ p.w then pure recon
  else do
    let acc ← gpuAcc p cs (xm s j) (ym s j) center edgePad i
    pure (fun q => if q = (s, i, j) then acc else recon q)

/-- `vertical_back_projection_gpu_chunk` (vertrec.py:295-335); `order` is the order in which the
stores `(thread, slice)` of the launched grid happen.  `vertical_back_projection_gpu`
(vertrec.py:215-252) is the case of one slice. -/
def verticalBpGpu (p : Arr3 K) (cs : Nat → K × K) (xm ym : Nat → Nat → K) (center : K)
    (edgePad : Bool) (b0 : Nat) (order : List (Nat × Nat)) : Py (Nat × Nat × Nat → K) :=
  order.foldlM (fun r e => gpuStore p cs xm ym center edgePad (gridDim p.h b0 * b0) e.1 e.2 r)
    (fun _ => 0)

/-! ### Chunk loop -/

/-- Chunk size actually used (vertrec.py:576-579, 846-849). -/
def chunkLen (numProj : Nat) (chunkSize : Option Int) : Nat :=
  let c : Int := chunkSize.getD (min 30 (numProj / 4 + 1 : Nat))
  if c > numProj ∨ c < 1 then numProj else c.toNat

/-- Start and stop (relative to `proj_start`) of the chunks (vertrec.py:580-581, 595-597, 636-638). -/
def chunkList (numProj c : Nat) : List (Nat × Nat) :=
  let numIter := numProj / c
  let numRest := numProj - numIter * c
  ((List.range numIter).map fun i => (i * c, i * c + c)) ++
    (if numRest ≠ 0 then [(numIter * c, numIter * c + numRest)] else [])

/-- Options of a vertical reconstruction that act on the projections.  `lg` is `-log`, `filt` the ramp
filter applied to an image before back-projection (identity for `ramp_filter != "before"`). -/
structure Opts (K : Type _) where
  top : Nat
  bot : Nat
  left : Nat
  right : Nat
  flatDark : Option (Mat K × Mat K)
  applyLog : Bool
  lg : K → K
  filt : Mat K → Mat K

/-- `projections[start:stop, top:bot, left:right]` for in-range bounds (vertrec.py:598, 639). -/
def cropChunk (o : Opts K) (p : Arr3 K) (a b : Nat) : Arr3 K :=
  ⟨b - a, o.bot - o.top, o.right - o.left, fun n i j => p.get (a + n) (o.top + i) (o.left + j)⟩

/-- `(img_chunk - dark) / flat_dark` where `flat_dark = flat - dark` with zeros replaced by one
(vertrec.py:569-574, 599-600). -/
def flatChunk (o : Opts K) (c : Arr3 K) : Arr3 K :=
  match o.flatDark with
  | none => c
  | some (flat, dark) => ⟨c.d, c.h, c.w, fun n i j =>
      let fl := flat.get (o.top + i) (o.left + j)
      let dk := dark.get (o.top + i) (o.left + j)
      (c.get n i j - dk) / (if fl - dk = 0 then 1 else fl - dk)⟩

open Classical in
/-- Logarithm step (vertrec.py:601-610): if some value of the *chunk* is not positive, numpy raises the
warning and the non-positive values are replaced by one first. -/
noncomputable def logChunk (o : Opts K) (c : Arr3 K) : Arr3 K :=
  if o.applyLog then
    if ∃ n < c.d, ∃ i < c.h, ∃ j < c.w, c.get n i j ≤ 0 then
      ⟨c.d, c.h, c.w, fun n i j => o.lg (if c.get n i j ≤ 0 then 1 else c.get n i j)⟩
    else ⟨c.d, c.h, c.w, fun n i j => o.lg (c.get n i j)⟩
  else c

/-- Ramp filter before back-projection, image by image (vertrec.py:611-617). -/
def filtChunk (o : Opts K) (c : Arr3 K) : Arr3 K :=
  ⟨c.d, c.h, c.w, fun n => (o.filt (image c n)).get⟩

/-- The chunk handed to the back-projector. -/
noncomputable def prepChunk (o : Opts K) (p : Arr3 K) (a b : Nat) : Arr3 K :=
  filtChunk o (logChunk o (flatChunk o (cropChunk o p a b)))

/-- The accumulation loop of `vertical_reconstruction(_multiple)` (vertrec.py:582, 595-668):
`ver_slice += back_projection(img_chunk, angles[start - proj_start:stop - proj_start], ...)` for chunk
number 0, 1, ...; `bp k` is the back-projection call for chunk number `k` (its own thread schedule). -/
noncomputable def accumulate {ι : Type _} (o : Opts K) (p : Arr3 K) (projStart : Nat)
    (cs : Nat → K × K) (bp : Nat → Arr3 K → (Nat → K × K) → Py (ι → K)) (numProj : Nat)
    (chunkSize : Option Int) : Py (ι → K) :=
  ((chunkList numProj (chunkLen numProj chunkSize)).zipIdx).foldlM (fun acc e => do
    let im ← bp e.2 (prepChunk o p (e.1.1 + projStart) (e.1.2 + projStart)) (fun k => cs (e.1.1 + k))
    pure (fun q => acc q + im q)) (fun _ => 0)

/-- Arguments checks and chunk loop of `vertical_reconstruction` (vertrec.py:526-551, 576-668), returning the
accumulated slice before the final filter / mask / scaling.  `numAngles`: length of a given angle
list. `cr = (top, bottom, left, right)` crop margins. -/
noncomputable def verticalReconstruction {ι : Type _} (p : Arr3 K) (sliceIndex center : K)
    (cr : Int × Int × Int × Int) (projStart : Nat) (projStop : Int) (numAngles : Option Nat)
    (flatDark : Option (Mat K × Mat K)) (applyLog : Bool) (lg : K → K) (filt : Mat K → Mat K)
    (cs : Nat → K × K) (bp : Nat → Arr3 K → (Nat → K × K) → Py (ι → K)) (chunkSize : Option Int) :
    Py (ι → K) :=
  let stop : Int := if projStop = -1 then p.d else projStop
  let numProj : Int := stop - projStart
  if numProj < 1 then .error .valueError
  else if numAngles ≠ none ∧ numAngles ≠ some numProj.toNat then .error .valueError
  else
    let top := cr.1
    let bot := (p.h : Int) - cr.2.1
    let left := cr.2.2.1
    let right := (p.w : Int) - cr.2.2.2
    if bot - top < 1 ∨ right - left < 1 then .error .valueError
    else if center < 0 ∨ center > ((right - left - 1 : Int) : K) then .error .valueError
    else if sliceIndex < 0 ∨ sliceIndex > ((right - left - 1 : Int) : K) then .error .valueError
    else accumulate ⟨top.toNat, bot.toNat, left.toNat, right.toNat, flatDark, applyLog, lg, filt⟩ p
      projStart cs bp numProj.toNat chunkSize

end Verif.Vertical
