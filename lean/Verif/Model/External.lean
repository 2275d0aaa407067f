import Verif.Model.Recon
import Verif.Model.Sched
import Mathlib.Data.Nat.Log

/-!
Model of the wrappers around external reconstruction programs, `gridrec_reconstruction` and `astra_reconstruction`
(algotom/rec/reconstruction.py:910-1174).

Exact real arithmetic.  The external routine (`tomopy.recon`, the astra algorithm) is a parameter that turns one sinogram into one square
image; `scipy.ndimage.shift` is a parameter.  That the libraries are installed is assumed.
-/

namespace Verif.External
open Verif.Fourier Verif.BackProj Verif.Simulation Verif.Recon

/-- The arguments common to both wrappers. -/
structure Common where
  center : ℝ
  angles : Option (List ℝ)
  ratio : Option ℝ
  applyLog : Bool

/-- Angle `i` (reconstruction.py:955-956, 1103-1104): `deg2rad(linspace(0, 180, nrow))` unless given. -/
noncomputable def Common.angle (a : Common) (nrow i : ℕ) : ℝ :=
  match a.angles with
  | none => Real.pi * i / ((nrow : ℝ) - 1)
  | some l => l.getD i 0

/-- The logarithm (reconstruction.py:961-966, 1136-1141); the effect on the caller's array is the subject of Model/LogStep.lean. -/
noncomputable def Common.logm (a : Common) (m : Mat ℝ) : Mat ℝ :=
  ⟨m.h, m.w, fun i j => if a.applyLog then -Real.log (if m.get i j ≤ 0 then 1 else m.get i j) else m.get i j⟩

/-- The checks of angles and center (reconstruction.py:957-960, 975-976, 1105-1108, 1134-1135): True if one of them raises. -/
def Common.bad (a : Common) (nrow ncol : ℕ) : Prop :=
  (∃ l, a.angles = some l ∧ l.length ≠ nrow) ∨ a.center < 0 ∨ (ncol : ℝ) ≤ a.center

/-- `recon * mask` (reconstruction.py:997-1002, 1165-1173). -/
noncomputable def Common.masked (a : Common) (ncol : ℕ) (img : Mat ℝ) : Mat ℝ :=
  match a.ratio with
  | none => img
  | some r =>
    let r' := if r = 0 then min a.center (ncol - a.center) / (0.5 * ncol) else r
    ⟨img.h, img.w, fun y x => img.get y x * (circleMask ncol r').get y x⟩

/-- `recon[lo:lo + n, lo:lo + n]`. -/
def cropSq (img : Mat ℝ) (lo n : ℕ) : Mat ℝ := ⟨min (lo + n) img.h - lo, min (lo + n) img.w - lo, fun y x => img.get (lo + y) (lo + x)⟩

/-- `np.pad(row, (left, right), mode="edge")` of every row. -/
def padEdge (m : Mat ℝ) (left right : ℕ) : Mat ℝ := ⟨m.h, left + m.w + right, fun i j => m.get i (edgeIdx m.w left j)⟩

/-! ### gridrec -/

/-- `pad` of `gridrec_reconstruction`: a bool or an int. -/
inductive GPad where
  | flag (b : Bool)
  | int (p : ℤ)

/-- `(pad_left, pad_right)` (reconstruction.py:973-987).  `int(2 ** ceil(log2(v)))` is the least power of two that is at least `v` for
`v >= 1`, 0 for `v = 0` and raises for `v < 0`; negative widths make `np.pad` (990) raise. -/
def gridPads (ncol : ℕ) : GPad → Py (ℕ × ℕ)
  | .flag false => .ok (0, 0)
  | .flag true =>
    let np := 2 ^ Nat.clog 2 ncol
    let left := (np - ncol) / 2
    .ok (left, np - ncol - left)
  | .int p =>
    let v : ℤ := ncol + 2 * p
    if v < 0 then .error .valueError
    else
      let np := if v = 0 then 0 else 2 ^ Nat.clog 2 v.toNat
      if np < ncol then .error .valueError
      else
        let left := (np - ncol) / 2
        .ok (left, np - ncol - left)

/-- The arguments of `gridrec_reconstruction`; `filter` after replacing None by "shepp" (reconstruction.py:971-972). -/
structure GArgs extends Common where
  pad : GPad
  filter : String
  filterPar : ℝ

/-- `tomopy.recon(sinogram, angles, center, filter_name, filter_par)` for one sinogram. -/
abbrev Gridrec := Mat ℝ → (ℕ → ℝ) → ℝ → String → ℝ → Mat ℝ

/-- What happens to one sinogram (reconstruction.py:961-1002). -/
noncomputable def gridSlice (R : Gridrec) (a : GArgs) (nrow ncol left right : ℕ) (m : Mat ℝ) : Mat ℝ :=
  let rec_ := R (padEdge (a.logm m) left right) (a.angle nrow) (a.center + left) a.filter a.filterPar
  a.masked ncol (cropSq rec_ left ncol)

open Classical in
/-- `gridrec_reconstruction(sinogram, center, ...)` (reconstruction.py:952-1006).  `np.squeeze` of a 1 x 1 image gives a number (here: a
1 x 1 image); a chunk without slices is not modelled. -/
noncomputable def gridrec (R : Gridrec) (a : GArgs) (x : Arr) : Py Arr :=
  if a.bad x.nrow x.ncol then .error .valueError
  else (gridPads x.ncol a.pad).bind fun p =>
    match x with
    | .one m => .ok (.one (gridSlice R a m.h m.w p.1 p.2 m))
    | .chunk s => .ok (.chunk (stack s.w ((List.range s.h).map fun j => gridSlice R a s.d s.w p.1 p.2 (chunkSino s j))))

/-! ### astra -/

/-- `cpu_method` (reconstruction.py:1109). -/
def cpuMethods : List (List Char) := ["BP", "FBP", "SIRT", "SART", "ART", "CGLS"].map String.toList

/-- `gpu_method` (reconstruction.py:1110-1111). -/
def gpuMethods : List (List Char) := ["BP_CUDA", "FBP_CUDA", "SIRT_CUDA", "SART_CUDA", "CGLS_CUDA", "EM_CUDA"].map String.toList

/-- `method.replace("_CUDA", "")`. -/
def dropCuda : List Char → List Char
  | '_' :: 'C' :: 'U' :: 'D' :: 'A' :: t => dropCuda t
  | c :: t => c :: dropCuda t
  | [] => []

/-- The choice of the method (reconstruction.py:1112-1129): the value of `gpu` and the method in use. -/
def selectMethod (cuda : Bool) (method : List Char) : Py (Bool × List Char) :=
  if ['C', 'U', 'D', 'A'] <:+: method then
    if cuda then
      if method ∈ gpuMethods then .ok (true, method) else .error .valueError
    else
      let m' := dropCuda method
      if ['E', 'M'] <:+: m' then .error .valueError
      else if m' ∈ cpuMethods then .ok (false, m') else .error .valueError
  else if method ∈ cpuMethods then .ok (false, method) else .error .valueError

/-- The arguments of `astra_reconstruction`; `pad` after `int()`, `filter` after replacing None by "ram-lak" (1142-1143), `ncore` as clipped
in 1130-1133; `sched`: the events of the thread pool. -/
structure AArgs extends Common where
  method : List Char
  numIter : ℕ
  filter : String
  pad : Option ℤ
  ncore : ℕ
  sched : List Sched.Ev

/-- `pad` (reconstruction.py:1144-1147). -/
def astraPad (ncol : ℕ) : Option ℤ → ℕ
  | none => defaultPad ncol
  | some p => p.toNat

/-- The astra algorithm `method` with the given projector ("line" without CUDA, none with it), `FilterType` option, number of iterations and
angles. -/
abbrev Astra := List Char → Bool → Option String → ℕ → (ℕ → ℝ) → Mat ℝ → Mat ℝ

/-- `scipy.ndimage.shift(m, (0, s), mode="nearest")`. -/
abbrev ShiftCols := Mat ℝ → ℝ → Mat ℝ

/-- The sinogram handed to astra (reconstruction.py:1016-1022). -/
noncomputable def astraSino (S : ShiftCols) (m : Mat ℝ) (center : ℝ) (pad : ℕ) : Mat ℝ :=
  let p := padEdge m pad pad
  let cen := ((p.w : ℝ) - 1) / 2
  S p (cen - (center + pad))

/-- `__astra_recon_single` (reconstruction.py:1016-1044). -/
noncomputable def astraSingle (A : Astra) (S : ShiftCols) (m : Mat ℝ) (center : ℝ) (angle : ℕ → ℝ) (pad : ℕ) (method : List Char)
    (filter : String) (numIter : ℕ) : Mat ℝ :=
  let s := astraSino S m center pad
  let line := decide (¬ ['C', 'U', 'D', 'A'] <:+: method)
  let flt := if method = "FBP_CUDA".toList ∨ method = "FBP".toList then some filter else none
  let r := A method line flt numIter angle s
  cropSq r pad (m.w + 2 * pad - pad - pad)

/-- The images of a chunk (reconstruction.py:1152-1163): one after the other on the GPU, by a thread pool on the CPU (`none`: the events do
not describe a complete run).  Without slices both ways raise `ValueError` (`n_jobs=0`, `moveaxis` of an empty array). -/
noncomputable def astraChunk (gpu : Bool) (ncore : ℕ) (sched : List Sched.Ev) (num : ℕ) (f : ℕ → Mat ℝ) : Option (List (Mat ℝ)) :=
  if gpu then some ((List.range num).map f) else Sched.parMap num (min ncore num) f sched

open Classical in
/-- `astra_reconstruction(sinogram, center, ...)` (reconstruction.py:1096-1174); `cuda`: `cuda.is_available()`; `none`: `sched` is not a
complete run of the thread pool. -/
noncomputable def astra (A : Astra) (S : ShiftCols) (cuda : Bool) (a : AArgs) (x : Arr) : Option (Py Arr) :=
  if a.bad x.nrow x.ncol then some (.error .valueError)
  else
    match selectMethod cuda a.method with
    | .error e => some (.error e)
    | .ok (gpu, method) =>
      let pad := astraPad x.ncol a.pad
      let single := fun m : Mat ℝ => astraSingle A S (a.logm m) a.center (a.angle x.nrow) pad method a.filter a.numIter
      match x with
      | .one m => some (.ok (.one (a.masked m.w (single m))))
      | .chunk s =>
        if s.h = 0 then some (.error .valueError)
        else
          match astraChunk gpu a.ncore a.sched s.h fun j => single (chunkSino s j) with
          | none => none
          | some l => some (.ok (.chunk (stack s.w (l.map (a.masked s.w)))))

end Verif.External
