import Verif.Model.ResliceRun

/-!
Model of `convert_tif_to_hdf` and `extract_tif_from_hdf` (algotom/io/converter.py:37-146) as programs with intermediate states, on the disk of
Model/ResliceRun.lean.  The results in terms of arrays are the subject of Model/Convert.lean.

Images are 2D.  An hdf file holds one dataset, at the key in use (`options` add others before it, C103).  The name of the hdf file has its extension already.
A dataset that has been created but not yet filled reads as 0.
-/

namespace Verif.ConvertRun
open Verif.Io Verif.Convert Verif.Writer Verif.ResliceRun

variable {K : Type} [Field K] [LinearOrder K]

/-- Arguments of `convert_tif_to_hdf` (converter.py:37-38); the output file is `dir/name`. -/
structure ConvArgs where
  input : Name
  dir : Name
  name : Name
  pattern : Option Name
  crop : Convert.Crop

/-- One turn of the loop (converter.py:81-83): the image is read from the disk and written into the dataset on the disk. -/
def convStep (A : ConvArgs) (h w i : Nat) (f : Name) (s : Disk (File K)) : Py (File K) := do
  let m ← imageOf s A.input f
  let d ← dataOf s A.dir A.name
  let r ← writeSlice h w (cut m A.crop.top (h + A.crop.top) A.crop.left (w + A.crop.left))
  .ok (.data d.1 (Post.writeSlab d.2 i [r]))

/-- The effects once the size is known (converter.py:78-83, loadersaver.py:450-467). -/
def convOps (A : ConvArgs) (files : List Name) (h w : Nat) : List (Op K) :=
  [.mkdir A.dir, .save A.dir [(A.name, fun _ => .ok (.data (files.length, h, w) fun _ => none))]] ++
    files.mapIdx fun i f => .save A.dir [(A.name, convStep A h w i f)]

/-- The call up to its first effect (converter.py:63-77). -/
def convPlan (A : ConvArgs) (s : Disk (File K)) : Py (List (Op K)) := do
  let files ← findFile (((s A.input).getD []).map (·.1)) (tifPattern A.pattern)
  let m0 ← imageOf s A.input (files.headD [])
  let crH : Int := (m0.h : Int) - A.crop.top - A.crop.bottom
  let crW : Int := (m0.w : Int) - A.crop.left - A.crop.right
  if crH < 1 ∨ crW < 1 then .error .valueError
  else .ok (convOps A files crH.toNat crW.toNat)

/-- `convert_tif_to_hdf` (converter.py:63-84). -/
def convRun (A : ConvArgs) (s : Disk (File K)) : Py (Disk (File K)) := (convPlan A s).bind fun ops => runOps s ops

/-- Arguments of `extract_tif_from_hdf` (converter.py:87-88); the input file is `dir/name`. -/
structure ExtArgs where
  dir : Name
  name : Name
  out : Name
  axis : Nat
  index : Index
  crop : Convert.Crop
  pre : Name

/-- `load_hdf` (loadersaver.py:261-272): the dataset in the file; everything else raises ValueError. -/
def loadHdf (s : Disk (File K)) (p n : Name) : Py (Arr3 K) :=
  match ((s p).getD []).find n with
  | some (.data sh d) => .ok ⟨sh.1, sh.2.1, sh.2.2, fun k i j => match d k with
      | some m => m.get i j
      | none => 0⟩
  | _ => .error .valueError

/-- One turn of the loop (converter.py:127-129, 135-137, 143-145): the slice is read from the file, and saved if it has pixels. -/
def extStep (A : ExtArgs) (k : Nat) (s : Disk (File K)) : Py (File K) := do
  let a ← loadHdf s A.dir A.name
  let m := sliceOf a A.axis A.crop k
  if m.h = 0 ∨ m.w = 0 then .error .valueError else .ok (.image m)

/-- The turn for index `i`: an index out of range raises (converter.py:127, 135, 143). -/
def extOp (A : ExtArgs) (len : Nat) (i : Int) : Op K :=
  match pyIndex len i with
  | .ok k => .save A.out [(sliceName A.pre k, extStep A k)]
  | .error e => .fail e

/-- The call up to its first effect (converter.py:115-126). -/
def extPlan (A : ExtArgs) (s : Disk (File K)) : Py (List (Op K)) := do
  let a ← loadHdf s A.dir A.name
  .ok ((extractIndices (axisLen a A.axis) A.index).map (extOp A (axisLen a A.axis)))

/-- `extract_tif_from_hdf` (converter.py:115-146). -/
def extRun (A : ExtArgs) (s : Disk (File K)) : Py (Disk (File K)) := (extPlan A s).bind fun ops => runOps s ops

end Verif.ConvertRun
