import Verif.Model.Writer

/-!
Model of `reslice_dataset` (algotom/post/postprocessing.py:594-657, 831-952) from a tif folder, as a program with intermediate states: the temporary folder
and file, the output (tif folder or hdf file), and the clean-up.

The rotation of an image (`ndi.rotate`, identity for 0) and the pointwise rescaling and conversion of the output are parameters; the range of the
rescaling comes from the input folder (C39, C41).  Images are 2D; sizes are those of the first image.  Folders above the output path exist.  The progress
messages are not modelled.  The files of one chunk of output slices are written by several threads: when the process stops in between, each of them may
be old, new or broken.
-/

namespace Verif.ResliceRun
open Verif.Io Verif.Convert Verif.Writer

variable {K : Type}

/-- Content of a file: an image, or the dataset of an hdf file, given by its shape and its slices along the first axis (`none`: not written yet). -/
inductive File (K : Type) where
  | image (m : Mat K)
  | data (shape : Nat × Nat × Nat) (slices : Nat → Option (Mat K))

/-- One effect on the disk. -/
inductive Op (K : Type) where
  /-- `make_folder` -/
  | mkdir (p : Name)
  /-- compute some files from what is on the disk and write them -/
  | save (p : Name) (l : List (Name × (Disk (File K) → Py (File K))))
  /-- `shutil.rmtree` -/
  | remove (P : Name → Bool)
  /-- an exception -/
  | fail (e : PyErr)

/-- Several files written into a folder. -/
def writeAll (s : Disk (File K)) (p : Name) (l : List (Name × File K)) : Disk (File K) := l.foldl (fun s e => s.save p e.1 e.2) s

/-- The effect. -/
def Op.act (s : Disk (File K)) : Op K → Py (Disk (File K))
  | .mkdir p => .ok (s.mkdir p)
  | .save p l => (l.mapM fun (e : Name × (Disk (File K) → Py (File K))) => (e.2 s).map fun c => (e.1, c)).map fun r => writeAll s p r
  | .remove P => .ok fun q => if P q then none else s q
  | .fail e => .error e

/-- The files an effect may leave in any state when the process stops in the middle of it. -/
def Op.region : Op K → Name → Name → Prop
  | .mkdir _, _, _ => False
  | .save p l, q, n => q = p ∧ n ∈ l.map (·.1)
  | .remove P, q, _ => P q = true
  | .fail _, _, _ => False

/-- A sequence of effects. -/
def runOps (s : Disk (File K)) (ops : List (Op K)) : Py (Disk (File K)) := ops.foldlM Op.act s

/-- Where it can stop: between two effects or in the middle of one. -/
def StopsOps (s : Disk (File K)) (ops : List (Op K)) (s' : Disk (File K)) : Prop :=
  ∃ k s1, runOps s (ops.take k) = .ok s1 ∧ (s' = s1 ∨ ∃ op, ops[k]? = some op ∧
    (∀ q, (∀ n, ¬ op.region q n) → s' q = s1 q) ∧ ∀ q n, ¬ op.region q n → ((s' q).getD []).find n = ((s1 q).getD []).find n)

/-- The folder and what is below it. -/
def below (p q : Name) : Bool := q == p || (p ++ ['/']).isPrefixOf q

/-- `(start, length)` of the chunks of a loop over `n` slices (postprocessing.py:607, 624, 646-657 and 850, 885, 906-907). -/
def chunks (n ch : Nat) : List (Nat × Nat) :=
  (pyRange 0 ((ch * (n / ch) : Nat) : Int) ch).map (fun i => (i.toNat, ch)) ++ if n - ch * (n / ch) ≠ 0 then [(ch * (n / ch), n - ch * (n / ch))] else []

/-- The name of the temporary file (postprocessing.py:609). -/
def tmpFile : Name := "file_tmp.hdf".toList

/-- The arguments of a call that concern values. -/
structure Work (K : Type) where
  rot : Mat K → Mat K
  post : K → K
  axis : Nat
  chunk : Int
  crop : Post.Crop

/-- Input folder and output path: `dir` is the folder of the output files, `base` is `os.path.splitext(output)[0]`, `file` the name of an hdf output; for tif
output `dir = base`. -/
structure Paths where
  input : Name
  base : Name
  dir : Name
  file : Option Name

/-- `folder_tmp` (postprocessing.py:608). -/
def Paths.tmp (P : Paths) : Name := P.base ++ "/tmp_".toList

/-- The dataset in a file. -/
def dataOf (s : Disk (File K)) (p n : Name) : Py ((Nat × Nat × Nat) × (Nat → Option (Mat K))) :=
  match ((s p).getD []).find n with
  | some (.data sh d) => .ok (sh, d)
  | some (.image _) => .error .typeError
  | none => .error .fileNotFound

/-- The image in a file; what is not an image makes `load_image` raise ValueError (loadersaver.py:106-109). -/
def imageOf (s : Disk (File K)) (p n : Name) : Py (Mat K) :=
  match ((s p).getD []).find n with
  | some (.image m) => .ok m
  | some (.data _ _) => .error .valueError
  | none => .error .valueError

/-- One chunk of input images goes to the temporary file (postprocessing.py:633-643, 646-657 for axis 2; 664-697 for axis 1). -/
def loadChunk (P : Paths) (W : Work K) (files : List Name) (c : Post.Crop) (iv : Nat × Nat) (s : Disk (File K)) : Py (File K) := do
  let imgs ← (pySlice files ((iv.1 + c.d1 : Nat) : Int) ((iv.1 + iv.2 + c.d1 : Nat) : Int)).mapM (imageOf s P.input)
  let mats ← Post.takeN imgs iv.2
  let d ← dataOf s P.tmp tmpFile
  .ok (.data d.1 (Post.writeSlab d.2 iv.1 (mats.map fun m =>
    let m := Post.cropMat (W.rot m) c
    if W.axis == 2 then m.T else m)))

/-- Output slice `i` (postprocessing.py:894-902, 930-936): row `i` of every slice of the temporary dataset; parts that were never written read as 0. -/
def sliceImage [Zero K] (W : Work K) (d : Nat → Option (Mat K)) (depth width i : Nat) : Mat K :=
  ⟨depth, width, fun k j => match d k with
    | some m => W.post (m.get i j)
    | none => W.post 0⟩

/-- One chunk of output slices as tif files (postprocessing.py:930-936, 940-948). -/
def saveChunk [Zero K] (P : Paths) (W : Work K) (depth width : Nat) (iv : Nat × Nat) : Op K :=
  .save P.dir ((List.range iv.2).map fun j => (sliceFile (iv.1 + j), fun s => (dataOf s P.tmp tmpFile).map fun d =>
    .image (sliceImage W d.2 depth width (iv.1 + j))))

/-- One chunk of output slices in an hdf file (postprocessing.py:894-903, 906-916). -/
def writeChunk [Zero K] (P : Paths) (W : Work K) (name : Name) (depth width : Nat) (iv : Nat × Nat) : Op K :=
  .save P.dir [(name, fun s => do
    let d ← dataOf s P.tmp tmpFile
    let o ← dataOf s P.dir name
    .ok (.data o.1 (Post.writeSlab o.2 iv.1 ((List.range iv.2).map fun j => sliceImage W d.2 depth width (iv.1 + j)))))]

/-- The effects of a call once the input has been looked at (postprocessing.py:603-657, 846-952).  A chunk size of 0 makes `create_dataset` (ValueError) or
`np.arange` (ZeroDivisionError) fail after the temporary file has been made. -/
def resliceOps [Zero K] (P : Paths) (W : Work K) (files : List Name) (c : Post.Crop) : List (Op K) :=
  let depth := c.d2 - c.d1
  let height := if W.axis = 2 then c.w2 - c.w1 else c.h2 - c.h1
  let width := if W.axis = 2 then c.h2 - c.h1 else c.w2 - c.w1
  let ch1 := (npClip W.chunk 1 ((depth : Int) - 1)).toNat
  let ch2 := (npClip W.chunk 1 ((height : Int) - 1)).toNat
  [.mkdir P.base, .mkdir P.tmp, .save P.tmp [(tmpFile, fun _ => .ok (.data (depth, height, width) fun _ => none))]] ++
  (if ch1 = 0 then [.fail .valueError] else (chunks depth ch1).map fun iv => .save P.tmp [(tmpFile, loadChunk P W files c iv)]) ++
  (match P.file with
    | none => (if ch2 = 0 then [.fail .zeroDivision] else (chunks height ch2).map (saveChunk P W depth width)) ++ [.remove (below P.tmp)]
    | some name => [.save P.dir [(name, fun _ => .ok (.data (height, depth, width) fun _ => none))]] ++
        (if ch2 = 0 then [.fail .zeroDivision] else (chunks height ch2).map (writeChunk P W name depth width)) ++
        [.remove (below P.tmp), .remove (below P.base)])

/-- `__check_output` (postprocessing.py:97-102). -/
def checkOut (s : Disk (File K)) (P : Paths) (overwrite : Bool) : Py Unit :=
  match P.file with
  | none => if overwrite = false ∧ (s P.base).isSome then .error .valueError else .ok ()
  | some n => if overwrite = false ∧ (((s P.dir).getD []).find n).isSome then .error .valueError else .ok ()

/-- The call up to the first effect (postprocessing.py:833-842, 602-605). -/
def resliceCall [Zero K] (P : Paths) (W : Work K) (s : Disk (File K)) (overwrite : Bool) : Py (List (Op K)) := do
  if W.axis ≠ 1 ∧ W.axis ≠ 2 then .error .valueError
  else
    checkOut s P overwrite
    let files ← s.tifs P.input
    match files with
    | [] => .error .indexError
    | f :: _ => do
      let m0 ← imageOf s P.input f
      let c ← Post.croppedShape files.length m0.h m0.w W.crop
      .ok (resliceOps P W files c)

/-- The whole call. -/
def resliceRun [Zero K] (P : Paths) (W : Work K) (s : Disk (File K)) (overwrite : Bool) : Py (Disk (File K)) :=
  (resliceCall P W s overwrite).bind fun ops => runOps s ops

end Verif.ResliceRun
