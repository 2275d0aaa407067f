import Verif.Model.Post
import Verif.Model.Convert
import Mathlib.Data.Rat.Floor

/-!
Model of the functions of algotom/post/postprocessing.py that write a dataset slice by slice into a folder of tif files, as programs with
intermediate states: `downsample_dataset` (366-503) and `rescale_dataset` (506-591) with a tif folder as input and as output.

A disk maps the path of a folder to its files.  The image files are 2D and decoded; pixels are exact.  A call first looks at the input (names, size of
the first image, range of values) and then does a list of jobs, one per output slice: read some input images, compute, write one file.  Reads happen
when the job runs, so a run whose output folder is its input folder reads what it has written before.  The process may stop between any two jobs or
within one: after the folder has been made, or while the file is being written, which leaves arbitrary content in that file.
-/

namespace Verif.Writer
open Verif.Io Verif.Convert

/-- Folder path ↦ its files; `none`: there is no such folder. -/
abbrev Disk (C : Type) := Name → Option (Dir C)

variable {C : Type}

/-- `make_folder` (loadersaver.py:285-294). -/
def Disk.mkdir (s : Disk C) (folder : Name) : Disk C := fun q => if q = folder then some ((s folder).getD []) else s q

/-- `save_image(folder + "/" + n, c)` (loadersaver.py:400-418) with `overwrite=True`. -/
def Disk.save (s : Disk C) (folder n : Name) (c : C) : Disk C := fun q => if q = folder then some (((s folder).getD []).write n c) else s q

/-- `load_image(folder + "/" + n)` (loadersaver.py:106-109): the content, or ValueError. -/
def Disk.read (s : Disk C) (folder n : Name) : Py C :=
  match ((s folder).getD []).find n with
  | some c => .ok c
  | none => .error .valueError

/-- `find_file(folder + "/*.tif*")` (loadersaver.py:375-379). -/
def Disk.tifs (s : Disk C) (folder : Name) : Py (List Name) := findFile (((s folder).getD []).map (·.1)) (tifPattern none)

/-- `"/img_" + ("0000" + str(i))[-5:] + ".tif"` without the slash (postprocessing.py:497-498, 587-588). -/
def sliceFile (i : Nat) : Name := "img_".toList ++ lastChars 5 ("0000".toList ++ pyStr i) ++ ".tif".toList

/-- One turn of the loop over slices: the input files it reads, the file it writes and the work in between. -/
structure Job (C : Type) where
  reads : List Name
  target : Name
  work : List C → Py C

/-- One turn of the loop (postprocessing.py:472-500, 574-588). -/
def Job.step (input output : Name) (s : Disk C) (j : Job C) : Py (Disk C) := do
  let imgs ← j.reads.mapM (s.read input)
  let r ← j.work imgs
  .ok (s.save output j.target r)

/-- The loop over slices. -/
def runJobs (input output : Name) (s : Disk C) (jobs : List (Job C)) : Py (Disk C) := jobs.foldlM (Job.step input output) s

/-- `__check_output` for a folder (postprocessing.py:97-99), called when `overwrite` is False (406-407, 539-540). -/
def checkFolder (s : Disk C) (output : Name) (overwrite : Bool) : Py Unit :=
  if overwrite = false ∧ (s output).isSome then .error .valueError else .ok ()

section dataset
variable {K : Type} [Field K] [LinearOrder K] [FloorRing K]

/-- The input as a 3D array (the slices read by the statistics, postprocessing.py:266-269); `m0` is the first image. -/
def stackOf (s : Disk (Mat K)) (input : Name) (files : List Name) (m0 : Mat K) : Arr3 K :=
  ⟨files.length, m0.h, m0.w, fun k i j => match s.read input (files.getD k []) with
    | .ok m => m.get i j
    | .error _ => 0⟩

/-- `minmax` as given, or the global range of the values of the slices looked at (postprocessing.py:452-455, 544-549). -/
def rangeOf (gauss : Mat K → Mat K) (s : Disk (Mat K)) (input : Name) (files : List Name) (m0 : Mat K) (minmax : Option (K × K)) (skip : Int)
    (crop : Post.Crop) : Py (K × K) :=
  match minmax with
  | some p => .ok p
  | none => (Post.statDataset gauss (stackOf s input files m0) 0 100 skip false crop).map fun t => (t.gmin, t.gmax)

/-- The first image, whose size is taken for that of all (postprocessing.py:114-116). -/
def firstImage (s : Disk (Mat K)) (input : Name) (files : List Name) : Py (Mat K) :=
  match files with
  | [] => .error .indexError
  | f :: _ => s.read input f

/-- The image written by `rescale_dataset` for one input image (postprocessing.py:575-577). -/
def rescaleWork (c : Post.Crop) (nbit : Nat) (mm : K × K) (m : Mat K) : Py (Mat K) :=
  let m := cut m c.h1 c.h2 c.w1 c.w2
  if nbit = 32 then .ok m else (Post.rescale m nbit (some mm)).map fun r => r.map fun (x : Int) => (x : K)

/-- Slice `i` of `rescale_dataset` (postprocessing.py:573-588): the file is numbered by the index in the input. -/
def rescaleJob (files : List Name) (c : Post.Crop) (nbit : Nat) (mm : K × K) (i : Nat) : Job (Mat K) :=
  ⟨[files.getD i []], sliceFile i, fun imgs => rescaleWork c nbit mm (imgs.headD ⟨0, 0, fun _ _ => 0⟩)⟩

/-- `skip` of `rescale_dataset` (postprocessing.py:545-546): `ceil(0.15 * depth1)`, at least 1, unless given. -/
def rescaleSkip (skip : Option Int) (depth1 : Nat) : Int := skip.getD (max ⌈(15 : ℚ) / 100 * depth1⌉ 1)

/-- `rescale_dataset(input, output, nbit, minmax, skip, crop=crop, overwrite=overwrite)` up to its loop (postprocessing.py:539-572): the jobs. -/
def rescaleCall (gauss : Mat K → Mat K) (s : Disk (Mat K)) (input output : Name) (nbit : Nat) (minmax : Option (K × K)) (skip : Option Int)
    (crop : Post.Crop) (overwrite : Bool) : Py (List (Job (Mat K))) := do
  checkFolder s output overwrite
  let files ← s.tifs input
  let m0 ← firstImage s input files
  let c ← Post.croppedShape files.length m0.h m0.w crop
  let mm ← rangeOf gauss s input files m0 minmax (rescaleSkip skip (c.d2 - c.d1)) crop
  .ok ((List.range (c.d2 - c.d1)).map fun k => rescaleJob files c nbit mm (c.d1 + k))

/-- The image written by `downsample_dataset` for one block of input images (postprocessing.py:473-480, 490-499): images whose cropped size is not the
expected one make `np.asarray` or `reshape` raise.  `scale`: rescale to that many bits from that range. -/
def downsampleWork (method : Post.Method) (c : Post.Crop) (c0 c1 c2 hd wd : Nat) (scale : Option (Nat × (K × K))) (intOut : Bool)
    (imgs : List (Mat K)) : Py (Mat K) :=
  let mats := imgs.map fun m => cut m c.h1 c.h2 c.w1 c.w2
  if mats.all (fun m => m.h == c.h2 - c.h1 && m.w == c.w2 - c.w1) then
    let slab : Arr3 K := ⟨c0, hd * c1, wd * c2, fun x y z => (mats.getD x ⟨0, 0, fun _ _ => 0⟩).get y z⟩
    let r : Mat K := ⟨hd, wd, fun y x => method.agg ((List.range c1).map fun b => method.agg ((List.range c0).map fun p =>
      method.agg ((List.range c2).map fun e => Post.reshape6 slab hd c1 wd c2 p y b x e)))⟩
    match scale with
    | none => .ok (r.map fun v => storeAs intOut v)
    | some (nbit, mm) => (Post.rescale r nbit (some mm)).map fun r => r.map fun (x : Int) => (x : K)
  else .error .valueError

/-- Output slice `num` of `downsample_dataset` (postprocessing.py:468-500): the files are numbered from 0. -/
def downsampleJob (files : List Name) (method : Post.Method) (c : Post.Crop) (c0 c1 c2 hd wd : Nat) (scale : Option (Nat × (K × K))) (intOut : Bool)
    (num : Nat) : Job (Mat K) :=
  ⟨(List.range c0).map fun x => files.getD (c.d1 + num * c0 + x) [], sliceFile num, downsampleWork method c c0 c1 c2 hd wd scale intOut⟩

/-- The options of `downsample_dataset` about values.  `dtypeBits`: 8 or 16 for input of that unsigned type, `none` for others. -/
structure Scaling (K : Type) where
  rescaling : Bool
  nbit : Nat
  minmax : Option (K × K)
  skip : Option Int
  dtypeBits : Option Nat

/-- The range used for rescaling (postprocessing.py:437-457). -/
def Scaling.range (o : Scaling K) (gauss : Mat K → Mat K) (s : Disk (Mat K)) (input : Name) (files : List Name) (m0 : Mat K) (depth1 : Nat)
    (crop : Post.Crop) : Py (Option (Nat × (K × K))) :=
  if o.rescaling then
    if o.nbit ≠ 16 ∧ o.nbit ≠ 8 then .error .valueError
    else if o.dtypeBits = some o.nbit then .ok none
    else if o.dtypeBits = some 8 then .ok (some (o.nbit, (0, 255)))
    else if o.dtypeBits = some 16 then .ok (some (o.nbit, (0, 65535)))
    else (rangeOf gauss s input files m0 o.minmax (o.skip.getD (npClip ⌈(15 : ℚ) / 100 * depth1⌉ 1 ((depth1 : Int) - 1))) crop).map
      fun mm => some (o.nbit, mm)
  else .ok none

/-- `downsample_dataset(input, output, (c0, c1, c2), method, …, overwrite=overwrite)` up to its loop (postprocessing.py:406-467): the jobs.  The loop
breaks at the first incomplete block, so there are `depth1 // c0` jobs. -/
def downsampleCall (gauss : Mat K → Mat K) (s : Disk (Mat K)) (input output : Name) (c0 c1 c2 : Nat) (method : Post.Method) (o : Scaling K)
    (intOut : Bool) (crop : Post.Crop) (overwrite : Bool) : Py (List (Job (Mat K))) := do
  checkFolder s output overwrite
  let files ← s.tifs input
  let m0 ← firstImage s input files
  let c ← Post.croppedShape files.length m0.h m0.w crop
  if c0 = 0 ∨ c1 = 0 ∨ c2 = 0 then .error .zeroDivision
  else
    let dd := (c.d2 - c.d1) / c0
    let hd := (c.h2 - c.h1) / c1
    let wd := (c.w2 - c.w1) / c2
    if dd = 0 ∨ hd = 0 ∨ wd = 0 then .error .valueError
    else do
      let scale ← o.range gauss s input files m0 (c.d2 - c.d1) crop
      .ok ((List.range dd).map fun num => downsampleJob files method c c0 c1 c2 hd wd scale intOut num)

end dataset

/-- Where a loop can stop, at the end or before: after some number of jobs; with the folder of the next file made; or with anything in the next file. -/
def Stops (input output : Name) (s : Disk C) (jobs : List (Job C)) (s' : Disk C) : Prop :=
  ∃ k, ∃ s1, runJobs input output s (jobs.take k) = .ok s1 ∧
    (s' = s1 ∨ (k < jobs.length ∧ s' = s1.mkdir output) ∨ ∃ j torn, jobs[k]? = some j ∧ s' = s1.save output j.target torn)

section calls
variable {K : Type} [Field K] [LinearOrder K] [FloorRing K]

/-- A call of `rescale_dataset` or `downsample_dataset` (postprocessing.py:506-508, 366-368) with a tif folder as input and as output. -/
inductive Call (K : Type) where
  | rescale (input output : Name) (nbit : Nat) (minmax : Option (K × K)) (skip : Option Int) (crop : Post.Crop)
  | downsample (input output : Name) (c0 c1 c2 : Nat) (method : Post.Method) (o : Scaling K) (intOut : Bool) (crop : Post.Crop)

/-- The input folder. -/
def Call.input : Call K → Name
  | .rescale i .. => i
  | .downsample i .. => i

/-- The output folder. -/
def Call.output : Call K → Name
  | .rescale _ o .. => o
  | .downsample _ o .. => o

/-- The loop of a call made with the disk in state `s`, or the error it raises before. -/
def Call.jobs (gauss : Mat K → Mat K) (s : Disk (Mat K)) (overwrite : Bool) : Call K → Py (List (Job (Mat K)))
  | .rescale i o nbit mm skip crop => rescaleCall gauss s i o nbit mm skip crop overwrite
  | .downsample i o c0 c1 c2 m sc io crop => downsampleCall gauss s i o c0 c1 c2 m sc io crop overwrite

/-- The call from beginning to end (postprocessing.py:366-503, 506-591): the disk afterwards, or the error. -/
def Call.run (gauss : Mat K → Mat K) (s : Disk (Mat K)) (overwrite : Bool) (c : Call K) : Py (Disk (Mat K)) :=
  (c.jobs gauss s overwrite).bind fun js => runJobs c.input c.output s js

/-- The disk when the call, made with the disk in state `s`, has been stopped somewhere in its loop (or has ended). -/
def Call.StopsAt (gauss : Mat K → Mat K) (s : Disk (Mat K)) (overwrite : Bool) (c : Call K) (s' : Disk (Mat K)) : Prop :=
  ∃ js, c.jobs gauss s overwrite = .ok js ∧ Stops c.input c.output s js s'

end calls

end Verif.Writer
