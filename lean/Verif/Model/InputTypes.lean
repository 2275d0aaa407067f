import Verif.Model.Convert
import Verif.Model.Sched

/-!
Model of how the post-processing functions recognise their input and output (algotom/post/postprocessing.py:48-172) and of
`load_image_multiple` (algotom/io/loadersaver.py:1212-1242).

File system: `tif p` are the entries of the folder `p`, `hdf p` the datasets of the file `p`.  Paths are lists of characters with `/` as separator.
-/

namespace Verif.InputTypes
open Verif.Io Verif.Convert Verif.Sched

variable {K : Type} [Field K] [LinearOrder K]

/-- The part of a path after the last `/`. -/
def lastName (p : Name) : Name := (p.reverse.takeWhile (· != '/')).reverse

/-- `os.path.splitext(p)[-1]`: from the last dot of the last name on, unless only dots come before it. -/
def extOf (p : Name) : Name :=
  let r := (lastName p).reverse
  let e := r.takeWhile (· != '.')
  match r.drop e.length with
  | [] => []
  | _ :: base => if base.any (· != '.') then '.' :: e.reverse else []

/-- The argument `input_`. -/
inductive Input (K : Type) where
  | array (a : NdArr K)
  | path (p : Name)
  | other

/-- `in_type` (postprocessing.py:48-69). -/
inductive Kind where
  | array
  | tif
  | hdf
  deriving DecidableEq

/-- The files. -/
structure Files (K : Type) where
  folder : Name → Dir (NdArr K)
  file : Name → Option (List (Name × NdArr K))

/-- `find_file(input_ + "/*.tif*")`: the images of a folder in order of name. -/
def Files.tifs (fs : Files K) (p : Name) : Py (List Name) := findFile ((fs.folder p).map (·.1)) "*.tif*".toList

/-- `.hdf`, `.h5`, `.nxs`. -/
def isHdfExt (e : Name) : Bool := e == ".hdf".toList || e == ".h5".toList || e == ".nxs".toList

/-- `__get_input_type` (postprocessing.py:52-69); `find_file` raises if there is nothing to find, so the `else` of line 61 is never reached. -/
def inputType (fs : Files K) : Input K → Py (Option Kind)
  | .array _ => .ok (some .array)
  | .path p =>
    if extOf p = [] then (fs.tifs p).map fun _ => some .tif
    else if isHdfExt (extOf p) then .ok (some .hdf) else .ok none
  | .other => .ok none

/-- `__get_output_type` (postprocessing.py:76-87) of a string: True for hdf, False for tif. -/
def outputType (p : Name) : Py Bool :=
  if extOf p = [] then .ok false else if isHdfExt (extOf p) then .ok true else .error .valueError

/-- `(depth, height, width) = x.shape`. -/
def shape3 : NdArr K → Py (Nat × Nat × Nat)
  | .two _ => .error .valueError
  | .three a => .ok (a.d, a.h, a.w)

/-- `__get_shape` (postprocessing.py:110-131). -/
def getShape (fs : Files K) (input : Input K) (key : Option Name) : Py (Nat × Nat × Nat) :=
  (inputType fs input).bind fun ty =>
  match ty, input with
  | some .array, .array a => shape3 a
  | some .tif, .path p => (fs.tifs p).bind fun files =>
    match files with
    | [] => .error .indexError
    | f :: _ =>
      match (fs.folder p).find f with
      | none => .error .fileNotFound
      | some im => .ok (files.length, (loadImage im).h, (loadImage im).w)
  | some .hdf, .path p =>
    match key with
    | none => .error .valueError
    | some k =>
      match fs.file p with
      | none => .error .fileNotFound
      | some l =>
        match Dir.find l k with
        | none => .error .valueError
        | some d => shape3 d
  | _, _ => .error .valueError

/-- `load_image_multiple(list_path, ncore)` (loadersaver.py:1230-1242): `load` is `load_image`; `cores = mp.cpu_count() - 1`; a list that is not a list raises
ValueError before (not modelled); the images are stacked by `np.asarray`, which raises ValueError if their sizes differ.  `none`: the schedule does not
end. -/
def loadMany (load : Name → Py (Mat K)) (cores : Nat) (paths : List Name) (ncore : Option Int) (sched : List Ev) : Option (Py (List (Mat K))) :=
  let nc := npClip (ncore.getD (cores : Int)) 1 (paths.length : Int)
  let stack := fun imgs : List (Mat K) =>
    match imgs with
    | [] => (.ok [] : Py (List (Mat K)))
    | m :: _ => if imgs.all (fun x => x.h == m.h && x.w == m.w) then .ok imgs else .error .valueError
  if 1 < nc then
    (parMap paths.length nc.toNat (fun i => load (paths.getD i [])) sched).map fun l => (l.mapM id).bind stack
  else some ((paths.mapM load).bind stack)

end Verif.InputTypes
