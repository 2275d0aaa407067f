import Verif.Np
import Mathlib.Data.Nat.Digits.Defs
import Mathlib.Algebra.Field.Defs

/-!
Model of the file naming, selection and text parts of algotom/io/loadersaver.py and
algotom/io/converter.py.  Names are lists of characters.
-/

namespace Verif.Io

abbrev Name := List Char

/-- Decimal digits of `n`, most significant first; `[0]` for zero. -/
def decDigits (n : Nat) : List Nat := if n = 0 then [0] else (Nat.digits 10 n).reverse

/-- Python `str(n)` for `n ≥ 0`. -/
def pyStr (n : Nat) : Name := (decDigits n).map Nat.digitChar

/-- Python `f"{n:0{width}}"` / `f"{n:04d}"` for `n ≥ 0`. -/
def fmt0 (width n : Nat) : Name :=
  List.replicate (width - (pyStr n).length) '0' ++ pyStr n

/-- Python `s[-k:]`. -/
def lastChars (k : Nat) (s : Name) : Name := s.drop (s.length - k)

/-! ### make_file_name / make_folder_name -/

/-- Candidate `stem_NNNN.ext` (loadersaver.py:350-351). -/
def fileCand (stem ext : Name) (n : Nat) : Name := stem ++ '_' :: fmt0 4 n ++ ext

/-- The `while True` loop of `make_file_name` (loadersaver.py:348-357), with fuel: `none` = still
looping after `fuel` iterations.  `names` are the existing entries of the parent directory. -/
def searchFile (names : List Name) (stem ext : Name) : Nat → Nat → Option Name
  | 0, _ => none
  | fuel + 1, n =>
    if fileCand stem ext n ∈ names then searchFile names stem ext fuel (n + 1)
    else some (fileCand stem ext n)

/-- `make_file_name` (loadersaver.py:329-358).  The path is given by its parent's entries, its stem and
its suffix (`name = stem ++ ext`). -/
def makeFileName (fuel : Nat) (names : List Name) (stem ext : Name) : Option Name :=
  if stem ++ ext ∈ names then searchFile names stem ext fuel 0 else some (stem ++ ext)

/-- A directory: file name ↦ content (first entry wins). -/
abbrev Dir (C : Type _) := List (Name × C)

/-- Content stored under a name. -/
def Dir.find {C : Type _} (d : Dir C) (n : Name) : Option C := (d.find? (·.1 == n)).map (·.2)

/-- Writing a file replaces any previous content. -/
def Dir.write {C : Type _} (d : Dir C) (n : Name) (c : C) : Dir C := (n, c) :: d.filter (·.1 != n)

/-- `save_image(file_path, mat, overwrite)` (loadersaver.py:382-418), file-system part. -/
def saveImage {C : Type _} (fuel : Nat) (d : Dir C) (stem ext : Name) (img : C) (overwrite : Bool) :
    Option (Name × Dir C) :=
  if overwrite then some (stem ++ ext, d.write (stem ++ ext) img)
  else match makeFileName fuel (d.map (·.1)) stem ext with
    | none => none
    | some n => some (n, d.write n img)

/-- Two processes calling `save_image(..., overwrite=False)` on one path: each first *chooses* a name
by looking at the directory (make_file_name) and later *writes* it (loadersaver.py:411-415).
`sched` gives the process taking the next of its two steps. -/
structure TwoSavers (C : Type _) where
  dir : Dir C
  chosen : Bool → Option Name
  done : Bool → Bool

/-- One step of saver `p`. -/
def TwoSavers.step {C : Type _} (fuel : Nat) (stem ext : Name) (img : Bool → C) (s : TwoSavers C)
    (p : Bool) : TwoSavers C :=
  match s.chosen p with
  | none => { s with chosen := fun q => if q = p then makeFileName fuel (s.dir.map (·.1)) stem ext
                                        else s.chosen q }
  | some n => if s.done p then s else
      { s with dir := s.dir.write n (img p), done := fun q => if q = p then true else s.done q }

/-- Run a schedule of the two savers. -/
def TwoSavers.run {C : Type _} (fuel : Nat) (stem ext : Name) (img : Bool → C) :
    TwoSavers C → List Bool → TwoSavers C
  | s, [] => s
  | s, p :: ps => (s.step fuel stem ext img p).run fuel stem ext img ps

/-- `make_folder_name` (loadersaver.py:297-326): `folders` = existing directories,
`others` = other entries of the parent.  The glob `prefix_*` counts both. -/
def searchFolder (folders : List Name) (pre : Name) (zpad : Nat) : Nat → Nat → Option Name
  | 0, _ => none
  | fuel + 1, n =>
    if pre ++ '_' :: fmt0 zpad n ∈ folders then searchFolder folders pre zpad fuel (n + 1)
    else some (pre ++ '_' :: fmt0 zpad n)

/-- loadersaver.py:315-326. -/
def makeFolderName (fuel : Nat) (folders others : List Name) (pre : Name) (zpad : Nat) : Option Name :=
  let existing := (folders ++ others).filter fun n => (pre ++ ['_']).isPrefixOf n
  searchFolder folders pre zpad fuel (existing.length + 1)

/-! ### numbered image files -/

/-- `list_path + "/img_" + ("00000" + str(i))[-5:] + ".tif"` (loadersaver.py:1277). -/
def multiName (folder : Name) (i : Nat) : Name :=
  folder ++ "/img_".toList ++ lastChars 5 ("00000".toList ++ pyStr i) ++ ".tif".toList

/-- `save_image_multiple(folder, stack, start_idx=start)` with `overwrite=True`
(loadersaver.py:1274-1303), sequential case: image `k` goes to the name of index `start + k`. -/
def saveMultiple {C : Type _} (folder : Name) (start : Nat) : List C → Dir C → Dir C
  | [], d => d
  | img :: rest, d => saveMultiple folder (start + 1) rest (d.write (multiName folder start) img)

/-- `f"{output_path}/{prefix}_{i:05}.tif"` (converter.py:128-129, 136-137, 144-145). -/
def extractName (folder pre : Name) (i : Nat) : Name :=
  folder ++ '/' :: pre ++ '_' :: fmt0 5 i ++ ".tif".toList

/-- Index argument of `extract_tif_from_hdf`: an integer or a tuple (converter.py:117-120). -/
inductive Index where
  | int (i : Int)
  | tuple (start stop : Int) (step : Nat)

/-- The slice numbers written by `extract_tif_from_hdf` for an axis of length `len`
(converter.py:117-126 and the two analogous branches); step ≥ 1. -/
def extractIndices (len : Nat) (index : Index) : List Int :=
  let sss : Int × Int × Nat := match index with
    | .tuple a b s => (a, b, s)
    | .int i => (i, i + 1, 1)
  let stop : Int := if sss.2.1 < 1 ∨ sss.2.1 > len then len else sss.2.1
  let start : Int := npClip sss.1 0 (stop - 1)
  pyRange start stop sss.2.2

/-- Which file `get_tif_stack(base, idx=idx)` loads, for `n ≥ 1` sorted files
(loadersaver.py:1036-1041, 1065). -/
def tifIndex (n : Nat) (idx : Int) : Py Nat :=
  let idx := if idx < 0 then (n : Int) + idx else idx
  if idx > (n : Int) - 1 then .error .valueError else pyIndex n idx

/-! ### flat/dark helper -/

/-- A numpy array of 2 or 3 dimensions. -/
inductive NdArr (K : Type _) where
  | two (m : Mat K)
  | three (a : Arr3 K)

/-- `len(arr)`. -/
def NdArr.len {K : Type _} : NdArr K → Nat
  | .two m => m.h
  | .three a => a.d

/-- Result of `np.mean(arr, axis=0)`: 1D for a 2D input, 2D for a 3D input. -/
inductive MeanRes (K : Type _) where
  | one (v : Nat → K)
  | two (m : Mat K)

/-- Average over the first axis. -/
def mean0 {K : Type _} [Field K] : NdArr K → MeanRes K
  | .two m => .one fun j => ((List.range m.h).map fun i => m.get i j).sum / (m.h : K)
  | .three a => .two ⟨a.h, a.w, fun i j => ((List.range a.d).map fun k => a.get k i j).sum / (a.d : K)⟩

/-- The flat (or dark) branch of `__check_dark_flat_field` (loadersaver.py:882-888, 891-897): averages
when `len(arr) == 3`, then unpacks a 2D shape and compares it with the projection shape. -/
def checkField {K : Type _} [Field K] (f : NdArr K) (height width : Nat) : Py (Mat K) :=
  let cmp (m : Mat K) : Py (Mat K) :=
    if m.h ≠ height ∨ m.w ≠ width then .error .valueError else .ok m
  if f.len = 3 then
    match mean0 f with
    | .one _ => .error .valueError          -- not enough values to unpack
    | .two m => cmp m
  else match f with
    | .two m => cmp m
    | .three _ => .error .valueError        -- too many values to unpack

/-- `fix_zero_div` step on a flattened stack (loadersaver.py:723-730, 994-998, 1081-1083, 1204-1206). -/
def fixZeroDiv {K : Type _} [Field K] [DecidableEq K] (l : List K) : List K :=
  let nmean := l.sum / (l.length : K)
  l.map fun x => if x = 0 then nmean else x

/-! ### distortion coefficient files -/

/-- Insert into an `OrderedDict` (assignment to an existing key keeps its place). -/
def odSet {V : Type _} (d : List (Name × V)) (k : Name) (v : V) : List (Name × V) :=
  if d.any (·.1 == k) then d.map fun e => if e.1 == k then (k, v) else e else d ++ [(k, v)]

/-- The metadata of `save_distortion_coefficient` (loadersaver.py:533-538). -/
def coefMeta {V : Type _} (xc yc : V) (facts : List V) : List (Name × V) :=
  let d := odSet (odSet [] "xcenter".toList xc) "ycenter".toList yc
  (facts.zipIdx).foldl (fun d e => odSet d ("factor".toList ++ pyStr e.2) e.1) d

/-- The text written (loadersaver.py:539-542); `showV` is Python's `str` on floats. -/
def coefText {V : Type _} (showV : V → Name) (xc yc : V) (facts : List V) : Name :=
  (coefMeta xc yc facts).flatMap fun e => e.1 ++ " = ".toList ++ showV e.2 ++ ['\n']

/-- Python whitespace / line break characters that can occur here. -/
def isWs (c : Char) : Bool := c == ' ' || c == '\n' || c == '\t' || c == '\r'

/-- `str.splitlines()` for text whose only line breaks are `\n`. `cur` is the current line. -/
def splitLines : Name → Name → List Name
  | cur, [] => if cur.isEmpty then [] else [cur]
  | cur, c :: cs => if c = '\n' then cur :: splitLines [] cs else splitLines (cur ++ [c]) cs

/-- `line.split()[-1]`: last whitespace separated token (`IndexError` if there is none). -/
def lastToken (l : Name) : Py Name :=
  let r := l.reverse.dropWhile isWs
  if r.isEmpty then .error .indexError else .ok ((r.takeWhile fun c => !isWs c).reverse)

/-- `load_distortion_coefficient` (loadersaver.py:491-500); `readV` is Python's `float`. -/
def coefLoad {V : Type _} (readV : Name → Py V) (text : Name) : Py (V × V × List V) := do
  let vals ← (splitLines [] text).mapM fun l => do
    let t ← lastToken l
    readV t
  match vals with
  | x :: y :: rest => pure (x, y, rest)
  | _ => .error .indexError

end Verif.Io
