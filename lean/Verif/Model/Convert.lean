import Verif.Model.Io
import Verif.Num
import Mathlib.Algebra.BigOperators.Group.Finset.Basic
import Mathlib.Data.List.Sort

/-!
Model of the conversion between tif folders and hdf datasets: `find_file`, `load_image` (algotom/io/loadersaver.py:92-113, 361-379),
`convert_tif_to_hdf`, `extract_tif_from_hdf` (algotom/io/converter.py:39-146), and of the 8-bit scaling in `save_image` (loadersaver.py:400-410).

A folder is a list of entries (name, image); names are unique.  Images of a folder are what PIL decodes: 2D, or 3D with colour channels.  Pixels are exact
(no conversion to float32).  Path separators, escape sequences in Windows paths and character classes `[...]` in patterns are not modelled.
-/

namespace Verif.Convert
open Verif.Io

variable {K : Type} [Field K] [LinearOrder K]

/-! ### find_file -/

/-- `fnmatch` with the wildcards `*` and `?` (used by `Path.glob`). -/
def fnmatch : Name → Name → Bool
  | [], [] => true
  | [], _ :: _ => false
  | c :: p, [] => if c = '*' then fnmatch p [] else false
  | c :: p, d :: s =>
    if c = '*' then fnmatch p (d :: s) || fnmatch (c :: p) s
    else if c = '?' then fnmatch p s
    else if c = d then fnmatch p s
    else false
  termination_by p s => p.length + s.length

/-- `find_file(folder + "/" + pattern)` (loadersaver.py:375-379) on the names in the folder. -/
def findFile (names : List Name) (pattern : Name) : Py (List Name) :=
  match names.filter (fnmatch pattern) with
  | [] => .error .fileNotFound
  | l => .ok (l.insertionSort (· ≤ ·))

/-! ### load_image -/

/-- `np.argmin` of a shape of three (first minimum). -/
def argmin3 (a b c : Nat) : Nat := if a ≤ b ∧ a ≤ c then 0 else if b ≤ c then 1 else 2

/-- `load_image` (loadersaver.py:106-113) on the decoded file: arrays of three dimensions are averaged along their smallest dimension. -/
def loadImage : NdArr K → Mat K
  | .two m => m
  | .three a =>
    if argmin3 a.d a.h a.w = 0 then ⟨a.h, a.w, fun i j => (∑ k ∈ Finset.range a.d, a.get k i j) / (a.d : K)⟩
    else if argmin3 a.d a.h a.w = 1 then ⟨a.d, a.w, fun i j => (∑ k ∈ Finset.range a.h, a.get i k j) / (a.h : K)⟩
    else ⟨a.d, a.h, fun i j => (∑ k ∈ Finset.range a.w, a.get i j k) / (a.w : K)⟩

/-! ### convert_tif_to_hdf -/

/-- `crop = (top, bottom, left, right)`. -/
structure Crop where
  top : Nat
  bottom : Nat
  left : Nat
  right : Nat

/-- `m[a:b, c:d]` for non-negative bounds. -/
def cut (m : Mat K) (a b c d : Nat) : Mat K := ⟨min b m.h - a, min d m.w - c, fun i j => m.get (a + i) (c + j)⟩

/-- `data_out[k] = r` (h5py): dimensions of one pixel are repeated, others must fit, else TypeError.  Rows of the dataset written so far are in `l`. -/
def writeSlice (h w : Nat) (r : Mat K) : Py (Mat K) :=
  if (r.h = h ∨ r.h = 1) ∧ (r.w = w ∨ r.w = 1) then
    .ok ⟨h, w, fun i j => r.get (if r.h = h then i else 0) (if r.w = w then j else 0)⟩
  else .error .typeError

/-- The pattern of the files (converter.py:63-66). -/
def tifPattern : Option Name → Name
  | none => "*.tif*".toList
  | some p => '*' :: p ++ "*.tif*".toList

/-- The loop of `convert_tif_to_hdf` (converter.py:73-83) on the images in file order. -/
def convertImages (imgs : List (Mat K)) (m0 : Mat K) (crop : Crop) : Py (Arr3 K) :=
  let crH : Int := (m0.h : Int) - crop.top - crop.bottom
  let crW : Int := (m0.w : Int) - crop.left - crop.right
  if crH < 1 ∨ crW < 1 then .error .valueError
  else do
    let sl ← imgs.mapM fun m => writeSlice crH.toNat crW.toNat (cut m crop.top (crH.toNat + crop.top) crop.left (crW.toNat + crop.left))
    .ok ⟨imgs.length, crH.toNat, crW.toNat, fun k i j => match sl[k]? with
      | some s => s.get i j
      | none => 0⟩

/-- `convert_tif_to_hdf(folder, …, crop, pattern)` (converter.py:63-84): the dataset that is written. -/
def convertTif (folder : Dir (NdArr K)) (pattern : Option Name) (crop : Crop) : Py (Arr3 K) := do
  let files ← findFile (folder.map (·.1)) (tifPattern pattern)
  let imgs := files.filterMap fun n => (folder.find n).map loadImage
  match imgs with
  | [] => .error .fileNotFound
  | m0 :: rest => convertImages (m0 :: rest) m0 crop

/-! ### extract_tif_from_hdf -/

/-- `x[lo : len - hi]` along an axis of length `len` (negative ends count from the end): first index and number of elements. -/
def span (len lo hi : Nat) : Nat × Nat :=
  (pyBound len lo, pyBound len ((len : Int) - hi) - pyBound len lo)

/-- The image written for slice `i` (converter.py:127, 135, 143). -/
def sliceOf (a : Arr3 K) (axis : Nat) (crop : Crop) (i : Nat) : Mat K :=
  if axis = 1 then
    let r := span a.d crop.top crop.bottom
    let c := span a.w crop.left crop.right
    ⟨r.2, c.2, fun y x => a.get (r.1 + y) i (c.1 + x)⟩
  else if axis = 2 then
    let r := span a.d crop.top crop.bottom
    let c := span a.h crop.left crop.right
    ⟨r.2, c.2, fun y x => a.get (r.1 + y) (c.1 + x) i⟩
  else
    let r := span a.h crop.top crop.bottom
    let c := span a.w crop.left crop.right
    ⟨r.2, c.2, fun y x => a.get i (r.1 + y) (c.1 + x)⟩

/-- Length of the axis along which slices are taken. -/
def axisLen (a : Arr3 K) (axis : Nat) : Nat := if axis = 1 then a.h else if axis = 2 then a.w else a.d

/-- `f"{prefix}_{i:05}.tif"` (converter.py:128-129). -/
def sliceName (pre : Name) (i : Nat) : Name := pre ++ '_' :: fmt0 5 i ++ ".tif".toList

/-- `extract_tif_from_hdf` (converter.py:115-146): the output folder afterwards.  An image without pixels cannot be saved (ValueError). -/
def extractTif (a : Arr3 K) (axis : Nat) (index : Index) (crop : Crop) (pre : Name) (folder : Dir (NdArr K)) : Py (Dir (NdArr K)) :=
  (extractIndices (axisLen a axis) index).foldlM (fun d i => do
    let k ← pyIndex (axisLen a axis) i
    let m := sliceOf a axis crop k
    if m.h = 0 ∨ m.w = 0 then .error .valueError
    else .ok (d.write (sliceName pre k) (.two m))) folder

/-! ### save_image, 8 bit -/

/-- Smallest value of an image with at least one pixel. -/
def imgMin (m : Mat K) : K := ((List.range m.h).flatMap fun i => (List.range m.w).map fun j => m.get i j).foldl min (m.get 0 0)

/-- Greatest value of an image with at least one pixel. -/
def imgMax (m : Mat K) : K := ((List.range m.h).flatMap fun i => (List.range m.w).map fun j => m.get i j).foldl max (m.get 0 0)

/-- What `save_image` writes for formats other than tif (loadersaver.py:403-405): `np.min` of no pixel raises ValueError; a uniform image (0/0) is NaN
before the conversion and undefined after it, here `zeroDivision`. -/
def toBytes [FloorRing K] (m : Mat K) : Py (Mat Int) :=
  if m.h = 0 ∨ m.w = 0 then .error .valueError
  else if imgMax m - imgMin m = 0 then .error .zeroDivision
  else .ok ⟨m.h, m.w, fun i j => ⌊255 * (m.get i j - imgMin m) / (imgMax m - imgMin m)⌋⟩

end Verif.Convert
