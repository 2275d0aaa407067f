import Verif.Model.Io
import Mathlib.Algebra.BigOperators.Intervals
import Mathlib.Algebra.Order.Ring.Rat

/-!
Loading of image stacks: algotom/io/loadersaver.py:664-1209 (reference and sample stacks, tif stacks, image stacks) and
algotom/io/converter.py:149-212 (`HdfEmulatorFromTif`).  Exact arithmetic (no float32 rounding).  All files of a list are taken to hold
images of the shape of the first one (the code reads the shape of the first file only); crop values are non-negative.
-/

namespace Verif.Stacks
open Verif.Io

variable {K : Type _} [Field K] [DecidableEq K]

/-- `crop = (crop_top, crop_bottom, crop_left, crop_right)`. -/
structure Crop where
  top : Nat
  bot : Nat
  left : Nat
  right : Nat

/-- A window of an image: offset and size. -/
structure Box where
  top : Nat
  left : Nat
  h : Nat
  w : Nat

/-- Window left by `crop` in an image of shape `(h, w)` (loadersaver.py:799-808, 952-961, 1046-1054, 1154-1162). -/
def cropBox (h w : Nat) (c : Crop) : Py Box :=
  if (h : Int) - c.bot - c.top < 1 ∨ (w : Int) - c.right - c.left < 1 then .error .valueError
  else .ok ⟨c.top, c.left, h - c.bot - c.top, w - c.right - c.left⟩

/-- `m[top:bot, left:right]`. -/
def Box.cut (b : Box) (g : Nat → Nat → K) : Mat K := ⟨b.h, b.w, fun i j => g (b.top + i) (b.left + j)⟩

/-- `np.mean` of a 2D array. -/
def meanMat (m : Mat K) : K := (∑ i ∈ Finset.range m.h, ∑ j ∈ Finset.range m.w, m.get i j) / ((m.h * m.w : Nat) : K)

/-- `nmean = np.mean(m); m[m == 0.0] = nmean` (loadersaver.py:703-704, 969-970, 1062-1063, 1171-1172). -/
def zeroToMean (m : Mat K) : Mat K := ⟨m.h, m.w, fun i j => if m.get i j = 0 then meanMat m else m.get i j⟩

/-- The same for a stack (loadersaver.py:723-730, 994-998, 1081-1083, 1204-1206). -/
def zeroToMean3 (a : Arr3 K) : Arr3 K :=
  let mean := (∑ k ∈ Finset.range a.d, ∑ i ∈ Finset.range a.h, ∑ j ∈ Finset.range a.w, a.get k i j) / ((a.d * a.h * a.w : Nat) : K)
  ⟨a.d, a.h, a.w, fun k i j => if a.get k i j = 0 then mean else a.get k i j⟩

/-- `np.mean(data[lo:hi, top:bot, left:right], axis=0)`. -/
def meanImages (a : Arr3 K) (lo hi : Nat) (b : Box) : Mat K :=
  b.cut fun y x => (∑ k ∈ Finset.Ico lo hi, a.get k y x) / ((hi - lo : Nat) : K)

/-- `img - dark`, divided by `flat - dark` with its zeros replaced if a flat field is given (loadersaver.py:701-704, 710-713, 717-720). -/
def correct (flat : Option (Mat K)) (dark img : Mat K) : Mat K :=
  match flat with
  | none => ⟨img.h, img.w, fun i j => img.get i j - dark.get i j⟩
  | some f =>
    let fd := zeroToMean ⟨f.h, f.w, fun i j => f.get i j - dark.get i j⟩
    ⟨img.h, img.w, fun i j => (img.get i j - dark.get i j) / fd.get i j⟩

/-- `np.asarray` of a list of images of one shape. -/
def stackOf (b : Box) (l : List (Mat K)) : Arr3 K :=
  ⟨l.length, b.h, b.w, fun k i j => match l[k]? with | some m => m.get i j | none => 0⟩

/-- `num_use` (loadersaver.py:781-784 and the like). -/
def useCount (n : Nat) (numUse : Option Int) : Nat :=
  match numUse with
  | none => n
  | some k => (npClip k 1 n).toNat

/-- `l[i]` for a list and `i ≥ 0`. -/
def getIdx {α : Type _} (l : List α) (i : Nat) : Py α :=
  match l[i]? with
  | some x => .ok x
  | none => .error .indexError

/-! ### get_reference_sample_stacks_dls -/

/-- One tomographic dataset: images and the image-key dataset. -/
structure Scan (K : Type _) where
  data : Arr3 K
  keys : List Int

/-- The `image_key` argument after the automatic search (loadersaver.py:791-798): no key, the key dataset of each file, or a given list. -/
inductive KeyArg where
  | none
  | dataset
  | manual (l : List Int)

/-- `np.where(int_keys == v)[0]`. -/
def whereKey (keys : List Int) (v : Int) : List Nat := (List.range keys.length).filter fun p => keys[p]? == some v

/-- `np.sort(np.int32(np.squeeze(np.asarray(list_tmp))))` guarded by `len(list_tmp) != 0` (loadersaver.py:835-849): a single index is squeezed
to a 0-dimensional array, which `np.sort` refuses (`AxisError`, a `ValueError`). -/
def pickKey (keys : List Int) (v : Int) : Py (Option (List Nat)) :=
  match whereKey keys v with
  | [] => .ok none
  | [_] => .error .valueError
  | l => .ok (some l)

/-- What the loop over the files collects for one file. -/
structure Sel where
  sam : Option (List Nat)
  ref : Option (List Nat)
  dark : Option (List Nat)
  numProj : Nat

/-- Body of the loop over the files (loadersaver.py:816-855). -/
def selOf (key : KeyArg) (s : Scan K) : Py Sel :=
  let byKeys (keys : List Int) : Py Sel := do
    let sam ← pickKey keys 0
    let ref ← pickKey keys 1
    let dark ← pickKey keys 2
    return ⟨sam, ref, dark, (whereKey keys 0).length⟩
  match key with
  | .none => .ok ⟨some (List.range s.data.d), none, none, s.data.d⟩
  | .dataset => byKeys s.keys
  | .manual l => if l.length ≠ s.data.d then .error .valueError else byKeys l

/-- `np.min` / `np.max` of a list of integers (`ValueError` if empty). -/
def foldInt (f : Int → Int → Int) : List Int → Py Int
  | [] => .error .valueError
  | x :: l => .ok (l.foldl f x)

/-- `list_idx[-1]` (-1 for a file without images and without keys: `num_proj - 1`, loadersaver.py:840, 854). -/
def lastInt (l : List Nat) : Int := match l.getLast? with | some x => (x : Int) | none => -1

/-- The index check (loadersaver.py:856-865). -/
def checkIndex (projIdx : Int) (sels : List Sel) : Py Unit := do
  let sams := sels.filterMap (·.sam)
  let numProj ← foldInt min (sels.map fun s => (s.numProj : Int))
  let start ← foldInt max (sams.map fun l => (l.headD 0 : Int))
  let stop0 ← foldInt min (sams.map lastInt)
  let stop := if stop0 - start + 1 > numProj then start + numProj - 1 else stop0
  if projIdx + start > stop ∨ projIdx + start < start then .error .valueError else .ok ()

/-- The dark image used for file `i` (loadersaver.py:685-700). -/
def darkFor (sels : List Sel) (dark : Option (Mat K)) (b : Box) (s : Scan K) (i : Nat) : Py (Mat K) :=
  match dark with
  | some d => .ok (b.cut d.get)
  | none =>
    if (sels.filterMap (·.dark)).isEmpty then .ok ⟨b.h, b.w, fun _ _ => 0⟩
    else (getIdx (sels.filterMap (·.dark)) i).map fun l => meanImages s.data (l.headD 0) (l.getLastD 0 + 1) b

/-- The reference image of file `i`, if there are any (loadersaver.py:705-714). -/
def refFor (sels : List Sel) (fl : Option (Mat K)) (dk : Mat K) (b : Box) (s : Scan K) (i : Nat) : Py (Option (Mat K)) :=
  if (sels.filterMap (·.ref)).isEmpty then .ok none
  else (getIdx (sels.filterMap (·.ref)) i).map fun l => some (correct fl dk (meanImages s.data (l.headD 0) (l.getLastD 0 + 1) b))

/-- One step of the loop of `__get_ref_sam_stacks_dls` (loadersaver.py:692-721). -/
def dlsOne (projIdx : Int) (sels : List Sel) (flat dark : Option (Mat K)) (b : Box) (s : Scan K) (i : Nat) :
    Py (Option (Mat K) × Mat K) := do
  let dk ← darkFor sels dark b s i
  let fl := flat.map fun f => b.cut f.get
  let ref ← refFor sels fl dk b s i
  let sl ← getIdx (sels.filterMap (·.sam)) i
  let q ← pyIndex sl.length projIdx
  return (ref, correct fl dk (b.cut (s.data.get (sl.getD q 0))))

/-- Shape test of a given flat or dark field (loadersaver.py:676-691). -/
def badShape (h w : Nat) : Option (Mat K) → Bool
  | none => false
  | some m => m.h ≠ h || m.w ≠ w

/-- `get_reference_sample_stacks_dls` with known keys (loadersaver.py:778-784, 799-875, 671-731). -/
def getStacksDls (projIdx : Int) (files : List (Scan K)) (key : KeyArg) (crop : Crop) (flat dark : Option (Mat K)) (numUse : Option Int)
    (fix : Bool) : Py (Option (Arr3 K) × Arr3 K) := do
  let f0 ← getIdx files 0
  let b ← cropBox f0.data.h f0.data.w crop
  let used := files.take (useCount files.length numUse)
  let sels ← used.mapM (selOf key)
  checkIndex projIdx sels
  if badShape f0.data.h f0.data.w flat || badShape f0.data.h f0.data.w dark then .error .valueError
  else do
    let l ← used.zipIdx.mapM fun si => dlsOne projIdx sels flat dark b si.1 si.2
    let out (a : Arr3 K) : Arr3 K := if fix then zeroToMean3 a else a
    let refs := l.filterMap (·.1)
    .ok (if refs.isEmpty then none else some (out (stackOf b refs)), out (stackOf b (l.map (·.2))))

/-! ### get_reference_sample_stacks, get_tif_stack, get_image_stack -/

/-- `__check_dark_flat_field` followed by cropping (loadersaver.py:962-970, 1055-1063, 1163-1172): the cropped flat field (none if no flat
field is given: then no division is done) and the cropped dark field. -/
def fields (flat dark : Option (NdArr K)) (h w : Nat) (b : Box) : Py (Option (Mat K) × Mat K) := do
  let fl ← match flat with
    | none => .ok none
    | some f => do let m ← checkField f h w; .ok (some (b.cut m.get))
  let dk ← match dark with
    | none => .ok ⟨b.h, b.w, fun _ _ => 0⟩
    | some f => do let m ← checkField f h w; .ok (b.cut m.get)
  .ok (fl, dk)

/-- Shape of the images of a dataset: `.shape[-2:]`. -/
def imgShape : NdArr K → Nat × Nat
  | .two m => (m.h, m.w)
  | .three a => (a.h, a.w)

/-- `data[idx, top:bot, left:right]` (h5py: negative indices count from the end). -/
def imageAt (a : Arr3 K) (idx : Int) (b : Box) : Py (Mat K) := do
  let p ← pyIndex a.d idx
  .ok (b.cut (a.get p))

/-- Average of a 3D dataset, or the 2D dataset itself (loadersaver.py:979-982). -/
def averageOf (d : NdArr K) (b : Box) : Mat K :=
  match d with
  | .two m => b.cut m.get
  | .three a => meanImages a 0 a.d b

/-- `get_reference_sample_stacks` (loadersaver.py:943-999). -/
def getStacks (projIdx : Int) (refs : List (NdArr K)) (sams : List (Arr3 K)) (crop : Crop) (flat dark : Option (NdArr K))
    (numUse : Option Int) (fix : Bool) : Py (Arr3 K × Arr3 K) :=
  if refs.length ≠ sams.length then .error .valueError
  else do
    let r0 ← getIdx refs 0
    let n := useCount refs.length numUse
    let b ← cropBox (imgShape r0).1 (imgShape r0).2 crop
    let fd ← fields flat dark (imgShape r0).1 (imgShape r0).2 b
    let l ← ((refs.zip sams).take n).mapM fun rs => do
      let p ← imageAt rs.2 projIdx b
      .ok (correct fd.1 fd.2 (averageOf rs.1 b), correct fd.1 fd.2 p)
    let out (a : Arr3 K) : Arr3 K := if fix then zeroToMean3 a else a
    .ok (out (stackOf b (l.map (·.1))), out (stackOf b (l.map (·.2))))

/-- `get_tif_stack` on the sorted images of a folder (loadersaver.py:1030-1084); an empty folder raises `FileNotFoundError` in `find_file`
(loadersaver.py:377). -/
def getTifStack (imgs : List (Mat K)) (idx : Option Int) (crop : Crop) (flat dark : Option (NdArr K)) (numUse : Option Int) (fix : Bool) :
    Py (Arr3 K) :=
  match imgs with
  | [] => .error .fileNotFound
  | m0 :: _ => do
    let sel ← match idx with
      | some i => do
        let p ← tifIndex imgs.length i
        .ok [imgs.getD p m0]
      | none => .ok (imgs.take (useCount imgs.length numUse))
    let b ← cropBox m0.h m0.w crop
    let fd ← fields flat dark m0.h m0.w b
    let st := stackOf b (sel.map fun m => correct fd.1 fd.2 (b.cut m.get))
    .ok (if fix then zeroToMean3 st else st)

/-- A data source of `get_image_stack`: an hdf dataset, or the sorted images of a tif folder. -/
inductive Source (K : Type _) where
  | hdf (d : NdArr K)
  | tif (imgs : List (Mat K))

/-- Image taken from one source (loadersaver.py:1175-1183, 1190-1197). -/
def sourceImage (idx : Int) (average : Bool) (b : Box) : Source K → Py (Mat K)
  | .hdf d =>
    if average then .ok (averageOf d b)
    else match d with
      | .two m => .ok (b.cut m.get)
      | .three a => imageAt a idx b
  | .tif [] => .error .fileNotFound
  | .tif (m0 :: rest) =>
    if average then
      .ok (b.cut fun y x => ((m0 :: rest).map fun m => m.get y x).sum / (((m0 :: rest).length : Nat) : K))
    else do
      let p ← pyIndex (m0 :: rest).length idx
      .ok (b.cut ((m0 :: rest).getD p m0).get)

/-- Shape taken from the first source (loadersaver.py:1146-1153). -/
def sourceShape : Source K → Py (Nat × Nat)
  | .hdf d => .ok (imgShape d)
  | .tif [] => .error .fileNotFound
  | .tif (m0 :: _) => .ok (m0.h, m0.w)

/-- `get_image_stack` with a list of paths (loadersaver.py:1133-1206); all sources are of one kind. -/
def getImageStack (idx : Int) (srcs : List (Source K)) (average : Bool) (crop : Crop) (flat dark : Option (NdArr K)) (numUse : Option Int)
    (fix : Bool) : Py (Arr3 K) := do
  let s0 ← getIdx srcs 0
  let n := useCount srcs.length numUse
  let hw ← sourceShape s0
  let b ← cropBox hw.1 hw.2 crop
  let fd ← fields flat dark hw.1 hw.2 b
  let l ← (srcs.take n).mapM fun s => do
    let m ← sourceImage idx average b s
    .ok (correct fd.1 fd.2 m)
  let st := stackOf b l
  .ok (if fix then zeroToMean3 st else st)

/-! ### HdfEmulatorFromTif -/

/-- One component of a Python index: a Python integer, a numpy integer (which is no instance of `int`), or a slice `start:stop:step`
(`none` = left out). -/
inductive Ix where
  | int (i : Int)
  | npInt (i : Int)
  | slice (start stop : Option Int) (step : Option Int)

/-- `range(*slice(start, stop, step).indices(n))`: CPython's rules for defaults, negative values and clamping. -/
def sliceIndices (n : Nat) (start stop step : Option Int) : Py (List Nat) :=
  let st := step.getD 1
  if st = 0 then .error .valueError
  else if 0 < st then
    let adj (x : Int) : Int := if x < 0 then max (x + n) 0 else min x n
    let a := adj (start.getD 0)
    let e := adj (stop.getD n)
    .ok ((List.range ((e - a + st - 1) / st).toNat).map fun (q : Nat) => (a + st * (q : Int)).toNat)
  else
    let adj (x : Int) : Int := if x < 0 then max (x + n) (-1) else min x ((n : Int) - 1)
    let a := (start.map adj).getD ((n : Int) - 1)
    let e := (stop.map adj).getD (-1)
    .ok ((List.range ((a - e + -st - 1) / -st).toNat).map fun (q : Nat) => (a + st * (q : Int)).toNat)

/-- Result of indexing: one image (2D selection) or a stack of them; `β` is what a selection of one image gives. -/
inductive Got (β : Type _) where
  | one (x : β)
  | many (l : List β)

/-- Index given to the emulator: an integer or slice along the first axis, or a triple (first axis, and a selection `yx` applied to each image:
`img[y, x]`). -/
inductive EmuIx (α β : Type _) where
  | first (z : Ix)
  | triple (z : Ix) (yx : α → β)

/-- Images at position `i` (converter.py:186, 199). -/
def emuOne {F α β : Type _} (load : F → α) (files : List F) (f : α → β) (i : Int) : Py (Got β) := do
  let p ← pyIndex files.length i
  let x ← getIdx files p
  return .one (f (load x))

/-- Images of a slice (converter.py:188-190, 194-197); `np.stack` of no image raises `ValueError`. -/
def emuMany {F α β : Type _} (load : F → α) (files : List F) (f : α → β) (start stop step : Option Int) : Py (Got β) := do
  let l ← sliceIndices files.length start stop step
  let xs ← l.mapM fun p => getIdx files p
  if xs.isEmpty then .error .valueError else .ok (.many (xs.map fun x => f (load x)))

/-- `HdfEmulatorFromTif.__getitem__` on the list of files (converter.py:184-201); `load` is `losa.load_image`. -/
def emuGet {F α : Type _} (load : F → α) (files : List F) : EmuIx α α → Py (Got α)
  | .first (.int i) => emuOne load files id i
  | .first (.npInt _) => .error .typeError
  | .first (.slice a e s) => emuMany load files id a e s
  | .triple (.int i) yx => emuOne load files yx i
  | .triple (.npInt i) yx => emuOne load files yx i
  | .triple (.slice a e s) yx => emuMany load files yx a e s

/-- Construction of the emulator (converter.py:169-176): `find_file(folder + "/*tif*")` raises `FileNotFoundError` when nothing matches, so
the second search for "*TIF*" (whose result would not be stored anyway) and the `ValueError` are never reached. -/
def emuInit (lower _upper : List (List Char)) : Py (List (List Char)) :=
  match lower with
  | [] => .error .fileNotFound
  | l => .ok l

end Verif.Stacks
