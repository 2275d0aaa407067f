import Verif.Num
import Verif.Model.Io

/-!
Model of algotom/post/postprocessing.py: statistics (174-293), downsampling (296-331, 366-503), rescaling (334-363, 506-591),
reslicing (594-957).  Values live in an ordered field (no floating point rounding).
-/

namespace Verif.Post
open Verif.Io

section stats
variable {K : Type _} [Field K] [LinearOrder K] [FloorRing K]

/-- `np.min` of a non-empty array given by its values. -/
def npMin (l : List K) : K := l.tail.foldl min (l.headD 0)

/-- `np.max` of a non-empty array given by its values. -/
def npMax (l : List K) : K := l.tail.foldl max (l.headD 0)

/-- `np.mean`. -/
def npMean (l : List K) : K := l.sum / (l.length : K)

/-- Ascending sort of the values. -/
def sorted (l : List K) : List K := l.mergeSort (fun a b => decide (a ≤ b))

/-- `np.median`: middle of the sorted values, or mean of the two middle ones. -/
def npMedian (l : List K) : K :=
  let s := sorted l
  let n := l.length
  if n % 2 = 1 then s.getD (n / 2) 0 else (s.getD (n / 2 - 1) 0 + s.getD (n / 2) 0) / 2

/-- `np.percentile(mat, q)` (linear interpolation of the sorted values). -/
def npPercentile (l : List K) (q : K) : K :=
  let s := sorted l
  let pos : K := q / 100 * ((l.length : K) - 1)
  let lo := ⌊pos⌋.toNat
  let fr : K := pos - (⌊pos⌋ : K)
  s.getD lo 0 + fr * (s.getD (lo + 1) (s.getD lo 0) - s.getD lo 0)

/-- `np.var`. -/
def npVar (l : List K) : K := npMean (l.map fun x => (x - npMean l) ^ 2)

/-- Values of a 2D array in C order. -/
def flat {α : Type _} (m : Mat α) : List α := (List.range m.h).flatMap fun i => (List.range m.w).map fun j => m.get i j

/-- The 7-tuple returned by the statistics functions, in the order of postprocessing.py:214/293. -/
structure Stats (K : Type _) where
  gmin : K
  gmax : K
  minPercent : K
  maxPercent : K
  mean : K
  median : K
  variance : K

/-- `get_statistical_information(mat, percentile, denoise)` (postprocessing.py:205-214) for a non-empty array; `gauss` is
`ndi.gaussian_filter(·, 2)`. -/
def statInfo (gauss : Mat K → Mat K) (mat : Mat K) (pLow pHigh : K) (denoise : Bool) : Stats K :=
  let mat := if denoise then gauss mat else mat
  let l := flat mat
  ⟨npMin l, npMax l, npPercentile l pLow, npPercentile l pHigh, npMean l, npMedian l, npVar l⟩

/-- Crop parameters (`crop` option), non-negative integers. -/
structure Crop where
  d1 : Nat
  d2 : Nat
  h1 : Nat
  h2 : Nat
  w1 : Nat
  w2 : Nat

/-- `__get_cropped_shape` (postprocessing.py:134-151): `(d1, d2, h1, h2, w1, w2)` as index bounds. -/
def croppedShape (d h w : Nat) (c : Crop) : Py Crop :=
  if (d : Int) - c.d2 - c.d1 ≤ 0 ∨ (h : Int) - c.h2 - c.h1 ≤ 0 ∨ (w : Int) - c.w2 - c.w1 ≤ 0 then .error .valueError
  else .ok ⟨c.d1, d - c.d2, c.h1, h - c.h2, c.w1, w - c.w2⟩

/-- `mat[h1:h2, w1:w2]` for bounds inside the image. -/
def cropMat {α : Type _} (m : Mat α) (c : Crop) : Mat α := ⟨c.h2 - c.h1, c.w2 - c.w1, fun i j => m.get (c.h1 + i) (c.w1 + j)⟩

/-- Slice `i` of a 3D array. -/
def slice {α : Type _} (a : Arr3 α) (i : Nat) : Mat α := ⟨a.h, a.w, a.get i⟩

/-- `get_statistical_information_dataset` (postprocessing.py:259-293); the three input types read the same slices.  `range` with step 0
raises `ValueError`. -/
def statDataset (gauss : Mat K → Mat K) (a : Arr3 K) (pLow pHigh : K) (skip : Int) (denoise : Bool) (crop : Crop) : Py (Stats K) := do
  let c ← croppedShape a.d a.h a.w crop
  let depth1 : Int := (c.d2 : Int) - c.d1
  let skip := npClip skip 1 (depth1 - 1)
  if skip = 0 then .error .valueError
  else
    let stats := (pyRange c.d1 c.d2 skip.toNat).map fun i =>
      let mat := cropMat (slice a i.toNat) c
      let mat := if denoise then gauss mat else mat
      statInfo gauss mat pLow pHigh denoise
    -- lines 289-293: columns 4 (mean) and 5 (median) are aggregated into `median` and `mean`
    let median := npMedian (stats.map (·.mean))
    let mean := npMean (stats.map (·.median))
    .ok ⟨npMin (stats.map (·.gmin)), npMax (stats.map (·.gmax)), npMin (stats.map (·.minPercent)), npMax (stats.map (·.maxPercent)), mean, median,
      npMean (stats.map (·.variance))⟩

/-! ### downsampling -/

/-- `method` option of `downsample`. -/
inductive Method where
  | mean | median | max | min

/-- `dsp_method` (postprocessing.py:314-321, 411-418). -/
def Method.agg : Method → List K → K
  | .mean => npMean
  | .median => npMedian
  | .max => npMax
  | .min => npMin

/-- `mat.reshape(a, b, c, d)` in C order, entry `(i, j, k, l)`, for an array of width `m.w`. -/
def reshape4 {α : Type _} (m : Mat α) (b c d i j k l : Nat) : α :=
  let f := ((i * b + j) * c + k) * d + l
  m.get (f / m.w) (f % m.w)

/-- `downsample(mat, (c0, c1), method)` (postprocessing.py:314-331). -/
def downsample (m : Mat K) (c0 c1 : Nat) (method : Method) : Py (Mat K) :=
  if c0 = 0 ∨ c1 = 0 then .error .zeroDivision
  else
    let hd := m.h / c0
    let wd := m.w / c1
    let m' : Mat K := ⟨hd * c0, wd * c1, m.get⟩
    let r := reshape4 m' c0 wd c1
    .ok ⟨hd, wd, fun i j => method.agg ((List.range c0).map fun a => method.agg ((List.range c1).map fun b => r i a j b))⟩

/-- `mat.reshape(1, c0, hd, c1, wd, c2)` of a slab of shape `(c0, hd*c1, wd*c2)`, entry `(0, a, i, b, j, e)`. -/
def reshape6 {α : Type _} (s : Arr3 α) (hd c1 wd c2 a i b j e : Nat) : α :=
  let f := (((a * hd + i) * c1 + b) * wd + j) * c2 + e
  s.get (f / (s.h * s.w)) (f % (s.h * s.w) / s.w) (f % s.w)

/-- `downsample_dataset` (postprocessing.py:406-503) without rescaling; `intOut` = the input has an integer dtype, to which the result is cast.
The loop stops at the first incomplete slab. -/
def downsampleDataset (a : Arr3 K) (c0 c1 c2 : Nat) (method : Method) (crop : Crop) (intOut : Bool) : Py (Arr3 K) := do
  let c ← croppedShape a.d a.h a.w crop
  if c0 = 0 ∨ c1 = 0 ∨ c2 = 0 then .error .zeroDivision
  else
    let depth1 := c.d2 - c.d1
    let dd := depth1 / c0
    let hd := (c.h2 - c.h1) / c1
    let wd := (c.w2 - c.w1) / c2
    if dd = 0 ∨ hd = 0 ∨ wd = 0 then .error .valueError
    else
      let starts := (pyRange c.d1 c.d2 c0).takeWhile fun i => decide (i + c0 ≤ (c.d1 : Int) + depth1)
      let slabs := starts.map fun i =>
        let s : Arr3 K := ⟨c0, hd * c1, wd * c2, fun x y z => a.get (i.toNat + x) (c.h1 + y) (c.w1 + z)⟩
        (fun y x => method.agg ((List.range c1).map fun b => method.agg ((List.range c0).map fun p =>
          method.agg ((List.range c2).map fun e => reshape6 s hd c1 wd c2 p y b x e))) : Nat → Nat → K)
      .ok ⟨slabs.length, hd, wd, fun k y x => storeAs intOut ((slabs.getD k fun _ _ => 0) y x)⟩

/-! ### rescaling -/

/-- `np.clip` on the field. -/
def clipK (x lo hi : K) : K := min (max x lo) hi

/-- `rescale(mat, nbit, minmax)` (postprocessing.py:351-363).  `gmax = gmin` makes numpy divide by zero (NaN), modelled as the error
`zeroDivision`; `np.uint8/np.uint16` truncate. -/
def rescale (m : Mat K) (nbit : Nat) (minmax : Option (K × K)) : Py (Mat Int) :=
  if nbit ≠ 8 ∧ nbit ≠ 16 then .error .valueError
  else
    let (gmin, gmax) := match minmax with
      | none => (npMin (flat m), npMax (flat m))
      | some p => p
    if gmax - gmin = 0 then .error .zeroDivision
    else
      let top : K := if nbit = 8 then 255 else 65535
      .ok (m.map fun x => pyTrunc (clipK ((clipK x gmin gmax - gmin) / (gmax - gmin) * top) 0 top))

end stats

/-! ### output files -/

/-- `__check_output` for an hdf path (postprocessing.py:91-102). -/
def checkOutput {C : Type _} (d : Dir C) (stem ext : Name) : Bool := (d.map (·.1)).contains (stem ++ ext)

/-- `open_hdf_stream(output, …, overwrite)` then writing all the data (loadersaver.py:446-468), file-system part. -/
def writeHdf {C : Type _} (fuel : Nat) (d : Dir C) (stem ext : Name) (c : C) (overwrite : Bool) : Option (Name × Dir C) :=
  if overwrite then some (stem ++ ext, d.write (stem ++ ext) c)
  else (makeFileName fuel (d.map (·.1)) stem ext).map fun n => (n, d.write n c)

/-- `rescale_dataset(input, output, overwrite=overwrite)` with hdf output (postprocessing.py:539-591): the stream is opened with
`overwrite=False` whatever the option (line 561).  `none` = the name search has not ended within the fuel. -/
def rescaleDatasetOut {C : Type _} (fuel : Nat) (d : Dir C) (stem ext : Name) (c : C) (overwrite : Bool) : Py (Option (Name × Dir C)) :=
  if overwrite = false ∧ checkOutput d stem ext = true then .error .valueError
  else .ok (writeHdf fuel d stem ext c false)

/-- `downsample_dataset(input, output, overwrite=overwrite)` with hdf output (postprocessing.py:406-503): the stream is opened with
`overwrite=True` (line 462). -/
def downsampleDatasetOut {C : Type _} (fuel : Nat) (d : Dir C) (stem ext : Name) (c : C) (overwrite : Bool) : Py (Option (Name × Dir C)) :=
  if overwrite = false ∧ checkOutput d stem ext = true then .error .valueError
  else .ok (writeHdf fuel d stem ext c true)

/-! ### reslicing -/

section reslice
variable {α β : Type _}

/-- `data_tmp[i:i+len] = l` on a dataset of which some entries may not have been written yet. -/
def writeSlab {γ : Type _} (st : Nat → Option γ) (i : Nat) (l : List γ) : Nat → Option γ :=
  fun k => if i ≤ k ∧ k < i + l.length then l[k - i]? else st k

/-- `mat_chunk[j] for j in range(n)`. -/
def takeN {γ : Type _} (l : List γ) (n : Nat) : Py (List γ) :=
  (List.range n).mapM fun j => match l[j]? with
    | some x => .ok x
    | none => .error .indexError

/-- The chunk loop of `__save_intermediate_data` (postprocessing.py:606-607, 624-657 and the three analogous branches): `data` are the input
images, `d1` the offset used when slicing (the crop for tif, 0 for hdf), `f` the work done on each image. -/
def chunkLoop (data : List α) (d1 depth1 : Nat) (chunk : Int) (f : α → β) : Py (Nat → Option β) := do
  let chunk := npClip chunk 1 ((depth1 : Int) - 1)
  if chunk = 0 then .error .valueError
  else
    let ch := chunk.toNat
    let last := depth1 - ch * (depth1 / ch)
    let st ← (pyRange 0 ((depth1 - last : Nat) : Int) ch).foldlM (fun st i => do
      let mats ← takeN (pySlice data (i + d1) (i + ch + d1)) ch
      .ok (writeSlab st i.toNat (mats.map f))) (fun _ => none)
    if last ≠ 0 then do
      let mats ← takeN (pySlice data ((depth1 - last + d1 : Nat) : Int) ((depth1 + d1 : Nat) : Int)) last
      .ok (writeSlab st (depth1 - last) (mats.map f))
    else .ok st

/-- `__save_intermediate_data` (postprocessing.py:594-779): crop (and transpose, for axis 2) every rotated image; `rot` is
`ndi.rotate(mat, rotate, reshape=False)`, the identity when `rotate = 0`.  For hdf input lines 716, 728, 752 and 764 do not add `d1`. -/
def saveIntermediate (isTif : Bool) (rot : Mat α → Mat α) (data : List (Mat α)) (c : Crop) (axis2 : Bool) (chunk : Int) : Py (Nat → Option (Mat α)) :=
  chunkLoop data (if isTif then c.d1 else 0) (c.d2 - c.d1) chunk fun m =>
    let m := cropMat (rot m) c
    if axis2 then m.T else m

/-- `data[:, i, :]` of the intermediate file, with pointwise rescaling; unwritten slices read as `none`. -/
def tmpRow (tmp : Nat → Option (Mat α)) (post : α → β) (depth1 width1 i : Nat) : Mat (Option β) :=
  ⟨depth1, width1, fun k j => (tmp k).map fun m => post (m.get i j)⟩

/-- `reslice_dataset` (postprocessing.py:831-948): output slice `i` ↦ image.  `h`, `w` = image shape. -/
def reslice (isTif : Bool) (rot : Mat α → Mat α) (post : α → β) (h w : Nat) (data : List (Mat α)) (axis : Nat) (chunk : Int) (crop : Crop) :
    Py (Nat → Option (Mat (Option β))) := do
  if axis ≠ 1 ∧ axis ≠ 2 then .error .valueError
  else
    let c ← croppedShape data.length h w crop
    let depth1 := c.d2 - c.d1
    let tmp ← saveIntermediate isTif rot data c (axis == 2) chunk
    let height1 := if axis = 2 then c.w2 - c.w1 else c.h2 - c.h1
    let width1 := if axis = 2 then c.h2 - c.h1 else c.w2 - c.w1
    -- lines 849-948: rows `i … i+chunk-1` of the intermediate file are written one by one
    let chunk := npClip chunk 1 ((height1 : Int) - 1)
    if chunk = 0 then .error .zeroDivision
    else chunkLoop ((List.range height1).map fun i => tmpRow tmp post depth1 width1 i) 0 height1 chunk id

/-- Name of output slice `i` for tif output (postprocessing.py:931-932, 943-944). -/
def resliceName (output : Name) (i : Nat) : Name :=
  output ++ "/img_".toList ++ lastChars 5 ("0000".toList ++ pyStr i) ++ ".tif".toList

/-! ### clean up -/

/-- A path as its list of components, from the root. -/
abbrev Path := List Name

/-- A file system: the existing files and folders. -/
abbrev Fs := List Path

/-- `shutil.rmtree(p)`: removes `p` and everything below. -/
def rmtree (fs : Fs) (p : Path) : Fs := fs.filter fun q => !p.isPrefixOf q

/-- `make_folder` for a path without suffix: creates the missing folders (loadersaver.py:285-292). -/
def mkdirs (fs : Fs) (p : Path) : Fs := (p.inits.filter fun q => !fs.contains q) ++ fs

/-- Creating (or overwriting) a file or folder. -/
def touch (fs : Fs) (p : Path) : Fs := if fs.contains p then fs else p :: fs

/-- The file-system effect of `reslice_dataset` (postprocessing.py:608-613, 880/935, 949-952) on success: `base` is
`os.path.splitext(output)[0]`, `output` the output path, `isHdf` the output type, `names` the tif files written. -/
def resliceFs (fs : Fs) (base output : Path) (isHdf : Bool) (names : List Name) : Fs :=
  let tmp := base ++ ["tmp_".toList]
  let fs := touch (mkdirs fs tmp) (tmp ++ ["file_tmp.hdf".toList])
  let fs := if isHdf then touch (mkdirs fs output.dropLast) output
            else names.foldl (fun fs n => touch fs (output ++ [n])) (mkdirs fs output)
  let fs' := rmtree fs tmp
  if isHdf then rmtree fs' base else fs'

end reslice

end Verif.Post
