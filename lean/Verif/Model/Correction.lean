import Verif.Num
import Verif.Model.Sorting

/-!
Model of algotom/prep/correction.py: flat-field correction (45-98), unwarping (135-292), tilted sinograms and profiles
(334-514), beam-hardening function (517-574, in `Verif.Model.BeamHardening`), upsampling (577-632).
Exact arithmetic; integer overflow of `np.int16` not modelled.
-/

namespace Verif.Correction
open Verif.Sorting

variable {K : Type _} [Field K] [LinearOrder K] [FloorRing K]

/-! ### flat field -/

/-- `np.mean` of a 2D array. -/
def meanAll (m : Mat K) : K := (∑ i ∈ Finset.range m.h, ∑ j ∈ Finset.range m.w, m.get i j) / ((m.h * m.w : Nat) : K)

/-- `0.0 in m`. -/
def hasZero (m : Mat K) : Bool := (List.range m.h).any fun i => (List.range m.w).any fun j => decide (m.get i j = 0)

/-- Replacement of zeros by the mean, or by one if the mean is zero (correction.py:80-85, 90-95); `isInt`: the array has an
integer dtype, so the stored mean is truncated. -/
def fixZeros (isInt : Bool) (m : Mat K) : Mat K :=
  if hasZero m then
    let nmean := meanAll m
    let r := if nmean ≠ 0 then storeAs isInt nmean else 1
    ⟨m.h, m.w, fun i j => if m.get i j = 0 then r else m.get i j⟩
  else m

/-- `flat_field_correction` (correction.py:77-98, no extra options); a zero denominator (numpy: inf/nan) is reported as
`zeroDivision`.  `isInt`: `ratio`, `flat` and `dark` are all of integer type. -/
def flatField (isInt : Bool) (ratio : K) (useDark : Bool) (proj flat dark : Mat K) : Py (Mat K) :=
  let flat' : Mat K := ⟨flat.h, flat.w, fun i j => ratio * flat.get i j⟩
  let den : Mat K := if useDark then fixZeros isInt ⟨flat.h, flat.w, fun i j => flat'.get i j - dark.get i j⟩
    else fixZeros isInt flat'
  let num : Mat K := if useDark then ⟨proj.h, proj.w, fun i j => proj.get i j - dark.get i j⟩ else proj
  if hasZero den then .error .zeroDivision
  else .ok ⟨proj.h, proj.w, fun i j => num.get i j / den.get i j⟩

/-! ### arrays in memory -/

/-- Memory: the arrays allocated so far, an array being known by its number. -/
abbrev Heap (K : Type _) := List (Mat K)

/-- `flat_field_correction` (correction.py:77-98) with the arrays in memory; the arguments are the arrays `proj`, `flat`, `dark` (which may be the same).
`ratio * flat` and `flat - dark` make new arrays, the assignment to the zeros (lines 83-85, 93-95) writes into one of these, the quotient is a new array, whose
number is returned. -/
def flatFieldMem (isInt : Bool) (ratio : K) (useDark : Bool) (mem : Heap K) (proj flat dark : Nat) : Heap K × Py Nat :=
  let empty : Mat K := ⟨0, 0, fun _ _ => 0⟩
  let at_ (m : Heap K) (a : Nat) : Mat K := m.getD a empty
  let flat1 := mem.length
  let mem1 := mem ++ [⟨(at_ mem flat).h, (at_ mem flat).w, fun i j => ratio * (at_ mem flat).get i j⟩]
  let den := if useDark then mem1.length else flat1
  let mem2 := if useDark then mem1 ++ [⟨(at_ mem1 flat1).h, (at_ mem1 flat1).w, fun i j => (at_ mem1 flat1).get i j - (at_ mem1 dark).get i j⟩] else mem1
  let mem3 := if hasZero (at_ mem2 den) then mem2.set den (fixZeros isInt (at_ mem2 den)) else mem2
  if hasZero (at_ mem3 den) then (mem3, .error .zeroDivision)
  else (mem3 ++ [⟨(at_ mem3 proj).h, (at_ mem3 proj).w, fun i j =>
      (if useDark then (at_ mem3 proj).get i j - (at_ mem3 dark).get i j else (at_ mem3 proj).get i j) / (at_ mem3 den).get i j⟩], .ok mem3.length)

/-! ### interpolation on a slab of rows -/

/-- `map_coordinates(..., order=1, mode='reflect')` at `(y, x)` on an `h × w` array. -/
def sample (h w : Nat) (g : Nat → Nat → K) (y x : K) : K :=
  let y0 := ⌊y⌋
  let x0 := ⌊x⌋
  let ty := y - (y0 : K)
  let tx := x - (x0 : K)
  (1 - ty) * ((1 - tx) * g (reflectIdx h y0) (reflectIdx w x0) + tx * g (reflectIdx h y0) (reflectIdx w (x0 + 1))) +
  ty * ((1 - tx) * g (reflectIdx h (y0 + 1)) (reflectIdx w x0) + tx * g (reflectIdx h (y0 + 1)) (reflectIdx w (x0 + 1)))

/-- Interpolation in the slab `m[lo:hi, :]` at `(y - lo, x)`; the slice end is cut to the array height and an
empty slab raises.  (`lo ≥ 0` in all uses.) -/
def slabSample (h w : Nat) (g : Nat → Nat → K) (lo hi : Int) (y x : K) : Py K :=
  let hi' := min hi h
  if hi' ≤ lo then .error .valueError
  else .ok (sample (hi' - lo).toNat w (fun i j => g (lo.toNat + i) j) (y - (lo : K)) x)

/-- `np.clip` on reals. -/
def clip (x lo hi : K) : K := min (max x lo) hi

/-- `np.amin` of `n ≥ 1` values. -/
def minOver (n : Nat) (f : Nat → K) : K := ((List.range n).map f).foldl min (f 0)

/-- `np.amax` of `n ≥ 1` values. -/
def maxOver (n : Nat) (f : Nat → K) : K := ((List.range n).map f).foldl max (f 0)

/-! ### unwarping: `fact y x` is the value of the distortion polynomial at pixel `(y, x)`
(correction.py:164-166, 212-214, 283-285), an arbitrary function here. -/

/-- Distorted row coordinate of pixel `(y, x)` (correction.py:168, 216, 273, 287). -/
def ydOf (h : Nat) (yc : K) (fact : Nat → Nat → K) (y x : Nat) : K := clip (yc + fact y x * ((y : K) - yc)) 0 ((h : K) - 1)

/-- Distorted column coordinate of pixel `(y, x)` (correction.py:167, 215, 286). -/
def xdOf (w : Nat) (xc : K) (fact : Nat → Nat → K) (y x : Nat) : K := clip (xc + fact y x * ((x : K) - xc)) 0 ((w : K) - 1)

/-- `unwarp_projection` (correction.py:135-171). -/
def unwarpProjection (xc yc : K) (fact : Nat → Nat → K) (m : Mat K) : Mat K :=
  ⟨m.h, m.w, fun i j => sample m.h m.w m.get (ydOf m.h yc fact i j) (xdOf m.w xc fact i j)⟩

/-- `unwarp_sinogram` (correction.py:200-225), all projections: entry for projection `d` and column `j`. -/
def unwarpSinogram (xc yc : K) (fact : Nat → Nat → K) (data : Arr3 K) (index : Nat) (d j : Nat) : Py K :=
  let lo := ⌊minOver data.w (ydOf data.h yc fact index)⌋
  let hi := ⌈maxOver data.w (ydOf data.h yc fact index)⌉ + 1
  slabSample data.h data.w (data.get d) lo hi (ydOf data.h yc fact index j) (xdOf data.w xc fact index j)

/-- `unwarp_sinogram_chunk` (correction.py:257-292), `stop` already resolved (`-1` means `height`): entry for
projection `d`, output row `i`, column `j`.  The slab is bounded by the first row and by the row *after* the last, and its end
lacks the `+ 1` of `unwarp_sinogram`. -/
def unwarpChunk (xc yc : K) (fact : Nat → Nat → K) (data : Arr3 K) (start stop : Nat) (d i j : Nat) : Py K :=
  let lo := ⌊minOver data.w (ydOf data.h yc fact start)⌋
  let hi := ⌈maxOver data.w (ydOf data.h yc fact stop)⌉
  slabSample data.h data.w (data.get d) lo hi (ydOf data.h yc fact (start + i) j) (xdOf data.w xc fact (start + i) j)

/-! ### tilted sinograms, `c = cos(angle)`, `s = sin(angle)` -/

/-- Row coordinate of column `x` of the tilted line through row `y` (correction.py:368-373, 426-428). -/
def ytOf (h w : Nat) (c s : K) (y x : Nat) : K :=
  clip (((h : K) - 1) / 2 + (((x : K) - ((w : K) - 1) / 2) * s + ((y : K) - ((h : K) - 1) / 2) * c)) 0 ((h : K) - 1)

/-- Column coordinate (correction.py:370-372, 425-427). -/
def xtOf (h w : Nat) (c s : K) (y x : Nat) : K :=
  clip (((w : K) - 1) / 2 + (((x : K) - ((w : K) - 1) / 2) * c - ((y : K) - ((h : K) - 1) / 2) * s)) 0 ((w : K) - 1)

/-- `generate_tilted_sinogram` (correction.py:334-382) and `generate_tilted_profile_line` (438-474): projection `d`, column `j`. -/
def tiltedSinogram (c s : K) (data : Arr3 K) (index : Nat) (d j : Nat) : Py K :=
  let lo := ⌊minOver data.w (ytOf data.h data.w c s index)⌋
  let hi := ⌈maxOver data.w (ytOf data.h data.w c s index)⌉ + 1
  slabSample data.h data.w (data.get d) lo hi (ytOf data.h data.w c s index j) (xtOf data.h data.w c s index j)

/-- `generate_tilted_sinogram_chunk` (correction.py:385-435) and `generate_tilted_profile_chunk` (477-514): rows
`start .. stop` (inclusive). -/
def tiltedChunk (c s : K) (data : Arr3 K) (start stop : Nat) (d i j : Nat) : Py K :=
  let rows := stop + 1 - start
  let lo := ⌊minOver rows fun r => minOver data.w (ytOf data.h data.w c s (start + r))⌋
  let hi := ⌈maxOver rows fun r => maxOver data.w (ytOf data.h data.w c s (start + r))⌉ + 1
  slabSample data.h data.w (data.get d) lo hi (ytOf data.h data.w c s (start + i) j) (xtOf data.h data.w c s (start + i) j)

/-! ### upsampling -/

/-- One pass of the loop in `upsample_sinogram` on the number of rows (correction.py:616-618). -/
def upStep (h : Nat) : Nat := 2 * h - 1

/-- Number of rows of `upsample_sinogram(sinogram, scale, sino_type)` (correction.py:603-632); `scale` integer. -/
def upsampleRows (rows : Nat) (scale : Int) (is180 : Bool) : Py Nat :=
  let sc := max scale 1
  if sc % 2 ≠ 0 then .error .valueError
  else
    let h0 := if is180 then rows + (rows - 1) else rows
    let h := upStep^[(sc / 2).toNat] h0
    .ok (if is180 then min h (h / 2 + 1) else h)

end Verif.Correction
