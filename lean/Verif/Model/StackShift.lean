import Verif.Model.Io
import Verif.Num
import Mathlib.Data.Real.Archimedean

/-!
Model of the alignment of speckle-image stacks: algotom/prep/phase.py:534-687
(`find_shift_between_image_stacks`, `find_shift_between_sample_images`, `align_image_stacks`).

Exact arithmetic.  Parameters: `find`, the call of `find_global_shift_based_local_shifts` with the caller's options (its model
is `Verif.GlobalShift.globalShift`), and `shift`, the call of `scipy.ndimage.shift` with the vector (rows, columns).
Shifts are pairs `(x, y)` as in the code.
-/

namespace Verif.StackShift
open Verif.Io

/-- `arr.shape`. -/
def shapeOf {K : Type} : NdArr K → List ℕ
  | .two m => [m.h, m.w]
  | .three a => [a.d, a.h, a.w]

/-- The images of the stack after `np.expand_dims` of a 2D array (phase.py:536-538, 612-614, 667-669). -/
def images {K : Type} : NdArr K → List (Mat K)
  | .two m => [m]
  | .three a => (List.range a.d).map fun k => ⟨a.h, a.w, a.get k⟩

/-- `find_shift_between_image_stacks` (phase.py:534-551). -/
def findStackShifts (find : Mat ℝ → Mat ℝ → Py (ℝ × ℝ)) (ref sam : NdArr ℝ) : Py (List (ℝ × ℝ)) :=
  if shapeOf ref ≠ shapeOf sam then .error .valueError
  else ((images ref).zip (images sam)).mapM fun p => find p.1 p.2

/-- `np.flipud` of a shift `(x, y)`: the vector (rows, columns). -/
def flip (s : ℝ × ℝ) : ℝ × ℝ := (s.2, s.1)

/-- `list[i]` for a non-negative `i`. -/
def at? {α : Type} (l : List α) (i : ℕ) : Py α :=
  match l[i]? with
  | some x => .ok x
  | none => .error .indexError

/-- `np.max(np.abs(sr_shifts))`; ValueError for an empty list (phase.py:618). -/
noncomputable def maxShift : List (ℝ × ℝ) → Py ℝ
  | [] => .error .valueError
  | s :: l => .ok ((s :: l).foldl (fun a p => max a (max |p.1| |p.2|)) 0)

/-- `m[crop:-crop, crop:-crop]`. -/
def cropMat (m : Mat ℝ) (c : ℤ) : Mat ℝ :=
  ⟨pyBound m.h (-c) - pyBound m.h c, pyBound m.w (-c) - pyBound m.w c, fun i j => m.get (pyBound m.h c + i) (pyBound m.w c + j)⟩

/-- One normalised and cropped sample image (phase.py:619-621, 624-626). -/
noncomputable def normalised (shift : ℝ × ℝ → Mat ℝ → Mat ℝ) (c : ℤ) (ref sam : Mat ℝ) (s : ℝ × ℝ) : Mat ℝ :=
  let m := shift (flip s) sam
  cropMat ⟨m.h, m.w, fun i j => m.get i j / (ref.get i j + 1 / 10 ^ 9)⟩ c

/-- `find_shift_between_sample_images` (phase.py:610-634). -/
noncomputable def findSampleShifts (find : Mat ℝ → Mat ℝ → Py (ℝ × ℝ)) (shift : ℝ × ℝ → Mat ℝ → Mat ℝ) (ref sam : NdArr ℝ)
    (sr : List (ℝ × ℝ)) : Py (List (ℝ × ℝ)) :=
  if shapeOf ref ≠ shapeOf sam then .error .valueError
  else do
    let top ← maxShift sr
    let c := 1 + pyTrunc top
    let s0 ← at? (images sam) 0
    let r0 ← at? (images ref) 0
    let d0 ← at? sr 0
    let rest ← (List.range ((images ref).length - 1)).mapM fun i => do
      let s ← at? (images sam) (i + 1)
      let d ← at? sr (i + 1)
      let r ← at? (images ref) (i + 1)
      find (normalised shift c r0 s0 d0) (normalised shift c r s d)
    return (0, 0) :: rest

/-- One pair of `align_image_stacks` (phase.py:679-686): (reference, sample). -/
def alignPair (shift : ℝ × ℝ → Mat ℝ → Mat ℝ) (ref sam : Mat ℝ) (sr : ℝ × ℝ) (ss : Option (ℝ × ℝ)) : Mat ℝ × Mat ℝ :=
  let ref1 := shift (-(flip sr).1, -(flip sr).2) ref
  match ss with
  | none => (ref1, sam)
  | some e => (shift (flip e) ref1, shift (flip e) sam)

/-- The element of the optional list `sam_shifts`. -/
def pick {α : Type} (l : Option (List α)) (i : ℕ) : Py (Option α) :=
  match l with
  | none => .ok none
  | some l => (at? l i).map some

/-- `align_image_stacks` (phase.py:664-687). -/
def alignStacks (shift : ℝ × ℝ → Mat ℝ → Mat ℝ) (ref sam : NdArr ℝ) (sr : List (ℝ × ℝ)) (ss : Option (List (ℝ × ℝ))) :
    Py (List (Mat ℝ × Mat ℝ)) :=
  if shapeOf ref ≠ shapeOf sam then .error .valueError
  else if (images ref).length ≠ sr.length then .error .valueError
  else if ss.any (fun l => (images ref).length != l.length) then .error .valueError
  else (List.range (images ref).length).mapM fun i => do
    let r ← at? (images ref) i
    let s ← at? (images sam) i
    let d ← at? sr i
    let e ← pick ss i
    return alignPair shift r s d e

end Verif.StackShift
