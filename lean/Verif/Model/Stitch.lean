import Verif.Num
import Verif.Model.Interp

/-!
Model of the stitching/joining part of algotom/prep/conversion.py:43-454.

Arithmetic is exact.  `shift` stands for `scipy.ndimage.shift(·, (0, s), mode='nearest')` and is only called for
sub-pixel overlaps.  The dtype of an image enters through a flag (`true` = integer dtype).
-/

namespace Verif.Stitch

variable {K : Type _} [Field K] [LinearOrder K] [FloorRing K]

/-- `make_weight_matrix` (conversion.py:43-73).  The weights are stored into `np.ones_like(mat)`, i.e. with the
dtype of the image (`int1`, `int2`).  The slice assignments need `1 ≤ overlap ≤` both widths, otherwise numpy
raises (negative `linspace` size or broadcast failure; for `overlap = 0` the slice `-0:` is the whole row). -/
def makeWeightMatrix (m1 m2 : Mat K) (int1 int2 : Bool) (overlap : Int) (side : Int) : Py (Mat K × Mat K) :=
  if overlap < 1 ∨ overlap > m1.w ∨ overlap > m2.w then .error .valueError
  else
    let v := overlap.toNat
    let down : Nat → K := fun k => linspace 1 0 v k
    let up : Nat → K := fun k => 1 - down k
    if side = 1 then
      .ok (⟨m1.h, m1.w, fun _ j => if m1.w - v ≤ j then storeAs int1 (down (j - (m1.w - v))) else 1⟩,
           ⟨m2.h, m2.w, fun _ j => if j < v then storeAs int2 (up j) else 1⟩)
    else
      .ok (⟨m1.h, m1.w, fun _ j => if j < v then storeAs int1 (up j) else 1⟩,
           ⟨m2.h, m2.w, fun _ j => if m2.w - v ≤ j then storeAs int2 (down (j - (m2.w - v))) else 1⟩)

/-- `mat[:, -v:]` starts at this column (`-0:` is everything). -/
def lastFrom (w v : Nat) : Nat := if v = 0 then 0 else w - v

/-- The part of `stitch_image` after the weights are known (conversion.py:123-144): normalisation, weighted
sum on a canvas, optional edge padding.  `v` is the integer overlap, at most both widths. -/
def stitchCore (m1 m2 w1 w2 : Mat K) (v : Nat) (side : Int) (norm : Bool) (totalWidth : Option Nat) : Mat K :=
  let tw0 := m1.w + m2.w - v
  let tw := match totalWidth with
    | none => tw0
    | some t => if t < tw0 then tw0 else t
  let comb : Mat K :=
    if side = 1 then
      let m2' := if norm then
          m2.map (fun x => x * meanCols m1 (lastFrom m1.w v) m1.w / meanCols m2 0 v) else m2
      ⟨m1.h, tw0, fun i j =>
        (if j < m1.w then m1.get i j * w1.get i j else 0)
          + (if m1.w - v ≤ j then m2'.get i (j - (m1.w - v)) * w2.get i (j - (m1.w - v)) else 0)⟩
    else
      let m2' := if norm then
          m2.map (fun x => x * meanCols m1 0 v / meanCols m2 (lastFrom m2.w v) m2.w) else m2
      ⟨m1.h, tw0, fun i j =>
        (if j < m2.w then m2'.get i j * w2.get i j else 0)
          + (if m2.w - v ≤ j then m1.get i (j - (m2.w - v)) * w1.get i (j - (m2.w - v)) else 0)⟩
  if tw > tw0 then comb.padRightEdge (tw - tw0) else comb

/-- `stitch_image` (conversion.py:76-144).  Simplification: user supplied weights together with an
overlap outside `[0, min widths]` are reported as `ValueError`. -/
def stitchImage (shift : Mat K → K → Mat K) (m1 m2 : Mat K) (int1 int2 : Bool) (overlap : K) (side : Int)
    (wei1 wei2 : Option (Mat K)) (norm : Bool) (totalWidth : Option Nat) : Py (Mat K) :=
  let ov : Int := npRound (overlap + 1 / 1000)
  let sub : K := overlap - (ov : K)
  let a := if sub ≠ 0 then shift m1 (if side = 1 then sub else -sub) else m1
  let b := if sub ≠ 0 then shift m2 (if side = 1 then -sub else sub) else m2
  if m1.h ≠ m2.h then .error .valueError
  else
    let weights : Py (Mat K × Mat K) := match wei1, wei2 with
      | some w1, some w2 =>
        if (w1.h = a.h ∧ w1.w = a.w ∧ w2.h = b.h ∧ w2.w = b.w) ∧ 0 ≤ ov ∧ ov ≤ m1.w ∧ ov ≤ m2.w
        then .ok (w1, w2) else .error .valueError
      | _, _ => makeWeightMatrix a b int1 int2 ov side
    match weights with
    | .error e => .error e
    | .ok (w1, w2) => .ok (stitchCore a b w1 w2 ov.toNat side norm totalWidth)

/-- `stitch_image_multiple` (conversion.py:238-274), literally: the loop calls
`stitch_image(mat_comb, list_mat[i], overlap, side, norm)`, so `norm` lands in the parameter `wei_mat1`
and `norm` keeps its default `True`.  As `wei_mat2 is None`, `wei_mat1` is then replaced by the computed
weights (conversion.py:120-122), so its value is irrelevant. -/
def stitchMultiple (shift : Mat K → K → Mat K) (mats : List (Mat K × Bool)) (overlaps : List (K × Int))
    (_norm : Bool) (totalWidth : Option Nat) : Py (Mat K) :=
  match mats with
  | [] => .error .indexError
  | (m0, int0) :: rest =>
    if rest = [] then .error .valueError
    else if overlaps.length < rest.length then .error .indexError
    else do
      let r ← (rest.zip overlaps).foldlM (fun (acc : Mat K × Bool) (e : (Mat K × Bool) × (K × Int)) => do
        let m ← stitchImage shift acc.1 e.1.1 acc.2 e.1.2 e.2.1 e.2.2 .none .none true .none
        pure (m, false)) (m0, int0)
      let comb := r.1
      match totalWidth with
      | none => pure comb
      | some t => if t > comb.w then pure (comb.padRightEdge (t - comb.w)) else pure comb

/-- `join_image` (conversion.py:147-235) for an integer `joint_width = g ≥ 0` (no sub-pixel shift) and images wide
enough that unmasked columns exist on both sides.  `L`, `R` are the left and right images (`mat1`, `mat2` for
`side = 1`, swapped otherwise); `mat2` is the one rescaled by the normalisation. -/
def joinImage (m1 m2 : Mat K) (g : Nat) (side : Int) (norm : Bool) (totalWidth : Option Nat) : Py (Mat K) :=
  if m1.h ≠ m2.h then .error .valueError
  else
    let m2' := if norm then
        (if side = 1 then m2.map (fun x => x * meanCols m1 (m1.w - 3) m1.w / meanCols m2 0 3)
         else m2.map (fun x => x * meanCols m1 0 3 / meanCols m2 (m2.w - 3) m2.w))
      else m2
    let L := if side = 1 then m1 else m2'
    let R := if side = 1 then m2' else m1
    let tw0 := m1.w + m2.w + g
    let raw : Nat → Nat → K := fun i j =>
      if j < L.w then L.get i j else if L.w + g ≤ j then R.get i (j - (L.w + g)) else 0
    let good : Nat → Bool := fun j => decide (j < L.w - 2 ∨ L.w + g + 3 ≤ j)
    -- the spline is clamped to its end nodes outside the nodes; with nodes on both sides it never is
    let val : Nat → Nat → K := fun i j =>
      if good j then raw i j else match linInterp good tw0 (raw i) j with
        | .ok v => v
        | .error _ => raw i j
    let comb : Mat K := ⟨m1.h, tw0, val⟩
    match totalWidth with
    | none => .ok comb
    | some t => if t > tw0 then .ok (comb.padRightEdge (t - tw0)) else .ok comb

/-- Overlap and side from a centre of rotation (conversion.py:353-358, 429-434). -/
def overlapOfCor (ncol : Nat) (cor : K) : K × Int :=
  if cor ≤ ((ncol : K) - 1) * (1 / 2) then (2 * cor + 1, 0) else (2 * ((ncol : K) - cor) - 1, 1)

/-- `convert_sinogram_360_to_180` (conversion.py:318-364) for a numeric `cor`. -/
def convert360to180 (shift : Mat K → K → Mat K) (sino : Mat K) (isInt : Bool) (cor : K)
    (wei1 wei2 : Option (Mat K)) (norm : Bool) (totalWidth : Option Nat) : Py (Mat K × K) :=
  let nrow180 := sino.h / 2 + 1
  let top := sino.rows 0 (min nrow180 sino.h)
  let bot := (sino.rows (sino.h - nrow180) sino.h).fliplr
  let os := overlapOfCor sino.w cor
  match stitchImage shift top bot isInt isInt os.1 os.2 wei1 wei2 norm totalWidth with
  | .error e => .error e
  | .ok m => .ok (m, (sino.w : K) - (npRound (os.1 + 1 / 1000) : K) / 2 - 1 / 2)

/-- `extend_sinogram` (conversion.py:395-454) for a numeric `cor`, after the optional logarithm
(`sino` is the array at line 424). -/
def extendSinogram (shift : Mat K → K → Mat K) (sino : Mat K) (cor : K) : Py (Mat K × K) :=
  let os := overlapOfCor sino.w cor
  let ov : Int := npRound (os.1 + 1 / 1000)
  let sub : K := os.1 - (ov : K)
  if ov < 1 ∨ ov > sino.w then .error .valueError
  else
    let v := ov.toNat
    let newCor : K := (sino.w : K) - (ov : K) / 2 - 1 / 2
    if os.2 = 1 then
      let s := if sub ≠ 0 then shift sino sub else sino
      let wtd : Mat K := ⟨s.h, s.w, fun i j =>
        if s.w - v ≤ j then s.get i j * linspace 1 0 v (j - (s.w - v)) else s.get i j⟩
      .ok ((wtd.padRightEdge (sino.w - v)).map (2 * ·), newCor)
    else
      let s := if sub ≠ 0 then shift sino (-sub) else sino
      let wtd : Mat K := ⟨s.h, s.w, fun i j =>
        if j < v then s.get i j * linspace 0 1 v j else s.get i j⟩
      .ok ((wtd.padLeftEdge (sino.w - v)).map (2 * ·), newCor)

end Verif.Stitch
