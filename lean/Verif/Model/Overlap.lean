import Verif.Model.Center
import Mathlib.Analysis.Real.Sqrt
import Mathlib.Algebra.BigOperators.Group.Finset.Basic

/-!
Model of the overlap search with its metric: algotom/prep/calculation.py:371-724 and 831-901.

Exact real arithmetic (the code stores the metric of a serial search and the position found as float32).  `none` stands for NaN.  `gauss` stands for
`ndi.gaussian_filter(·, (2, 2), mode='reflect')`, `onNan` for what `stats.pearsonr` does with an array that contains NaN (NaN or ValueError, depending on the
version of scipy); `np.polyfit` of NaN raises, which the code catches.
-/

namespace Verif.Overlap
open Verif.Sched Verif.Center

/-- `m[:, a:a+n]` for columns inside the image (calculation.py:435, 512, 515). -/
def cols (m : Mat ℝ) (a n : Nat) : Mat ℝ := ⟨m.h, n, fun i j => m.get i (a + j)⟩

/-- Sum over the pixels of an image (used for `stats.pearsonr`, calculation.py:426-428). -/
noncomputable def total (m : Mat ℝ) : ℝ := ∑ i ∈ Finset.range m.h, ∑ j ∈ Finset.range m.w, m.get i j

/-- Mean of the pixels (calculation.py:426-428). -/
noncomputable def mean (m : Mat ℝ) : ℝ := total m / ((m.h : ℝ) * m.w)

/-- Sum of the products of the deviations from the mean (calculation.py:426-428). -/
noncomputable def cov (x y : Mat ℝ) : ℝ := total ⟨x.h, x.w, fun i j => (x.get i j - mean x) * (y.get i j - mean y)⟩

/-- `np.abs(1.0 - stats.pearsonr(mat1, mat2)[0])` (calculation.py:426-429); ValueError for fewer than two pixels, NaN if an image is constant. -/
noncomputable def corrMetric (x y : Mat ℝ) : Py (Option ℝ) :=
  if x.h * x.w < 2 then .error .valueError
  else if cov x x = 0 ∨ cov y y = 0 then .ok none
  else .ok (some |1 - cov x y / (√(cov x x) * √(cov y y))|)

/-- `(a + b + c) / 3.0`, with NaN (calculation.py:450-452). -/
noncomputable def third : Option ℝ → Option ℝ → Option ℝ → Option ℝ
  | some a, some b, some c => some ((a + b + c) / 3)
  | _, _, _ => none

/-- Options of the search (calculation.py:458-459). -/
structure Opt where
  denoise : Bool
  norm : Bool
  useOverlap : Bool
  ncore : Nat

/-- `np.linspace(1.0, 0.0, win_width)` (calculation.py:507). -/
noncomputable def rampDown (win j : Nat) : ℝ := 1 - (j : ℝ) / ((win : ℝ) - 1)

/-- `mat * wei_down` or `mat * wei_up` (calculation.py:438, 440, 513, 516). -/
noncomputable def weigh (down : Bool) (m : Mat ℝ) : Mat ℝ :=
  ⟨m.h, m.w, fun i j => m.get i j * (if down then rampDown m.w j else 1 - rampDown m.w j)⟩

/-- `np.mean(np.abs(mat), axis=1)` (calculation.py:442, 517). -/
noncomputable def rowMean (m : Mat ℝ) (i : Nat) : ℝ := (∑ j ∈ Finset.range m.w, |m.get i j|) / (m.w : ℝ)

/-- `mat * mat_fact` (calculation.py:443-447). -/
noncomputable def scaleRows (f : Nat → ℝ) (m : Mat ℝ) : Mat ℝ := ⟨m.h, m.w, fun i j => m.get i j * f i⟩

/-- The metric of a window of the first image that has been normalised (calculation.py:448-455); `w1` is the weighted window. -/
noncomputable def metricOf (useOverlap : Bool) (r1 w1 r2 w2 : Mat ℝ) : Py (Option ℝ) :=
  if useOverlap then
    let comb : Mat ℝ := ⟨w1.h, w1.w, fun i j => w1.get i j + w2.get i j⟩
    (corrMetric r1 r2).bind fun a => (corrMetric r1 comb).bind fun b => (corrMetric r2 comb).map fun c => third a b c
  else corrMetric r1 r2

open Classical in
/-- `__calc_overlap_metric` at position `pos` (calculation.py:435-455); `right` is `side == 1`.  Dividing by the mean of a row of zeros gives NaN in that row. -/
noncomputable def overlapMetric (onNan : Py (Option ℝ)) (o : Opt) (right : Bool) (m1 r2 : Mat ℝ) (offset pos : Nat) : Py (Option ℝ) :=
  let r1 := cols m1 (pos - offset) (2 * offset)
  let w1 := weigh right r1
  let w2 := weigh (!right) r2
  if o.norm then
    if ∃ i < r1.h, rowMean r1 i = 0 then onNan
    else
      let f := fun i => rowMean r2 i / rowMean r1 i
      metricOf o.useOverlap (scaleRows f r1) (scaleRows f w1) r2 w2
  else metricOf o.useOverlap r1 w1 r2 w2

/-- The part of the second image that is looked for (calculation.py:511-516). -/
def template (right : Bool) (m2 : Mat ℝ) (offset : Nat) : Mat ℝ :=
  if right then cols m2 0 (2 * offset) else cols m2 (m2.w - 2 * offset) (2 * offset)

/-- `np.min` of values that are not NaN (calculation.py:537). -/
noncomputable def minOf (l : List ℝ) : ℝ := l.foldr min (l.headD 0)

/-- `list_metric / min_metric` unless the minimum is zero (calculation.py:537-539); NaN anywhere makes the minimum NaN. -/
noncomputable def normalise (l : List (Option ℝ)) : List (Option ℝ) :=
  if l.any Option.isNone then l.map fun _ => none
  else if minOf (l.filterMap id) ≠ 0 then l.map (Option.map (· / minOf (l.filterMap id)))
  else l

/-- The values at all positions, serially or by a pool of threads (calculation.py:518-536); `none` if the schedule is not a complete execution. -/
def values {β : Type} (ncore num : Nat) (f : Nat → β) (sched : List Ev) : Option (List β) :=
  if ncore = 1 then some ((List.range num).map f) else parMap num ncore f sched

/-- The images after the optional Gaussian filter (calculation.py:497-499). -/
def denoised (gauss : Mat ℝ → Mat ℝ) (o : Opt) (m : Mat ℝ) : Mat ℝ := if o.denoise then gauss m else m

/-- `search_overlap` (calculation.py:495-540).  A negative width makes `np.linspace` raise ValueError; no position at all makes `np.min` raise ValueError. -/
noncomputable def searchOverlap (gauss : Mat ℝ → Mat ℝ) (onNan : Py (Option ℝ)) (o : Opt) (m1 m2 : Mat ℝ) (win : Int) (right : Bool) (sched : List Ev) :
    Option (Py (List (Option ℝ) × Nat)) :=
  let a := denoised gauss o m1
  let b := denoised gauss o m2
  if a.h ≠ b.h then some (.error .valueError)
  else if searchOffset a.w b.w win < 0 then some (.error .valueError)
  else
    let offset := (searchOffset a.w b.w win).toNat
    let r2 := template right b offset
    (values o.ncore (a.w - 2 * offset) (fun i => overlapMetric onNan o right a r2 offset (offset + i)) sched).map fun l =>
      (l.mapM id).bind fun v => if v = [] then .error .valueError else .ok (normalise v, offset)

/-- `np.argmin` (calculation.py:390-391): the first NaN, or else the first smallest value. -/
noncomputable def argminNan (l : List (Option ℝ)) : Py Nat :=
  if l.any Option.isNone then .ok (l.findIdx Option.isNone) else argmin (l.filterMap id)

/-- Leading coefficient of the least-squares parabola through five values (calculation.py:393-396); anything else raises, which is caught. -/
noncomputable def fit5 : List (Option ℝ) → ℝ
  | [some a, some b, some c, some d, some e] => (2 * a - b - 2 * c - d + 2 * e) / 14
  | _ => 0

/-- The two leading coefficients of the parabola through three values at `p - 1, p, p + 1` (calculation.py:398-402); anything else raises, which is caught. -/
noncomputable def fit3 (p : ℝ) : List (Option ℝ) → ℝ × ℝ
  | [some a, some b, some c] => ((a - 2 * b + c) / 2, (c - a) / 2 - (a - 2 * b + c) * p)
  | _ => (0, 0)

/-- The refined position (calculation.py:404-408). -/
noncomputable def refined (p : ℝ) (ab : ℝ × ℝ) : ℝ :=
  if ab.1 ≠ 0 then (if p - 1 ≤ -ab.2 / (2 * ab.1) ∧ -ab.2 / (2 * ab.1) ≤ p + 1 then -ab.2 / (2 * ab.1) else p) else p

/-- `calculate_curvature` (calculation.py:388-408): curvature and position of the minimum. -/
noncomputable def curvature (l : List (Option ℝ)) : Py (ℝ × ℝ) :=
  (argminNan l).map fun k =>
    let p := npClip (k : Int) 2 ((l.length : Int) - 2 - 1)
    (|fit5 (pySlice l (p - 2) (p + 3))|, refined (p : ℝ) (fit3 (p : ℝ) (pySlice l (p - 1) (p + 2))))

/-- The search on one side with the position of the minimum (calculation.py:589-593, 596-600, 603-612): (curvature, `overlap_position`). -/
noncomputable def side1 (gauss : Mat ℝ → Mat ℝ) (onNan : Py (Option ℝ)) (o : Opt) (m1 m2 : Mat ℝ) (win : Int) (right : Bool) (sched : List Ev) :
    Option (Py (ℝ × ℝ)) :=
  (searchOverlap gauss onNan o m1 m2 win right sched).map fun r => r.bind fun l => (curvature l.1).map fun c => (c.1, c.2 + (l.2 : ℝ))

/-- `find_overlap` (calculation.py:585-621): (overlap, side, position).  With `side=None` the options `denoise` and `norm` are exchanged (603-608). -/
noncomputable def findOverlap (gauss : Mat ℝ → Mat ℝ) (onNan : Py (Option ℝ)) (o : Opt) (m1 m2 : Mat ℝ) (win : Int) (side : Option Int)
    (sched sched' : List Ev) : Option (Py (ℝ × Int × ℝ)) :=
  let w := winFind m1.w m2.w win
  let half : ℝ := ((w / 2 : Int) : ℝ)
  if side = some 1 then
    (side1 gauss onNan o m1 m2 w true sched).map fun r => r.map fun c => ((m1.w : ℝ) - c.2 + half, 1, c.2)
  else if side = some 0 then
    (side1 gauss onNan o m1 m2 w false sched).map fun r => r.map fun c => (c.2 + half, 0, c.2)
  else
    let o' : Opt := ⟨o.norm, o.denoise, o.useOverlap, o.ncore⟩
    (side1 gauss onNan o' m1 m2 w true sched).bind fun r1 => (side1 gauss onNan o' m1 m2 w false sched').map fun r2 =>
      r1.bind fun c1 => r2.map fun c2 => if c1.1 > c2.1 then ((m1.w : ℝ) - c1.2 + half, 1, c1.2) else (c2.2 + half, 0, c2.2)

/-- `find_overlap_multiple` (calculation.py:659-668); `sched i` are the schedules of pair `i`. -/
noncomputable def findOverlapMultiple (gauss : Mat ℝ → Mat ℝ) (onNan : Py (Option ℝ)) (o : Opt) (ms : List (Mat ℝ)) (win : Int) (side : Option Int)
    (sched : Nat → List Ev × List Ev) : Option (Py (List (ℝ × Int × ℝ))) :=
  if ms.length > 1 then
    ((List.range (ms.length - 1)).mapM fun i => findOverlap gauss onNan o (ms.getD i ⟨0, 0, fun _ _ => 0⟩) (ms.getD (i + 1) ⟨0, 0, fun _ _ => 0⟩) win side
      (sched i).1 (sched i).2).map fun l => l.mapM id
  else some (.error .valueError)

/-- `sino_360[0:nrow_180, :]` (calculation.py:714-715). -/
def topHalf (s : Mat ℝ) : Mat ℝ := ⟨min (s.h / 2 + 1) s.h, s.w, s.get⟩

/-- `np.fliplr(sino_360[-nrow_180:, :])` (calculation.py:716). -/
def bottomHalf (s : Mat ℝ) : Mat ℝ := ⟨min (s.h / 2 + 1) s.h, s.w, fun i j => s.get (s.h - (s.h / 2 + 1) + i) (s.w - 1 - j)⟩

/-- `find_center_360` (calculation.py:713-724): (centre, overlap, side, position). -/
noncomputable def findCenter360 (gauss : Mat ℝ → Mat ℝ) (onNan : Py (Option ℝ)) (o : Opt) (s : Mat ℝ) (win : Int) (side : Option Int) (sched sched' : List Ev) :
    Option (Py (ℝ × ℝ × Int × ℝ)) :=
  (findOverlap gauss onNan o (topHalf s) (bottomHalf s) win side sched sched').map fun r => r.map fun v => (center360 s.w v.1 v.2.1, v)

/-- `chunk_height`: not given, an integer or a float (calculation.py:877-884). -/
inductive Height where
  | default
  | int (n : Int)
  | ratio (r : ℝ)

/-- `chunk_height` (calculation.py:877-884). -/
noncomputable def chunkHeight (nrow : Nat) : Height → Int
  | .default => npClip (min 500 ((9 * nrow / 10 : Nat) : Int)) 1 ((nrow : Int) - 1)
  | .int n => npClip n 1 ((nrow : Int) - 1)
  | .ratio r => npClip (if 0 < r ∧ r ≤ 1 then ⌊r * (nrow : ℝ)⌋ else min 500 ((nrow / 2 : Nat) : Int)) 1 ((nrow : Int) - 1)

/-- First and last row (exclusive) that are used (calculation.py:885-891). -/
noncomputable def chunkRows (nrow : Nat) (height : Height) (start : Option Int) : Int × Int :=
  let c := chunkHeight nrow height
  let s0 := match start with
    | none => (nrow : Int) / 2 - c / 2
    | some s => npClip s 0 ((nrow : Int) / 2 - c / 2)
  (npClip s0 0 ((nrow : Int) - c - 1), npClip (s0 + c) c nrow)

/-- `m[start:stop]` with Python's bounds (calculation.py:892-893). -/
def rowSlice (m : Mat ℝ) (a b : Int) : Mat ℝ := ⟨pyBound m.h b - pyBound m.h a, m.w, fun i j => m.get (pyBound m.h a + i) j⟩

/-- `find_center_projection` (calculation.py:872-901). -/
noncomputable def findCenterProjection (gauss : Mat ℝ → Mat ℝ) (onNan : Py (Option ℝ)) (o : Opt) (m1 m2 : Mat ℝ) (flip : Bool) (win : Option Int) (height : Height)
    (start : Option Int) (sched sched' : List Ev) : Option (Py ℝ) :=
  let m2' : Mat ℝ := if flip then ⟨m2.h, m2.w, fun i j => m2.get i (m2.w - 1 - j)⟩ else m2
  let w := win.getD (min 250 ((m1.w / 5 : Nat) : Int))
  let r := chunkRows m1.h height start
  (findOverlap gauss onNan o (rowSlice m1 r.1 r.2) (rowSlice m2' r.1 r.2) w none sched sched').map fun x => x.map fun v => centerProjection m1.w v.1 v.2.1

end Verif.Overlap
