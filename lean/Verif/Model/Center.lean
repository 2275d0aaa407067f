import Verif.Num
import Verif.Model.Sched

/-!
Model of the centre/overlap/shift logic of algotom/prep/calculation.py:99-901.  Image metrics (Fourier, correlation,
curvature fit) are parameters; the search logic, index arithmetic, option passing and centre formulas are modelled
literally.  Exact arithmetic.
-/

namespace Verif.Center
open Verif.Sched

variable {K : Type _} [Field K] [LinearOrder K] [FloorRing K]

/-- `np.argmin`: first position of the minimum; `ValueError` on an empty sequence. -/
def argmin (l : List K) : Py Nat :=
  if l = [] then .error .valueError else .ok (l.findIdx fun x => l.all fun y => decide (x ≤ y))

/-- The metric list: a serial loop storing into a `float32` array (`store`) for `ncore = 1`, else a joblib pool
(calculation.py:190-198, 255-263). -/
def metricList (ncore : Nat) (store : K → K) (metric : K → K) (cors : List K) (sched : List Ev) : Option (List K) :=
  if ncore = 1 then some (cors.map fun c => store (metric c))
  else parMap cors.length ncore (fun i => metric (cors.getD i 0)) sched

/-- Candidates of `coarse_search_cor` (calculation.py:181-185). -/
def coarseList (ncol : Nat) (start stop : K) : List K :=
  let a := pyTrunc (min (max start 0) ((ncol : K) - 1))
  let b := pyTrunc (min (max stop 0) ((ncol : K) - 1))
  (List.range (b + 1 - a).toNat).map fun k : Nat => ((a + (k : Int) : Int) : K)

/-- Candidates of `fine_search_cor` (calculation.py:249-250); `np.arange(-r, r + s, s)` has
`ceil((2r + s) / s)` entries. -/
def fineList (ncol : Nat) (start radius step : K) : List K :=
  (List.range ⌈(radius + step - (-radius)) / step⌉.toNat).map fun k : Nat =>
    min (max (start + (-radius + (k : K) * step)) 0) ((ncol : K) - 1)

/-- `coarse_search_cor` / `fine_search_cor`: the candidate at the first minimum of the metric list
(calculation.py:199-208, 264). -/
def search (ncore : Nat) (store metric : K → K) (cors : List K) (sched : List Ev) : Option (Py K) :=
  (metricList ncore store metric cors sched).map fun l => (argmin l).map fun i => cors.getD i 0

/-- The mirrored, completed sinogram that `calculate_center_metric` stacks below the input, for an integer
`shift_col = 2*(center - (ncol-1)/2)`, i.e. `c2 = 2*center` integer (calculation.py:121-131): `np.roll` of the left-right
flip, with the wrapped columns replaced by those of the up-down flip. -/
def mirrored (sino : Mat K) (c2 : Int) : Mat K :=
  let n := sino.w
  let sh : Int := c2 - ((n : Int) - 1)
  let flip := sino.fliplr
  let comp : Nat → Nat → K := fun i j => sino.get (sino.h - 1 - i) j
  ⟨sino.h, n, fun i j =>
    if 0 ≤ sh then (if (j : Int) < sh then comp i j else flip.get i (((j : Int) - sh) % n).toNat)
    else (if (n : Int) + sh ≤ j then comp i j else flip.get i (((j : Int) - sh) % n).toNat)⟩

/-! ### overlap search -/

/-- Window clipping in `find_overlap` (calculation.py:587). -/
def winFind (ncol1 ncol2 : Nat) (win : Int) : Int := npClip win 6 ((min ncol1 ncol2 : Nat) / 2 : Nat)

/-- `offset` of `search_overlap`, after its own clipping (calculation.py:504-505). -/
def searchOffset (ncol1 ncol2 : Nat) (win : Int) : Int :=
  (npClip win 6 (((min ncol1 ncol2 : Nat) / 2 : Nat) - 1)) / 2

/-- The overlap that `find_overlap` reports when the metric is minimal at window position `list_pos[k]`, the sub-pixel
refinement being zero (calculation.py:390-391, 518, 592-594, 599-601, 610-620); returns
`(overlap, overlap_position)`.  `calculate_curvature` clips the position to `[2, num-3]`. -/
def overlapAt (ncol1 ncol2 : Nat) (win : Int) (side : Int) (k : Nat) : Int × Int :=
  let w := winFind ncol1 ncol2 win
  let offset := searchOffset ncol1 ncol2 w
  let num := (ncol1 : Int) - offset - offset
  let pos := npClip (k : Int) 2 (num - 2 - 1) + offset
  (if side = 1 then (ncol1 : Int) - pos + w / 2 else pos + w / 2, pos)

/-- `find_overlap` (calculation.py:543-621): `search side denoise norm` stands for
`search_overlap(mat1, mat2, win, side, denoise, norm, ...)` followed by `calculate_curvature`, giving
(curvature, overlap position).  With `side=None` the code passes `norm, denoise` in swapped positions. -/
def findOverlap (search : Int → Bool → Bool → K × K) (ncol1 : Nat) (halfWin : K) (side : Option Int)
    (denoise norm : Bool) : K × Int × K :=
  match side with
  | some 1 => let r := search 1 denoise norm; ((ncol1 : K) - r.2 + halfWin, 1, r.2)
  | some 0 => let r := search 0 denoise norm; (r.2 + halfWin, 0, r.2)
  | _ =>
    let r1 := search 1 norm denoise
    let r2 := search 0 norm denoise
    if r1.1 > r2.1 then ((ncol1 : K) - r1.2 + halfWin, 1, r1.2) else (r2.2 + halfWin, 0, r2.2)

/-- Centre from overlap in `find_center_360` (calculation.py:720-723). -/
def center360 (ncol : Nat) (overlap : K) (side : Int) : K :=
  if side = 0 then overlap / 2 - 1 / 2 else (ncol : K) - overlap / 2 - 1 / 2

/-- Centre from overlap in `find_center_projection` (calculation.py:897-900). -/
def centerProjection (ncol : Nat) (overlap : K) (side : Int) : K :=
  if side = 0 then overlap / 2 - 1 else (ncol : K) - overlap / 2 - 1

/-! ### phase correlation -/

/-- Vertex of the parabola through three points `(t-1, a), (t, b), (t+1, c)` as used at
calculation.py:783-792: kept only if it lies in `[t-1, t+1]`.  (`np.polyfit` of degree 2 on 3 points is exact:
leading coefficient `(a - 2b + c)/2`, vertex `t + (a - c)/(2(a - 2b + c))`.) -/
def refine (t a b c : K) : K :=
  let af := (a - 2 * b + c) / 2
  if af ≠ 0 then
    let num := t + (a - c) / (2 * (a - 2 * b + c))
    if t - 1 ≤ num ∧ num ≤ t + 1 then num else t
  else t

/-- Wrapping of a peak position to a signed shift (calculation.py:793-798), `n` pixels. -/
def wrapShift (n : Nat) (t : K) : K :=
  if t > (⌈((n : K) - 1) * (1 / 2)⌉ : K) then -((n : K) - t) else t

/-- `find_center_based_phase_correlation` (calculation.py:823-828) from the signed shift. -/
def centerPhase (n : Nat) (tx : K) : K := ((n : K) - 1 + tx) * (1 / 2)

end Verif.Center
