import Verif.Np
import Mathlib.Data.Rat.Defs
import Mathlib.Algebra.Order.Field.Rat

/-!
Model of the location of slices in a grid of scans: algotom/util/utility.py:1168-1326.

Simplifications: the overlap areas are non-negative integers (the code compares `np.arange(...) - sum` with the slice
index by `==`, so that non-integer areas find nothing), rational instead of floating-point weights, and a division by
zero (numpy: `nan` or `inf` with a warning) is `none`.
-/

namespace Verif.Locate

/-- First slice of grid row `i`: `i * height - np.sum(overlap_list[0: i])` (utility.py:1197-1202). -/
def rowStart (h : ℕ) (ov : List ℕ) (i : ℕ) : ℤ := (i : ℤ) * h - ((ov.take i).sum : ℕ)

/-- `list_slices[i][p]` (utility.py:1196-1203): ascending if `side == 1`, descending otherwise. -/
def listSlice (side1 : Bool) (h : ℕ) (ov : List ℕ) (i p : ℕ) : ℤ :=
  if side1 then rowStart h ov i + p else rowStart h ov i + h - 1 - p

/-- `pos = np.squeeze(np.where(list1 == slice_idx)[0])` if `pos.size == 1` (utility.py:1206-1207, 1270-1271). -/
def locatePos (side1 : Bool) (h : ℕ) (ov : List ℕ) (i : ℕ) (idx : ℤ) : Option ℕ :=
  match (List.range h).filter (fun p => listSlice side1 h ov i p = idx) with
  | [p] => some p
  | _ => none

/-- Floating-point division; `none` stands for the `nan`/`inf` of a division by zero. -/
def fdiv (a b : ℚ) : Option ℚ := if b = 0 then none else some (a / b)

/-- `results` before the weights are set (utility.py:1204-1208). -/
def rowsFound (side1 : Bool) (h : ℕ) (ov : List ℕ) (idx : ℤ) : List (ℕ × ℕ) :=
  (List.range (ov.length + 1)).filterMap fun i => (locatePos side1 h ov i idx).map fun p => (i, p)

/-- The assignment of the weights if exactly two rows are found (utility.py:1209-1219). -/
def setWeights (side1 : Bool) (h : ℕ) (ov : List ℕ) (idx : ℤ) : List (ℕ × ℕ) → List (ℕ × ℕ × Option ℚ)
  | [(i0, p0), (i1, p1)] =>
    let d : ℚ := (ov.getD i0 0 : ℚ) - 1
    if side1 then
      [(i0, p0, fdiv ((listSlice side1 h ov i0 (h - 1) : ℚ) - idx) d), (i1, p1, fdiv ((idx : ℚ) - listSlice side1 h ov i1 0) d)]
    else
      [(i0, p0, fdiv (-(idx : ℚ) + listSlice side1 h ov i0 0) d), (i1, p1, fdiv (-(listSlice side1 h ov i1 (h - 1) : ℚ) + idx) d)]
  | l => l.map fun q => (q.1, q.2, some 1)

/-- `locate_slice(slice_idx, height, overlap_metadata)` (utility.py:1168-1220) for the overlap areas `ov` and side of the
first column of the metadata.  `overlap_metadata[0, 0, 1]` raises for empty metadata. -/
def locateSlice (idx : ℤ) (h : ℕ) (side1 : Bool) (ov : List ℕ) : Py (List (ℕ × ℕ × Option ℚ)) :=
  if ov = [] then .error .indexError else .ok (setWeights side1 h ov idx (rowsFound side1 h ov idx))

/-- One of the conditional assignments `if d < ver_overlap: fact = d / (ver_overlap - 1)` (e.g. utility.py:1276-1277). -/
def override (d v : ℕ) (fact : Option ℚ) : Option ℚ := if d < v then fdiv d ((v : ℚ) - 1) else fact

/-- The weight of position `p` of row `i` in `locate_slice_chunk` (utility.py:1272-1294, 1300-1322). -/
def chunkFact (side1 : Bool) (h : ℕ) (ov : List ℕ) (i p : ℕ) : Option ℚ :=
  let dis1 := h - p - 1
  if i = 0 then
    if side1 then override dis1 (ov.getD i 0) (some 1) else override p (ov.getD i 0) (some 1)
  else if i = ov.length then
    if side1 then override p (ov.getD (i - 1) 0) (some 1) else override dis1 (ov.getD (i - 1) 0) (some 1)
  else
    let ov1 := ov.getD i 0
    let ov2 := ov.getD (i - 1) 0
    override p ov2 (override dis1 ov2 (override p ov1 (override dis1 ov1 (some 1))))

/-- `result1` of row `i` (utility.py:1267-1323). -/
def chunkRow (start stop : ℤ) (h : ℕ) (side1 : Bool) (ov : List ℕ) (i : ℕ) : List (ℕ × ℕ × Option ℚ) :=
  (pyRange start stop 1).filterMap fun idx =>
    (locatePos side1 h ov i idx).map fun p => (i, p, chunkFact side1 h ov i p)

/-- `locate_slice_chunk(slice_start, slice_stop, height, overlap_metadata)` (utility.py:1223-1326). -/
def locateSliceChunk (start stop : ℤ) (h : ℕ) (side1 : Bool) (ov : List ℕ) : Py (List (List (ℕ × ℕ × Option ℚ))) :=
  if stop < start then .error .valueError
  else if ov = [] then .error .indexError
  else .ok (((List.range (ov.length + 1)).map (chunkRow start stop h side1 ov)).filter (fun l => !l.isEmpty))

end Verif.Locate
