import Verif.Np
import Mathlib.Data.List.Basic
import Mathlib.Logic.Function.Basic

/-!
Model of `fix_non_sample_areas` (algotom/util/utility.py:1014-1165): the table of `(overlap area, side)` entries of a grid
scan; entries with area 0 belong to cells without sample.
-/

namespace Verif.GridFix

variable {K : Type*} [Zero K] [DecidableEq K]

/-- The search for a neighbour with non-zero area in the given order (utility.py:1051-1071 and the three copies of it:
1082-1102, 1113-1133, 1144-1164); neighbours outside of the table are skipped.  The test `if area1 == 0` of the code
(1061, 1092, 1123, 1154) always holds when it is reached and is left out. -/
def pick (nr nc : ℕ) (src : ℕ × ℕ → K × K) : List (Int × Int) → Option (K × K)
  | [] => none
  | (a, b) :: l =>
    if 0 ≤ a ∧ a < nr ∧ 0 ≤ b ∧ b < nc ∧ (src (a.toNat, b.toNat)).1 ≠ 0 then some (src (a.toNat, b.toNat))
    else pick nr nc src l

/-- Order in which the neighbours are tried: along the row first for "vertical" (utility.py:1051-1071), along the column
first otherwise (utility.py:1113-1133). -/
def neighbours (vertical : Bool) (c : ℕ × ℕ) : List (Int × Int) :=
  let i : Int := c.1
  let j : Int := c.2
  if vertical then [(i, j - 1), (i, j + 1), (i - 1, j), (i + 1, j)] else [(i - 1, j), (i + 1, j), (i, j - 1), (i, j + 1)]

/-- One cell: `src` is the array that is read (the argument in the first pass, the result in the second), `cur` the one
that is written (utility.py:1046-1071, 1077-1102, 1108-1133, 1139-1164). -/
def fixCell (vertical : Bool) (nr nc : ℕ) (src cur : ℕ × ℕ → K × K) (c : ℕ × ℕ) : ℕ × ℕ → K × K :=
  if (src c).1 = 0 then
    match pick nr nc src (neighbours vertical c) with
    | some v => Function.update cur c v
    | none => cur
  else cur

/-- The nested loops of the first pass: rows outside for "vertical" (utility.py:1042-1045), columns outside otherwise
(utility.py:1104-1107).  The loops of the second pass (1073-1076, 1135-1138) run through the same cells backwards. -/
def cells (vertical : Bool) (nr nc : ℕ) : List (ℕ × ℕ) :=
  if vertical then (List.range nr).flatMap fun i => (List.range nc).map fun j => (i, j)
  else (List.range nc).flatMap fun j => (List.range nr).map fun i => (i, j)

/-- `fix_non_sample_areas(overlap_metadata, direction)` (utility.py:1014-1165); `vertical` is
`direction == "vertical"`. -/
def fixNonSampleAreas (vertical : Bool) (m : Mat (K × K)) : Mat (K × K) :=
  let orig : ℕ × ℕ → K × K := fun c => m.get c.1 c.2
  let fwd := (cells vertical m.h m.w).foldl (fun cur c => fixCell vertical m.h m.w orig cur c) orig
  let rev := (cells vertical m.h m.w).reverse.foldl (fun cur c => fixCell vertical m.h m.w cur cur c) fwd
  ⟨m.h, m.w, fun i j => rev (i, j)⟩

end Verif.GridFix
