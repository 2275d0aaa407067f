import Verif.Num
import Verif.Model.Chunks
import Verif.Model.Sched
import Mathlib.Analysis.SpecialFunctions.Pow.Real

/-!
Model of algotom/prep/phase.py:690-830 (`get_transmission_dark_field_signal`).  2D inputs are one-image stacks
(phase.py:807-809).  Exact reals.  A pixel whose value the code cannot compute (mean of an empty slice: nan) carries an error.
-/

namespace Verif.DarkField
open Sched

/-- `np.mean` of a list. -/
noncomputable def mean (l : List ℝ) : ℝ := l.sum / l.length

/-- `np.std` of a list. -/
noncomputable def std (l : List ℝ) : ℝ := Real.sqrt (mean (l.map fun x => (x - mean l) ^ 2))

/-- The values of `m[a:b, c:d]` (numba follows Python's slice rules for negative bounds). -/
def slice2 (h w : Nat) (g : Nat → Nat → ℝ) (a b c d : Int) : List ℝ :=
  (pySlice (List.range h) a b).flatMap fun i => (pySlice (List.range w) c d).map (g i)

/-- `_calculate_transmission_dark_field_values` (phase.py:697-707). -/
noncomputable def tdValues (l1 l2 : List ℝ) : Py (ℝ × ℝ) :=
  open Classical in
  if l1 = [] ∨ l2 = [] then .error .zeroDivision
  else
    let num1 := mean l1
    let num2 := mean l2
    if num1 ≠ 0 ∧ num2 ≠ 0 then
      if std l1 ≠ 0 then .ok (num2 / num1, (num1 / num2) * (std l2 / std l1)) else .ok (num2 / num1, 1)
    else .ok (1, 1)

/-- Body of the double loop for pixel `(i, j)` (phase.py:740-752); `dy`, `dx` are the rounded shifts. -/
noncomputable def pixel (ref sam : Arr3 ℝ) (xs ys : Nat → Nat → ℝ) (radi i j : Nat) : Py (ℝ × ℝ) := do
  let i1 : Int := i + npRound (ys i j)
  let j1 : Int := j + npRound (xs i j)
  let l ← (List.range ref.d).mapM fun k =>
    tdValues (slice2 ref.h ref.w (ref.get k) (i - radi) (i + radi + 1) (j - radi) (j + radi + 1))
      (slice2 sam.h sam.w (sam.get k) (i1 - radi) (i1 + radi + 1) (j1 - radi) (j1 + radi + 1))
  return (mean (l.map Prod.fst), mean (l.map Prod.snd))

/-- `_get_transmission_dark_field_signal` (phase.py:718-756). -/
noncomputable def signal (ref sam : Arr3 ℝ) (xs ys : Nat → Nat → ℝ) (winSize margin : Nat) : Mat (Py (ℝ × ℝ)) :=
  let radi := winSize / 2
  let start := radi + margin
  ⟨ref.h - 2 * start, ref.w - 2 * start, fun i2 j2 => pixel ref sam xs ys radi (start + i2) (start + j2)⟩

/-- Rows `[a, b)` of every image of a stack. -/
def slab (x : Arr3 ℝ) (a b : Nat) : Arr3 ℝ := ⟨x.d, b - a, x.w, fun k i j => x.get k (a + i) j⟩

/-- `np.max(np.abs(f))` of an `h × w` array. -/
noncomputable def maxAbs (h w : Nat) (f : Nat → Nat → ℝ) : ℝ :=
  ((List.range h).flatMap fun i => (List.range w).map fun j => |f i j|).foldl max 0

/-- The default margin (phase.py:796). -/
noncomputable def defaultMargin (h w : Nat) (xs ys : Nat → Nat → ℝ) : Nat :=
  (pyTrunc (max (maxAbs h w xs) (maxAbs h w ys))).toNat

/-- Writing the results of the chunks into the output (phase.py:825-827). -/
def assemble {α : Type _} (pad : Nat) (init : Nat → Nat → α) (bs : List (Nat × Nat)) (res : List (Mat α)) : Nat → Nat → α :=
  (bs.zip res).foldl (fun out p i j => if p.1.1 - pad ≤ i ∧ i < p.1.2 - pad then p.2.get (i - (p.1.1 - pad)) j else out i j) init

/-- `get_transmission_dark_field_signal` (phase.py:790-830), executed along the schedule `sched` of the worker pool;
`none`: `sched` is not a complete execution. -/
noncomputable def getSignal (ref sam : Arr3 ℝ) (xs ys : Nat → Nat → ℝ) (winSize : Nat) (margin : Option Nat) (ncore : Nat)
    (sched : List Ev) : Py (Option (Mat (Py (ℝ × ℝ)))) :=
  let win := 2 * (winSize / 2) + 1
  let radi := win / 2
  let mg := margin.getD (defaultMargin ref.h ref.w xs ys)
  let pad := radi + mg
  if ref.w ≤ 2 * pad ∨ ref.h ≤ 2 * pad then .error .valueError
  else if ncore = 0 then .error .zeroDivision
  else
    let finish := fun (inner : Nat → Nat → Py (ℝ × ℝ)) => (⟨ref.h, ref.w, fun i j =>
      inner (min (i - pad) (ref.h - 2 * pad - 1)) (min (j - pad) (ref.w - 2 * pad - 1))⟩ : Mat (Py (ℝ × ℝ)))
    if ncore = 1 ∨ (ref.h - 2 * pad) / ncore < 20 then
      .ok (some (finish (signal ref sam xs ys win mg).get))
    else
      match chunkBounds pad (ref.h - 2 * pad) ncore with
      | .error e => .error e
      | .ok bs =>
        let task := fun t =>
          let b := (bs.getD t (0, 0)).1 - pad
          let e := (bs.getD t (0, 0)).2 + pad
          signal (slab ref b e) (slab sam b e) (fun i j => xs (b + i) j) (fun i j => ys (b + i) j) win mg
        match parMap bs.length ncore task sched with
        | none => .ok none
        | some res => .ok (some (finish (assemble pad (fun _ _ => .ok (1, 1)) bs res)))

end Verif.DarkField
