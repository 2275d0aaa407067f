import Verif.Np
import Mathlib.Order.Defs.LinearOrder
import Mathlib.Data.List.Sort

/-!
Model of algotom/util/utility.py:185-248 (`sort_forward`, `sort_backward`) and of
algotom/prep/removal.py:44-94 (`remove_stripe_based_sorting`), with the 1D median filter of scipy.
-/

namespace Verif.Sorting

variable {K : Type _} [LinearOrder K] [Inhabited K]

/-- What `numpy.argsort` guarantees (default `quicksort` is unstable): a permutation of the positions
that makes the keys non-decreasing.  Any such result is allowed. -/
def IsArgsort {A : Type _} [LE A] [Inhabited A] (keys : List A) (idx : List Nat) : Prop :=
  idx.Perm (List.range keys.length) ∧ (idx.map fun i => keys.getD i default).Pairwise (· ≤ ·)

/-- An argsort implementation; it may break ties differently for each line `r`. -/
structure Argsort (A : Type _) [LE A] [Inhabited A] where
  run : Nat → List A → List Nat
  spec : ∀ r keys, IsArgsort keys (run r keys)

/-- Line `r` of a 2D array. -/
def line (m : Mat K) (r : Nat) : List K := (List.range m.w).map fun j => m.get r j

/-- One line of `sort_forward` (utility.py:207-213): combine index and value, reorder by `argsort` of
the values, split again. -/
def sortForwardLine (as : List K → List Nat) (l : List K) : List K × List Nat :=
  let comb := (List.range l.length).zip l
  let srt := (as (comb.map Prod.snd)).map fun i => comb.getD i default
  (srt.map Prod.snd, srt.map Prod.fst)

/-- One line of `sort_backward` (utility.py:242-245): combine index and value, reorder by `argsort` of
the indices, keep the values. -/
def sortBackwardLine (as : List Nat → List Nat) (m : List K) (idx : List Nat) : List K :=
  let comb := idx.zip m
  ((as (comb.map Prod.fst)).map fun i => comb.getD i default).map Prod.snd

/-- `sort_forward(mat, axis)` (utility.py:185-217). -/
def sortForward (as : Argsort K) (axis : Nat) (mat : Mat K) : Mat K × Mat Nat :=
  let m := if axis = 0 then mat.T else mat
  let s : Mat K := ⟨m.h, m.w, fun i j => ((sortForwardLine (as.run i) (line m i)).1).getD j default⟩
  let x : Mat Nat := ⟨m.h, m.w, fun i j => ((sortForwardLine (as.run i) (line m i)).2).getD j 0⟩
  if axis = 0 then (s.T, x.T) else (s, x)

/-- `sort_backward(mat, mat_index, axis)` (utility.py:220-248). -/
def sortBackward (as : Argsort Nat) (axis : Nat) (mat : Mat K) (index : Mat Nat) : Mat K :=
  let m := if axis = 0 then mat.T else mat
  let x := if axis = 0 then index.T else index
  let s : Mat K := ⟨m.h, m.w, fun i j =>
    (sortBackwardLine (as.run i) (line m i) ((List.range x.w).map fun j => x.get i j)).getD j default⟩
  if axis = 0 then s.T else s

/-- `remove_stripe_based_sorting(sinogram, ...)` (removal.py:67-94) with the smoothing step
(`ndi.median_filter` or the user's method) as the parameter `filt`. -/
def removeStripeSorting (as1 : Argsort K) (as2 : Argsort Nat) (filt : Mat K → Mat K)
    (sino : Mat K) : Mat K :=
  let si := sortForward as1 0 sino
  sortBackward as2 0 (filt si.1) si.2

/-- scipy's `mode="reflect"` boundary (`d c b a | a b c d | d c b a`): position read for index `i`
of a line of length `n > 0`. -/
def reflectIdx (n : Nat) (i : Int) : Nat :=
  let m := (i % (2 * n : Int)).toNat
  if m < n then m else 2 * n - 1 - m

/-- `ndi.median_filter(mat, (1, size))` (removal.py:72): window of `size` positions starting at
`j - size // 2`, element of rank `size // 2` of the sorted window. -/
def medianFilterRow (size : Nat) (m : Mat K) : Mat K :=
  ⟨m.h, m.w, fun i j =>
    let window := (List.range size).map fun (k : Nat) =>
      m.get i (reflectIdx m.w ((j : Int) - ((size / 2 : Nat) : Int) + (k : Int)))
    ((window.mergeSort (· ≤ ·)).getD (size / 2) default)⟩

end Verif.Sorting
