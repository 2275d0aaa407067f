/-
Python / numpy primitives used throughout the model.

Arrays are modelled as a shape plus a total access function; only entries inside the shape are
observable.  Every place where the code can index out of range uses the *checked* reads below, which
return an exception value, so that an out-of-range access is visible in the model.
-/

namespace Verif

/-- Python exceptions the modelled code can raise (as values). -/
inductive PyErr where
  | indexError
  | valueError
  | zeroDivision
  | typeError
  | fileNotFound
  deriving DecidableEq, Repr

/-- Result of a Python call. -/
abbrev Py (α : Type _) := Except PyErr α

/-- A 2D numpy array: shape `(h, w)` and entries. -/
structure Mat (α : Type _) where
  h : Nat
  w : Nat
  get : Nat → Nat → α

/-- A 3D numpy array: shape `(d, h, w)` and entries. -/
structure Arr3 (α : Type _) where
  d : Nat
  h : Nat
  w : Nat
  get : Nat → Nat → Nat → α

namespace Mat
variable {α : Type _}

/-- Two 2D arrays are observably equal: same shape, same entries inside the shape. -/
def Eqv (a b : Mat α) : Prop :=
  a.h = b.h ∧ a.w = b.w ∧ ∀ i < a.h, ∀ j < a.w, a.get i j = b.get i j

/-- Checked read with a non-negative integer index (`IndexError` outside; numba would read garbage). -/
def read (a : Mat α) (i j : Int) : Py α :=
  if 0 ≤ i ∧ i < a.h ∧ 0 ≤ j ∧ j < a.w then .ok (a.get i.toNat j.toNat) else .error .indexError

/-- `np.transpose`. -/
def T (a : Mat α) : Mat α := ⟨a.w, a.h, fun i j => a.get j i⟩

end Mat

/-- Python list/array indexing with negative wrap-around: position meant by `l[i]`. -/
def pyIndex (n : Nat) (i : Int) : Py Nat :=
  if 0 ≤ i ∧ i < n then .ok i.toNat
  else if i < 0 ∧ -(n : Int) ≤ i then .ok (i + n).toNat
  else .error .indexError

/-- Normalisation of one slice bound `b` for a sequence of length `n`
(Python's `slice.indices` with step 1): negative bounds count from the end, then clamp. -/
def pyBound (n : Nat) (b : Int) : Nat :=
  if b < 0 then (b + n).toNat else min b.toNat n

/-- `l[a:b]` (step 1) with Python semantics for negative and out-of-range bounds. -/
def pySlice {α : Type _} (l : List α) (a b : Int) : List α :=
  (l.take (pyBound l.length b)).drop (pyBound l.length a)

/-- `range(a, b, s)` for `s > 0`. (Python raises for step 0.) -/
def pyRangeAux (b : Int) (s : Nat) : Nat → Int → List Int
  | 0, _ => []
  | f + 1, a => if a < b then a :: pyRangeAux b s f (a + s) else []

/-- `range(a, b, s)`, `s ≥ 1`; the fuel `b - a` always suffices. -/
def pyRange (a b : Int) (s : Nat) : List Int := pyRangeAux b s (b - a).toNat a

/-- Sizes of `np.array_split(x, k)` for `n = len(x)`: the first `n % k` chunks have size
`n / k + 1`, the others `n / k` (numpy/lib/shape_base.py `array_split`). -/
def splitSizes (n k : Nat) : List Nat :=
  List.replicate (n % k) (n / k + 1) ++ List.replicate (k - n % k) (n / k)

/-- Cut a list into consecutive pieces of the given sizes. -/
def cutSizes {α : Type _} : List α → List Nat → List (List α)
  | _, [] => []
  | l, s :: ss => l.take s :: cutSizes (l.drop s) ss

/-- `np.array_split(l, k)`; `k = 0` raises `ValueError`. -/
def arraySplit {α : Type _} (l : List α) (k : Nat) : Py (List (List α)) :=
  if k = 0 then .error .valueError else .ok (cutSizes l (splitSizes l.length k))

/-- `np.clip(a, lo, hi)` = `minimum(maximum(a, lo), hi)`. -/
def npClip (a lo hi : Int) : Int := min (max a lo) hi

end Verif
