import Verif.Np
import Mathlib.Algebra.Order.Floor.Ring
import Mathlib.Algebra.Order.Field.Basic
import Mathlib.Algebra.BigOperators.Group.Finset.Basic
import Mathlib.Order.Interval.Finset.Nat

/-!
Numeric numpy primitives, in exact arithmetic over a linearly ordered field `K` with floor.
-/

namespace Verif

section floorring
variable {K : Type _} [Field K] [LinearOrder K] [FloorRing K]

/-- `np.round` to an integer: nearest integer, halves to even. -/
def npRound (x : K) : Int :=
  if x - (⌊x⌋ : K) < 1 / 2 then ⌊x⌋
  else if 1 / 2 < x - (⌊x⌋ : K) then ⌊x⌋ + 1
  else if ⌊x⌋ % 2 = 0 then ⌊x⌋ else ⌊x⌋ + 1

/-- Python `int(x)`: truncation toward zero. -/
def pyTrunc (x : K) : Int := if 0 ≤ x then ⌊x⌋ else ⌈x⌉

/-- Storing `x` into an array of integer (`true`) or floating (`false`) dtype. -/
def storeAs (isInt : Bool) (x : K) : K := if isInt then (pyTrunc x : K) else x

end floorring

section field
variable {K : Type _} [Field K]

/-- Entry `k` of `np.linspace(a, b, n)`. -/
def linspace (a b : K) (n k : Nat) : K := a + (k : K) * ((b - a) / ((n : K) - 1))

/-- `np.mean` of columns `[c0, c1)` of a 2D array. -/
def meanCols (m : Mat K) (c0 c1 : Nat) : K :=
  (∑ i ∈ Finset.range m.h, ∑ j ∈ Finset.Ico c0 c1, m.get i j) / ((m.h : K) * ((c1 - c0 : Nat) : K))

end field

/-- `np.pad(mat, ((0,0),(0,k)), mode='edge')`. -/
def Mat.padRightEdge {α : Type _} (m : Mat α) (k : Nat) : Mat α :=
  ⟨m.h, m.w + k, fun i j => m.get i (min j (m.w - 1))⟩

/-- `np.pad(mat, ((0,0),(k,0)), mode='edge')`. -/
def Mat.padLeftEdge {α : Type _} (m : Mat α) (k : Nat) : Mat α :=
  ⟨m.h, m.w + k, fun i j => m.get i (j - k)⟩

/-- `np.fliplr`. -/
def Mat.fliplr {α : Type _} (m : Mat α) : Mat α := ⟨m.h, m.w, fun i j => m.get i (m.w - 1 - j)⟩

/-- Rows `[a, b)` of an array. -/
def Mat.rows {α : Type _} (m : Mat α) (a b : Nat) : Mat α := ⟨b - a, m.w, fun i j => m.get (a + i) j⟩

/-- Element-wise map. -/
def Mat.map {α β : Type _} (f : α → β) (m : Mat α) : Mat β := ⟨m.h, m.w, fun i j => f (m.get i j)⟩

end Verif
