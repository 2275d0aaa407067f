import Verif.Num

/-!
Linear interpolation over missing columns: `scipy.interpolate.interp1d(xlist, f(xlist))(x)` with the default
`bounds_error=True`, and `RectBivariateSpline(ylist, xlist, ..., kx=1, ky=1).ev` on grid rows, where
`xlist` = the columns whose mask is zero ("good").
-/

namespace Verif

/-- Largest good column strictly below `x`. -/
def prevGood (good : Nat → Bool) (x : Nat) : Option Nat := ((List.range x).reverse).find? good

/-- Smallest good column strictly above `x` and below `n`. -/
def nextGood (good : Nat → Bool) (n x : Nat) : Option Nat := ((List.range n).drop (x + 1)).find? good

/-- Linear interpolation at a missing column from its two good neighbours; `ValueError` outside the
range of good columns. -/
def linInterp {K : Type _} [Field K] (good : Nat → Bool) (n : Nat) (f : Nat → K) (x : Nat) : Py K :=
  match prevGood good x, nextGood good n x with
  | some a, some b => .ok (f a + ((x : K) - a) * ((f b - f a) / ((b : K) - a)))
  | _, _ => .error .valueError

end Verif
