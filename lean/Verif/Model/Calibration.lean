import Verif.Np
import Mathlib.Analysis.SpecialFunctions.Complex.Arg
import Mathlib.Analysis.SpecialFunctions.Trigonometric.Arctan

/-!
Model of the tilt/roll calibration: algotom/util/calibration.py:342-512.

Real instead of floating-point numbers.  `np.linalg.svd`, `np.polyfit` and `ndi.gaussian_filter1d` are parameters (the
properties say what is assumed of them).  Warnings are not modelled.
-/

namespace Verif.Calibration
open Real

/-- `np.arctan2(y, x)`: the argument of `x + iy`, in (-π, π]. -/
noncomputable def arctan2 (y x : ℝ) : ℝ := Complex.arg ⟨x, y⟩

/-- `np.rad2deg`. -/
noncomputable def rad2deg (x : ℝ) : ℝ := x * 180 / π

/-- Six coefficients of a conic, in the order of calibration.py:368. -/
abbrev Coef := Fin 6 → ℝ

/-- One row of the design matrix `A` (calibration.py:368). -/
def row (p : ℝ × ℝ) : Coef := ![p.1 ^ 2, p.1 * p.2, p.2 ^ 2, p.1, p.2, 1]

/-- calibration.py:377-382: the roll angle before the axes are put in order. -/
noncomputable def rollOf (a0 b0 c0 : ℝ) : ℝ :=
  let roll := rad2deg (arctan2 (c0 - a0 - sqrt ((a0 - c0) ^ 2 + b0 ^ 2)) b0)
  let roll := if roll > 90 then -(180 - roll) else roll
  if roll < -90 then 180 + roll else roll

/-- calibration.py:370-401: from the six coefficients to `(roll_angle, a_major, b_minor, xc, yc)`. -/
noncomputable def ellipseOf (v : Coef) : Py (ℝ × ℝ × ℝ × ℝ × ℝ) :=
  let a0 := v 0
  let b0 := v 1
  let c0 := v 2
  let d0 := v 3
  let e0 := v 4
  let f0 := v 5
  let denom := b0 ^ 2 - 4 * a0 * c0
  if denom = 0 then .error .valueError
  else
    let xc := (2 * c0 * d0 - b0 * e0) / denom
    let yc := (2 * a0 * e0 - b0 * d0) / denom
    let roll := rollOf a0 b0 c0
    let aTerm := 2 * (a0 * e0 ^ 2 + c0 * d0 ^ 2 - b0 * d0 * e0 + denom * f0) *
      (a0 + c0 + sqrt ((a0 - c0) ^ 2 + b0 ^ 2))
    if aTerm < 0 then .error .valueError
    else
      let aMajor := -2 * sqrt aTerm / denom
      let bTerm := 2 * (a0 * e0 ^ 2 + c0 * d0 ^ 2 - b0 * d0 * e0 + denom * f0) *
        (a0 + c0 - sqrt ((a0 - c0) ^ 2 + b0 ^ 2))
      if bTerm < 0 then .error .valueError
      else
        let bMinor := -2 * sqrt bTerm / denom
        if aMajor < bMinor then
          .ok (if roll < 0 then 90 + roll else -90 + roll, bMinor, aMajor, xc, yc)
        else .ok (roll, aMajor, bMinor, xc, yc)

/-- `fit_points_to_ellipse(x, y)` (calibration.py:342-401).  `svd A` is `np.linalg.svd(A, full_matrices=False)[-1].T[:, -1]`
for the design matrix with the given rows. -/
noncomputable def fitEllipse (svd : List Coef → Coef) (xs ys : List ℝ) : Py (ℝ × ℝ × ℝ × ℝ × ℝ) :=
  if xs.length ≠ ys.length then .error .valueError
  else ellipseOf (svd ((xs.zip ys).map row))

/-- `np.max` of a list; `ValueError` for an empty one. -/
noncomputable def npMaxE : List ℝ → Py ℝ
  | [] => .error .valueError
  | x :: l => .ok (l.foldl max x)

/-- `dist_list` (calibration.py:430, 501): distances of the points to the line. -/
noncomputable def distList (a b : ℝ) (xs ys : List ℝ) : List ℝ :=
  (xs.zip ys).map fun p => |a * p.1 - p.2 + b| / sqrt (a ^ 2 + 1)

/-- `np.polyfit(x, y, 1)[:2]` (calibration.py:429, 500), with the `TypeError` for empty arrays. -/
noncomputable def polyfitE (polyfit : List ℝ → List ℝ → ℝ × ℝ) (xs ys : List ℝ) : Py (ℝ × ℝ) :=
  if xs = [] then .error .typeError else .ok (polyfit xs ys)

/-- The list of the distances of all pairs `i < j` (calibration.py:431-434). -/
noncomputable def pairDist : List (ℝ × ℝ) → List ℝ
  | [] => []
  | p :: l => (l.map fun q => sqrt ((p.1 - q.1) ^ 2 + (p.2 - q.2) ^ 2)) ++ pairDist l

/-- `find_tilt_roll_based_linear_fit(x, y)` (calibration.py:404-439). -/
noncomputable def linearFit (polyfit : List ℝ → List ℝ → ℝ × ℝ) (gauss : List ℝ → List ℝ) (xs ys : List ℝ) :
    Py (ℝ × ℝ) := do
  let ab ← polyfitE polyfit xs ys
  let major ← npMaxE (pairDist (xs.zip ys))
  let m ← npMaxE (gauss (distList ab.1 ab.2 xs ys))
  let minor := 2.0 * m
  pure (rad2deg (arctan2 minor major), rad2deg (arctan ab.1))

/-- `find_tilt_roll_based_ellipse_fit(x, y)` (calibration.py:442-468); `none` is `(None, None)`. -/
noncomputable def ellipseFit (svd : List Coef → Coef) (xs ys : List ℝ) : Py (Option (ℝ × ℝ)) :=
  match fitEllipse svd xs ys with
  | .ok (roll, major, minor, _, _) => .ok (some (rad2deg (arctan2 minor major), roll))
  | .error .valueError => .ok none
  | .error e => .error e

/-- `find_tilt_roll(x, y, method)` (calibration.py:471-512). -/
noncomputable def findTiltRoll (svd : List Coef → Coef) (polyfit : List ℝ → List ℝ → ℝ × ℝ) (gauss : List ℝ → List ℝ)
    (xs ys : List ℝ) (method : String) : Py (ℝ × ℝ) :=
  if xs.length ≠ ys.length then .error .valueError
  else if ¬ (method = "linear" ∨ method = "ellipse") then .error .valueError
  else if method = "linear" then linearFit polyfit gauss xs ys
  else do
    let ab ← polyfitE polyfit xs ys
    let m ← npMaxE (gauss (distList ab.1 ab.2 xs ys))
    if m < 1.0 then linearFit polyfit gauss xs ys
    else
      match ← ellipseFit svd xs ys with
      | none => linearFit polyfit gauss xs ys
      | some r => pure r

end Verif.Calibration
