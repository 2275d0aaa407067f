import Verif.Num
import Verif.Model.Sorting
import Mathlib.Algebra.Order.Floor.Ring
import Mathlib.Algebra.Order.Floor.Semiring
import Mathlib.Analysis.SpecialFunctions.Trigonometric.Basic
import Mathlib.Analysis.SpecialFunctions.Exp
import Mathlib.Analysis.SpecialFunctions.Trigonometric.Arctan
import Mathlib.Data.Sign.Basic
import Mathlib.Analysis.SpecialFunctions.Pow.Real

/-!
Model of algotom/util/simulation.py (masks, stripe artifacts, conversion to transmission, background fluctuation) and of
`make_circle_mask` and `generate_spiral_positions` (algotom/util/utility.py:160-182, 1329-1364).  Exact instead of floating-point arithmetic.
-/

namespace Verif.Simulation
open Verif.Sorting

section field
variable {K : Type*} [Field K] [LinearOrder K] [IsStrictOrderedRing K]

/-- `make_circle_mask(width, ratio)` (utility.py:176-182); `np.ogrid[-center:width - center, ...]`. -/
def circleMask (width : ℕ) (ratio : K) : Mat K :=
  let center := width / 2
  let radius := ratio * (center : K)
  ⟨width, width, fun i j =>
    let y : K := -(center : K) + i
    let x : K := -(center : K) + j
    if x * x + y * y ≤ radius * radius then 1 else 0⟩

/-- The four kinds of `stripe_type` (simulation.py:436-454); every other string is treated as "full". -/
inductive StripeType where
  | part | dead | fluctuating | full

/-- `list_ratio` of the partial stripe (simulation.py:438-441). -/
def partRatio [FloorSemiring K] (nrow : ℕ) (s : K) (r : ℕ) : K :=
  let pos := ⌊(1 - s) * (nrow : K)⌋₊
  if pos ≤ r ∧ r < nrow then linspace 1 (1 - s) (nrow - pos) (r - pos) else 1

/-- `add_stripe_artifact(sinogram, size, position, strength_ratio, stripe_type)` (simulation.py:404-456).  `z` are the
standard normal numbers behind `np.random.normal(0.0, std_dev, ...)`, which raises for a negative `std_dev`.
`broadcast`: the product of the stripe with the `(nrow, size)` array of ratios (443, 454) and the assignment (455) fail
unless the stripe has `size` columns or `size` is 1.  Simplification: for a sinogram of zeros the mean of the non-zero
values (448) is `nan` in numpy and 0 here. -/
def addStripe [Inhabited K] [FloorSemiring K] (as1 : Argsort K) (as2 : Argsort ℕ) (z : ℕ → ℕ → K) (sino : Mat K)
    (size : ℕ) (position : Int) (strength : K) (ty : StripeType) : Py (Mat K) :=
  let p := npClip position 0 ((sino.w : Int) - size - 1)
  let s := min (max strength 0) 1
  let lo := pyBound sino.w p
  let hi := pyBound sino.w (p + size)
  let sw := hi - lo
  let stripe : Mat K := ⟨sino.h, sw, fun i j => sino.get i (lo + j)⟩
  let put (m : Mat K) : Mat K := ⟨sino.h, sino.w, fun i j => if lo ≤ j ∧ j < hi then m.get i (j - lo) else sino.get i j⟩
  let broadcast := sw = size ∨ size = 1
  match ty with
  | .part =>
    if broadcast then
      let si := sortForward as1 0 stripe
      .ok (put (sortBackward as2 0 ⟨si.1.h, si.1.w, fun i j => si.1.get i j * partRatio sino.h s i⟩ si.2))
    else .error .valueError
  | .dead =>
    if sino.h = 0 ∨ sino.w = 0 then .error .valueError
    else
      let mx := ((List.range sino.h).flatMap fun i => (List.range sino.w).map fun j => sino.get i j).foldl max (sino.get 0 0)
      .ok (put ⟨sino.h, sw, fun _ _ => 1 * s * mx⟩)
  | .fluctuating =>
    let nz := ((List.range sino.h).flatMap fun i => (List.range sino.w).map fun j => sino.get i j).filter (· ≠ 0)
    let std := nz.sum / (nz.length : K) * s
    if std < 0 then .error .valueError
    else .ok (put ⟨sino.h, sw, fun i j => stripe.get i j + (0 + std * z i j)⟩)
  | .full =>
    if broadcast then .ok (put ⟨sino.h, sw, fun i j => stripe.get i j * ((1 - s) * 1)⟩) else .error .valueError

end field

/-- `convert_to_Xray_image(sinogram, global_max)` (simulation.py:459-478); `np.max` of an empty array raises.  `none` in the
result stands for the `nan`/`inf` of a division by a zero maximum. -/
noncomputable def convertXray (sino : Mat ℝ) (globalMax : Option ℝ) : Py (Option (Mat ℝ)) :=
  match globalMax with
  | some g => .ok (if g = 0 then none else some ⟨sino.h, sino.w, fun i j => Real.exp (-(1 * sino.get i j / g))⟩)
  | none =>
    if sino.h = 0 ∨ sino.w = 0 then .error .valueError
    else
      let g := ((List.range sino.h).flatMap fun i => (List.range sino.w).map fun j => sino.get i j).foldl max (sino.get 0 0)
      .ok (if g = 0 then none else some ⟨sino.h, sino.w, fun i j => Real.exp (-(1 * sino.get i j / g))⟩)

/-- `scipy.signal.windows.gaussian(M, std)[k]` (used at simulation.py:503). -/
noncomputable def gaussianWin (m : ℕ) (std : ℝ) (k : ℕ) : ℝ :=
  let n : ℝ := (k : ℝ) - ((m : ℝ) - 1) / 2
  Real.exp (-(n ^ 2) / (2 * std * std))

/-- Truncation towards zero of `np.int16(x)` for a float (no overflow for images narrower than 131072). -/
noncomputable def truncInt (x : ℝ) : Int := if 0 ≤ x then ⌊x⌋ else ⌈x⌉

/-- `add_background_fluctuation(sinogram, strength_ratio)` (simulation.py:481-505); `u`, `v` are the two vectors of
`np.random.rand(nrow)`.  `np.roll(a, s)[j] = a[(j - s) mod n]`. -/
noncomputable def addBackground (u v : ℕ → ℝ) (sino : Mat ℝ) (strength : ℝ) : Mat ℝ :=
  let fact : ℕ → ℝ := fun i => 1 - u i * strength
  let shift : ℕ → Int := fun i => truncInt ((0.5 - v i) * strength * sino.w * 0.5)
  ⟨sino.h, sino.w, fun i j =>
    sino.get i j * gaussianWin sino.w (0.5 * fact i * sino.w) (((j : Int) - shift i) % (sino.w : Int)).toNat⟩

/-- The rotated and scaled coordinates of pixel `(i, j)` (simulation.py:70-75, 112-119). -/
noncomputable def maskCoords (size : ℕ) (center length : ℝ × ℝ) (angle : ℝ) (i j : ℕ) : ℝ × ℝ :=
  let icenter : ℝ := ((size / 2 : ℕ) : ℝ)
  let a := -angle * Real.pi / 180
  let x := (j : ℝ) - icenter - center.1
  let y := -(i : ℝ) + icenter - center.2
  ((x * Real.cos a - y * Real.sin a) / (0.5 * length.1), (x * Real.sin a + y * Real.cos a) / (0.5 * length.2))

/-- `make_elliptic_mask(size, center, length, angle)` (simulation.py:40-79). -/
noncomputable def ellipticMask (size : ℕ) (center length : ℝ × ℝ) (angle : ℝ) : Mat ℝ :=
  ⟨size, size, fun i j =>
    let uv := maskCoords size center length angle i j
    if Real.sqrt (uv.1 ^ 2 + uv.2 ^ 2) ≤ 1.01 then 1 else 0⟩

/-- `make_rectangular_mask(size, center, length, angle)` (simulation.py:82-122). -/
noncomputable def rectangularMask (size : ℕ) (center length : ℝ × ℝ) (angle : ℝ) : Mat ℝ :=
  ⟨size, size, fun i j =>
    let uv := maskCoords size center length angle i j
    if |uv.1| ≤ 1.01 ∧ |uv.2| ≤ 1.01 then 1 else 0⟩

/-- `make_triangular_mask(size, center, length, angle)` (simulation.py:125-175): a rectangle minus two rotated rectangles.
`np.arctan2(0.5 * y_len, x_len)` for `x_len > 0` is `arctan`. -/
noncomputable def triangularMask (size : ℕ) (center length : ℝ × ℝ) (angleDeg : ℝ) : Mat ℝ :=
  let mask := rectangularMask size center length angleDeg
  let angle := angleDeg * Real.pi / 180
  let xl1 := Real.sqrt (length.1 ^ 2 + (0.5 * length.2) ^ 2)
  let angle1 := Real.arctan (0.5 * length.2 / length.1)
  let yl1 := 2 * Real.sin angle1 * length.1
  let xOff := -0.5 * yl1 * Real.sin angle1
  let yOff := 0.5 * yl1 * Real.cos angle1 + 0.5 * xl1 * Real.sin angle1
  let cen (yo : ℝ) : ℝ × ℝ :=
    let xo1 := xOff * Real.cos angle - yo * Real.sin angle
    let yo1 := xOff * Real.sin angle + yo * Real.cos angle
    (center.1 + xo1 + SignType.sign xo1 * 0.5, center.2 + yo1 + SignType.sign yo1 * 0.5)
  let mask1 := rectangularMask size (cen yOff) (xl1, yl1) ((angle + angle1) * 180 / Real.pi)
  let mask2 := rectangularMask size (cen (-yOff)) (xl1, yl1) ((angle - angle1) * 180 / Real.pi)
  ⟨size, size, fun i j => max (max (mask.get i j - mask1.get i j) 0 - mask2.get i j) 0⟩

/-- `phi` of `generate_spiral_positions` (utility.py:1352). -/
noncomputable def spiralPhi (shape : ℝ) : ℝ := 2 * Real.pi * ((1 + Real.sqrt 5) / 2) + shape * Real.pi

/-- Position `i` of the spiral (utility.py:1356-1358). -/
noncomputable def spiralPos (step shape : ℝ) (i : ℕ) : ℝ × ℝ :=
  let r := 1 * step * Real.sqrt i
  (r * Real.cos (i * spiralPhi shape), r * Real.sin (i * spiralPhi shape))

/-- `generate_spiral_positions(step, num_pos, height, width, spiral_shape)` (utility.py:1329-1364): the loop stops with
`ValueError` at the first position outside of the field of view. -/
noncomputable def spiralPositions (step : ℝ) (num height width : ℕ) (shape : ℝ) : Py (List (ℝ × ℝ)) :=
  (List.range num).mapM fun i =>
    let p := spiralPos step shape i
    if |p.1| > ((width / 2 : ℕ) : ℝ) ∨ |p.2| > ((height / 2 : ℕ) : ℝ) then .error .valueError else .ok p

end Verif.Simulation
