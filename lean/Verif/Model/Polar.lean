import Verif.Model.Correction
import Verif.Model.Calibration
import Verif.Model.Regularization
import Verif.Model.Sched
import Verif.Num

/-!
Polar coordinates, the regularisation filter and the rotation of a 1D window: algotom/util/utility.py:663-792, 873-963.
Exact real arithmetic (the float32 conversion of the coordinates is not modelled).
-/

namespace Verif.Polar
open Verif.Correction Verif.Calibration Verif.Regularization

/-- Centre of an axis of length `n`: `(n - 1.0) * 0.5` (utility.py:685-686, 720-721). -/
noncomputable def center (n : ℕ) : ℝ := ((n : ℝ) - 1) * (1 / 2)

/-- `r_max` (utility.py:687, 722). -/
noncomputable def rMax (w h : ℕ) : ℝ := (⌊max (center w) (center h)⌋ : ℤ)

/-- `rectangular_from_polar(width_reg, height_reg, width_pol, height_pol)`: the entry for angle index `i` and radius index `j` of
(x_mat, y_mat) (utility.py:685-695). -/
noncomputable def rectFromPolar (wr hr wp hp i j : ℕ) : ℝ × ℝ :=
  let r := linspace 0 (rMax wr hr) wp j
  let theta : ℝ := (i : ℝ) * 2 * Real.pi / ((hp : ℝ) - 1)
  (clip (center wr + r * Real.cos theta) 0 ((wr : ℝ) - 1), clip (center hr + r * Real.sin theta) 0 ((hr : ℝ) - 1))

/-- `polar_from_rectangular(width_pol, height_pol, width_reg, height_reg)`: the entry for row `i` and column `j` of (r_mat, theta_mat)
(utility.py:720-731); `np.flipud(np.arange(n))[k] = n - 1 - k`. -/
noncomputable def polarFromRect (wp hp wr hr i j : ℕ) : ℝ × ℝ :=
  let x : ℝ := (((wr - 1 - j : ℕ) : ℝ) - center wr) * wp / rMax wr hr
  let y : ℝ := (((hr - 1 - i : ℕ) : ℝ) - center hr) * wp / rMax wr hr
  (clip (Real.sqrt (x ^ 2 + y ^ 2)) 0 ((wp : ℝ) - 1),
    clip ((Real.pi + arctan2 y x) * ((hp : ℝ) - 1) / (2 * Real.pi)) 0 ((hp : ℝ) - 1))

/-- `transform_slice_forward(mat)` / `transform_slice_backward(mat)` (utility.py:751-761, 782-792): `coord = some (hx, wx, hy, wy, f)` are
coordinate arrays given by the caller with their shapes; `forward` selects the default coordinates. -/
noncomputable def transformSlice (forward : Bool) (m : Mat ℝ) (coord : Option ((ℕ × ℕ) × (ℕ × ℕ) × (ℕ → ℕ → ℝ × ℝ))) : Py (Mat ℝ) :=
  if m.h ≠ m.w then .error .valueError
  else match coord with
    | none =>
      let f := if forward then rectFromPolar m.w m.w m.w m.w else polarFromRect m.w m.w m.w m.w
      .ok ⟨m.h, m.w, fun i j => sample m.h m.w m.get (f i j).2 (f i j).1⟩
    | some (sx, sy, f) =>
      if sx ≠ (m.h, m.w) ∨ sy ≠ (m.h, m.w) then .error .valueError
      else .ok ⟨m.h, m.w, fun i j => sample m.h m.w m.get (f i j).2 (f i j).1⟩

/-! ### regularisation filter -/

/-- `apply_1d_regularizer(list_data, sijmat)` (utility.py:878-884) with `sijmat = calculate_regularization_coefficient(ncol, alpha)`. -/
noncomputable def regularize1d (alpha : ℝ) (ncol : ℕ) (v : ℕ → ℝ) (i : ℕ) : ℝ := v i + listCoe ncol alpha v i

/-- `apply_regularization_filter(mat, alpha, axis, ncore)` (utility.py:912-922) executed along the schedule `sched`; `none` = `sched` is not a
complete execution.  With fewer than two columns `list_data[1]` raises `IndexError`. -/
noncomputable def regularizationFilter (alpha : ℝ) (axis : ℕ) (ncore : ℕ) (sched : List Sched.Ev) (mat : Mat ℝ) : Option (Py (Mat ℝ)) :=
  let m := if axis = 0 then mat.T else mat
  if m.w < 2 ∧ 0 < m.h then some (.error .indexError)
  else
    (Sched.parMap m.h ncore (fun i => regularize1d alpha m.w (m.get i)) sched).map fun rows =>
      let out : Mat ℝ := ⟨m.h, m.w, fun i j => rows.getD i (fun _ => 0) j⟩
      .ok (if axis = 0 then out.T else out)

/-! ### rotation of a 1D window -/

/-- Column coordinate used for entry `(i, j)` by `transform_1d_window_to_2d` (utility.py:946-958): the distance to the centre, clipped,
negative in the upper half. -/
noncomputable def windowCoord (width0 i j : ℕ) : ℝ :=
  let width := if width0 % 2 = 0 then width0 + 1 else width0
  let c : ℕ := width / 2
  let x : ℝ := ((width - 1 - j : ℕ) : ℝ) - c
  let y : ℝ := (i : ℝ) - c
  let r := clip (Real.sqrt (x ^ 2 + y ^ 2)) 0 c
  let r := if arctan2 y x < 0 then r * (-1) else r
  clip (r + c) 0 ((width : ℝ) - 1)

/-- Row coordinate (utility.py:956, 959-960). -/
noncomputable def windowRow (width0 i j : ℕ) : ℝ :=
  let width := if width0 % 2 = 0 then width0 + 1 else width0
  let c : ℕ := width / 2
  clip (arctan2 ((i : ℝ) - c) (((width - 1 - j : ℕ) : ℝ) - c) * ((width : ℝ) - 1) / Real.pi) 0 ((width : ℝ) - 1)

/-- `transform_1d_window_to_2d(win_1d, order=1, mode="reflect")` (utility.py:946-963): `np.tile(win_1d, (width, 1))` sampled at the
coordinates above, cropped to `width0`. -/
noncomputable def window2d (width0 : ℕ) (win : ℕ → ℝ) : Mat ℝ :=
  let width := if width0 % 2 = 0 then width0 + 1 else width0
  ⟨width0, width0, fun i j => sample width width0 (fun _ k => win k) (windowRow width0 i j) (windowCoord width0 i j)⟩

end Verif.Polar
