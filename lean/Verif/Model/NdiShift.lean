import Verif.Model.Savgol
import Verif.Model.VisualCenter

/-! `scipy.ndimage.shift(mat, (0, s), order=3, prefilter=True)` (mode "constant", value 0), as called at algotom/prep/calculation.py:133-134.  The shift
of the first axis is 0, where filtering and sampling cancel, so that the model works row by row.  Exact real arithmetic. -/

namespace Verif.Ndi
open Finset Matrix Verif.StripeFilters Verif.VisualCenter

/-- The linear system of the spline filter: sample `i` is `(c_{i-1} + 4 c_i + c_{i+1}) / 6`, coefficients mirrored at the ends
(`scipy.ndimage.spline_filter`, called by calculation.py:133-134). -/
noncomputable def splineMat (n : ℕ) : Matrix (Fin n) (Fin n) ℝ := fun i j =>
  (if (j : ℕ) = mirrorIdx n ((i : ℕ) - 1) then 1 / 6 else 0) + (if j = i then 4 / 6 else 0) + (if (j : ℕ) = mirrorIdx n ((i : ℕ) + 1) then 1 / 6 else 0)

/-- The coefficients of a row (calculation.py:133-134). -/
noncomputable def splineCoef (n : ℕ) (f : ℕ → ℝ) (k : ℕ) : ℝ :=
  if h : k < n then ((splineMat n)⁻¹ *ᵥ fun i : Fin n => f i) ⟨k, h⟩ else 0

/-- `ndi.shift(mat, (0, s), order=3, prefilter=True)` (calculation.py:133-134). -/
noncomputable def cubicShift (m : Mat ℝ) (s : ℝ) : Mat ℝ :=
  ⟨m.h, m.w, fun i j =>
    let x := (j : ℝ) - s
    if 0 ≤ x ∧ x ≤ (m.w : ℝ) - 1 then bspline mirrorIdx m.w (splineCoef m.w (m.get i)) x else 0⟩

end Verif.Ndi
