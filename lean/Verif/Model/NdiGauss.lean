import Verif.Model.Sorting
import Verif.Num
import Mathlib.Analysis.SpecialFunctions.Exp
import Mathlib.Data.Real.Archimedean

/-! `scipy.ndimage.gaussian_filter` in mode "reflect" with `truncate=4`, as called at algotom/prep/calculation.py:177, 243, 348, 498-499,
algotom/util/utility.py:999, algotom/util/calibration.py:435, 502 (`gaussian_filter1d`).  Exact real arithmetic. -/

namespace Verif.Ndi
open Finset Verif.Sorting

/-- `int(4 * sigma + 0.5)`: radius of the window. -/
noncomputable def radius (sigma : ℝ) : ℕ := ⌊4 * sigma + 1 / 2⌋₊

/-- Weight number `q` of the window `-r … r`: `exp(-x²/(2 sigma²))` divided by the sum of all weights. -/
noncomputable def weight (sigma : ℝ) (q : ℕ) : ℝ :=
  Real.exp (-0.5 / sigma ^ 2 * ((q : ℝ) - radius sigma) ^ 2) / ∑ k ∈ range (2 * radius sigma + 1), Real.exp (-0.5 / sigma ^ 2 * ((k : ℝ) - radius sigma) ^ 2)

/-- `gaussian_filter1d` of a line of `n` values (calibration.py:435, 502; one axis of calculation.py:177). -/
noncomputable def gauss1 (sigma : ℝ) (n : ℕ) (f : ℕ → ℝ) (i : ℕ) : ℝ :=
  ∑ q ∈ range (2 * radius sigma + 1), weight sigma q * f (reflectIdx n ((i : ℤ) + q - radius sigma))

/-- One axis is skipped if its sigma is not above 1e-15. -/
noncomputable def axis1 (sigma : ℝ) (n : ℕ) (f : ℕ → ℝ) (i : ℕ) : ℝ := if 1e-15 < sigma then gauss1 sigma n f i else f i

/-- `gaussian_filter(mat, (sigma_y, sigma_x))`: axis 0, then axis 1 (calculation.py:177, 243, 348, 498-499; utility.py:999). -/
noncomputable def gaussian (sy sx : ℝ) (m : Mat ℝ) : Mat ℝ :=
  ⟨m.h, m.w, fun i j => axis1 sx m.w (fun c => axis1 sy m.h (fun r => m.get r c) i) j⟩

/-- `gaussian_filter1d(list, sigma)` of a list (calibration.py:435, 502). -/
noncomputable def gaussianList (sigma : ℝ) (l : List ℝ) : List ℝ := (List.range l.length).map fun i => axis1 sigma l.length (fun r => l.getD r 0) i

end Verif.Ndi
