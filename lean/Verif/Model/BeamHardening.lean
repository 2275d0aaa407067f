import Verif.Np
import Mathlib.Analysis.SpecialFunctions.Pow.Real
import Mathlib.Analysis.SpecialFunctions.Log.Basic

/-! Model of algotom/prep/correction.py:517-574 over the reals. -/

namespace Verif.BeamHardening

/-- `non_linear_function(intensity, q, n, opt)` (correction.py:536-544); `x**n` is the real power. -/
noncomputable def nonLinear (intensity q n : ℝ) (opt : Bool) : ℝ :=
  let x := if opt then 1 - intensity else intensity
  let r := Real.log (1 - q * (x ^ n - n * x)) / Real.log (1 - q * (1 - n))
  if opt then 1 - r else r

/-- `beam_hardening_correction(mat, q, n, opt)` (correction.py:569-574). -/
noncomputable def beamHardening (mat : Mat ℝ) (q n : ℝ) (opt : Bool) : Py (Mat ℝ) :=
  open Classical in
  if ∃ i < mat.h, ∃ j < mat.w, 2 ≤ mat.get i j then .error .valueError
  else if n < 2 then .error .valueError
  else .ok ⟨mat.h, mat.w, fun i j => nonLinear (mat.get i j) q n opt⟩

end Verif.BeamHardening
