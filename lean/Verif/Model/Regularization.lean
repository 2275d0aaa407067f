import Verif.Model.Removal
import Mathlib.Analysis.SpecialFunctions.Arsinh
import Mathlib.Analysis.SpecialFunctions.Log.Basic

/-!
Model of the regularisation-based stripe removal: algotom/util/utility.py:382-413 (coefficients) and
algotom/prep/removal.py:526-587.  Real arithmetic instead of float32/float64.
-/

namespace Verif.Regularization
open Verif.Sorting Verif.Removal

/-- `tau` (utility.py:403). -/
noncomputable def tau (alpha : ℝ) : ℝ := 2 * Real.arsinh (Real.sqrt alpha * (1 / 2))

/-- `calculate_regularization_coefficient(width, alpha)[i, j]` (utility.py:403-413). -/
noncomputable def regCoef (width : ℕ) (alpha : ℝ) (i j : ℕ) : ℝ :=
  let t := tau alpha
  let mat1 : ℝ := |(i : ℝ) - j|
  let mat2 : ℝ := (i : ℝ) + j
  let mat1a := Real.cosh (((width : ℝ) - 1 - mat1) * t)
  let mat2a := Real.cosh (((width : ℝ) - mat2) * t);
  -(Real.tanh ((1 / 2) * t) / (alpha * Real.sinh (width * t))) * (mat1a + mat2a)

/-- `list_grad` for the column means `v` (removal.py:576-578): minus the second difference inside, one-sided first
differences at the ends. -/
def gradVec (ncol : ℕ) (v : ℕ → ℝ) (j : ℕ) : ℝ :=
  if j = ncol - 1 then v (ncol - 1) - v (ncol - 2)
  else if j = 0 then v 0 - v 1
  else (-1) * (v (j + 1) - 2 * v j + v (j - 1))

/-- `list_coe` for the column means `v` (removal.py:579-580). -/
noncomputable def listCoe (ncol : ℕ) (alpha : ℝ) (v : ℕ → ℝ) (i : ℕ) : ℝ :=
  ∑ j ∈ Finset.range ncol, gradVec ncol v j * regCoef ncol alpha i j

/-- The loop over the chunks of rows (removal.py:567-582).  With a single column `list_mean[1]` raises `IndexError`. -/
noncomputable def regRows (alpha : ℝ) (numChunk : ℕ) (sino : Mat ℝ) : Py (Mat ℝ) := do
  let bs ← chunkBounds 0 sino.h numChunk
  if sino.w < 2 ∧ bs ≠ [] then .error .indexError
  else
    .ok ⟨sino.h, sino.w, bs.foldl (fun s p i =>
      if p.1 ≤ i ∧ i < p.2 then (fun c => s i c + listCoe sino.w alpha (rowMean s p.1 p.2) c) else s i) sino.get⟩

/-- `-log` with the replacement of non-positive values by the mean absolute value (removal.py:560-566).  Simplification:
for a sinogram of zeros numpy takes `log(0) = -inf`, here `Real.log 0 = 0`. -/
noncomputable def regLog (sino : Mat ℝ) : Mat ℝ :=
  let nmean := (∑ i ∈ Finset.range sino.h, ∑ j ∈ Finset.range sino.w, |sino.get i j|) / (sino.h * sino.w)
  ⟨sino.h, sino.w, fun i j => -Real.log (if sino.get i j ≤ 0 then nmean else sino.get i j)⟩

/-- `remove_stripe_based_regularization` (removal.py:554-587). -/
noncomputable def removeRegularization (as1 : Argsort ℝ) (as2 : Argsort ℕ) (alpha : ℝ) (numChunk : ℕ)
    (applyLog sort : Bool) (sino : Mat ℝ) : Py (Mat ℝ) := do
  let si := sortForward as1 0 sino
  let s := if sort then si.1 else sino
  let s := if applyLog then regLog s else s
  let r ← regRows alpha numChunk s
  let r := if sort then sortBackward as2 0 r si.2 else r
  .ok (if applyLog then ⟨r.h, r.w, fun i j => Real.exp (-r.get i j)⟩ else r)

end Verif.Regularization
