import Verif.Model.StripeFilters
import Mathlib.LinearAlgebra.Matrix.NonsingularInverse

/-! `generate_fitted_image` (algotom/util/utility.py:306-335) with `scipy.signal.savgol_filter` in mode "mirror". -/

namespace Verif.StripeFilters
open Finset Matrix

/-- The array `A[j, k] = x_k ** j` of `scipy.signal.savgol_coeffs`, `x_k = k - m` for a window of `2m + 1` points (called at utility.py:330, 334). -/
def savgolMat (m order : ℕ) : Matrix (Fin (order + 1)) (Fin (2 * m + 1)) ℝ := fun j k => ((k : ℕ) - (m : ℝ)) ^ (j : ℕ)

/-- `scipy.signal.savgol_coeffs`: the solution of smallest norm of `A c = (1, 0, …, 0)`, which `lstsq` returns (called at utility.py:330, 334). -/
noncomputable def savgolCoeff (m order : ℕ) : Fin (2 * m + 1) → ℝ :=
  (savgolMat m order).transpose *ᵥ ((savgolMat m order * (savgolMat m order).transpose)⁻¹ *ᵥ Pi.single 0 1)

/-- Index of mode "mirror" (`d c b | a b c d | c b a`) of `scipy.ndimage.convolve1d` (called at utility.py:330, 334). -/
def mirrorIdx (n : ℕ) (i : ℤ) : ℕ :=
  if n ≤ 1 then 0
  else
    let r := (i % (2 * (n : ℤ) - 2)).toNat
    if r < n then r else 2 * n - 2 - r

/-- One line of `savgol_filter(…, mode='mirror')` (called at utility.py:330, 334). -/
noncomputable def savgolLine (m order n : ℕ) (f : ℕ → ℝ) (i : ℕ) : ℝ :=
  ∑ k : Fin (2 * m + 1), savgolCoeff m order k * f (mirrorIdx n ((i : ℤ) + (k : ℕ) - m))

/-- `savgol_filter(mat, length, order, axis=0, mode='mirror')` (utility.py:330); `length` odd. -/
noncomputable def savgolImage (length order : ℕ) (mat : Mat ℝ) : Mat ℝ :=
  ⟨mat.h, mat.w, fun i j => savgolLine (length / 2) order mat.h (fun r => mat.get r j) i⟩

/-- `generate_fitted_image(mat, order, axis, num_chunk)` (utility.py:306-335); `axis0`: the axis is 0, otherwise 1. -/
noncomputable def fittedImage (mat : Mat ℝ) (order : ℕ) (axis0 : Bool) (numChunk : ℕ) : Py (Mat ℝ) :=
  if axis0 then (fitLength mat.h order numChunk).map fun L => savgolImage L order mat
  else (fitLength mat.w order numChunk).map fun L => (savgolImage L order mat.T).T

end Verif.StripeFilters
