import Verif.Np
import Mathlib.Analysis.SpecialFunctions.Trigonometric.Basic
import Mathlib.Algebra.Order.Floor.Ring

/-!
Model of algotom/prep/phase.py:47-105, 186-218, 312-326 (phase wrapping, unwrapping by the cosine transform,
Frankot-Chellappa window), over the reals.
-/

namespace Verif.Phase
open Real

/-- Python/numpy `a % m` on reals. -/
noncomputable def pyMod (a m : ℝ) : ℝ := a - m * (⌊a / m⌋ : ℝ)

/-- `_wrap_to_pi` (phase.py:51). -/
noncomputable def wrapToPi (x : ℝ) : ℝ := pyMod (x + π) (2 * π) - π

/-! ### scipy's cosine transforms (`scipy.fft.dctn`, `idctn`, type 2, default normalisation) -/

/-- One axis of `dctn`: `y[k] = 2 Σ x[n] cos(π k (2n+1) / (2N))`. -/
noncomputable def dct (N : ℕ) (x : ℕ → ℝ) (k : ℕ) : ℝ :=
  2 * ∑ n ∈ Finset.range N, x n * cos (π * k * (2 * n + 1) / (2 * N))

/-- One axis of `idctn`: `x[n] = (y[0] + 2 Σ_{k≥1} y[k] cos(π k (2n+1) / (2N))) / (2N)`. -/
noncomputable def idct (N : ℕ) (y : ℕ → ℝ) (n : ℕ) : ℝ :=
  (y 0 + 2 * ∑ k ∈ Finset.Ico 1 N, y k * cos (π * k * (2 * n + 1) / (2 * N))) / (2 * N)

/-- `dctn` of a 2D array. -/
noncomputable def dctn (m : Mat ℝ) : Mat ℝ := ⟨m.h, m.w, fun k l => dct m.h (fun i => dct m.w (m.get i) l) k⟩

/-- `idctn` of a 2D array. -/
noncomputable def idctn (m : Mat ℝ) : Mat ℝ := ⟨m.h, m.w, fun i j => idct m.h (fun k => idct m.w (m.get k) j) i⟩

/-- `_make_cosine_window` (phase.py:101-105). -/
noncomputable def cosineWindow (h w k l : ℕ) : ℝ :=
  if k = 0 ∧ l = 0 then 1 else 2 * (cos (π * k / h) + cos (π * l / w) - 2)

/-- `np.diff(r, prepend=0, append=0)` where `r` has `n - 1` entries: entry `j < n`. -/
def diffPad (n : ℕ) (r : ℕ → ℝ) (j : ℕ) : ℝ :=
  (if j + 1 < n then r j else 0) - (if 0 < j then r (j - 1) else 0)

/-- The right-hand side `rho` (phase.py:212-216). -/
noncomputable def rho (m : Mat ℝ) : Mat ℝ :=
  let rhoX := fun i j => wrapToPi (m.get i (j + 1) - m.get i j)
  let rhoY := fun i j => wrapToPi (m.get (i + 1) j - m.get i j)
  ⟨m.h, m.w, fun i j => diffPad m.w (rhoX i) j + diffPad m.h (fun i => rhoY i j) i⟩

/-- `unwrap_phase_based_cosine_transform(mat)` (phase.py:206-218), default window. -/
noncomputable def unwrapCosine (m : Mat ℝ) : Mat ℝ :=
  let f := dctn (rho m)
  idctn ⟨m.h, m.w, fun k l => f.get k l / cosineWindow m.h m.w k l⟩

/-! ### Frankot-Chellappa window -/

/-- `_make_window_FC_method(height, width)` (phase.py:317-326): the entry `(i, j)` of `u`. -/
noncomputable def fcU (_h w _i j : ℕ) : ℝ := ((j : ℝ) - ((w / 2 : ℕ) : ℝ)) / w

/-- The entry `(i, j)` of `v`; the code divides by the *width* (phase.py:320). -/
noncomputable def fcV (h w i _j : ℕ) : ℝ := ((i : ℝ) - ((h / 2 : ℕ) : ℝ)) / w

/-- The window (phase.py:322-325). -/
noncomputable def fcWin (h w i j : ℕ) : ℝ :=
  if i = h / 2 ∧ j = w / 2 then 0 else 1 / (fcU h w i j ^ 2 + fcV h w i j ^ 2)

end Verif.Phase
