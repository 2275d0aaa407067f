import Verif.Model.Savgol
import Verif.Model.Dfi
import Verif.Model.ForwardProj

/-!
The spline interpolation of `scipy.ndimage` (`map_coordinates`, `zoom`, `shift` with prefilter), as called at algotom/util/utility.py:156 (orders 5 from
simulation.py:376-377 and reconstruction.py:797-804), algotom/prep/phase.py:173, 619-624, 679-682, algotom/util/calibration.py:151 and
algotom/rec/reconstruction.py:743.  Exact real arithmetic.

A spline of odd order `2 r + 1` is given by its B-spline `β` (zero outside `(-r-1, r+1)`) and the way indices outside are brought back (`bnd`).
The spline filter solves the linear system that makes the curve go through the samples.  A plane is filtered and evaluated one axis after the other.
-/

namespace Verif.Ndi
open Finset Matrix

/-- The cubic B-spline (order 3). -/
noncomputable def beta3 (u : ℝ) : ℝ :=
  if |u| < 1 then 2 / 3 - |u| ^ 2 + |u| ^ 3 / 2 else if |u| < 2 then (2 - |u|) ^ 3 / 6 else 0

/-- The quintic B-spline (order 5). -/
noncomputable def beta5 (u : ℝ) : ℝ :=
  if |u| < 1 then 11 / 20 - |u| ^ 2 / 2 + |u| ^ 4 / 4 - |u| ^ 5 / 12
  else if |u| < 2 then 17 / 40 + 5 * |u| / 8 - 7 * |u| ^ 2 / 4 + 5 * |u| ^ 3 / 4 - 3 * |u| ^ 4 / 8 + |u| ^ 5 / 24
  else if |u| < 3 then (3 - |u|) ^ 5 / 120 else 0

/-- The linear system of `scipy.ndimage.spline_filter` (utility.py:156, phase.py:173, calibration.py:151). -/
noncomputable def filterMat (β : ℝ → ℝ) (r : ℕ) (bnd : ℕ → ℤ → ℕ) (n : ℕ) : Matrix (Fin n) (Fin n) ℝ := fun i j =>
  ∑ o ∈ range (2 * r + 1), if (j : ℕ) = bnd n ((i : ℕ) + o - r) then β ((o : ℝ) - r) else 0

/-- Its solution for the samples `f` (utility.py:156, phase.py:173, calibration.py:151). -/
noncomputable def coef (β : ℝ → ℝ) (r : ℕ) (bnd : ℕ → ℤ → ℕ) (n : ℕ) (f : ℕ → ℝ) (k : ℕ) : ℝ :=
  if h : k < n then ((filterMat β r bnd n)⁻¹ *ᵥ fun i : Fin n => f i) ⟨k, h⟩ else 0

/-- The curve with coefficients `c` at position `x` (utility.py:156, phase.py:173, calibration.py:151). -/
noncomputable def curve (β : ℝ → ℝ) (r : ℕ) (bnd : ℕ → ℤ → ℕ) (n : ℕ) (c : ℕ → ℝ) (x : ℝ) : ℝ :=
  ∑ o ∈ range (2 * r + 2), β (x - ((⌊x⌋ + o - r : ℤ) : ℝ)) * c (bnd n (⌊x⌋ + o - r))

/-- The interpolating curve of the samples `f 0 .. f (n - 1)`. -/
noncomputable def splineLine (β : ℝ → ℝ) (r : ℕ) (bnd : ℕ → ℤ → ℕ) (n : ℕ) (f : ℕ → ℝ) (x : ℝ) : ℝ := curve β r bnd n (coef β r bnd n f) x

/-- The interpolating surface at row `y`, column `x` (`ndi.map_coordinates`, utility.py:155-157). -/
noncomputable def splinePlane (β : ℝ → ℝ) (r : ℕ) (bnd : ℕ → ℤ → ℕ) (m : Mat ℝ) (y x : ℝ) : ℝ :=
  splineLine β r bnd m.h (fun i => splineLine β r bnd m.w (m.get i) x) y

/-- `util.mapping(…, order=5, mode="reflect")` (simulation.py:376-377, utility.py:154-157). -/
noncomputable def mapping5 (m : Mat ℝ) (y x : ℝ) : ℝ := splinePlane beta5 2 Sorting.reflectIdx m y x

/-- The interpolation of the direct Fourier method: `ndi.shift(…, mode='wrap')` of order 3 along the angles (reconstruction.py:743; the spline filter
mirrors in this mode), `util.mapping(…, order=5, mode="reflect")` of the spectrum (reconstruction.py:797-804). -/
noncomputable def dfiSpline : Dfi.Spline :=
  ⟨splineLine beta3 1 StripeFilters.mirrorIdx,
    fun m y x => ⟨mapping5 ⟨m.h, m.w, fun i j => (m.get i j).re⟩ y x, mapping5 ⟨m.h, m.w, fun i j => (m.get i j).im⟩ y x⟩⟩

/-- Samples with 12 copies of the first and the last one (`_prepad_for_spline_filter` of scipy in mode "nearest"). -/
def edgePad (n : ℕ) (f : ℕ → ℝ) (k : ℕ) : ℝ := f (min (k - 12) (n - 1))

/-- The cubic curve in mode "nearest" (phase.py:173, calibration.py:151, reconstruction.py:768, 777, 1021). -/
noncomputable def nearestLine (bnd : ℕ → ℤ → ℕ) (n : ℕ) (f : ℕ → ℝ) (x : ℝ) : ℝ :=
  splineLine beta3 1 bnd (n + 24) (edgePad n f) (min (max (x + 12) 0) ((n : ℝ) + 23))

/-- `ndi.zoom(l, n / len(l), mode='nearest')` (phase.py:173, calibration.py:151): `n` samples, first and last position mapped onto each other.
`bnd` is the boundary rule of the spline filter. -/
noncomputable def zoomList (bnd : ℕ → ℤ → ℕ) (l : List ℝ) (n : ℕ) : List ℝ :=
  (List.range n).map fun k =>
    nearestLine bnd l.length (fun i => l.getD i 0) ((k : ℝ) * (if n = 1 then 1 else ((l.length : ℝ) - 1) / ((n : ℝ) - 1)))

/-- `ndi.shift(mat, (dy, dx))` of order 3, mode "constant" (phase.py:619, 624): zero where the source lies outside. -/
noncomputable def shift3 (v : ℝ × ℝ) (m : Mat ℝ) : Mat ℝ :=
  ⟨m.h, m.w, fun i j =>
    let y := (i : ℝ) - v.1
    let x := (j : ℝ) - v.2
    if (0 ≤ y ∧ y ≤ (m.h : ℝ) - 1) ∧ 0 ≤ x ∧ x ≤ (m.w : ℝ) - 1 then splinePlane beta3 1 StripeFilters.mirrorIdx m y x else 0⟩

/-- `ndi.shift(mat, (dy, dx), mode='reflect')` (phase.py:679-682). -/
noncomputable def shiftReflect (v : ℝ × ℝ) (m : Mat ℝ) : Mat ℝ :=
  ⟨m.h, m.w, fun i j => splinePlane beta3 1 Sorting.reflectIdx m ((i : ℝ) - v.1) ((j : ℝ) - v.2)⟩

/-- `ndi.shift(mat, (dy, dx), mode='nearest')` (reconstruction.py:777, 1021). -/
noncomputable def shiftNearest (bnd : ℕ → ℤ → ℕ) (v : ℝ × ℝ) (m : Mat ℝ) : Mat ℝ :=
  ⟨m.h, m.w, fun i j => nearestLine bnd m.h (fun r => nearestLine bnd m.w (m.get r) ((j : ℝ) - v.2)) ((i : ℝ) - v.1)⟩

/-- Coefficients of the least-squares polynomial of the given order through `2 m + 1` values (`np.polyfit` in `_fit_edge` of scipy). -/
noncomputable def fitCoef (m order : ℕ) (x : Fin (2 * m + 1) → ℝ) : Fin (order + 1) → ℝ :=
  (StripeFilters.savgolMat m order * (StripeFilters.savgolMat m order).transpose)⁻¹ *ᵥ (StripeFilters.savgolMat m order *ᵥ x)

/-- `sig.savgol_filter(l, win, 3)` (calibration.py:152): the fit of the `win` samples around sample `i` — near the ends of the first or the last `win`
samples (mode "interp") — at the position of sample `i`. -/
noncomputable def savgolList (l : List ℝ) (win : ℕ) : List ℝ :=
  (List.range l.length).map fun i =>
    let m := win / 2
    let s := min (i - m) (l.length - win)
    ∑ j : Fin 4, fitCoef m 3 (fun k => l.getD (s + k) 0) j * ((i : ℝ) - s - m) ^ (j : ℕ)

end Verif.Ndi
