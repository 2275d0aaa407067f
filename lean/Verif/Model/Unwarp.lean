import Verif.Model.Correction
import Mathlib.Analysis.Real.Sqrt
import Mathlib.Analysis.SpecialFunctions.Trigonometric.Basic

/-! Unwarping with a radial distortion model and the projection range option of the functions working on sinograms (algotom/prep/correction.py:135-225,
334-382). -/

namespace Verif.Correction

/-- `np.sum([factor * r ** i for i, factor in enumerate(list_fact)])` (correction.py:165-166, 213-214). -/
noncomputable def radial (l : List ℝ) (r : ℝ) : ℝ := (l.zipIdx.map fun p => p.1 * r ^ p.2).sum

/-- The factor of pixel `(y, x)` (correction.py:161-166, 210-214). -/
noncomputable def factOf (xc yc : ℝ) (l : List ℝ) (y x : ℕ) : ℝ := radial l (Real.sqrt (((x : ℝ) - xc) ^ 2 + ((y : ℝ) - yc) ^ 2))

/-- `unwarp_projection` (correction.py:135-171). -/
noncomputable def unwarpImage (xc yc : ℝ) (l : List ℝ) (m : Mat ℝ) : Mat ℝ := unwarpProjection xc yc (factOf xc yc l) m

/-- `len(range(a, b, s))`, `s ≠ 0` (correction.py:208-209, 363-364). -/
def rangeLen (a b s : ℤ) : ℕ := if 0 < s then ((b - a + s - 1) / s).toNat else ((a - b - s - 1) / (-s)).toNat

/-- The loop over the projections of a range: `data[idx, ...]` for `idx in range(start, stop, step)`, one row each (correction.py:203-209, 221-225, 358-364,
378-382).  A zero step raises `ValueError`, an index outside the array `IndexError`. -/
def overProj (data : Arr3 ℝ) (opt : Option (ℤ × ℤ × ℤ)) (entry : ℕ → ℕ → Py ℝ) : Py (Mat ℝ) := do
  let r := opt.getD (0, (data.d : ℤ), 1)
  if r.2.2 = 0 then .error .valueError
  else do
    let rows ← (List.range (rangeLen r.1 r.2.1 r.2.2)).mapM fun (k : ℕ) => do
      let d ← pyIndex data.d (r.1 + k * r.2.2)
      (List.range data.w).mapM fun (j : ℕ) => entry d j
    .ok ⟨rows.length, data.w, fun i j => (rows.getD i []).getD j 0⟩

/-- `unwarp_sinogram` with its option (correction.py:174-225); `index` a whole row number. -/
noncomputable def unwarpSino (xc yc : ℝ) (l : List ℝ) (data : Arr3 ℝ) (index : ℕ) (opt : Option (ℤ × ℤ × ℤ)) : Py (Mat ℝ) :=
  overProj data opt (unwarpSinogram xc yc (factOf xc yc l) data index)

/-- `generate_tilted_sinogram` with its option, angle in degrees (correction.py:334-382). -/
noncomputable def tiltedSino (angle : ℝ) (data : Arr3 ℝ) (index : ℕ) (opt : Option (ℤ × ℤ × ℤ)) : Py (Mat ℝ) :=
  overProj data opt (tiltedSinogram (Real.cos (angle * Real.pi / 180)) (Real.sin (angle * Real.pi / 180)) data index)

end Verif.Correction
