import Verif.Model.Fourier

/-!
Model of algotom/prep/phase.py:391-477 (`reconstruct_surface_from_gradient_SCS_method`, pad = 0), of
algotom/util/utility.py:450-477 with its use in algotom/prep/removal.py:686-690, and of prep/removal.py:626-629.
-/

namespace Verif.Surface
open Complex Verif.Fourier

/-- `sin_u`, entry `(k, l)` (phase.py:399). -/
noncomputable def sinU (w l : ℕ) : ℝ := Real.sin (2 * Real.pi * (l / w))

/-- The window of `_make_window_SCS_method` (phase.py:401-406). -/
noncomputable def scsWindow (h w k l : ℕ) : ℂ :=
  if k = 0 ∧ l = 0 then 0 else 1 / (4 * I * ((Real.sin (Real.pi * (l / w)) ^ 2 + Real.sin (Real.pi * (k / h)) ^ 2 : ℝ) : ℂ))

/-- `rec_surf` before the negative correction (phase.py:467-470). -/
noncomputable def scsSurface (gx gy : Mat ℝ) : Mat ℝ :=
  ⟨gx.h, gx.w, fun i j => (idft2 gx.h gx.w (fun k l =>
    (((sinU gx.w l : ℝ) : ℂ) * dft2 gx.h gx.w (fun i j => (gx.get i j : ℂ)) k l +
      ((sinU gx.h k : ℝ) : ℂ) * dft2 gx.h gx.w (fun i j => (gy.get i j : ℂ)) k l) * scsWindow gx.h gx.w k l) i j).re⟩

/-- `np.min` of a 2D array, as a fold. -/
noncomputable def matMin (m : Mat ℝ) : ℝ :=
  ((List.range m.h).flatMap fun i => (List.range m.w).map fun j => m.get i j).foldl min (m.get 0 0)

/-- `reconstruct_surface_from_gradient_SCS_method(grad_x, grad_y, correct_negative)` with `pad = 0` (phase.py:445-477). -/
noncomputable def surfaceSCS (gx gy : Mat ℝ) (correctNegative : Bool) : Py (Mat ℝ) :=
  open Classical in
  if gx.h ≠ gy.h ∨ gx.w ≠ gy.w then .error .valueError
  else
    let rec_ := scsSurface gx gy
    let nmin := matMin rec_
    .ok (if correctNegative = true ∧ nmin < 0 then ⟨rec_.h, rec_.w, fun i j => rec_.get i j - 2 * nmin⟩ else rec_)

/-- The 1D profile of `make_2d_damping_window(width, height, size, window_name)` (utility.py:471-476), along an axis of length `n`. -/
noncomputable def damping (n : ℕ) (size : ℝ) (butter : Bool) (k : ℕ) : ℝ :=
  let x : ℝ := (k : ℝ) - ((⌈(n : ℝ) / 2⌉ : ℝ) - 1)
  if butter then 1 - 1 / (1 + (x / size) ^ 2) else 1 - Real.exp (-x ^ 2 / (2 * size ^ 2))

/-- The damping of one wavelet detail image in `remove_stripe_based_wavelet_fft` (removal.py:686-690): the transposed window varies along
axis 0. -/
noncomputable def dampDetail (m : Mat ℝ) (size : ℝ) (butter : Bool) : Mat ℝ :=
  filter2 m fun k _ => ((damping m.h size butter (ifftshiftIdx m.h k) : ℝ) : ℂ)

/-- The filtering step of `remove_stripe_based_fft` (removal.py:626-629) on an already padded sinogram, without the modulus. -/
noncomputable def stripeFft (m : Mat ℝ) (u : ℝ) (v n : ℕ) (i j : ℕ) : ℂ :=
  idft2 m.h m.w (fun k l => dft2 m.h m.w (fun i j => (m.get i j : ℂ)) k l *
    ((butterworth m.w m.h u v n (ifftshiftIdx m.h k) (ifftshiftIdx m.w l) : ℝ) : ℂ)) i j

end Verif.Surface
