import Verif.Model.Fourier
import Verif.Model.Phase
import Verif.Model.Surface

/-!
Model of the FFT-based functions of algotom/prep/phase.py:54-94, 221-388: `unwrap_phase_based_fft`, `unwrap_phase_iterative_fft` and
`reconstruct_surface_from_gradient_FC_method`.  Exact complex arithmetic; the cast to float32 (phase.py:388) is not modelled.  Division by a zero
of a window supplied by the caller gives 0 here and inf or nan in numpy.
-/

namespace Verif.PhaseFft
open Complex Verif.Fourier Verif.Phase

/-- `_double_image` (phase.py:91-94): `hstack(mat, fliplr(mat))`, below its `flipud`. -/
def doubleImage {K : Type} (m : Mat K) : Mat K :=
  let mat1 : Mat K := ⟨m.h, 2 * m.w, fun i j => if j < m.w then m.get i j else m.get i (m.w - 1 - (j - m.w))⟩
  ⟨2 * m.h, 2 * m.w, fun i j => if i < m.h then mat1.get (m.h - 1 - i) j else mat1.get (i - m.h) j⟩

/-- `_make_window(height, width, direction)` (phase.py:68-76). -/
noncomputable def laplaceWindow (h w : ℕ) (forward : Bool) (i j : ℕ) : ℝ :=
  if forward = false ∧ i = h / 2 ∧ j = w / 2 then 1
  else (((j : ℝ) - ((w / 2 : ℕ) : ℝ)) / ((w / 2 : ℕ) : ℝ)) ^ 2 + (((i : ℝ) - ((h / 2 : ℕ) : ℝ)) / ((h / 2 : ℕ) : ℝ)) ^ 2

/-- `_forward_operator(mat, window)` (phase.py:79-82). -/
noncomputable def forwardOp (h w : ℕ) (window : ℕ → ℕ → ℝ) (x : ℕ → ℕ → ℂ) : ℕ → ℕ → ℂ :=
  idft2 h w fun k l => dft2 h w x k l * ((window (ifftshiftIdx h k) (ifftshiftIdx w l) : ℝ) : ℂ)

/-- `_backward_operator(mat, window)` (phase.py:85-88). -/
noncomputable def backwardOp (h w : ℕ) (window : ℕ → ℕ → ℝ) (x : ℕ → ℕ → ℂ) : ℕ → ℕ → ℂ :=
  idft2 h w fun k l => dft2 h w x k l / ((window (ifftshiftIdx h k) (ifftshiftIdx w l) : ℝ) : ℂ)

/-- The arithmetic of `unwrap_phase_based_fft` (phase.py:244-246, 257-261) on the whole doubled image. -/
noncomputable def unwrapDouble (mat2 : Mat ℝ) (winFor winBack : ℕ → ℕ → ℝ) (i j : ℕ) : ℝ :=
  (backwardOp mat2.h mat2.w winBack (fun p q =>
    (((forwardOp mat2.h mat2.w winFor (fun a b => exp (mat2.get a b * I)) p q * exp (-I * mat2.get p q)).im : ℝ) : ℂ)) i j).re

/-- A window argument: the default or the caller's array, whose shape must be that of the doubled image (phase.py:247-256). -/
noncomputable def resolveWindow (h2 w2 : ℕ) (forward : Bool) : Option (Mat ℝ) → Py (ℕ → ℕ → ℝ)
  | none => .ok (laplaceWindow h2 w2 forward)
  | some win => if win.h = h2 ∧ win.w = w2 then .ok win.get else .error .valueError

/-- `unwrap_phase_based_fft(mat, win_for, win_back)` (phase.py:244-261). -/
noncomputable def unwrapFft (m : Mat ℝ) (winFor winBack : Option (Mat ℝ)) : Py (Mat ℝ) :=
  let mat2 := doubleImage m
  (resolveWindow mat2.h mat2.w true winFor).bind fun wf =>
    (resolveWindow mat2.h mat2.w false winBack).bind fun wb =>
      .ok ⟨m.h, m.w, fun i j => unwrapDouble mat2 wf wb (m.h + i) j⟩

/-- `np.mean` of an image. -/
noncomputable def mean2 (m : Mat ℝ) : ℝ := (∑ i ∈ Finset.range m.h, ∑ j ∈ Finset.range m.w, m.get i j) / (m.h * m.w)

/-- The image handed to the next unwrapping step (phase.py:302-306). -/
noncomputable def residual (m unwrapped : Mat ℝ) (weight : ℕ → ℕ → ℝ) : Mat ℝ :=
  let diff : Mat ℝ := ⟨m.h, m.w, fun i j => m.get i j - wrapToPi (unwrapped.get i j)⟩
  let nmean := mean2 diff
  ⟨m.h, m.w, fun i j => wrapToPi (diff.get i j - nmean) * weight i j⟩

/-- The loop of `unwrap_phase_iterative_fft` (phase.py:301-308). -/
noncomputable def iterate (m : Mat ℝ) (wf wb : Option (Mat ℝ)) (weight : ℕ → ℕ → ℝ) : ℕ → Mat ℝ → Py (Mat ℝ)
  | 0, u => .ok u
  | n + 1, u => (unwrapFft (residual m u weight) wf wb).bind fun d => iterate m wf wb weight n ⟨m.h, m.w, fun i j => u.get i j + d.get i j⟩

/-- A window as an argument of the inner calls: the default is built for twice the size (phase.py:294-297). -/
noncomputable def fillWindow (m : Mat ℝ) (forward : Bool) : Option (Mat ℝ) → Option (Mat ℝ)
  | none => some ⟨2 * m.h, 2 * m.w, laplaceWindow (2 * m.h) (2 * m.w) forward⟩
  | some w => some w

/-- `unwrap_phase_iterative_fft(mat, iteration, win_for, win_back, weight_map)` (phase.py:293-309); a weight map is assumed to have the shape of
the image. -/
noncomputable def unwrapIterative (m : Mat ℝ) (iteration : ℤ) (winFor winBack : Option (Mat ℝ)) (weightMap : Option (ℕ → ℕ → ℝ)) : Py (Mat ℝ) :=
  let wf := fillWindow m true winFor
  let wb := fillWindow m false winBack
  let weight := weightMap.getD fun _ _ => 1
  (unwrapFft ⟨m.h, m.w, fun i j => m.get i j * weight i j⟩ wf wb).bind fun u => iterate m wf wb weight iteration.toNat u

/-! ### Surface from gradients, Frankot-Chellappa -/

/-- The `window` argument (phase.py:365-379): nothing, not a list or tuple, a list of another length than 3, or three arrays. -/
inductive FcWindow
  | default
  | notList
  | wrongLength
  | given (u v : ℕ → ℕ → ℝ) (win : Mat ℝ)

/-- `(u, v, win)` (phase.py:365-379). -/
noncomputable def FcWindow.resolve (h2 w2 : ℕ) : FcWindow → Py ((ℕ → ℕ → ℝ) × (ℕ → ℕ → ℝ) × (ℕ → ℕ → ℝ))
  | .default => .ok (fcU h2 w2, fcV h2 w2, fcWin h2 w2)
  | .notList => .error .valueError
  | .wrongLength => .error .valueError
  | .given u v win => if win.h = h2 ∧ win.w = w2 then .ok (u, v, win.get) else .error .valueError

/-- `rec_surf` on the doubled grid before cropping (phase.py:380-383). -/
noncomputable def fcSurface2 (g2x g2y : Mat ℝ) (u v win : ℕ → ℕ → ℝ) (i j : ℕ) : ℝ :=
  (1 / 2 / Real.pi) * (idft2 g2x.h g2x.w (fun k l =>
    let p := ifftshiftIdx g2x.h k
    let q := ifftshiftIdx g2x.w l
    (-I * ((u p q : ℝ) : ℂ) * dft2 g2x.h g2x.w (fun a b => (g2x.get a b : ℂ)) k l +
      -I * ((v p q : ℝ) : ℂ) * dft2 g2x.h g2x.w (fun a b => (g2y.get a b : ℂ)) k l) * ((win p q : ℝ) : ℂ)) i j).re

/-- The correction of negative values (phase.py:384-387). -/
noncomputable def correctNeg (neg : Bool) (m : Mat ℝ) : Mat ℝ :=
  open Classical in
  if neg = true ∧ Surface.matMin m < 0 then ⟨m.h, m.w, fun i j => m.get i j - 2 * Surface.matMin m⟩ else m

/-- `reconstruct_surface_from_gradient_FC_method(grad_x, grad_y, correct_negative, window)` (phase.py:359-388). -/
noncomputable def surfaceFC (gx gy : Mat ℝ) (neg : Bool) (window : FcWindow) : Py (Mat ℝ) :=
  if gx.h ≠ gy.h ∨ gx.w ≠ gy.w then .error .valueError
  else
    let g2x := doubleImage gx
    let g2y := doubleImage gy
    (window.resolve g2x.h g2x.w).bind fun t =>
      .ok (correctNeg neg ⟨gx.h, gx.w, fun i j => fcSurface2 g2x g2y t.1 t.2.1 t.2.2 (gx.h + i) j⟩)

end Verif.PhaseFft
