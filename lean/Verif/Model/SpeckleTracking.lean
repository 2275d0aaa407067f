import Verif.Model.GlobalShift
import Verif.Model.Fourier

/-!
Model of the local-shift search for two single images, `find_local_shifts` with 2D inputs on the CPU
(algotom/util/correlation.py:1133-1174, 2531-2537), and of `retrieve_phase_based_speckle_tracking` (algotom/prep/phase.py:942-990).
Exact arithmetic.
-/

namespace Verif.SpeckleTracking
open Verif.Correlation Verif.GlobalShift Verif.Sched Verif.Fourier

/-- `_get_2d_shift_full_image_2d_input` on the CPU (correlation.py:1133-1174): the windows of all pixels at least `radi + margin` from the border, row by
row; serial if `ncore == 1`, by a joblib pool otherwise; zeros elsewhere.  `none`: the schedule is not a complete execution of the pool. -/
noncomputable def shifts2d (ref mat : Mat ℝ) (winSize margin : ℕ) (subPixel : Bool) (method : Method ℝ) (size : ℤ) (ncore : ℕ) (norm : Bool)
    (sched : List Ev) : Option (Py (Mat ℝ × Mat ℝ)) :=
  if ref.h ≠ mat.h ∨ ref.w ≠ mat.w then some (.error .valueError)
  else
    let winSize := 2 * (winSize / 2) + 1
    let radi := winSize / 2
    let start := radi + margin
    let alsSize := winSize + 2 * margin
    if ref.w < alsSize ∨ ref.h < alsSize then some (.error .valueError)
    else
      let nr := ref.h - start - start
      let nc := ref.w - start - start
      let ref' := if norm then normImage ref else ref
      let mat' := if norm then normImage mat else mat
      (allShifts (nr * nc) ncore (fun k => pointShift ref' mat' radi margin subPixel method size ((start + k / nc : ℕ) : ℤ) ((start + k % nc : ℕ) : ℤ))
        sched).map fun r => r.map fun s =>
          let at' : ℕ → ℕ → ℝ × ℝ := fun i j =>
            if start ≤ i ∧ i < start + nr ∧ start ≤ j ∧ j < start + nc then s.getD ((i - start) * nc + (j - start)) (0, 0) else (0, 0)
          (⟨ref.h, ref.w, fun i j => (at' i j).1⟩, ⟨ref.h, ref.w, fun i j => (at' i j).2⟩)

/-- `np.pad(m[edge:-edge, edge:-edge], edge, mode="reflect")`; numpy refuses to extend an empty axis (phase.py:968-971). -/
def refill (edge : ℕ) (m : Mat ℝ) : Py (Mat ℝ) :=
  let n := pyBound m.h (-(edge : ℤ)) - pyBound m.h edge
  let k := pyBound m.w (-(edge : ℤ)) - pyBound m.w edge
  if n = 0 ∨ k = 0 then .error .valueError
  else .ok ⟨n + 2 * edge, k + 2 * edge, fun i j =>
    m.get (pyBound m.h edge + reflectPadIdx n edge i) (pyBound m.w edge + reflectPadIdx k edge j)⟩

/-- The functions called, with the options that are only passed on: `correl winSize margin size`, `umpa winSize margin size darkSignal` (whose last two
images are meaningful only if `darkSignal`), `signal x y winSize margin`, `surface x y`, the latter chosen by `surf_method`. -/
structure Backend where
  correl : ℕ → ℕ → ℤ → Py (Mat ℝ × Mat ℝ)
  umpa : ℕ → ℕ → ℤ → Bool → Py ((Mat ℝ × Mat ℝ) × Mat ℝ × Mat ℝ)
  signal : Mat ℝ → Mat ℝ → ℕ → ℕ → Py (Mat ℝ × Mat ℝ)
  scs : Mat ℝ → Mat ℝ → Py (Mat ℝ)
  fc : Mat ℝ → Mat ℝ → Py (Mat ℝ)

/-- What the caller gets. -/
inductive Result where
  | phase (p : Mat ℝ)
  | shifts (x y p : Mat ℝ)
  | signals (p t d : Mat ℝ)
  | all (x y p t d : Mat ℝ)

/-- The shifts and, if asked for, transmission and dark signal (phase.py:945-966). -/
def findAll (b : Backend) (umpa dark : Bool) (winSize margin : ℕ) (size : ℤ) : Py ((Mat ℝ × Mat ℝ) × Option (Mat ℝ × Mat ℝ)) :=
  if umpa then
    (b.umpa winSize margin size dark).bind fun r => .ok (r.1, if dark then some r.2 else none)
  else
    (b.correl winSize margin size).bind fun s =>
      if dark then (b.signal s.1 s.2 winSize margin).bind fun t => .ok (s, some t) else .ok (s, none)

/-- `retrieve_phase_based_speckle_tracking` (phase.py:942-990). -/
def tracking (b : Backend) (umpa dark scs returnShift : Bool) (winSize margin size : ℤ) : Py Result :=
  let winSize := (max winSize 1).toNat
  let margin := (max margin 1).toNat
  let size := max size 3
  (findAll b umpa dark winSize margin size).bind fun f =>
    let edge := margin + 2
    (refill edge f.1.1).bind fun x => (refill edge f.1.2).bind fun y =>
      ((if scs then b.scs else b.fc) x y).bind fun p =>
        .ok (match returnShift, f.2 with
          | true, none => .shifts x y p
          | false, some t => .signals p t.1 t.2
          | true, some t => .all x y p t.1 t.2
          | false, none => .phase p)

end Verif.SpeckleTracking
