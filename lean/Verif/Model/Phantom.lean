import Verif.Model.Simulation

/-!
Model of `make_line_target`, `make_face_phantom` and `add_noise` of algotom/util/simulation.py (lines 178-327, 383-401).  Exact arithmetic (the
masks are float32 arrays of small integers, the phantom sums of decimal constants).
-/

namespace Verif.Phantom
open Verif.Simulation

/-! ### The line target -/

/-- A group of three lines: start and line width. -/
abbrev Group := ℤ × ℕ

/-- The first `while` loop (simulation.py:199-218) from the values `w` of `line_wid` and `start`, with `lim = size // 2 - gap`: the groups that are
drawn and the value of `line_wid` after the loop.  Lean accepts the definition because the loop ends: `start` grows. -/
def right (lim : ℤ) (w : ℕ) (start : ℤ) : List Group × ℕ :=
  if start + 3 * 2 * ((w : ℤ) + 1) > lim then ([], w + 1)
  else ((start, w + 1) :: (right lim (w + 1) (start + 3 * 2 * ((w : ℤ) + 1) + 6)).1, (right lim (w + 1) (start + 3 * 2 * ((w : ℤ) + 1) + 6)).2)
termination_by (lim - start).toNat

/-- The second `while` loop (simulation.py:221-236). -/
def left : ℕ → ℤ → List Group
  | 0, _ => []
  | w + 1, start => (start, w + 1) :: left w (start - 3 * 2 * ((w : ℤ) + 1) - 6)

/-- The rectangles of a group on the right: centre and length (simulation.py:205-217). -/
def rightParts (g : Group) : List (ℤ × ℕ) :=
  let stop := g.1 + 3 * 2 * (g.2 : ℤ)
  if g.2 % 2 = 1 then (pyRange g.1 stop (2 * g.2)).map fun x => (x, g.2)
  else ((pyRange g.1 stop (2 * g.2)).map fun x => (x, g.2 - 1)) ++ (pyRange (g.1 + (g.2 / 2 : ℕ)) stop (2 * g.2)).map fun x => (x, 1)

/-- `np.arange(a, b, -s)`. -/
def pyRangeDown (a b : ℤ) (s : ℕ) : List ℤ := (pyRange (-a) (-b) s).map fun x => -x

/-- The rectangles of a group on the left (simulation.py:223-234). -/
def leftParts (g : Group) : List (ℤ × ℕ) :=
  let stop := g.1 - 3 * 2 * (g.2 : ℤ)
  if g.2 % 2 = 1 then (pyRangeDown g.1 stop (2 * g.2)).map fun x => (x, g.2)
  else ((pyRangeDown g.1 stop (2 * g.2)).map fun x => (x, g.2 - 1)) ++ (pyRangeDown (g.1 - (g.2 / 2 : ℕ)) stop (2 * g.2)).map fun x => (x, 1)

/-- `line_hei` (simulation.py:194). -/
def lineHei (size : ℕ) : ℕ := size / 16

/-- The groups on the right and the final `line_wid` of the first loop (simulation.py:195-218). -/
def rightGroups (size : ℕ) : List Group × ℕ := right (((size / 2 : ℕ) : ℤ) - 6) 0 ((lineHei size / 2 : ℕ) + 1)

/-- The groups on the left (simulation.py:219-236); `- line_hei // 2` is the floor of `-line_hei / 2`. -/
def leftGroups (size : ℕ) : List Group :=
  left ((rightGroups size).2 - 1) (-(lineHei size : ℤ) / 2 - ((rightGroups size).2 / 2 : ℕ))

/-- All rectangles, in the order in which they are added. -/
def parts (size : ℕ) : List (ℤ × ℕ) := (rightGroups size).1.flatMap rightParts ++ (leftGroups size).flatMap leftParts

/-- `mask` before the transposition: the sum of the rectangles (simulation.py:192-236). -/
noncomputable def bars (size : ℕ) (i j : ℕ) : ℝ :=
  ((parts size).map fun p => (rectangularMask size ((p.1 : ℝ), 0) ((p.2 : ℝ), (lineHei size : ℝ)) 0).get i j).sum

/-- `make_line_target(size)` (simulation.py:192-243); `list_pos[-1]` of an empty array raises IndexError. -/
noncomputable def lineTarget (size : ℕ) : Py (Mat ℝ) :=
  let mask : ℕ → ℕ → ℝ := fun i j => bars size i j + bars size j i
  let pos := (List.range size).filter fun j => decide (mask (size / 2) j = 1)
  match pos.head?, pos.getLast? with
  | some first, some last =>
    let len : ℝ := (last : ℝ) - first + lineHei size
    .ok ⟨size, size, fun i j => (ellipticMask size (0, 0) (len, len) 0).get i j - mask i j⟩
  | _, _ => .error .indexError

/-! ### The face -/

/-- One eye with pupil and eyebrow (simulation.py:269-305); `sg` is -1 for the left and 1 for the right one.  The terms are added one after the other
in the code; sums of masks are entry by entry. -/
noncomputable def eye (size : ℕ) (sg : ℝ) (i j : ℕ) : ℝ :=
  let half : ℝ := ((size / 2 : ℕ) : ℝ)
  let s : ℝ := size
  let e := 0.6 * (ellipticMask size (sg * 0.3 * half, 0.4 * half) (0.15 * s, 0.05 * s) 0).get i j
  let pa := -0.8 * (ellipticMask size (sg * 0.3 * half, 0.4 * half) (0.048 * s, 0.048 * s) 0).get i j
  let pb := -0.2 * (ellipticMask size (sg * 0.3 * half, 0.4 * half) (0.015 * s, 0.015 * s) 0).get i j
  let ba := -0.3 * (rectangularMask size (sg * 0.3 * half, 0.54 * half) (0.18 * s, 0.02 * s) (sg * 5)).get i j
  let bb := -0.3 * (rectangularMask size (sg * 0.3 * half, 0.54 * half - 0.01 * half) (0.18 * s, 0.015 * s) (sg * 10)).get i j
  e + (pa + pb) + min (max (ba + bb) (-0.3)) 0

/-- `face` (simulation.py:262-268). -/
noncomputable def head (size : ℕ) (i j : ℕ) : ℝ :=
  let s : ℝ := size
  let ratio1 : ℝ := if size > 64 then 0.95 else 0.9
  let ratio2 : ℝ := if size > 64 then 0.91 else 0.86
  (ellipticMask size (0, 0) (s / 1.3, ratio1 * s) 0).get i j
    + -0.6 * (ellipticMask size (0, -0.01 * s) (ratio2 * s / 1.3, ratio2 * s) 0).get i j

/-- `nose` (simulation.py:306-312). -/
noncomputable def nose (size : ℕ) (i j : ℕ) : ℝ :=
  let s : ℝ := size
  let n1 := 0.2 * (rectangularMask size (0, 0) (0.05 * s, 0.25 * s) 0).get i j
  let n2 := 0.2 * (rectangularMask size (0 + 0.015 * s, 0) (0.04 * s, 0.25 * s) 9).get i j
  let n3 := 0.2 * (rectangularMask size (0 - 0.015 * s, 0) (0.04 * s, 0.25 * s) (-9)).get i j
  min (max (n1 + n2 + n3) 0) 0.2

/-- `mouth` (simulation.py:313-318). -/
noncomputable def mouth (size : ℕ) (i j : ℕ) : ℝ :=
  let s : ℝ := size
  let m := 0.2 * (rectangularMask size (0, -0.22 * s) (0.24 * s, 0.055 * s) 0).get i j
    + 0.2 * (ellipticMask size (0, -0.22 * s + 0.025 * s) (0.24 * s, 0.07 * s) 0).get i j
  if m < 0.3 then 0 else m

/-- `beard` (simulation.py:319-325). -/
noncomputable def beard (size : ℕ) (i j : ℕ) : ℝ :=
  let s : ℝ := (size : ℝ);
  -0.4 * (rectangularMask size (0, -0.32 * s) (0.005 * s, 0.1 * s) 0).get i j
    + -0.4 * (rectangularMask size (-0.02 * s, -0.32 * s) (0.005 * s, 0.1 * s) (-10)).get i j
    + -0.4 * (rectangularMask size (0.02 * s, -0.32 * s) (0.005 * s, 0.1 * s) 10).get i j

/-- `make_face_phantom(size)` (simulation.py:260-327). -/
noncomputable def facePhantom (size : ℕ) : Mat ℝ :=
  ⟨size, size, fun i j => head size i j + (eye size (-1) i j + eye size 1 i j) + nose size i j + mouth size i j + beard size i j⟩

/-! ### Noise -/

/-- `add_noise(mat, noise_ratio)` (simulation.py:398-401); `z` are the standard normal numbers behind `np.random.normal(loc, scale)`, which raises
ValueError for a negative scale (also for the float -0.0, which exact arithmetic does not have).  `none` stands for the array of `nan` that results from an image of zeros. -/
noncomputable def addNoise (z : ℕ → ℕ → ℝ) (m : Mat ℝ) (ratio : ℝ) : Py (Option (Mat ℝ)) :=
  let nz := ((List.range m.h).flatMap fun i => (List.range m.w).map fun j => m.get i j).filter (· ≠ 0)
  if nz = [] then .ok none
  else
    let noiseMean := nz.sum / nz.length * ratio
    if noiseMean * 0.5 < 0 then .error .valueError
    else .ok (some ⟨m.h, m.w, fun i j => m.get i j + (noiseMean + noiseMean * 0.5 * z i j)⟩)

end Verif.Phantom
