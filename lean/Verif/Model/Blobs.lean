import Verif.Np
import Mathlib.Algebra.BigOperators.Group.Finset.Basic
import Mathlib.Algebra.Order.Field.Basic
import Mathlib.Algebra.Order.Floor.Ring
import Mathlib.Data.Real.Sqrt

/-!
Model of the selection of connected regions: algotom/prep/removal.py:821-865 (zingers) and
algotom/util/calibration.py:107-339 (dots).

`ndi.label` is a parameter: a pair (label image, number of labels).  `ndi.find_objects` gives the bounding box of every label,
which is modelled by membership.  Exact arithmetic; masks have entries in an ordered field.
-/

namespace Verif.Blobs

section
variable {K : Type} [Field K] [LinearOrder K]

/-- Pixel `(i, j)` is in the bounding box of label `k` (`ndi.find_objects(...)[k - 1]`, removal.py:859, calibration.py:287). -/
def InBox (h w : ℕ) (lab : ℕ → ℕ → ℕ) (k i j : ℕ) : Prop :=
  (∃ a < h, ∃ b < w, lab a b = k ∧ a ≤ i) ∧ (∃ a < h, ∃ b < w, lab a b = k ∧ i ≤ a) ∧
  (∃ a < h, ∃ b < w, lab a b = k ∧ b ≤ j) ∧ (∃ a < h, ∃ b < w, lab a b = k ∧ j ≤ b)

instance (h w : ℕ) (lab : ℕ → ℕ → ℕ) (k i j : ℕ) : Decidable (InBox h w lab k i j) := by
  unfold InBox
  infer_instance

/-- `mat[box].sum()` (removal.py:837, calibration.py:258). -/
def boxSum (m : Mat K) (lab : ℕ → ℕ → ℕ) (k : ℕ) : K :=
  ∑ i ∈ Finset.range m.h, ∑ j ∈ Finset.range m.w, if InBox m.h m.w lab k i j then m.get i j else 0

/-- `check_zinger_size(mat[box], max_size)` (removal.py:821-840). -/
def checkZinger (s maxSize : K) : Bool := decide (s ≤ maxSize)

/-- `check_dot_size(mat[box], min_size, max_size)` (calibration.py:240-261). -/
def checkDot (s minSize maxSize : K) : Bool := decide (s ≥ minSize) && decide (s ≤ maxSize)

/-- The common loop (removal.py:859-865, calibration.py:286-293): zeros, then every selected box is copied. -/
def selectBoxes (ok : K → Bool) (m : Mat K) (lab : ℕ → ℕ → ℕ) (num : ℕ) : Mat K :=
  let sel := ((List.range num).map (· + 1)).filter fun k => ok (boxSum m lab k)
  sel.foldl (fun out k => ⟨out.h, out.w, fun i j => if InBox m.h m.w lab k i j then m.get i j else out.get i j⟩)
    ⟨m.h, m.w, fun _ _ => 0⟩

/-- `select_zinger(mat, max_size)` (removal.py:843-865). -/
def selectZinger (label : Mat K → (ℕ → ℕ → ℕ) × ℕ) (m : Mat K) (maxSize : K) : Mat K :=
  selectBoxes (fun s => checkZinger s maxSize) m (label m).1 (label m).2

/-- `list_sum` of `get_dot_size` (calibration.py:226-228): the sum of every label. -/
def dotSums (m : Mat K) (lab : ℕ → ℕ → ℕ) (num : ℕ) : List K :=
  (List.range num).map fun k => ∑ i ∈ Finset.range m.h, ∑ j ∈ Finset.range m.w, if lab i j = k + 1 then m.get i j else 0

/-- `size_opt` of `get_dot_size`. -/
inductive SizeOpt where
  | median
  | mean
  | min
  | max

/-- Middle of a sorted list (`np.median`). -/
def medianSorted (l : List K) : K :=
  if l.length % 2 = 1 then l.getD (l.length / 2) 0 else (l.getD (l.length / 2 - 1) 0 + l.getD (l.length / 2) 0) / 2

/-- `get_dot_size(mat, size_opt)` (calibration.py:209-237).  Without dots `np.min`/`np.max` raise `ValueError`; the `nan` of
`np.mean`/`np.median` is also modelled as an error. -/
def getDotSize (label : Mat K → (ℕ → ℕ → ℕ) × ℕ) (m : Mat K) (opt : SizeOpt) : Py K :=
  match dotSums m (label m).1 (label m).2 with
  | [] => .error .valueError
  | x :: l =>
    match opt with
    | .median => .ok (medianSorted ((x :: l).mergeSort fun a b => decide (a ≤ b)))
    | .mean => .ok ((x :: l).sum / ((x :: l).length : K))
    | .min => .ok (l.foldl Min.min x)
    | .max => .ok (l.foldl Max.max x)

variable [IsStrictOrderedRing K] [FloorRing K]

/-- `select_dot_based_size(mat, dot_size, ratio)` (calibration.py:264-293); the sizes are non-negative, so that `np.int32`
is the floor. -/
def selectDot (label : Mat K → (ℕ → ℕ → ℕ) × ℕ) (m : Mat K) (dotSize ratio : K) : Mat K :=
  let minSize : K := max (⌊dotSize - ratio * dotSize⌋ : ℤ) 1
  let maxSize : K := max (⌊dotSize + ratio * dotSize⌋ : ℤ) 1
  selectBoxes (fun s => checkDot s minSize maxSize) m (label m).1 (label m).2

/-- Sum of an image. -/
def total (m : Mat K) : K := ∑ i ∈ Finset.range m.h, ∑ j ∈ Finset.range m.w, m.get i j

/-- `invert_dot_contrast(mat)` (calibration.py:107-126) for a 0/1 image (the only use, calibration.py:204); `mx` is its maximum. -/
def invertContrast (m : Mat K) (mx : K) : Mat K :=
  if total m / ((m.h : K) * m.w) > 1 / 2 then ⟨m.h, m.w, fun i j => mx - m.get i j⟩ else m

/-- `mat > threshold` as 0/1 (calibration.py:202). -/
def thresholded (m : Mat K) (t : K) : Mat K := ⟨m.h, m.w, fun i j => if m.get i j > t then 1 else 0⟩

/-- `np.max` of a 0/1 image. -/
def max01 (m : Mat K) : K := if ∃ i < m.h, ∃ j < m.w, m.get i j = 1 then 1 else 0

/-- `binarize_image(mat, threshold, ..., invert)` (calibration.py:160-206).  `prep` stands for the optional denoising and
background normalisation, `auto` for `calculate_threshold`, `fill` for `ndi.binary_fill_holes`. -/
def binarize (prep fill : Mat K → Mat K) (auto : Mat K → K) (m : Mat K) (threshold : Option K) (invert : Bool) : Py (Mat K) :=
  let m1 := prep m
  if m1.h = 0 ∨ m1.w = 0 then .error .valueError
  else
    let t : Py K := match threshold with
      | none => .ok (auto m1)
      | some t =>
        if (∀ i < m1.h, ∀ j < m1.w, t < m1.get i j) ∨ (∀ i < m1.h, ∀ j < m1.w, m1.get i j < t) then .error .valueError
        else .ok t
    match t with
    | .error e => .error e
    | .ok t =>
      let b := thresholded m1 t
      .ok (fill (if invert then invertContrast b (max01 b) else b))

/-- `ndi.center_of_mass(mat)` (calibration.py:336-337); `none` is the `nan` of an image of zeros. -/
def centerOfMass (m : Mat K) : Option (K × K) :=
  if total m = 0 then none
  else some ((∑ i ∈ Finset.range m.h, ∑ j ∈ Finset.range m.w, (i : K) * m.get i j) / total m,
    (∑ i ∈ Finset.range m.h, ∑ j ∈ Finset.range m.w, (j : K) * m.get i j) / total m)

end

/-- `calculate_distance(mat1, mat2, size_opt, threshold, ...)` (calibration.py:296-339); `none` is `nan`. -/
noncomputable def calculateDistance (label : Mat ℝ → (ℕ → ℕ → ℕ) × ℕ) (prep fill : Mat ℝ → Mat ℝ) (auto : Mat ℝ → ℝ)
    (m1 m2 : Mat ℝ) (opt : SizeOpt) (threshold : Option ℝ) (invert : Bool) : Py (Option ℝ) := do
  let b1 ← binarize prep fill auto m1 threshold invert
  let s1 ← getDotSize label b1 opt
  let d1 := selectDot label b1 s1 (1 / 100)
  let b2 ← binarize prep fill auto m2 threshold invert
  let s2 ← getDotSize label b2 opt
  let d2 := selectDot label b2 s2 (1 / 100)
  pure (match centerOfMass d1, centerOfMass d2 with
    | some c1, some c2 => some (Real.sqrt ((c1.1 - c2.1) ^ 2 + (c1.2 - c2.2) ^ 2))
    | _, _ => none)

end Verif.Blobs
