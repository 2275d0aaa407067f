import Verif.Model.Correlation
import Mathlib.Algebra.Order.Field.Basic

/-!
Model of the peak search and the image-shift search of algotom/util/correlation.py (lines 523-713, 716-825).
Exact arithmetic.  `np.polyfit`/`np.linalg.lstsq` are parameters (`fit1`, `fit2`).
-/

namespace Verif.Correlation

variable {K : Type _} [Field K] [LinearOrder K]

/-- `np.argmax` of `f 0, ..., f n`: the first position of the largest value. -/
def argmaxTo (f : ℕ → K) : ℕ → ℕ
  | 0 => 0
  | n + 1 => if f (argmaxTo f n) < f (n + 1) then n + 1 else argmaxTo f n

/-- `np.argmax` of a 1D array of length `n`. -/
def npArgmax (n : ℕ) (f : ℕ → K) : Py ℕ := if n = 0 then .error .valueError else .ok (argmaxTo f (n - 1))

/-- `np.unravel_index(np.argmax(mat), mat.shape)`, as `(row, column)`. -/
def argmax2 (m : Mat K) : Py (ℕ × ℕ) :=
  if m.h = 0 ∨ m.w = 0 then .error .valueError
  else
    let p := argmaxTo (fun k => m.get (k / m.w) (k % m.w)) (m.h * m.w - 1)
    .ok (p / m.w, p % m.w)

/-- A Python position: still an integer (usable as an index) or a float. -/
inductive Pos (K : Type _) where
  | int (n : ℕ)
  | flt (x : K)

/-- Numerical value of a position. -/
def Pos.val : Pos K → K
  | .int n => (n : K)
  | .flt x => x

/-- `col + pos` for an integer `col`. -/
def Pos.add (c : ℕ) : Pos K → Pos K
  | .int n => .int (c + n)
  | .flt x => .flt (c + x)

/-- Use as an array index; a float raises an error (numpy `IndexError`). -/
def Pos.index : Pos K → Py ℕ
  | .int n => .ok n
  | .flt _ => .error .indexError

/-- `method` argument; the least-squares fits return the coefficients of the fitted polynomial: `np.polyfit(.,.,2)[:2]`
and `np.linalg.lstsq` (correlation.py:547, 605). -/
inductive Method (K : Type _) where
  | diff
  | polyFit (fit1 : ℕ → (ℕ → K) → K × K) (fit2 : ℕ → ℕ → (ℕ → ℕ → K) → K × K × K × K × K × K)

/-- `_locate_1d_peak_subpixel` (correlation.py:541-559) for data `f` of length `size`. -/
def locate1d (size : ℕ) (f : ℕ → K) : Method K → Py (Pos K)
  | .polyFit fit1 _ => do
    let pos ← npArgmax size f
    let (a, b) := fit1 size f
    if a ≠ 0 then
      let sub := -b / (2 * a)
      if sub < (size : K) - 1 ∧ 0 < sub then .ok (.flt sub) else .ok (.int pos)
    else .ok (.int pos)
  | .diff => do
    let pos ← npArgmax size f
    if pos < size - 1 ∧ 0 < pos then
      let d1 := (f (pos + 1) - f (pos - 1)) / 2
      let d2 := f (pos + 1) + f (pos - 1) - 2 * f pos
      if d2 ≠ 0 then .ok (.flt (pos + -d1 / d2)) else .ok (.int pos)
    else .ok (.int pos)

/-- `_locate_2d_peak_subpixel` (correlation.py:586-638); returns `(x, y)`. -/
def locate2d (m : Mat K) (method : Method K) : Py (K × K) := do
  let (y0, x0) ← argmax2 m
  let yCheck := ¬ (y0 = 0 ∨ y0 = m.h - 1)
  let xCheck := ¬ (x0 = 0 ∨ x0 = m.w - 1)
  let diffBranch : K × K :=
    let d1fx := if xCheck then (m.get y0 (x0 + 1) - m.get y0 (x0 - 1)) / 2 else 0
    let d2fx := if xCheck then m.get y0 (x0 + 1) + m.get y0 (x0 - 1) - 2 * m.get y0 x0 else 0
    let d1fy := if yCheck then (m.get (y0 + 1) x0 - m.get (y0 - 1) x0) / 2 else 0
    let d2fy := if yCheck then m.get (y0 + 1) x0 + m.get (y0 - 1) x0 - 2 * m.get y0 x0 else 0
    let d1fxy := if yCheck ∧ xCheck then
      (m.get (y0 + 1) (x0 + 1) + m.get (y0 - 1) (x0 - 1) - m.get (y0 + 1) (x0 - 1) - m.get (y0 - 1) (x0 + 1)) / 4 else 0
    let num := d1fxy ^ 2 - d2fx * d2fy
    if num ≠ 0 then
      let xOff := (d2fy * d1fx - d1fxy * d1fy) / num
      let yOff := (d2fx * d1fy - d1fxy * d1fx) / num
      (if |xOff| < 1 ∧ 0 < |xOff| then x0 + xOff else x0, if |yOff| < 1 ∧ 0 < |yOff| then y0 + yOff else y0)
    else (x0, y0)
  match method with
  | .polyFit _ fit2 =>
    if yCheck ∨ xCheck then
      let (_, a1, a2, a3, a4, a5) := fit2 m.h m.w m.get
      let num := a4 * a4 - 4 * a3 * a5
      if num ≠ 0 then
        let x1 := (2 * a1 * a5 - a2 * a4) / num
        let y1 := (2 * a2 * a3 - a1 * a4) / num
        .ok (if x1 < (m.w : K) - 1 ∧ 0 < x1 then x1 else x0, if y1 < (m.h : K) - 1 ∧ 0 < y1 then y1 else y0)
      else .ok (x0, y0)
    else .ok diffBranch
  | .diff => .ok diffBranch

/-- Window size of `locate_peak` (correlation.py:676-677). -/
def winSize (method : Method K) (size : Int) : ℕ :=
  match method with
  | .diff => 3
  | .polyFit _ _ => (npClip (2 * (size / 2) + 1) 3 9).toNat

/-- `np.clip(pos - radius, 0, n - size)` (correlation.py:686-687, 703, 709). -/
def winStart (pos radius n size : ℕ) : ℕ := (npClip ((pos : Int) - radius) 0 ((n : Int) - size)).toNat

/-- `np.max(mat) - mat` if the minimum is wanted (correlation.py:678-679). -/
def flipPeak (m : Mat K) (maxPeak : Bool) : Py (Mat K) := do
  if maxPeak then .ok m
  else
    let (y, x) ← argmax2 m
    .ok ⟨m.h, m.w, fun i j => m.get y x - m.get i j⟩

/-- Refinement of an interior maximum `(y, x)` with window size `n` (correlation.py:684-700). -/
def peakInterior (m : Mat K) (n : ℕ) (method : Method K) (dim : Int) (y x : ℕ) : Py (Pos K × Pos K) :=
  if y < m.h - 1 ∧ 0 < y ∧ x < m.w - 1 ∧ 0 < x ∧ n ≤ m.w ∧ n ≤ m.h then
    let row := winStart y (n / 2) m.h n
    let col := winStart x (n / 2) m.w n
    if dim = 1 then do
      let x1 ← locate1d n (fun k => m.get y (col + k)) method
      let y1 ← locate1d n (fun k => m.get (row + k) x) method
      .ok (x1.add col, y1.add row)
    else do
      let (x1, y1) ← locate2d ⟨n, n, fun i j => m.get (row + i) (col + j)⟩ method
      .ok (.flt (col + x1), .flt (row + y1))
  else .ok (Pos.int x, Pos.int y)

/-- Refinement of the column when the peak is in the first or last row (correlation.py:701-706). -/
def peakRow (m : Mat K) (n : ℕ) (method : Method K) (px py : Pos K) : Py (Pos K) :=
  if (py.val = 0 ∨ py.val = (m.h : K) - 1) ∧ px.val < (m.w : K) - 1 ∧ 0 < px.val ∧ n ≤ m.w then do
    let xi ← px.index
    let yi ← py.index
    let col := winStart xi (n / 2) m.w n
    let x1 ← locate1d n (fun k => m.get yi (col + k)) method
    .ok (x1.add col)
  else .ok px

/-- Refinement of the row when the peak is in the first or last column (correlation.py:707-712). -/
def peakCol (m : Mat K) (n : ℕ) (method : Method K) (px py : Pos K) : Py (Pos K) :=
  if (px.val = 0 ∨ px.val = (m.w : K) - 1) ∧ py.val < (m.h : K) - 1 ∧ 0 < py.val ∧ n ≤ m.h then do
    let xi ← px.index
    let yi ← py.index
    let row := winStart yi (n / 2) m.h n
    let y1 ← locate1d n (fun k => m.get (row + k) xi) method
    .ok (y1.add row)
  else .ok py

/-- `locate_peak` (correlation.py:675-713); returns `(x, y)`. -/
def locatePeak (mat : Mat K) (subPixel : Bool) (method : Method K) (dim size : Int) (maxPeak : Bool) :
    Py (K × K) := do
  let n := winSize method size
  let m ← flipPeak mat maxPeak
  let (y, x) ← argmax2 m
  if subPixel = false then .ok ((x : K), (y : K))
  else
    let (px, py) ← peakInterior m n method dim y x
    let px2 ← peakRow m n method px py
    let py2 ← peakCol m n method px2 py
    .ok (px2.val, py2.val)

/-! ### Shift between two images -/

/-- `mat[margin:-margin]` along one axis of length `n`, as (start, length); Python slicing, so `margin = 0` gives the
empty slice `0:-0` (correlation.py:774-798). -/
def cropAxis (n margin : ℕ) : ℕ × ℕ :=
  let a := pyBound n (margin : Int)
  let b := pyBound n (-(margin : Int))
  (a, b - a)

/-- The template that is slid over the reference (correlation.py:770-800), with the flag `check1`. -/
def template (ref mat : Arr3 ℝ) (margin : ℕ) (axis : Option Int) : Arr3 ℝ × Bool :=
  if ref.h = mat.h ∧ ref.w = mat.w then
    let (r0, rl) := cropAxis mat.h margin
    let (c0, cl) := cropAxis mat.w margin
    if axis = some 0 then
      if (mat.h : Int) - 2 * margin > 3 then (⟨mat.d, rl, mat.w, fun i j k => mat.get i (r0 + j) k⟩, true)
      else (mat, false)
    else if axis = some 1 then
      if (mat.w : Int) - 2 * margin > 3 then (⟨mat.d, mat.h, cl, fun i j k => mat.get i j (c0 + k)⟩, true)
      else (mat, false)
    else
      if (mat.h : Int) - 2 * margin > 3 ∧ (mat.w : Int) - 2 * margin > 3 then
        (⟨mat.d, rl, cl, fun i j k => mat.get i (r0 + j) (c0 + k)⟩, true)
      else (mat, false)
  else (mat, true)

/-- `find_shift_based_correlation_map` (correlation.py:766-825), CPU; returns `(x_shift, y_shift)`. -/
noncomputable def findShift (ref mat : Arr3 ℝ) (margin : ℕ) (axis : Option Int) (subPixel : Bool) (method : Method ℝ)
    (dim size : Int) : Py (ℝ × ℝ) := do
  let (t, check1) := template ref mat margin axis
  let badH : Bool := decide ((ref.h : Int) - 2 * margin < t.h)
  let badW : Bool := decide ((ref.w : Int) - 2 * margin < t.w)
  let check2 : Bool :=
    if check1 then
      (if axis = some 0 then !badH else if axis = some 1 then !badW else !(badH && badW))
    else true
  if check2 then
    let m ← correlationMap ref t
    let yMid := m.h / 2
    let xMid := m.w / 2
    let (xp, yp) ← locatePeak m subPixel method (if axis = none then dim else 1) size true
    let xp := if axis = some 0 then (xMid : ℝ) else xp
    let yp := if axis = some 1 then (yMid : ℝ) else yp
    .ok (xp - xMid, yp - yMid)
  else .error .valueError

end Verif.Correlation
