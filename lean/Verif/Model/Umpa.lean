import Verif.Model.Peak

/-!
Model of the UMPA speckle-tracking fit of algotom/util/correlation.py (lines 3009-3036, 3039-3086, 3337-3349).
Exact real arithmetic.  `scipy.signal.correlate` is given by its defining sum: for a window of odd side `2r+1`,
mode "same" is `out[i, j] = sum_{u, v} x[i-r+u, j-r+v] * w[u, v]` with zeros outside the image, mode "valid" is
`out[a, b] = sum_{u, v} x[a+u, b+v] * w[u, v]`.
-/

namespace Verif.Umpa
open Finset

/-- Zero-padded read. -/
noncomputable def readPad (h w : ℕ) (x : ℕ → ℕ → ℝ) (i j : ℤ) : ℝ :=
  if 0 ≤ i ∧ i < h ∧ 0 ≤ j ∧ j < w then x i.toNat j.toNat else 0

/-- `scipy.signal.correlate(x, window, mode="same")[i, j]` for a `(2r+1) x (2r+1)` window (correlation.py:3342-3349). -/
noncomputable def correlateSame (h w : ℕ) (x : ℕ → ℕ → ℝ) (r : ℕ) (win : ℕ → ℕ → ℝ) (i j : ℕ) : ℝ :=
  ∑ u ∈ range (2 * r + 1), ∑ v ∈ range (2 * r + 1), readPad h w x ((i : ℤ) - r + u) ((j : ℤ) - r + v) * win u v

/-- `scipy.signal.correlate(x, y, mode="valid")[a, b]` for a second argument of side `2r+1` (correlation.py:3017). -/
noncomputable def correlateValid (x : ℕ → ℕ → ℝ) (r : ℕ) (y : ℕ → ℕ → ℝ) (a b : ℕ) : ℝ :=
  ∑ u ∈ range (2 * r + 1), ∑ v ∈ range (2 * r + 1), x (a + u) (b + v) * y u v

/-- `np.sum(mat, axis=0)`. -/
noncomputable def sum0 (a : Arr3 ℝ) (f : ℝ → ℝ) (i j : ℕ) : ℝ := ∑ k ∈ range a.d, f (a.get k i j)

/-- The six terms of the normal equations at one pixel and one candidate shift. -/
structure Terms where
  t1 : ℝ
  t2 : ℝ
  t3 : ℝ
  t4 : ℝ
  t5 : ℝ
  t6 : ℝ

/-- `Im = np.mean(R1) / depth` (correlation.py:3346). -/
noncomputable def imMean (ref : Arr3 ℝ) : ℝ :=
  ((∑ i ∈ range ref.h, ∑ j ∈ range ref.w, sum0 ref id i j) / (ref.h * ref.w : ℕ)) / ref.d

/-- The arrays `L1 ... L6` of `find_local_shifts_umpa` and the accumulated `t5` of `__calc_shift_umpa`, read for pixel
`(i, j)` and map entry `(a, b)` (correlation.py:3015-3017, 3050-3064, 3340-3349). -/
noncomputable def terms (ref mat : Arr3 ℝ) (r m : ℕ) (win : ℕ → ℕ → ℝ) (i j a b : ℕ) : Terms where
  t1 := correlateSame mat.h mat.w (sum0 mat (· ^ 2)) r win i j
  t2 := imMean ref ^ 2 * ref.d
  t3 := correlateSame ref.h ref.w (sum0 ref (· ^ 2)) r win (i - m + a) (j - m + b)
  t4 := imMean ref * correlateSame mat.h mat.w (sum0 mat id) r win i j
  t5 := ∑ k ∈ range ref.d, correlateValid (fun p q => ref.get k (i - (r + m) + p) (j - (r + m) + q)) r
    (fun u v => win u v * mat.get k (i - r + u) (j - r + v)) a b
  t6 := imMean ref * correlateSame ref.h ref.w (sum0 ref id) r win (i - m + a) (j - m + b)

/-- `K` (correlation.py:3020, 3025). -/
noncomputable def fitK (dark : Bool) (t : Terms) : ℝ :=
  if dark then (t.t2 * t.t5 - t.t4 * t.t6) / (t.t2 * t.t3 - t.t6 ^ 2) else t.t5 / t.t3

/-- `beta` (correlation.py:3021, 3026). -/
noncomputable def fitBeta (dark : Bool) (t : Terms) : ℝ :=
  if dark then (t.t3 * t.t4 - t.t5 * t.t6) / (t.t2 * t.t3 - t.t6 ^ 2) else 0

/-- The terms actually used: without dark signal `t2 = t4 = t6 = 0.0` is passed (correlation.py:3077). -/
def used (dark : Bool) (t : Terms) : Terms := if dark then t else { t with t2 := 0, t4 := 0, t6 := 0 }

/-- The cost `D` (correlation.py:3027-3028). -/
noncomputable def cost (dark : Bool) (t0 : Terms) : ℝ :=
  let t := used dark t0
  let K := fitK dark t
  let beta := fitBeta dark t
  t.t1 + beta ^ 2 * t.t2 + K ^ 2 * t.t3 - 2 * beta * t.t4 - 2 * K * t.t5 + 2 * beta * K * t.t6

/-- Transmission `|A|` and dark-field `|V|` at one map entry (correlation.py:3022-3023, 3034). -/
noncomputable def transDark (t0 : Terms) : ℝ × ℝ :=
  let t := used true t0
  let A := fitBeta true t + fitK true t
  (|A|, |fitK true t / A|)

/-- The cost map of one pixel. -/
noncomputable def costMap (ref mat : Arr3 ℝ) (r m : ℕ) (win : ℕ → ℕ → ℝ) (dark : Bool) (i j : ℕ) : Mat ℝ :=
  ⟨2 * m + 1, 2 * m + 1, fun a b => cost dark (terms ref mat r m win i j a b)⟩

/-- The shift found at one pixel (correlation.py:3029-3032). -/
noncomputable def shiftAt (ref mat : Arr3 ℝ) (r m : ℕ) (win : ℕ → ℕ → ℝ) (dark : Bool)
    (method : Correlation.Method ℝ) (size : Int) (i j : ℕ) : Py (ℝ × ℝ) := do
  let (x, y) ← Correlation.locatePeak (costMap ref mat r m win dark i j) true method 2 size false
  .ok (x - m, y - m)

end Verif.Umpa
