import Verif.Model.Wavelet
import Mathlib.Algebra.BigOperators.Intervals

/-!
`pywt.wavedec2` and `pywt.waverec2` (PyWavelets, mode "symmetric"), as called by `apply_wavelet_decomposition` and
`apply_wavelet_reconstruction` (algotom/util/utility.py:480-534).  Exact real arithmetic; the filter coefficients are a parameter.
-/

namespace Verif.Pywt
open Verif.Wavelet

/-- The four filters of a `pywt.Wavelet` (named by `wavelet_name`, utility.py:506, 534). -/
structure Bank where
  decLo : List ℝ
  decHi : List ℝ
  recLo : List ℝ
  recHi : List ℝ

/-- Entry `k` of a filter, zero outside (used by `pywt`, called at utility.py:506, 534). -/
def tap (f : List ℝ) (k : ℤ) : ℝ := if 0 ≤ k then f.getD k.toNat 0 else 0

/-- Mode "symmetric" (`… x1 x0 | x0 x1 … xn | xn …`), the default of `pywt.wavedec2` (called at utility.py:506). -/
def symIdx (n : ℕ) (k : ℤ) : ℕ :=
  let r := (k % (2 * n : ℤ)).toNat
  if r < n then r else 2 * n - 1 - r

/-- `pywt.dwt_coeff_len` for a filter of length `F` (called at utility.py:506). -/
def coefLen (n F : ℕ) : ℕ := (n + F - 1) / 2

/-- One half of `pywt.dwt`: extend, convolve with a decomposition filter, keep every second sample (called at utility.py:506). -/
noncomputable def analyse (f : List ℝ) (n : ℕ) (x : ℕ → ℝ) (o : ℕ) : ℝ :=
  ∑ t ∈ Finset.range f.length, f.getD t 0 * x (symIdx n (2 * (o : ℤ) + 1 - t))

/-- `pywt.idwt`: insert zeros, convolve with the reconstruction filters, keep the part free of boundary effects; `nc` is the number of
coefficients (called at utility.py:534). -/
noncomputable def synth (b : Bank) (nc : ℕ) (ca cd : ℕ → ℝ) (n : ℕ) : ℝ :=
  ∑ o ∈ Finset.range nc, (ca o * tap b.recLo (n - 2 * (o : ℤ) + b.recLo.length - 2) + cd o * tap b.recHi (n - 2 * (o : ℤ) + b.recLo.length - 2))

/-- `analyse` along axis 0 (`pywt.dwt2`, called at utility.py:506). -/
noncomputable def along0 (f : List ℝ) (m : Mat ℝ) : Mat ℝ := ⟨coefLen m.h f.length, m.w, fun o j => analyse f m.h (fun i => m.get i j) o⟩

/-- `analyse` along axis 1 (`pywt.dwt2`, called at utility.py:506). -/
noncomputable def along1 (f : List ℝ) (m : Mat ℝ) : Mat ℝ := ⟨m.h, coefLen m.w f.length, fun i o => analyse f m.w (m.get i) o⟩

/-- `pywt.dwt2`: the approximation and the details (horizontal, vertical, diagonal) (called at utility.py:506). -/
noncomputable def dwt2 (b : Bank) (m : Mat ℝ) : Mat ℝ × (ℕ → Mat ℝ) :=
  (along1 b.decLo (along0 b.decLo m),
   fun c => if c = 0 then along1 b.decLo (along0 b.decHi m) else if c = 1 then along1 b.decHi (along0 b.decLo m)
     else along1 b.decHi (along0 b.decHi m))

/-- `synth` along axis 1 (`pywt.idwt2`, called at utility.py:534). -/
noncomputable def back1 (b : Bank) (h w : ℕ) (ca cd : ℕ → ℕ → ℝ) : Mat ℝ := ⟨h, 2 * w + 2 - b.recLo.length, fun i j => synth b w (ca i) (cd i) j⟩

/-- `synth` along axis 0 (`pywt.idwt2`, called at utility.py:534). -/
noncomputable def back0 (b : Bank) (h w : ℕ) (ca cd : ℕ → ℕ → ℝ) : Mat ℝ :=
  ⟨2 * h + 2 - b.recLo.length, w, fun i j => synth b h (fun o => ca o j) (fun o => cd o j) i⟩

/-- One step of `pywt.waverec2`: an approximation with one row or column too many is cut to the size of the details, then `idwt2`
(called at utility.py:534). -/
noncomputable def idwt2 (b : Bank) (a : Mat ℝ) (d : ℕ → Mat ℝ) : Mat ℝ :=
  let h := (d 0).h
  let w := (d 0).w
  let l := back1 b h w a.get (d 1).get
  let u := back1 b h w (d 0).get (d 2).get
  back0 b h l.w l.get u.get

/-- `pywt.wavedec2(m, wavelet, level=L)` (utility.py:506), coarsest level first. -/
noncomputable def wavedec (b : Bank) : ℕ → Mat ℝ → WData (Mat ℝ)
  | 0, m => ⟨m, []⟩
  | L + 1, m =>
    let s := dwt2 b m
    let r := wavedec b L s.1
    ⟨r.approx, r.details ++ [s.2]⟩

/-- `pywt.waverec2(data, wavelet)` (utility.py:534). -/
noncomputable def waverec (b : Bank) (d : WData (Mat ℝ)) : Mat ℝ := d.details.foldl (idwt2 b) d.approx

/-- `apply_wavelet_decomposition(mat, wavelet_name, level)` (utility.py:501-506). -/
noncomputable def decompose (b : Bank) (m : Mat ℝ) (level : Option Int) : Py (WData (Mat ℝ)) := do
  let L ← levelUsed m.h m.w level
  return wavedec b L m

/-- The filters of `pywt.Wavelet("haar")` (a value of `wavelet_name`, utility.py:506). -/
noncomputable def haar : Bank :=
  ⟨[1 / Real.sqrt 2, 1 / Real.sqrt 2], [-1 / Real.sqrt 2, 1 / Real.sqrt 2], [1 / Real.sqrt 2, 1 / Real.sqrt 2], [1 / Real.sqrt 2, -1 / Real.sqrt 2]⟩

end Verif.Pywt
