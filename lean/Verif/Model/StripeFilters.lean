import Verif.Model.Stripe
import Verif.Model.Surface
import Verif.Model.Wavelet
import Verif.Model.Polar
import Verif.Model.Simulation

/-!
The remaining stripe-removal methods of algotom/prep/removal.py (97-238, 374-447, 590-717) and the ring-removal methods of
algotom/post/postprocessing.py:960-1043 built on them.  Exact arithmetic (no float32 rounding); the `options` argument is a
parameter (a smoothing function).
-/

namespace Verif.StripeFilters
open Verif.Sorting Verif.Removal Verif.Stripe Verif.Fourier Verif.Surface Verif.Wavelet Verif.Polar

/-- `remove_stripe_based_filtering(sinogram, sigma, size, dim, sort, **options)` (removal.py:129-165); `filt` is the smoothing filter
(`medianFilterRow size` by default). -/
noncomputable def removeFiltering (as1 : Argsort ℝ) (as2 : Argsort ℕ) (filt : Mat ℝ → Mat ℝ) (sigma : ℝ) (sort : Bool) (sino : Mat ℝ) :
    Py (Mat ℝ) := do
  let (smooth, sharp) ← separateFrequency sino true (.gaussian sigma)
  let smooth' := if sort then
      let si := sortForward as1 0 smooth
      sortBackward as2 0 (filt si.1) si.2
    else filt smooth
  return ⟨sino.h, sino.w, fun i j => smooth'.get i j + sharp.get i j⟩

/-- `remove_stripe_based_2d_filtering_sorting(sinogram, sigma, size, dim, **options)` (removal.py:442-447). -/
noncomputable def remove2dFilteringSorting (as1 : Argsort ℝ) (as2 : Argsort ℕ) (filt : Mat ℝ → Mat ℝ) (sigma : ℝ) (sino : Mat ℝ) : Mat ℝ :=
  let pad := pad10 (min sino.h sino.w)
  let smooth := gaussianFilter sino sigma sigma pad
  let sharp : Mat ℝ := ⟨sino.h, sino.w, fun i j => sino.get i j - smooth.get i j⟩
  let sharp' := removeStripeSorting as1 as2 filt sharp
  ⟨sino.h, sino.w, fun i j => smooth.get i j + sharp'.get i j⟩

/-- Window length used by `generate_fitted_image(mat, order, 0, num_chunk)` (utility.py:326-329) with the checks of
`scipy.signal.savgol_filter` (`polyorder < window_length`). -/
def fitLength (n order numChunk : ℕ) : Py ℕ :=
  if numChunk = 0 then .error .zeroDivision
  else
    let size : ℤ := ((n / numChunk : ℕ) : ℤ)
    let length : ℤ := if size % 2 = 1 then size else size - 1
    if length ≤ order then .error .valueError else .ok length.toNat

/-- `np.mean(np.abs(m))`. -/
noncomputable def meanAbs (m : Mat ℝ) : ℝ := (∑ i ∈ Finset.range m.h, ∑ j ∈ Finset.range m.w, |m.get i j|) / ((m.h * m.w : ℕ) : ℝ)

/-- Parameters of the Gaussian filter in `remove_stripe_based_fitting` (removal.py:202-203, 210). -/
def fitPad (nrow : ℕ) : ℕ := pad10 nrow

/-- `sigmay` (removal.py:203): `clip(min(60, int(0.1 * ncol)), 10, None)`. -/
def fitSigmaY (ncol : ℕ) : ℕ := max (min 60 (ncol / 10)) 10

/-- `remove_stripe_based_fitting(sinogram, order, sigma, sort, num_chunk)` (removal.py:201-238): `savgol L order` is the Savitzky–Golay
filter along axis 0 with window length `L` and mode "mirror"; `user = some f` is the filter given by `options`. -/
noncomputable def removeFitting (as1 : Argsort ℝ) (as2 : Argsort ℕ) (savgol : ℕ → ℕ → Mat ℝ → Mat ℝ) (user : Option (Mat ℝ → Mat ℝ))
    (order : ℕ) (sigma : ℝ) (sort : Bool) (numChunk : ℕ) (sino : Mat ℝ) : Py (Mat ℝ) := do
  let L ← fitLength sino.h order numChunk
  let si := sortForward as1 0 sino
  let s := if sort then si.1 else sino
  let fit := savgol L order s
  let filt := match user with
    | none => gaussianFilter fit sigma (fitSigmaY sino.w : ℝ) (fitPad sino.h)
    | some f => f fit
  let corr : Mat ℝ := ⟨sino.h, sino.w, fun i j => s.get i j / fit.get i j * (meanAbs fit * filt.get i j / meanAbs filt)⟩
  return if sort then sortBackward as2 0 corr si.2 else corr

/-- `remove_all_stripe(sinogram, snr, la_size, sm_size, drop_ratio, dim, **options)` (removal.py:408-412). -/
noncomputable def removeAll (as1 : Argsort ℝ) (as2 : Argsort ℕ) (unif med : ℕ → (ℕ → ℝ) → ℕ → ℝ) (smooth filt : Mat ℝ → Mat ℝ) (snr : ℝ)
    (ndrop : ℕ) (sino : Mat ℝ) : Py (Mat ℝ) := do
  let a ← removeDeadStripe unif med snr (fun s => removeLargeStripe as1 as2 smooth snr ndrop true s) false sino
  let b ← removeLargeStripe as1 as2 smooth snr ndrop true a
  return removeStripeSorting as1 as2 filt b

/-- Rows padded with mode "mean", then columns with mode "edge" (removal.py:623-624, 678-679). -/
noncomputable def padMeanEdge (m : Mat ℝ) (pad : ℕ) : Mat ℝ :=
  let m1 : ℕ → ℕ → ℝ := fun i j => if pad ≤ i ∧ i < pad + m.h then m.get (i - pad) j else (∑ r ∈ Finset.range m.h, m.get r j) / m.h
  ⟨m.h + 2 * pad, m.w + 2 * pad, fun i j => m1 i (edgeIdx m.w pad j)⟩

/-- The part of `remove_stripe_based_fft` between the sorting steps (removal.py:622-629), for `v ≤` half the padded height. -/
noncomputable def fftCore (m : Mat ℝ) (u : ℝ) (v n : ℕ) : Mat ℝ :=
  let pad := pad10 (min m.h m.w)
  ⟨m.h, m.w, fun i j => ‖stripeFft (padMeanEdge m pad) u v n (pad + i) (pad + j)‖⟩

/-- `remove_stripe_based_fft(sinogram, u, n, v, sort)` (removal.py:619-632). -/
noncomputable def removeFft (as1 : Argsort ℝ) (as2 : Argsort ℕ) (u : ℝ) (n v : ℕ) (sort : Bool) (sino : Mat ℝ) : Mat ℝ :=
  if sort then
    let si := sortForward as1 0 sino
    sortBackward as2 0 (fftCore si.1 u v n) si.2
  else fftCore sino u v n

/-- Damp component 1 of every level (removal.py:684-690). -/
noncomputable def dampAll (size : ℝ) (butter : Bool) (d : WData (Mat ℝ)) : WData (Mat ℝ) :=
  ⟨d.approx, d.details.map fun t => fun c => if c = 1 then dampDetail (t 1) size butter else t c⟩

/-- The part of `remove_stripe_based_wavelet_fft` between the sorting steps (removal.py:676-714): `wavedec L m` and `waverec` are PyWavelets'
`wavedec2`/`waverec2`. -/
noncomputable def waveletCore (wavedec : ℕ → Mat ℝ → WData (Mat ℝ)) (waverec : WData (Mat ℝ) → Mat ℝ) (level : Option ℤ) (size : ℝ)
    (butter : Bool) (m : Mat ℝ) : Py (Mat ℝ) := do
  let pad := pad10 (min m.h m.w)
  let mp := padMeanEdge m pad
  let L ← levelUsed mp.h mp.w level
  let r := waverec (dampAll size butter (wavedec L mp))
  return ⟨m.h, m.w, fun i j => r.get (pad + i) (pad + j)⟩

/-- `remove_stripe_based_wavelet_fft(sinogram, level, size, wavelet_name, window_name, sort)` without `options` (removal.py:671-717).
The reconstructed image is at least as large as the padded one (PyWavelets), so the crop does not shorten it. -/
noncomputable def removeWavelet (as1 : Argsort ℝ) (as2 : Argsort ℕ) (wavedec : ℕ → Mat ℝ → WData (Mat ℝ)) (waverec : WData (Mat ℝ) → Mat ℝ)
    (level : Option ℤ) (size : ℝ) (butter : Bool) (sort : Bool) (sino : Mat ℝ) : Py (Mat ℝ) :=
  if sort then do
    let si := sortForward as1 0 sino
    let r ← waveletCore wavedec waverec level size butter si.1
    return sortBackward as2 0 r si.2
  else waveletCore wavedec waverec level size butter sino

/-- `remove_ring_based_fft` / `remove_ring_based_wavelet_fft` (postprocessing.py:989-999, 1032-1043): `clean` is the stripe removal on the
polar image, `mask` the unit circle mask. -/
noncomputable def removeRing (clean : Mat ℝ → Py (Mat ℝ)) (mat : Mat ℝ) : Py (Mat ℝ) :=
  if mat.h ≠ mat.w then .error .valueError
  else do
    let n := mat.w
    let polar : Mat ℝ := ⟨n, n, fun i j => Correction.sample n n mat.get (rectFromPolar n n n n i j).2 (rectFromPolar n n n n i j).1⟩
    let c ← clean polar
    return ⟨n, n, fun i j => Correction.sample n n c.get (polarFromRect n n n n i j).2 (polarFromRect n n n n i j).1 *
      (Simulation.circleMask (K := ℝ) n 1).get i j⟩

end Verif.StripeFilters
