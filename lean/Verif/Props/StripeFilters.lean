import Verif.Model.StripeFilters
import Verif.Props.StripeRemove
import Verif.Props.Surface
import Verif.Props.Wavelet
import Verif.Props.Polar
import Verif.Props.Fourier2
import Verif.Props.Sorting
import Verif.Props.Simulation

/-! C92–C97 — stripe and ring removal: what happens to data without stripes, and to scaled data. -/

set_option linter.unusedSectionVars false
set_option linter.unusedSimpArgs false

namespace Verif.StripeFilters
open Verif.Sorting Verif.Removal Verif.Stripe Verif.Fourier Verif.Surface Verif.Wavelet Verif.Polar Complex

/-- A sinogram without stripes: every detector pixel has recorded the same profile `a` (angle ↦ value). -/
def stripeFree (h w : ℕ) (a : ℕ → ℝ) : Mat ℝ := ⟨h, w, fun i _ => a i⟩

/-! ### C92: filtering -/

theorem median_identical (size : ℕ) (hs : 0 < size) (h w : ℕ) (a : ℕ → ℝ) (i j : ℕ) (hj : j < w) :
    (medianFilterRow size (stripeFree h w a)).get i j = a i := by
  obtain ⟨j', _, h⟩ := medianFilterRow_mem size hs (stripeFree h w a) i j hj
  rw [h]
  rfl

/-- C92: a sinogram without stripes is returned unchanged, with or without sorting, for every sigma and filter size. -/
theorem filtering_stripe_free (as1 : Argsort ℝ) (as2 : Argsort ℕ) (size : ℕ) (hs : 0 < size) (sigma : ℝ) (sort : Bool) (h w : ℕ) (a : ℕ → ℝ) :
    ∃ out, removeFiltering as1 as2 (medianFilterRow size) sigma sort (stripeFree h w a) = .ok out ∧ out.h = h ∧ out.w = w ∧
      ∀ i < h, ∀ j < w, out.get i j = a i := by
  have hsep : ∃ smooth sharp, separateFrequency (stripeFree h w a) true (.gaussian sigma) = .ok (smooth, sharp) ∧
      smooth = stripeFree h w (fun i => smooth.get i 0) := ⟨_, _, rfl, rfl⟩
  obtain ⟨smooth, sharp, he, hfree⟩ := hsep
  obtain ⟨_, _, _, _, hsum⟩ := (separate_frequency_sum (stripeFree h w a) true (.gaussian sigma)).1 smooth sharp he
  have hh : smooth.h = h := by rw [hfree]; rfl
  have hw : smooth.w = w := by rw [hfree]; rfl
  have hget : ∀ i j, smooth.get i j = smooth.get i 0 := by
    intro i j
    conv_lhs => rw [hfree]
    rfl
  unfold removeFiltering
  rw [he]
  refine ⟨_, rfl, rfl, rfl, ?_⟩
  intro i hi j hj
  have hfix : (if sort then sortBackward as2 0 (medianFilterRow size (sortForward as1 0 smooth).1) (sortForward as1 0 smooth).2
      else medianFilterRow size smooth).get i j = smooth.get i j := by
    cases sort with
    | true =>
      rw [if_pos rfl]
      refine stripe_sorting_fixes_stripe_free as1 as2 size hs smooth ?_ i (by omega) j (by omega)
      intro c _ c' _
      have : line smooth.T c = line smooth.T c' := by
        unfold line
        apply List.map_congr_left
        intro r _
        show smooth.get r c = smooth.get r c'
        rw [hget r c, hget r c']
      rw [this]
    | false =>
      rw [if_neg (by simp)]
      obtain ⟨j', _, h1⟩ := medianFilterRow_mem size hs smooth i j (by omega)
      rw [h1, hget i j', hget i j]
  show (if sort then sortBackward as2 0 (medianFilterRow size (sortForward as1 0 smooth).1) (sortForward as1 0 smooth).2
      else medianFilterRow size smooth).get i j + sharp.get i j = a i
  rw [hfix, hsum i hi j hj]
  rfl

/-- C92: whatever smoothing filter is used, the high-frequency component of every column passes through: the change made to the sinogram is
the change made to the low-pass component of `separate_frequency_component`. -/
theorem filtering_keeps_sharp (as1 : Argsort ℝ) (as2 : Argsort ℕ) (filt : Mat ℝ → Mat ℝ) (sigma : ℝ) (sort : Bool) (sino : Mat ℝ) :
    ∃ out smooth sharp, removeFiltering as1 as2 filt sigma sort sino = .ok out ∧
      separateFrequency sino true (.gaussian sigma) = .ok (smooth, sharp) ∧ out.h = sino.h ∧ out.w = sino.w ∧
      ∀ i < sino.h, ∀ j < sino.w, out.get i j - sino.get i j =
        (if sort then removeStripeSorting as1 as2 filt smooth else filt smooth).get i j - smooth.get i j := by
  have hsep : ∃ smooth sharp, separateFrequency sino true (.gaussian sigma) = .ok (smooth, sharp) := ⟨_, _, rfl⟩
  obtain ⟨smooth, sharp, he⟩ := hsep
  obtain ⟨_, _, _, _, hsum⟩ := (separate_frequency_sum sino true (.gaussian sigma)).1 smooth sharp he
  refine ⟨⟨sino.h, sino.w, fun i j => (if sort then sortBackward as2 0 (filt (sortForward as1 0 smooth).1) (sortForward as1 0 smooth).2
    else filt smooth).get i j + sharp.get i j⟩, smooth, sharp, by unfold removeFiltering; rw [he]; rfl, he, rfl, rfl, ?_⟩
  intro i hi j hj
  rw [← hsum i hi j hj]
  dsimp only
  cases sort with
  | true =>
    simp only [if_pos]
    unfold removeStripeSorting
    ring
  | false =>
    simp only [Bool.false_eq_true, if_false]
    ring

/-- C92, `remove_stripe_based_2d_filtering_sorting`: the change made to the sinogram is exactly the change which the sorting-based method
makes to the high-frequency part (the sinogram minus its Gaussian-filtered version). -/
theorem filtering2d_change (as1 : Argsort ℝ) (as2 : Argsort ℕ) (filt : Mat ℝ → Mat ℝ) (sigma : ℝ) (sino sharp : Mat ℝ)
    (hsh : sharp.h = sino.h) (hsw : sharp.w = sino.w)
    (hs : ∀ i j, sharp.get i j = sino.get i j - (gaussianFilter sino sigma sigma (min 150 (min sino.h sino.w / 10))).get i j) :
    (remove2dFilteringSorting as1 as2 filt sigma sino).h = sino.h ∧ (remove2dFilteringSorting as1 as2 filt sigma sino).w = sino.w ∧
    ∀ i j, (remove2dFilteringSorting as1 as2 filt sigma sino).get i j - sino.get i j =
      (removeStripeSorting as1 as2 filt sharp).get i j - sharp.get i j := by
  refine ⟨rfl, rfl, ?_⟩
  intro i j
  have e : sharp = ⟨sino.h, sino.w, fun i j => sino.get i j - (gaussianFilter sino sigma sigma (pad10 (min sino.h sino.w))).get i j⟩ := by
    cases sharp with
    | mk a b g =>
      cases hsh; cases hsw
      congr 1
      funext i j
      exact hs i j
  unfold remove2dFilteringSorting
  dsimp only
  rw [← e, hs i j]
  have : pad10 (min sino.h sino.w) = min 150 (min sino.h sino.w / 10) := rfl
  rw [this]
  ring

/-- C92: a constant sinogram of even size is unchanged by `remove_stripe_based_2d_filtering_sorting`. -/
theorem filtering2d_constant (as1 : Argsort ℝ) (as2 : Argsort ℕ) (size : ℕ) (hs : 0 < size) (sigma c : ℝ) (sino : Mat ℝ)
    (hc : ∀ i < sino.h, ∀ j < sino.w, sino.get i j = c) (he1 : sino.h % 2 = 0) (he2 : sino.w % 2 = 0) :
    ∀ i < sino.h, ∀ j < sino.w, (remove2dFilteringSorting as1 as2 (medianFilterRow size) sigma sino).get i j = c := by
  intro i hi j hj
  set sharp : Mat ℝ := ⟨sino.h, sino.w, fun i j => sino.get i j -
    (gaussianFilter sino sigma sigma (min 150 (min sino.h sino.w / 10))).get i j⟩ with hsharp
  have h := (filtering2d_change as1 as2 (medianFilterRow size) sigma sino sharp rfl rfl (fun _ _ => rfl)).2.2 i j
  have hcs : ∀ i < sino.h, ∀ j < sino.w, sharp.get i j = c - Real.exp (-(1 / (8 * sigma ^ 2) + 1 / (8 * sigma ^ 2))) * c := by
    intro i hi j hj
    show sino.get i j - _ = _
    rw [hc i hi j hj, gaussian_filter_gain sino c sigma sigma _ hc he1 he2 i j hi hj]
  have hfix := stripe_sorting_fixes_stripe_free as1 as2 size hs sharp (by
    intro a ha b hb
    have : line sharp.T a = line sharp.T b := by
      unfold line
      apply List.map_congr_left
      intro r hr
      have hr : r < sino.h := List.mem_range.1 hr
      show sharp.get r a = sharp.get r b
      rw [hcs r hr a ha, hcs r hr b hb]
    rw [this]) i hi j hj
  rw [hfix, sub_self] at h
  rw [sub_eq_zero.1 h, hc i hi j hj]

/-! ### C93: fitting -/

/-- C93: the window length is the largest odd number not above nrow / num_chunk, and must exceed the polynomial order. -/
theorem fit_length_spec (n order numChunk L : ℕ) :
    fitLength n order numChunk = .ok L ↔ 0 < numChunk ∧ L % 2 = 1 ∧ L ≤ n / numChunk ∧ n / numChunk ≤ L + 1 ∧ order < L := by
  unfold fitLength
  by_cases hc : numChunk = 0
  · rw [if_pos hc]
    constructor
    · intro h; cases h
    · rintro ⟨h, _⟩; omega
  · rw [if_neg hc]
    dsimp only
    generalize n / numChunk = s
    by_cases hodd : ((s : ℕ) : ℤ) % 2 = 1
    · simp only [if_pos hodd]
      by_cases hle : ((s : ℕ) : ℤ) ≤ order
      · rw [if_pos hle]
        constructor
        · intro h; cases h
        · rintro ⟨_, h1, h2, h3, h4⟩; omega
      · rw [if_neg hle]
        constructor
        · intro h
          have := Except.ok.inj h
          omega
        · rintro ⟨_, h1, h2, h3, h4⟩
          congr 1
          omega
    · simp only [if_neg hodd]
      by_cases hle : ((s : ℕ) : ℤ) - 1 ≤ order
      · rw [if_pos hle]
        constructor
        · intro h; cases h
        · rintro ⟨_, h1, h2, h3, h4⟩; omega
      · rw [if_neg hle]
        constructor
        · intro h
          have := Except.ok.inj h
          omega
        · rintro ⟨_, h1, h2, h3, h4⟩
          congr 1
          omega

/-- C93: which exception is raised: `ZeroDivisionError` for zero chunks, `ValueError` (scipy) for a window not longer than the order. -/
theorem fit_length_errors (n order numChunk : ℕ) : (numChunk = 0 → fitLength n order numChunk = .error .zeroDivision) ∧
    (numChunk ≠ 0 → ∀ e, fitLength n order numChunk = .error e → e = .valueError) := by
  unfold fitLength
  refine ⟨fun h => if_pos h, fun h e he => ?_⟩
  rw [if_neg h] at he
  dsimp only at he
  split_ifs at he <;> exact (Except.error.inj he).symm

theorem meanAbs_const (m : Mat ℝ) (c : ℝ) (hh : 0 < m.h) (hw : 0 < m.w) (h : ∀ i < m.h, ∀ j < m.w, m.get i j = c) : meanAbs m = |c| := by
  unfold meanAbs
  have : (∑ i ∈ Finset.range m.h, ∑ j ∈ Finset.range m.w, |m.get i j|) = ∑ i ∈ Finset.range m.h, ∑ j ∈ Finset.range m.w, |c| :=
    Finset.sum_congr rfl fun i hi => Finset.sum_congr rfl fun j hj => by rw [h i (Finset.mem_range.1 hi) j (Finset.mem_range.1 hj)]
  rw [this]
  simp only [Finset.sum_const, Finset.card_range, nsmul_eq_mul]
  have h1 : (m.h : ℝ) ≠ 0 := by exact_mod_cast hh.ne'
  have h2 : (m.w : ℝ) ≠ 0 := by exact_mod_cast hw.ne'
  push_cast
  field_simp

/-- C93 (partial: even image sizes, where the Gaussian filter returns a constant image for a constant image): a constant, non-zero
sinogram is returned unchanged.  `savgol` is any filter that keeps constants. -/
theorem fitting_constant_partial (as1 : Argsort ℝ) (as2 : Argsort ℕ) (savgol : ℕ → ℕ → Mat ℝ → Mat ℝ)
    (hsh : ∀ L o m, (savgol L o m).h = m.h ∧ (savgol L o m).w = m.w)
    (hsc : ∀ L o m c, o < L → L % 2 = 1 → (∀ i < m.h, ∀ j < m.w, m.get i j = c) → ∀ i < m.h, ∀ j < m.w, (savgol L o m).get i j = c)
    (order : ℕ) (sigma : ℝ) (sort : Bool) (numChunk : ℕ) (sino : Mat ℝ) (c : ℝ) (hc0 : c ≠ 0) (hc : ∀ i < sino.h, ∀ j < sino.w, sino.get i j = c)
    (he1 : sino.h % 2 = 0) (he2 : sino.w % 2 = 0) (hh : 0 < sino.h) (hw : 0 < sino.w) (L : ℕ) (hL : fitLength sino.h order numChunk = .ok L) :
    ∃ out, removeFitting as1 as2 savgol none order sigma sort numChunk sino = .ok out ∧ out.h = sino.h ∧ out.w = sino.w ∧
      ∀ i < sino.h, ∀ j < sino.w, out.get i j = c := by
  set s := if sort then (sortForward as1 0 sino).1 else sino with hs
  have hsort : ∀ i < sino.h, ∀ j < sino.w, (sortForward as1 0 sino).1.get i j = c := by
    intro i hi j hj
    have hp := ((sort_forward_sorted as1 sino).1.2.2 j).2
    have hsh0 : (sortForward as1 0 sino).1.h = sino.h := (sort_forward_sorted as1 sino).1.1
    have hmem : (sortForward as1 0 sino).1.get i j ∈ line (sortForward as1 0 sino).1.T j := by
      unfold line
      rw [List.mem_map]
      exact ⟨i, List.mem_range.2 (by show i < (sortForward as1 0 sino).1.h; omega), rfl⟩
    have h2 := hp.subset hmem
    unfold line at h2
    rw [List.mem_map] at h2
    obtain ⟨r, hr, e⟩ := h2
    rw [← e]
    exact hc r (List.mem_range.1 hr) j hj
  have hsg : s.h = sino.h ∧ s.w = sino.w ∧ ∀ i < sino.h, ∀ j < sino.w, s.get i j = c := by
    rw [hs]
    cases sort with
    | true => exact ⟨(sort_forward_sorted as1 sino).1.1, (sort_forward_sorted as1 sino).1.2.1, hsort⟩
    | false => exact ⟨rfl, rfl, hc⟩
  obtain ⟨h1, h2, h3⟩ := hsg
  set fit := savgol L order s with hfit
  have hfh : fit.h = sino.h := by rw [hfit, (hsh L order s).1, h1]
  have hfw : fit.w = sino.w := by rw [hfit, (hsh L order s).2, h2]
  have hfc : ∀ i < fit.h, ∀ j < fit.w, fit.get i j = c := by
    intro i hi j hj
    refine hsc L order s c ((fit_length_spec _ _ _ _).1 hL).2.2.2.2 ((fit_length_spec _ _ _ _).1 hL).2.1 ?_ i (by omega) j (by omega)
    intro i hi j hj
    exact h3 i (by omega) j (by omega)
  set G := Real.exp (-(1 / (8 * sigma ^ 2) + 1 / (8 * ((fitSigmaY sino.w : ℕ) : ℝ) ^ 2))) with hG
  have hGp : 0 < G := Real.exp_pos _
  set filt := gaussianFilter fit sigma (fitSigmaY sino.w : ℝ) (fitPad sino.h) with hfilt
  have hgc : ∀ i < fit.h, ∀ j < fit.w, filt.get i j = G * c := fun i hi j hj =>
    gaussian_filter_gain fit c sigma _ _ hfc (by omega) (by omega) i j hi hj
  have hm1 : meanAbs fit = |c| := meanAbs_const fit c (by omega) (by omega) hfc
  have hm2 : meanAbs filt = |G * c| := meanAbs_const filt (G * c) (by show 0 < fit.h; omega) (by show 0 < fit.w; omega) hgc
  set corr : Mat ℝ := ⟨sino.h, sino.w, fun i j => s.get i j / fit.get i j * (meanAbs fit * filt.get i j / meanAbs filt)⟩ with hcorr
  have hcc : ∀ i < sino.h, ∀ j < sino.w, corr.get i j = c := by
    intro i hi j hj
    show s.get i j / fit.get i j * (meanAbs fit * filt.get i j / meanAbs filt) = c
    rw [h3 i hi j hj, hfc i (by omega) j (by omega), hgc i (by omega) j (by omega), hm1, hm2, abs_mul, abs_of_pos hGp]
    have : |c| ≠ 0 := abs_ne_zero.2 hc0
    field_simp
  refine ⟨if sort then sortBackward as2 0 corr (sortForward as1 0 sino).2 else corr, ?_, ?_, ?_, ?_⟩
  · unfold removeFitting
    rw [hL]
    rfl
  · cases sort <;> rfl
  · cases sort <;> rfl
  · intro i hi j hj
    cases sort with
    | false => exact hcc i hi j hj
    | true =>
      rw [if_pos rfl]
      obtain ⟨ρ, hρ, _, _, h4⟩ := mat_core0 as1 as2 sino corr rfl j
      rw [h4 i hi]
      exact hcc _ (hρ i hi) j hj

theorem gaussianFilter_smul (m : Mat ℝ) (k sx sy : ℝ) (pad : ℕ) (i j : ℕ) :
    (gaussianFilter ⟨m.h, m.w, fun i j => k * m.get i j⟩ sx sy pad).get i j = k * (gaussianFilter m sx sy pad).get i j := by
  unfold gaussianFilter gaussianCore
  dsimp only
  have e : ∀ i' j' : ℕ, (((if pad ≤ i' ∧ i' < pad + m.h then k * m.get (i' - pad) (edgeIdx m.w pad j')
      else (∑ r ∈ Finset.range m.h, k * m.get r (edgeIdx m.w pad j')) / m.h) * (-1) ^ (j' + i') : ℝ) : ℂ) =
      (k : ℂ) * (((if pad ≤ i' ∧ i' < pad + m.h then m.get (i' - pad) (edgeIdx m.w pad j')
      else (∑ r ∈ Finset.range m.h, m.get r (edgeIdx m.w pad j')) / m.h) * (-1) ^ (j' + i') : ℝ) : ℂ) := by
    intro i' j'
    rw [← ofReal_mul]
    congr 1
    split
    · ring
    · rw [← Finset.mul_sum]; ring
  simp only [e]
  rw [show (fun k_1 l => dft2 (m.h + 2 * pad) (m.w + 2 * pad) (fun i' j' => (k : ℂ) * (((if pad ≤ i' ∧ i' < pad + m.h then m.get (i' - pad) (edgeIdx m.w pad j')
      else (∑ r ∈ Finset.range m.h, m.get r (edgeIdx m.w pad j')) / m.h) * (-1) ^ (j' + i') : ℝ) : ℂ)) k_1 l *
      ((gaussianWindow (m.h + 2 * pad) (m.w + 2 * pad) sx sy k_1 l : ℝ) : ℂ)) = fun k_1 l => (k : ℂ) * (dft2 (m.h + 2 * pad) (m.w + 2 * pad) (fun i' j' =>
      (((if pad ≤ i' ∧ i' < pad + m.h then m.get (i' - pad) (edgeIdx m.w pad j')
      else (∑ r ∈ Finset.range m.h, m.get r (edgeIdx m.w pad j')) / m.h) * (-1) ^ (j' + i') : ℝ) : ℂ)) k_1 l *
      ((gaussianWindow (m.h + 2 * pad) (m.w + 2 * pad) sx sy k_1 l : ℝ) : ℂ)) from by
    funext k1 l
    rw [dft2_smul]
    ring]
  rw [idft2_smul, mul_assoc, Complex.re_ofReal_mul]

theorem meanAbs_smul (m n : Mat ℝ) (k : ℝ) (hh : n.h = m.h) (hw : n.w = m.w) (h : ∀ i j, n.get i j = k * m.get i j) :
    meanAbs n = |k| * meanAbs m := by
  unfold meanAbs
  rw [hh, hw]
  simp only [h, abs_mul, ← Finset.mul_sum]
  ring

/-- C93: rescaling the sinogram by a non-zero factor (without sorting) rescales the result by the same factor: the method does not depend on
the unit.  `savgol` and a user filter are assumed homogeneous. -/
theorem fitting_scale (as1 : Argsort ℝ) (as2 : Argsort ℕ) (savgol : ℕ → ℕ → Mat ℝ → Mat ℝ)
    (hsh : ∀ L o m, (savgol L o m).h = m.h ∧ (savgol L o m).w = m.w)
    (hsk : ∀ L o (m : Mat ℝ) (k : ℝ), savgol L o ⟨m.h, m.w, fun i j => k * m.get i j⟩ = ⟨m.h, m.w, fun i j => k * (savgol L o m).get i j⟩)
    (user : Option (Mat ℝ → Mat ℝ))
    (husr : ∀ f, user = some f → ∀ (m : Mat ℝ) (k : ℝ), f ⟨m.h, m.w, fun i j => k * m.get i j⟩ = ⟨(f m).h, (f m).w, fun i j => k * (f m).get i j⟩)
    (order : ℕ) (sigma : ℝ) (numChunk : ℕ) (sino out : Mat ℝ) (k : ℝ) (hk : k ≠ 0)
    (h : removeFitting as1 as2 savgol user order sigma false numChunk sino = .ok out) :
    ∃ out', removeFitting as1 as2 savgol user order sigma false numChunk ⟨sino.h, sino.w, fun i j => k * sino.get i j⟩ = .ok out' ∧
      out'.h = out.h ∧ out'.w = out.w ∧ ∀ i < sino.h, ∀ j < sino.w, out'.get i j = k * out.get i j := by
  unfold removeFitting at h ⊢
  dsimp only at h ⊢
  cases hL : fitLength sino.h order numChunk with
  | error e => rw [hL] at h; cases h
  | ok L =>
    rw [hL] at h
    have h := Except.ok.inj h
    subst h
    refine ⟨_, rfl, rfl, rfl, ?_⟩
    intro i hi j hj
    simp only [Bool.false_eq_true, if_false]
    set fit := savgol L order sino with hfit
    have hfh : fit.h = sino.h := (hsh L order sino).1
    have hfw : fit.w = sino.w := (hsh L order sino).2
    have e1 : savgol L order ⟨sino.h, sino.w, fun i j => k * sino.get i j⟩ = ⟨fit.h, fit.w, fun i j => k * fit.get i j⟩ := by
      rw [hsk, hfh, hfw]
    rw [e1]
    have hm : meanAbs ⟨fit.h, fit.w, fun i j => k * fit.get i j⟩ = |k| * meanAbs fit := meanAbs_smul fit _ k rfl rfl fun _ _ => rfl
    rw [hm]
    have hak : |k| ≠ 0 := abs_ne_zero.2 hk
    have fin : ∀ A B M : ℝ, k * sino.get i j / (k * fit.get i j) * (|k| * M * (k * A) / (|k| * B)) =
        k * (sino.get i j / fit.get i j * (M * A / B)) := by
      intro A B M
      rw [mul_div_mul_left _ _ hk, mul_assoc |k|, mul_div_mul_left _ _ hak]
      ring
    cases user with
    | none =>
      dsimp only
      have e2 : meanAbs (gaussianFilter ⟨fit.h, fit.w, fun i j => k * fit.get i j⟩ sigma (fitSigmaY sino.w : ℝ) (fitPad sino.h)) =
          |k| * meanAbs (gaussianFilter fit sigma (fitSigmaY sino.w : ℝ) (fitPad sino.h)) :=
        meanAbs_smul _ _ k rfl rfl fun i j => gaussianFilter_smul fit k _ _ _ i j
      rw [e2, gaussianFilter_smul, fin]
    | some f =>
      dsimp only
      rw [husr f rfl]
      have e2 : meanAbs ⟨(f fit).h, (f fit).w, fun i j => k * (f fit).get i j⟩ = |k| * meanAbs (f fit) :=
        meanAbs_smul (f fit) _ k rfl rfl fun _ _ => rfl
      rw [e2, fin]

/-! ### C94: all stripes -/

/-- Full claim: `remove_all_stripe` returns an image for every sinogram. -/
def AllSucceeds (as1 : Argsort ℝ) (as2 : Argsort ℕ) (unif med : ℕ → (ℕ → ℝ) → ℕ → ℝ) (smooth filt : Mat ℝ → Mat ℝ) (snr : ℝ) (ndrop : ℕ)
    (sino : Mat ℝ) : Prop := ∃ out, removeAll as1 as2 unif med smooth filt snr ndrop sino = .ok out

theorem dead_stripe_free (unif med : ℕ → (ℕ → ℝ) → ℕ → ℝ) (hmed : ∀ n c j, j < n → med n (fun _ => c) j = c) (h w : ℕ) (a : ℕ → ℝ)
    (hv : ∃ i < h, a i ≠ unif h a i) (c : ℕ) (hc : c < w) : deadFact unif med (stripeFree h w a) c = 1 := by
  unfold deadFact stripeFree
  dsimp only
  set D : ℝ := ∑ i ∈ Finset.range h, |a i - unif h a i| with hD
  have hDp : D ≠ 0 := by
    obtain ⟨i, hi, hne⟩ := hv
    have : 0 < D := by
      rw [hD]
      exact Finset.sum_pos' (fun _ _ => abs_nonneg _) ⟨i, Finset.mem_range.2 hi, abs_pos.2 (sub_ne_zero.2 hne)⟩
    exact this.ne'
  have hb : med w (fun _ => D) c = D := hmed w D c hc
  show D / (if med w (fun _ => D) c = 0 then _ else med w (fun _ => D) c) = 1
  rw [hb, if_neg hDp, div_self hDp]

/-- C94 is false of the code: for every sinogram without stripes (at least 5 detector pixels, profile not reproduced by the smoothing filter),
`remove_all_stripe` — and `remove_dead_stripe` — raises `ValueError`. -/
theorem remove_all_refuted (as1 : Argsort ℝ) (as2 : Argsort ℕ) (unif med : ℕ → (ℕ → ℝ) → ℕ → ℝ) (hmed : ∀ n c j, j < n → med n (fun _ => c) j = c)
    (smooth filt : Mat ℝ → Mat ℝ) (snr : ℝ) (ndrop h w : ℕ) (hw : 5 ≤ w) (a : ℕ → ℝ) (hv : ∃ i < h, a i ≠ unif h a i) :
    removeAll as1 as2 unif med smooth filt snr ndrop (stripeFree h w a) = .error .valueError ∧
    (∀ large residual, removeDeadStripe unif med snr large residual (stripeFree h w a) = .error .valueError) ∧
    ¬ AllSucceeds as1 as2 unif med smooth filt snr ndrop (stripeFree h w a) := by
  have hd : ∀ large residual, removeDeadStripe unif med snr large residual (stripeFree h w a) = .error .valueError := by
    intro large residual
    unfold removeDeadStripe removeDead deadMask detectFn
    dsimp only
    rw [detect_rejects_flat _ snr 1 (by unfold GoodSize; rw [List.length_map, List.length_range]; right; exact hw)]
    · rfl
    · intro x hx
      rw [List.mem_map] at hx
      obtain ⟨c, hc, rfl⟩ := hx
      exact dead_stripe_free unif med hmed h w a hv c (List.mem_range.1 hc)
  have ha : removeAll as1 as2 unif med smooth filt snr ndrop (stripeFree h w a) = .error .valueError := by
    unfold removeAll
    rw [hd]
    rfl
  refine ⟨ha, hd, ?_⟩
  rintro ⟨out, ho⟩
  rw [ha] at ho
  cases ho

/-- C94 (partial): on success the shape is kept. -/
theorem remove_all_partial (as1 : Argsort ℝ) (as2 : Argsort ℕ) (unif med : ℕ → (ℕ → ℝ) → ℕ → ℝ) (smooth filt : Mat ℝ → Mat ℝ)
    (hfilt : ∀ m, (filt m).h = m.h ∧ (filt m).w = m.w) (snr : ℝ) (ndrop : ℕ) (sino out : Mat ℝ)
    (h : removeAll as1 as2 unif med smooth filt snr ndrop sino = .ok out) : out.h = sino.h ∧ out.w = sino.w := by
  unfold removeAll at h
  cases ha : removeDeadStripe unif med snr (fun s => removeLargeStripe as1 as2 smooth snr ndrop true s) false sino with
  | error e => rw [ha] at h; cases h
  | ok a =>
    rw [ha] at h
    have h : (do let b ← removeLargeStripe as1 as2 smooth snr ndrop true a; return removeStripeSorting as1 as2 filt b) = Except.ok (ε := PyErr) out := h
    have hda : a.h = sino.h ∧ a.w = sino.w := by
      unfold removeDeadStripe removeDead at ha
      cases hm : deadMask (fun s => detectFn s.w snr (deadFact unif med s)) sino with
      | error e => rw [hm] at ha; cases ha
      | ok mk =>
        rw [hm] at ha
        cases hf : fillMat (fun j => !mk j) mk sino with
        | error e =>
          have ha : (do let f ← fillMat (fun j => !mk j) mk sino
                        let s := if ((List.range sino.w).filter mk).length < sino.w / 3 ∧ 0 < ((List.range sino.w).filter mk).length then f else sino
                        if false = true then removeLargeStripe as1 as2 smooth snr ndrop true s else .ok s) = Except.ok (ε := PyErr) a := ha
          rw [hf] at ha
          cases ha
        | ok f =>
          have hfs : f.h = sino.h ∧ f.w = sino.w := by
            unfold fillMat at hf
            split at hf
            · cases hf
            · cases hr : (List.range sino.h).mapM fun i => fillLine (fun j => !mk j) mk sino.w (sino.get i) with
              | error e => rw [hr] at hf; cases hf
              | ok rows =>
                rw [hr] at hf
                have := Except.ok.inj hf
                subst this
                exact ⟨rfl, rfl⟩
          have ha : (do let f ← fillMat (fun j => !mk j) mk sino
                        let s := if ((List.range sino.w).filter mk).length < sino.w / 3 ∧ 0 < ((List.range sino.w).filter mk).length then f else sino
                        if false = true then removeLargeStripe as1 as2 smooth snr ndrop true s else .ok s) = Except.ok (ε := PyErr) a := ha
          rw [hf] at ha
          have ha : (if ((List.range sino.w).filter mk).length < sino.w / 3 ∧ 0 < ((List.range sino.w).filter mk).length then f else sino) = a := by
            simpa using Except.ok.inj ha
          rw [← ha]
          split
          · exact hfs
          · exact ⟨rfl, rfl⟩
    cases hb : removeLargeStripe as1 as2 smooth snr ndrop true a with
    | error e => rw [hb] at h; cases h
    | ok b =>
      rw [hb] at h
      have h := Except.ok.inj h
      have hdb : b.h = a.h ∧ b.w = a.w := by
        unfold removeLargeStripe removeLarge at hb
        cases hm : largeMask as1 smooth (detectFn a.w snr) ndrop a with
        | error e => rw [hm] at hb; cases hb
        | ok mk =>
          rw [hm] at hb
          have := Except.ok.inj hb
          subst this
          exact ⟨rfl, rfl⟩
      subst h
      have e1 : (sortForward as1 0 b).1.h = b.h := (sort_forward_sorted as1 b).1.1
      have e2 : (sortForward as1 0 b).1.w = b.w := (sort_forward_sorted as1 b).1.2.1
      constructor
      · show (filt (sortForward as1 0 b).1).h = _
        rw [(hfilt _).1, e1, hdb.1, hda.1]
      · show (filt (sortForward as1 0 b).1).w = _
        rw [(hfilt _).2, e2, hdb.2, hda.2]

/-- C94: the combined method is the dead-stripe step (without its own residual step), then the large-stripe step, then the sorting step, with the
first error stopping the chain; it succeeds exactly when both first steps do. -/
theorem remove_all_chain (as1 : Argsort ℝ) (as2 : Argsort ℕ) (unif med : ℕ → (ℕ → ℝ) → ℕ → ℝ) (smooth filt : Mat ℝ → Mat ℝ) (snr : ℝ)
    (ndrop : ℕ) (sino out : Mat ℝ) :
    removeAll as1 as2 unif med smooth filt snr ndrop sino = .ok out ↔
    ∃ a b, removeDeadStripe unif med snr (fun s => removeLargeStripe as1 as2 smooth snr ndrop true s) false sino = .ok a ∧
      removeLargeStripe as1 as2 smooth snr ndrop true a = .ok b ∧ out = removeStripeSorting as1 as2 filt b := by
  unfold removeAll
  cases h1 : removeDeadStripe unif med snr (fun s => removeLargeStripe as1 as2 smooth snr ndrop true s) false sino with
  | error e =>
    refine ⟨fun h => (by cases h), ?_⟩
    rintro ⟨_, _, h, _⟩
    cases h
  | ok a =>
    show (do let b ← removeLargeStripe as1 as2 smooth snr ndrop true a
             return removeStripeSorting as1 as2 filt b) = _ ↔ _
    cases h2 : removeLargeStripe as1 as2 smooth snr ndrop true a with
    | error e =>
      refine ⟨fun h => (by cases h), ?_⟩
      rintro ⟨a', b', h, h', _⟩
      cases h
      rw [h2] at h'
      cases h'
    | ok b =>
      constructor
      · intro h
        exact ⟨a, b, rfl, h2, (Except.ok.inj h).symm⟩
      · rintro ⟨a', b', h, h', rfl⟩
        cases h
        rw [h2] at h'
        cases h'
        rfl

/-! ### C95: FFT-based method -/

/-- A matrix whose columns are all the profile `a`, whatever it holds outside its area. -/
def EqualCols (m : Mat ℝ) (h w : ℕ) (a : ℕ → ℝ) : Prop := m.h = h ∧ m.w = w ∧ ∀ i < h, ∀ j < w, m.get i j = a i

theorem equalCols_free (h w : ℕ) (a : ℕ → ℝ) : EqualCols (stripeFree h w a) h w a := ⟨rfl, rfl, fun _ _ _ _ => rfl⟩

/-- Padding keeps the columns equal. -/
theorem padMeanEdge_free (m : Mat ℝ) (h w : ℕ) (hw : 0 < w) (a : ℕ → ℝ) (hm : EqualCols m h w a) (pad : ℕ) :
    ∃ b : ℕ → ℝ, padMeanEdge m pad = stripeFree (h + 2 * pad) (w + 2 * pad) b ∧ ∀ i < h, b (pad + i) = a i := by
  refine ⟨fun i => if pad ≤ i ∧ i < pad + h then a (i - pad) else (∑ r ∈ Finset.range h, a r) / h, ?_, ?_⟩
  · obtain ⟨h1, h2, h3⟩ := hm
    unfold padMeanEdge stripeFree
    rw [h1, h2]
    dsimp only
    congr 1
    funext i j
    have he : edgeIdx w pad j < w := by unfold edgeIdx; omega
    by_cases hc : pad ≤ i ∧ i < pad + h
    · rw [if_pos hc, if_pos hc]
      exact h3 _ (by omega) _ he
    · rw [if_neg hc, if_neg hc, Finset.sum_congr rfl fun r hr => h3 r (Finset.mem_range.1 hr) _ he]
  · intro i hi
    dsimp only
    rw [if_pos (by omega)]
    congr 1
    omega

/-- The sorted version of a sinogram without stripes has equal columns. -/
theorem sorted_equalCols (as1 : Argsort ℝ) (h w : ℕ) (a : ℕ → ℝ) :
    EqualCols (sortForward as1 0 (stripeFree h w a)).1 h w fun i => (sortForward as1 0 (stripeFree h w a)).1.get i 0 := by
  refine ⟨rfl, rfl, fun i hi j _ => ?_⟩
  have hs0 := (sort_forward_sorted as1 (stripeFree h w a)).1.2.2
  have hl : line (stripeFree h w a).T j = line (stripeFree h w a).T 0 := rfl
  have hperm : (line (sortForward as1 0 (stripeFree h w a)).1.T j).Perm (line (sortForward as1 0 (stripeFree h w a)).1.T 0) := by
    refine (hs0 j).2.trans ?_
    rw [hl]
    exact (hs0 0).2.symm
  have heq := List.Perm.eq_of_pairwise (le := (· ≤ ·)) (fun a b _ _ h1 h2 => le_antisymm h1 h2) (hs0 j).1 (hs0 0).1 hperm
  have hg : ∀ d, (line (sortForward as1 0 (stripeFree h w a)).1.T d).getD i default =
      (sortForward as1 0 (stripeFree h w a)).1.get i d := fun d => line_getD (sortForward as1 0 (stripeFree h w a)).1.T d i hi
  show _ = (sortForward as1 0 (stripeFree h w a)).1.get i 0
  rw [← hg j, ← hg 0, heq]

/-- A correction `f` of the sorted sinogram that applies `g` to every value of it applies `g` to every value of the sinogram. -/
theorem sorted_pointwise (as1 : Argsort ℝ) (as2 : Argsort ℕ) (h w : ℕ) (a : ℕ → ℝ) (g : ℝ → ℝ) (f : Mat ℝ) (hfh : f.h = h)
    (hf : ∀ i < h, ∀ j < w, f.get i j = g ((sortForward as1 0 (stripeFree h w a)).1.get i 0)) :
    ∀ i < h, ∀ j < w, (sortBackward as2 0 f (sortForward as1 0 (stripeFree h w a)).2).get i j = g (a i) := by
  intro i hi j hj
  obtain ⟨ρ, h1, _, h3, h4⟩ := mat_core0 as1 as2 (stripeFree h w a) f hfh j
  have e : (sortForward as1 0 (stripeFree h w a)).1.get (ρ i) j = (sortForward as1 0 (stripeFree h w a)).1.get (ρ i) 0 :=
    (sorted_equalCols as1 h w a).2.2 _ (h1 i hi) j hj
  rw [h4 i hi, hf _ (h1 i hi) j hj, ← e, h3 i hi]
  rfl

theorem dft_const (w : ℕ) (hw : 0 < w) (c : ℂ) (l : ℕ) (hl : l < w) : dft w (fun _ => c) l = if l = 0 then c * w else 0 := by
  have := dft_freq w hw c 0 l hw hl
  rw [← this]
  congr 1
  funext n
  simp

/-- Multiplying the spectrum of an image with identical columns: only the multiplier at horizontal frequency 0 matters. -/
theorem filter_free (h w : ℕ) (a : ℕ → ℝ) (mult : ℕ → ℕ → ℂ) (hm : ∀ k < h, mult k 0 = 1) (i j : ℕ) (hi : i < h) (hj : j < w) :
    idft2 h w (fun k l => dft2 h w (fun i _ => (a i : ℂ)) k l * mult k l) i j = a i := by
  rw [idft2_congr h w _ (dft2 h w (fun i _ => (a i : ℂ))) i j]
  · exact idft2_dft2 h w _ i j hi hj
  · intro k hk l hl
    by_cases h0 : l = 0
    · rw [h0, hm k hk, mul_one]
    · have : dft2 h w (fun i _ => (a i : ℂ)) k l = 0 := by
        unfold dft2
        have e : (fun i => dft w (fun _ => (a i : ℂ)) l) = fun _ => (0 : ℂ) := by
          funext i
          rw [dft_const w (by omega) _ l hl, if_neg h0]
        rw [e]
        unfold dft
        simp
      rw [this, zero_mul]

theorem ceil_half_nat (n : ℕ) : ⌈(n : ℝ) / 2⌉ = (((n + 1) / 2 : ℕ) : ℤ) := by
  rw [Int.ceil_eq_iff]
  have h1 : 2 * ((n + 1) / 2) ≤ n + 1 := Nat.mul_div_le _ _
  have h2 : n ≤ 2 * ((n + 1) / 2) := by omega
  have h1' : (2 : ℝ) * (((n + 1) / 2 : ℕ) : ℝ) ≤ n + 1 := by exact_mod_cast h1
  have h2' : (n : ℝ) ≤ 2 * (((n + 1) / 2 : ℕ) : ℝ) := by exact_mod_cast h2
  rw [Int.cast_natCast]
  constructor <;> linarith

/-- Gain of the stripe window on the zero horizontal frequency: 1 for odd widths. -/
theorem butterworth_zero_col (w h : ℕ) (u : ℝ) (v n i : ℕ) (hn : 1 ≤ n) (hw : w % 2 = 1) : butterworth w h u v n i (w / 2) = 1 := by
  unfold butterworth
  rw [ceil_half_nat, ceil_half_nat, Int.cast_natCast, show (w + 1) / 2 = w / 2 + 1 by omega]
  dsimp only
  split_ifs
  · push_cast
    rw [show ((w / 2 : ℕ) : ℝ) - (((w / 2 : ℕ) : ℝ) + 1 - 1) = 0 by ring, zero_div, zero_pow (by omega)]
    norm_num
  · rfl

/-- Full claim: a sinogram without stripes is returned unchanged. -/
def FftKeepsStripeFree (as1 : Argsort ℝ) (as2 : Argsort ℕ) (u : ℝ) (n v : ℕ) (sort : Bool) (h w : ℕ) (a : ℕ → ℝ) : Prop :=
  ∀ i < h, ∀ j < w, (removeFft as1 as2 u n v sort (stripeFree h w a)).get i j = a i

theorem fftCore_free (m : Mat ℝ) (h w : ℕ) (a : ℕ → ℝ) (hm : EqualCols m h w a) (u : ℝ) (v n : ℕ) (hn : 1 ≤ n) (hw : w % 2 = 1) (i j : ℕ)
    (hi : i < h) (hj : j < w) : (fftCore m u v n).get i j = |a i| := by
  unfold fftCore
  dsimp only
  rw [hm.1, hm.2.1]
  obtain ⟨b, hb, hab⟩ := padMeanEdge_free m h w (by omega) a hm (pad10 (min h w))
  rw [hb]
  set pad := pad10 (min h w)
  have key := filter_free (h + 2 * pad) (w + 2 * pad) b
    (fun k l => ((butterworth (w + 2 * pad) (h + 2 * pad) u v n (ifftshiftIdx (h + 2 * pad) k) (ifftshiftIdx (w + 2 * pad) l) : ℝ) : ℂ)) (by
      intro k hk
      rw [ifftshiftIdx_zero, butterworth_zero_col _ _ _ _ _ _ hn (by omega)]
      simp) (pad + i) (pad + j) (by omega) (by omega)
  have : stripeFft (stripeFree (h + 2 * pad) (w + 2 * pad) b) u v n (pad + i) (pad + j) = (b (pad + i) : ℂ) := key
  rw [this, hab i hi, Complex.norm_real, Real.norm_eq_abs]

/-- C95, what holds: for odd detector widths a sinogram without stripes comes back with its absolute values, with or without sorting; in
particular it is unchanged if it has no negative value. -/
theorem fft_stripe_free_partial (as1 : Argsort ℝ) (as2 : Argsort ℕ) (u : ℝ) (n v : ℕ) (hn : 1 ≤ n) (sort : Bool) (h w : ℕ) (hw : w % 2 = 1)
    (a : ℕ → ℝ) :
    (∀ i < h, ∀ j < w, (removeFft as1 as2 u n v sort (stripeFree h w a)).get i j = |a i|) ∧
    ((∀ i < h, 0 ≤ a i) → FftKeepsStripeFree as1 as2 u n v sort h w a) := by
  have key : ∀ i < h, ∀ j < w, (removeFft as1 as2 u n v sort (stripeFree h w a)).get i j = |a i| := by
    cases sort with
    | false =>
      intro i hi j hj
      exact fftCore_free _ h w a (equalCols_free h w a) u v n hn hw i j hi hj
    | true =>
      exact sorted_pointwise as1 as2 h w a (fun x => |x|) _ rfl fun i hi j hj =>
        fftCore_free _ h w _ (sorted_equalCols as1 h w a) u v n hn hw i j hi hj
  refine ⟨key, fun hpos i hi j hj => ?_⟩
  rw [key i hi j hj, abs_of_nonneg (hpos i hi)]

/-- The gain on constant sinograms of even width and height whose zero row is damped. -/
theorem fft_constant_gain (as1 : Argsort ℝ) (as2 : Argsort ℕ) (u : ℝ) (n v : ℕ) (hv : 1 ≤ v) (h w : ℕ) (he1 : h % 2 = 0)
    (he2 : w % 2 = 0) (c : ℝ) (i j : ℕ) (hi : i < h) (hj : j < w) :
    (removeFft as1 as2 u n v false (stripeFree h w fun _ => c)).get i j = |c| / (1 + (1 / u) ^ (2 * n)) := by
  unfold removeFft
  simp only [Bool.false_eq_true, if_false]
  unfold fftCore
  dsimp only
  show ‖stripeFft (padMeanEdge (stripeFree h w fun _ => c) (pad10 (min h w))) u v n (pad10 (min h w) + i) (pad10 (min h w) + j)‖ = _
  set pad := pad10 (min h w)
  have hpm : padMeanEdge (stripeFree h w fun _ => c) pad = stripeFree (h + 2 * pad) (w + 2 * pad) fun _ => c := by
    unfold padMeanEdge stripeFree
    dsimp only
    have hh : (h : ℝ) ≠ 0 := by exact_mod_cast (by omega : h ≠ 0)
    simp only [Finset.sum_const, Finset.card_range, nsmul_eq_mul, mul_div_cancel_left₀ _ hh, ite_self]
  rw [hpm]
  have key := filter2_freq (h + 2 * pad) (w + 2 * pad) (by omega) (by omega) (c : ℂ) 0 0 (by omega) (by omega)
    (fun k l => ((butterworth (w + 2 * pad) (h + 2 * pad) u v n (ifftshiftIdx (h + 2 * pad) k) (ifftshiftIdx (w + 2 * pad) l) : ℝ) : ℂ)) (pad + i) (pad + j)
  simp only [Nat.cast_zero, zero_mul, zero_div, mul_zero, exp_zero, mul_one] at key
  have e : stripeFft (stripeFree (h + 2 * pad) (w + 2 * pad) fun _ => c) u v n (pad + i) (pad + j) =
      ((butterworth (w + 2 * pad) (h + 2 * pad) u v n ((h + 2 * pad) / 2) ((w + 2 * pad) / 2) : ℝ) : ℂ) * c := by
    rw [ifftshiftIdx_zero, ifftshiftIdx_zero] at key
    exact key
  have hb : butterworth (w + 2 * pad) (h + 2 * pad) u v n ((h + 2 * pad) / 2) ((w + 2 * pad) / 2) = 1 / (1 + (1 / u) ^ (2 * n)) := by
    unfold butterworth
    rw [ceil_half_nat, ceil_half_nat, Int.cast_natCast, show (w + 2 * pad + 1) / 2 = (w + 2 * pad) / 2 by omega,
      show (h + 2 * pad + 1) / 2 = (h + 2 * pad) / 2 by omega]
    dsimp only
    rw [if_pos (by omega), show (((w + 2 * pad) / 2 : ℕ) : ℝ) - ((((w + 2 * pad) / 2 : ℕ) : ℝ) - 1) = 1 by ring]
  rw [e, hb, norm_mul, Complex.norm_real, Complex.norm_real, Real.norm_eq_abs, Real.norm_eq_abs]
  have hp : 0 < 1 / (1 + (1 / u) ^ (2 * n)) := by
    have : 0 ≤ (1 / u) ^ (2 * n) := by rw [pow_mul]; positivity
    positivity
  rw [abs_of_pos hp]
  ring

/-- C95 is false of the code: negative values change sign (projection data after the logarithm may be negative), and for even sizes even a
positive constant sinogram is dimmed. -/
theorem fft_stripe_free_refuted (as1 : Argsort ℝ) (as2 : Argsort ℕ) (u : ℝ) (n v : ℕ) (hn : 1 ≤ n) (h w : ℕ) (a : ℕ → ℝ) (hw0 : 0 < w) :
    (∀ sort, w % 2 = 1 → (∃ i < h, a i < 0) → ¬ FftKeepsStripeFree as1 as2 u n v sort h w a) ∧
    (∀ c : ℝ, 0 < c → u ≠ 0 → 1 ≤ v → 0 < h → h % 2 = 0 → w % 2 = 0 → ¬ FftKeepsStripeFree as1 as2 u n v false h w fun _ => c) := by
  constructor
  · rintro sort hw ⟨i, hi, hneg⟩ H
    have h1 := H i hi 0 hw0
    rw [(fft_stripe_free_partial as1 as2 u n v hn sort h w hw a).1 i hi 0 hw0] at h1
    linarith [abs_nonneg (a i)]
  · intro c hc hu hv hh he1 he2 H
    have h1 := H 0 hh 0 hw0
    rw [fft_constant_gain as1 as2 u n v hv h w he1 he2 c 0 0 hh hw0, abs_of_pos hc] at h1
    have hp : 0 < (1 / u) ^ (2 * n) := by
      rw [pow_mul]
      have : 1 / u ≠ 0 := one_div_ne_zero hu
      positivity
    rw [div_eq_iff (by linarith)] at h1
    nlinarith

/-- C95: the method never returns negative values and keeps the shape. -/
theorem fft_nonneg (as1 : Argsort ℝ) (as2 : Argsort ℕ) (u : ℝ) (n v : ℕ) (sort : Bool) (sino : Mat ℝ) :
    (removeFft as1 as2 u n v sort sino).h = sino.h ∧ (removeFft as1 as2 u n v sort sino).w = sino.w ∧
    ∀ i < sino.h, ∀ j < sino.w, 0 ≤ (removeFft as1 as2 u n v sort sino).get i j := by
  cases sort with
  | false => exact ⟨rfl, rfl, fun i _ j _ => norm_nonneg _⟩
  | true =>
    refine ⟨rfl, rfl, ?_⟩
    intro i hi j hj
    show 0 ≤ (sortBackward as2 0 (fftCore (sortForward as1 0 sino).1 u v n) (sortForward as1 0 sino).2).get i j
    obtain ⟨ρ, hρ, _, _, h4⟩ := mat_core0 as1 as2 sino (fftCore (sortForward as1 0 sino).1 u v n) rfl j
    rw [h4 i hi]
    exact norm_nonneg _

/-! ### C96: wavelet-FFT method -/

/-- C96: sinograms with fewer than 14 rows or columns are rejected; from 14 on the call succeeds and keeps the shape. -/
theorem wavelet_sizes (as1 : Argsort ℝ) (as2 : Argsort ℕ) (wavedec : ℕ → Mat ℝ → WData (Mat ℝ)) (waverec : WData (Mat ℝ) → Mat ℝ)
    (level : Option ℤ) (size : ℝ) (butter sort : Bool) (sino : Mat ℝ) (hh : 0 < sino.h) (hw : 0 < sino.w) :
    (min sino.h sino.w < 14 → removeWavelet as1 as2 wavedec waverec level size butter sort sino = .error .valueError) ∧
    (14 ≤ min sino.h sino.w → ∃ out, removeWavelet as1 as2 wavedec waverec level size butter sort sino = .ok out ∧
      out.h = sino.h ∧ out.w = sino.w) := by
  have core : ∀ m : Mat ℝ, m.h = sino.h → m.w = sino.w →
      (min sino.h sino.w < 14 → waveletCore wavedec waverec level size butter m = .error .valueError) ∧
      (14 ≤ min sino.h sino.w → ∃ out, waveletCore wavedec waverec level size butter m = .ok out ∧ out.h = sino.h ∧ out.w = sino.w) := by
    intro m h1 h2
    constructor
    · intro hlt
      unfold waveletCore
      dsimp only
      rw [show (padMeanEdge m (pad10 (min m.h m.w))).h = m.h + 2 * pad10 (min m.h m.w) from rfl,
        show (padMeanEdge m (pad10 (min m.h m.w))).w = m.w + 2 * pad10 (min m.h m.w) from rfl,
        level_too_small _ _ (by omega) (by omega) (by unfold pad10; omega)]
      rfl
    · intro hge
      unfold waveletCore
      dsimp only
      obtain ⟨L, hL, _⟩ := level_used (padMeanEdge m (pad10 (min m.h m.w))).h (padMeanEdge m (pad10 (min m.h m.w))).w (by
        show 16 ≤ min (m.h + 2 * pad10 (min m.h m.w)) (m.w + 2 * pad10 (min m.h m.w))
        unfold pad10
        omega) level
      rw [hL]
      exact ⟨_, rfl, h1, h2⟩
  cases sort with
  | false => exact core sino rfl rfl
  | true =>
    obtain ⟨c1, c2⟩ := core (sortForward as1 0 sino).1 (sort_forward_sorted as1 sino).1.1 (sort_forward_sorted as1 sino).1.2.1
    constructor
    · intro hlt
      show (do let r ← waveletCore wavedec waverec level size butter (sortForward as1 0 sino).1
               return sortBackward as2 0 r (sortForward as1 0 sino).2) = _
      rw [c1 hlt]
      rfl
    · intro hge
      obtain ⟨out, ho, e1, e2⟩ := c2 hge
      refine ⟨sortBackward as2 0 out (sortForward as1 0 sino).2, ?_, e1, e2⟩
      show (do let r ← waveletCore wavedec waverec level size butter (sortForward as1 0 sino).1
               return sortBackward as2 0 r (sortForward as1 0 sino).2) = _
      rw [ho]
      rfl

/-- What is used of PyWavelets: reconstruction inverts decomposition (on the area of the image), and the component holding the differences
across columns vanishes for images with identical columns. -/
structure GoodWavelet (wavedec : ℕ → Mat ℝ → WData (Mat ℝ)) (waverec : WData (Mat ℝ) → Mat ℝ) : Prop where
  inverse : ∀ L m, ∀ i < m.h, ∀ j < m.w, (waverec (wavedec L m)).get i j = m.get i j
  flat : ∀ L h w a, ∀ t ∈ (wavedec L (stripeFree h w a)).details, ∀ i j, (t 1).get i j = 0

theorem dampDetail_zero (m : Mat ℝ) (hm : ∀ i j, m.get i j = 0) (size : ℝ) (butter : Bool) : dampDetail m size butter = m := by
  unfold dampDetail filter2
  have hget : m.get = fun _ _ => 0 := by funext i j; exact hm i j
  rcases m with ⟨mh, mw, mg⟩
  dsimp only at hget ⊢
  subst hget
  congr 1
  funext i j
  have e : ∀ k l, dft2 mh mw (fun _ _ => (((0 : ℝ)) : ℂ)) k l = 0 := by
    intro k l
    unfold dft2 dft
    simp
  simp only [e, zero_mul]
  unfold idft2 idft
  simp

theorem waveletCore_free (wavedec : ℕ → Mat ℝ → WData (Mat ℝ)) (waverec : WData (Mat ℝ) → Mat ℝ)
    (hg : GoodWavelet wavedec waverec) (level : Option ℤ) (size : ℝ) (butter : Bool) (m : Mat ℝ) (h w : ℕ) (hs : 14 ≤ min h w) (a : ℕ → ℝ)
    (hm : EqualCols m h w a) :
    ∃ out, waveletCore wavedec waverec level size butter m = .ok out ∧ out.h = h ∧ out.w = w ∧ ∀ i < h, ∀ j < w, out.get i j = a i := by
  unfold waveletCore
  dsimp only
  rw [hm.1, hm.2.1]
  obtain ⟨b, hb, hab⟩ := padMeanEdge_free m h w (by omega) a hm (pad10 (min h w))
  rw [hb]
  obtain ⟨L, hL, _⟩ := level_used (h + 2 * pad10 (min h w)) (w + 2 * pad10 (min h w)) (by unfold pad10; omega) level
  have hL' : levelUsed (stripeFree (h + 2 * pad10 (min h w)) (w + 2 * pad10 (min h w)) b).h
    (stripeFree (h + 2 * pad10 (min h w)) (w + 2 * pad10 (min h w)) b).w level = .ok L := hL
  rw [hL']
  refine ⟨_, rfl, rfl, rfl, ?_⟩
  intro i hi j hj
  dsimp only
  have hd : dampAll size butter (wavedec L (stripeFree (h + 2 * pad10 (min h w)) (w + 2 * pad10 (min h w)) b)) =
      wavedec L (stripeFree (h + 2 * pad10 (min h w)) (w + 2 * pad10 (min h w)) b) := by
    have hfl := hg.flat L (h + 2 * pad10 (min h w)) (w + 2 * pad10 (min h w)) b
    generalize wavedec L (stripeFree (h + 2 * pad10 (min h w)) (w + 2 * pad10 (min h w)) b) = D at hfl ⊢
    rcases D with ⟨A, ds⟩
    unfold dampAll
    dsimp only at hfl ⊢
    congr 1
    conv_rhs => rw [← List.map_id ds]
    apply List.map_congr_left
    intro t ht
    funext c
    by_cases hc : c = 1
    · rw [if_pos hc, dampDetail_zero _ (hfl t ht), hc]
      rfl
    · rw [if_neg hc]
      rfl
  rw [hd]
  have := hg.inverse L (stripeFree (h + 2 * pad10 (min h w)) (w + 2 * pad10 (min h w)) b) (pad10 (min h w) + i) (by
    show _ < h + 2 * pad10 (min h w); omega) (pad10 (min h w) + j) (by show _ < w + 2 * pad10 (min h w); omega)
  show (waverec (wavedec L (stripeFree (h + 2 * pad10 (min h w)) (w + 2 * pad10 (min h w)) b))).get (pad10 (min h w) + i) (pad10 (min h w) + j) = a i
  rw [this]
  exact hab i hi

/-- C96: a sinogram without stripes (at least 14 × 14) is returned unchanged, with or without sorting, for every level and window. -/
theorem wavelet_stripe_free (as1 : Argsort ℝ) (as2 : Argsort ℕ) (wavedec : ℕ → Mat ℝ → WData (Mat ℝ)) (waverec : WData (Mat ℝ) → Mat ℝ)
    (hg : GoodWavelet wavedec waverec) (level : Option ℤ) (size : ℝ) (butter sort : Bool) (h w : ℕ) (hs : 14 ≤ min h w) (a : ℕ → ℝ) :
    ∃ out, removeWavelet as1 as2 wavedec waverec level size butter sort (stripeFree h w a) = .ok out ∧ out.h = h ∧ out.w = w ∧
      ∀ i < h, ∀ j < w, out.get i j = a i := by
  cases sort with
  | false => exact waveletCore_free wavedec waverec hg level size butter _ h w hs a (equalCols_free h w a)
  | true =>
    obtain ⟨r, hr, e1, e2, e3⟩ := waveletCore_free wavedec waverec hg level size butter _ h w hs _ (sorted_equalCols as1 h w a)
    refine ⟨sortBackward as2 0 r (sortForward as1 0 (stripeFree h w a)).2, ?_, e1, e2, ?_⟩
    · show (do let r ← waveletCore wavedec waverec level size butter (sortForward as1 0 (stripeFree h w a)).1
               return sortBackward as2 0 r (sortForward as1 0 (stripeFree h w a)).2) = _
      rw [hr]
      rfl
    · exact sorted_pointwise as1 as2 h w a (fun x => x) r e1 e3

/-- Non-vacuity: a decomposition that keeps the first column as the approximation and the differences to it as component 1 of its only level is
a good wavelet (with a non-trivial detail). -/
example : GoodWavelet
    (fun _ m => ⟨⟨m.h, m.w, fun i _ => m.get i 0⟩, [fun _ => ⟨m.h, m.w, fun i j => m.get i j - m.get i 0⟩]⟩)
    (fun d => ⟨d.approx.h, d.approx.w, fun i j => d.approx.get i j + (d.details.map fun t => (t 1).get i j).sum⟩) := by
  constructor
  · intro L m i _ j _
    show m.get i 0 + ([m.get i j - m.get i 0] : List ℝ).sum = _
    simp
  · intro L h w a t ht i j
    simp only [List.mem_singleton] at ht
    subst ht
    show a i - a i = 0
    ring

/-! ### C97: ring removal -/

/-- C97: images that are not square are rejected; otherwise the corners outside the inscribed circle are set to zero and the shape is kept. -/
theorem ring_shape (clean : Mat ℝ → Py (Mat ℝ)) (mat : Mat ℝ) :
    (mat.h ≠ mat.w → removeRing clean mat = .error .valueError) ∧
    (∀ out, removeRing clean mat = .ok out → out.h = mat.h ∧ out.w = mat.w ∧
      ∀ i j : ℕ, ((mat.w / 2 : ℕ) : ℝ) ^ 2 < ((j : ℝ) - ((mat.w / 2 : ℕ) : ℝ)) ^ 2 + ((i : ℝ) - ((mat.w / 2 : ℕ) : ℝ)) ^ 2 → out.get i j = 0) := by
  unfold removeRing
  constructor
  · intro h; rw [if_pos h]
  · intro out h
    by_cases hs : mat.h ≠ mat.w
    · rw [if_pos hs] at h; cases h
    · rw [if_neg hs] at h
      dsimp only at h
      cases hc : clean ⟨mat.w, mat.w, fun i j => Correction.sample mat.w mat.w mat.get (rectFromPolar mat.w mat.w mat.w mat.w i j).2
        (rectFromPolar mat.w mat.w mat.w mat.w i j).1⟩ with
      | error e => rw [hc] at h; cases h
      | ok c =>
        rw [hc] at h
        have h := Except.ok.inj h
        subst h
        refine ⟨(not_not.1 hs).symm, rfl, ?_⟩
        intro i j hout
        have : (Simulation.circleMask (K := ℝ) mat.w 1).get i j = 0 := by
          unfold Simulation.circleMask
          dsimp only
          rw [if_neg]
          intro hle
          nlinarith
        show _ * (Simulation.circleMask (K := ℝ) mat.w 1).get i j = 0
        rw [this, mul_zero]

theorem sample_const (h w : ℕ) (hh : 0 < h) (hw : 0 < w) (g : ℕ → ℕ → ℝ) (c : ℝ) (hc : ∀ i < h, ∀ j < w, g i j = c) (y x : ℝ) :
    Correction.sample h w g y x = c := by
  unfold Correction.sample
  dsimp only
  have e : ∀ a b, g (reflectIdx h a) (reflectIdx w b) = c := fun a b => hc _ (reflectIdx_lt h a hh) _ (reflectIdx_lt w b hw)
  rw [e, e, e, e]
  ring

/-- Full claim: an image without rings (constant inside) is unchanged inside the circle. -/
def RingKeepsConstant (clean : Mat ℝ → Py (Mat ℝ)) (n : ℕ) (c : ℝ) : Prop :=
  ∀ out, removeRing clean ⟨n, n, fun _ _ => c⟩ = .ok out → ∀ i < n, ∀ j < n,
    ((j : ℝ) - ((n / 2 : ℕ) : ℝ)) ^ 2 + ((i : ℝ) - ((n / 2 : ℕ) : ℝ)) ^ 2 ≤ ((n / 2 : ℕ) : ℝ) ^ 2 → out.get i j = c

theorem ring_value (clean : Mat ℝ → Py (Mat ℝ)) (n : ℕ) (hn : 0 < n) (c d : ℝ)
    (hcl : ∀ m : Mat ℝ, m.h = n → m.w = n → (∀ i < n, ∀ j < n, m.get i j = c) → ∃ o, clean m = .ok o ∧ ∀ i < n, ∀ j < n, o.get i j = d) :
    ∃ out, removeRing clean ⟨n, n, fun _ _ => c⟩ = .ok out ∧ ∀ i < n, ∀ j < n,
      ((j : ℝ) - ((n / 2 : ℕ) : ℝ)) ^ 2 + ((i : ℝ) - ((n / 2 : ℕ) : ℝ)) ^ 2 ≤ ((n / 2 : ℕ) : ℝ) ^ 2 → out.get i j = d := by
  unfold removeRing
  rw [if_neg (by simp)]
  dsimp only
  obtain ⟨o, ho, hd⟩ := hcl ⟨n, n, fun i j => Correction.sample n n (fun _ _ => c) (rectFromPolar n n n n i j).2 (rectFromPolar n n n n i j).1⟩ rfl rfl
    (fun i _ j _ => sample_const n n hn hn _ c (fun _ _ _ _ => rfl) _ _)
  rw [ho]
  refine ⟨_, rfl, ?_⟩
  intro i _ j _ hin
  dsimp only
  rw [sample_const n n hn hn _ d hd]
  have : (Simulation.circleMask (K := ℝ) n 1).get i j = 1 := by
    unfold Simulation.circleMask
    dsimp only
    rw [if_pos]
    nlinarith
  rw [this, mul_one]

theorem equalCols_const (as1 : Argsort ℝ) (N : ℕ) (c : ℝ) (m : Mat ℝ) (h1 : m.h = N) (h2 : m.w = N) (hc : ∀ i < N, ∀ j < N, m.get i j = c) :
    EqualCols m N N (fun _ => c) ∧ EqualCols (sortForward as1 0 m).1 N N (fun _ => c) := by
  refine ⟨⟨h1, h2, hc⟩, h1, h2, fun i hi j hj => ?_⟩
  have hp := ((sort_forward_sorted as1 m).1.2.2 j).2
  have e : (line (sortForward as1 0 m).1.T j).getD i default = (sortForward as1 0 m).1.get i j :=
    line_getD (sortForward as1 0 m).1.T j i (by show i < m.h; omega)
  rw [← e]
  have hl : i < (line (sortForward as1 0 m).1.T j).length := by rw [hp.length_eq, line_length]; show i < m.h; omega
  rw [List.getD_eq_getElem _ _ hl]
  have hmem := hp.mem_iff.1 (List.getElem_mem hl)
  generalize (line (sortForward as1 0 m).1.T j)[i] = x at hmem
  unfold line at hmem
  obtain ⟨r, hr, rfl⟩ := List.mem_map.1 hmem
  have hr : r < m.h := List.mem_range.1 hr
  exact hc r (by omega) j hj

theorem backward_const (as2 : Argsort ℕ) (as1 : Argsort ℝ) (N : ℕ) (d : ℝ) (m f : Mat ℝ) (h1 : m.h = N) (hfh : f.h = N)
    (hf : ∀ i < N, ∀ j < N, f.get i j = d) : ∀ i < N, ∀ j < N, (sortBackward as2 0 f (sortForward as1 0 m).2).get i j = d := by
  intro i hi j hj
  obtain ⟨ρ, g1, _, _, g4⟩ := mat_core0 as1 as2 m f (by omega) j
  rw [g4 i (by omega)]
  have := g1 i (by omega)
  exact hf _ (by omega) j hj

theorem removeFft_const (as1 : Argsort ℝ) (as2 : Argsort ℕ) (u : ℝ) (n v : ℕ) (hn : 1 ≤ n) (sort : Bool) (N : ℕ) (hw : N % 2 = 1) (c : ℝ)
    (m : Mat ℝ) (h1 : m.h = N) (h2 : m.w = N) (hc : ∀ i < N, ∀ j < N, m.get i j = c) :
    ∀ i < N, ∀ j < N, (removeFft as1 as2 u n v sort m).get i j = |c| := by
  obtain ⟨k1, k2⟩ := equalCols_const as1 N c m h1 h2 hc
  cases sort with
  | false => exact fun i hi j hj => fftCore_free m N N _ k1 u v n hn hw i j hi hj
  | true => exact backward_const as2 as1 N |c| m _ h1 h1 fun i hi j hj => fftCore_free _ N N _ k2 u v n hn hw i j hi hj

/-- C97 with the wavelet method: a constant image of at least 14 × 14 pixels is unchanged inside the circle (any sign, with or without sorting),
and the call succeeds. -/
theorem ring_wavelet_constant (as1 : Argsort ℝ) (as2 : Argsort ℕ) (wavedec : ℕ → Mat ℝ → WData (Mat ℝ)) (waverec : WData (Mat ℝ) → Mat ℝ)
    (hg : GoodWavelet wavedec waverec) (level : Option ℤ) (size : ℝ) (butter sort : Bool) (N : ℕ) (hN : 14 ≤ N) (c : ℝ) :
    RingKeepsConstant (removeWavelet as1 as2 wavedec waverec level size butter sort) N c ∧
    ∃ out, removeRing (removeWavelet as1 as2 wavedec waverec level size butter sort) ⟨N, N, fun _ _ => c⟩ = .ok out := by
  obtain ⟨out, ho, hv⟩ := ring_value (removeWavelet as1 as2 wavedec waverec level size butter sort) N (by omega) c c (by
    intro m h1 h2 hc
    obtain ⟨k1, k2⟩ := equalCols_const as1 N c m h1 h2 hc
    cases sort with
    | false =>
      obtain ⟨o, ho, _, _, hv⟩ := waveletCore_free wavedec waverec hg level size butter m N N (by omega) _ k1
      exact ⟨o, ho, hv⟩
    | true =>
      obtain ⟨o, ho, e1, _, hv⟩ := waveletCore_free wavedec waverec hg level size butter _ N N (by omega) _ k2
      refine ⟨sortBackward as2 0 o (sortForward as1 0 m).2, ?_, backward_const as2 as1 N c m o h1 e1 hv⟩
      show (do let r ← waveletCore wavedec waverec level size butter (sortForward as1 0 m).1
               return sortBackward as2 0 r (sortForward as1 0 m).2) = _
      rw [ho]
      rfl)
  refine ⟨?_, out, ho⟩
  intro out' ho' i hi j hj hin
  rw [ho] at ho'
  have := Except.ok.inj ho'
  subst this
  exact hv i hi j hj hin

/-- C97 with the FFT method: for odd widths a constant image comes back with its absolute value inside the circle — unchanged if it is not
negative, with the wrong sign if it is. -/
theorem ring_fft_partial (as1 : Argsort ℝ) (as2 : Argsort ℕ) (u : ℝ) (n v : ℕ) (hn : 1 ≤ n) (sort : Bool) (N : ℕ) (hN : N % 2 = 1) (c : ℝ) :
    (0 ≤ c → RingKeepsConstant (fun m => .ok (removeFft as1 as2 u n v sort m)) N c) ∧
    (c < 0 → ¬ RingKeepsConstant (fun m => .ok (removeFft as1 as2 u n v sort m)) N c) := by
  obtain ⟨out, ho, hv⟩ := ring_value (fun m => .ok (removeFft as1 as2 u n v sort m)) N (by omega) c |c| (fun m h1 h2 hc =>
    ⟨_, rfl, removeFft_const as1 as2 u n v hn sort N hN c m h1 h2 hc⟩)
  constructor
  · intro hc out' ho' i hi j hj hin
    rw [ho] at ho'
    have := Except.ok.inj ho'
    subst this
    rw [hv i hi j hj hin, abs_of_nonneg hc]
  · intro hc H
    have hcen : (((N / 2 : ℕ) : ℝ) - ((N / 2 : ℕ) : ℝ)) ^ 2 + (((N / 2 : ℕ) : ℝ) - ((N / 2 : ℕ) : ℝ)) ^ 2 ≤ ((N / 2 : ℕ) : ℝ) ^ 2 := by
      rw [sub_self]
      have : (0 : ℝ) ≤ ((N / 2 : ℕ) : ℝ) ^ 2 := by positivity
      linarith
    have h1 := H out ho (N / 2) (by omega) (N / 2) (by omega) hcen
    rw [hv _ (by omega) _ (by omega) hcen] at h1
    linarith [abs_nonneg c]

/-- Non-vacuity: a 7 × 5 sinogram with a ramp profile satisfies the hypotheses of the FFT theorem; a negative one those of the refutation. -/
example (as1 : Argsort ℝ) (as2 : Argsort ℕ) : FftKeepsStripeFree as1 as2 20 8 1 false 7 5 (fun i => (i : ℝ)) :=
  (fft_stripe_free_partial as1 as2 20 8 1 (by decide) false 7 5 (by decide) _).2 fun i _ => by positivity

example (as1 : Argsort ℝ) (as2 : Argsort ℕ) : ¬ FftKeepsStripeFree as1 as2 20 8 1 false 7 5 (fun _ => -1) :=
  (fft_stripe_free_refuted as1 as2 20 8 1 (by decide) 7 5 _ (by decide)).1 false (by decide) ⟨0, by decide, by norm_num⟩

end Verif.StripeFilters
