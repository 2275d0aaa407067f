import Verif.Props.Fourier
import Verif.Model.Surface
import Mathlib.Analysis.SpecialFunctions.Trigonometric.Bounds

/-! Frequency separation, Gaussian filter, ramp filter, stripe windows. -/

set_option linter.unusedSectionVars false
set_option linter.unusedSimpArgs false

namespace Verif.Fourier
open Complex

/-! ### frequency separation -/

theorem sign_sq (j : ℕ) : ((-1 : ℝ) ^ j) * ((-1 : ℝ) ^ j) = 1 := by rw [← mul_pow]; simp

/-- A window of ones leaves the line unchanged. -/
theorem signFilterLine_one (ncol pad : ℕ) (window line : ℕ → ℝ) (j : ℕ) (hj : j < ncol) (h1 : ∀ k < ncol + 2 * pad, window k = 1) :
    signFilterLine ncol pad window line j = line j := by
  unfold signFilterLine
  dsimp only
  rw [idft_congr (ncol + 2 * pad) _ (dft (ncol + 2 * pad) (fun j => ((line (reflectPadIdx ncol pad j) * (-1) ^ j : ℝ) : ℂ))) _ fun k hk => by
    rw [h1 k hk, ofReal_one, mul_one], idft_dft _ _ _ (by omega), reflectPadIdx_mid _ _ _ hj, ← ofReal_mul, ofReal_re, mul_assoc, sign_sq, mul_one]

theorem sign_eq_exp (n : ℕ) (hn : 0 < n) (heven : n % 2 = 0) (j : ℕ) :
    (((-1 : ℝ) ^ j : ℝ) : ℂ) = exp (2 * Real.pi * I * ((n / 2 : ℕ) * j / n)) := by
  have hn' : (n : ℂ) ≠ 0 := by exact_mod_cast hn.ne'
  have h2 : ((n / 2 : ℕ) : ℂ) = n / 2 := by
    obtain ⟨m, rfl⟩ : ∃ m, n = 2 * m := ⟨n / 2, by omega⟩
    rw [Nat.mul_div_cancel_left _ (by norm_num)]
    push_cast; ring
  rw [h2, show (2 * Real.pi * I * ((n : ℂ) / 2 * j / n) : ℂ) = j * (Real.pi * I) by field_simp, exp_nat_mul, exp_pi_mul_I]
  push_cast
  rfl

/-- Gain of the signed filter on constant lines when the padded length is even: the window's value at `n/2`. -/
theorem signFilterLine_const (ncol pad : ℕ) (window line : ℕ → ℝ) (c : ℝ) (j : ℕ) (hj : j < ncol) (hc : ∀ j < ncol, line j = c)
    (heven : ncol % 2 = 0) : signFilterLine ncol pad window line j = window ((ncol + 2 * pad) / 2) * c := by
  unfold signFilterLine
  dsimp only
  rw [idft_congr (ncol + 2 * pad) _ (fun k => dft (ncol + 2 * pad) (fun j => (c : ℂ) * exp (2 * Real.pi * I *
    (((ncol + 2 * pad) / 2 : ℕ) * j / (ncol + 2 * pad : ℕ)))) k * ((window k : ℝ) : ℂ)) _ fun k _ => by
      congr 1
      apply dft_congr
      intro n _
      rw [hc _ (reflectPadIdx_lt _ _ _ (by omega)), ofReal_mul, sign_eq_exp (ncol + 2 * pad) (by omega) (by omega)],
    filter_freq _ (by omega) _ _ (by omega), ← sign_eq_exp (ncol + 2 * pad) (by omega) (by omega), ← ofReal_mul, ← ofReal_mul, ← ofReal_mul, ofReal_re]
  have := sign_sq (pad + j)
  linear_combination (window ((ncol + 2 * pad) / 2) * c) * this

/-- C34 for `separate_frequency_component`: for both axes and every window the two parts have the shape of the image and add up to it; a window
of ones puts everything into the first part; an array of the wrong length is rejected. -/
theorem separate_frequency_sum (m : Mat ℝ) (axis0 : Bool) (win : FreqWindow) :
    (∀ smooth sharp, separateFrequency m axis0 win = .ok (smooth, sharp) →
      smooth.h = m.h ∧ smooth.w = m.w ∧ sharp.h = m.h ∧ sharp.w = m.w ∧
      ∀ i < m.h, ∀ j < m.w, smooth.get i j + sharp.get i j = m.get i j) ∧
    (∀ w, win = .array (if axis0 then m.h else m.w) w → (∀ k < (if axis0 then m.h else m.w), w k = 1) →
      ∃ smooth sharp, separateFrequency m axis0 win = .ok (smooth, sharp) ∧
        ∀ i < m.h, ∀ j < m.w, smooth.get i j = m.get i j ∧ sharp.get i j = 0) ∧
    (∀ len w, win = .array len w → len ≠ (if axis0 then m.h else m.w) → separateFrequency m axis0 win = .error .valueError) := by
  refine ⟨?_, ?_, ?_⟩
  · intro smooth sharp h
    unfold separateFrequency at h
    dsimp only at h
    cases hr : win.resolve (if axis0 then m.T else m).w (pad10 (if axis0 then m.T else m).w) with
    | error e => rw [hr] at h; cases h
    | ok w =>
      rw [hr] at h
      simp only [bind, Except.bind, pure, Except.pure, Except.ok.injEq] at h
      cases axis0
      · simp only [if_neg Bool.false_ne_true, Prod.mk.injEq] at h
        obtain ⟨rfl, rfl⟩ := h
        refine ⟨rfl, rfl, rfl, rfl, fun i _ j _ => by dsimp only; ring⟩
      · simp only [if_true, Prod.mk.injEq] at h
        obtain ⟨rfl, rfl⟩ := h
        refine ⟨rfl, rfl, rfl, rfl, fun i _ j _ => by simp only [Mat.T]; ring⟩
  · intro w hwin h1
    unfold separateFrequency
    subst hwin
    cases axis0
    · simp only [if_neg Bool.false_ne_true, FreqWindow.resolve, ne_eq, not_true, if_false, bind, Except.bind, pure, Except.pure]
      refine ⟨_, _, rfl, fun i hi j hj => ?_⟩
      dsimp only
      rw [signFilterLine_one _ _ _ _ _ hj]
      · exact ⟨rfl, sub_self _⟩
      · intro k hk
        split
        · exact h1 _ (by simp only [if_neg Bool.false_ne_true]; omega)
        · rfl
    · simp only [if_true, FreqWindow.resolve, Mat.T, ne_eq, not_true, if_false, bind, Except.bind, pure, Except.pure]
      refine ⟨_, _, rfl, fun i hi j hj => ?_⟩
      dsimp only
      rw [signFilterLine_one _ _ _ _ _ hi]
      · exact ⟨rfl, sub_self _⟩
      · intro k hk
        split
        · exact h1 _ (by simp only [if_true]; omega)
        · rfl
  · intro len w hwin hlen
    subst hwin
    unfold separateFrequency
    have : (if axis0 then m.T else m).w = if axis0 then m.h else m.w := by cases axis0 <;> rfl
    simp only [FreqWindow.resolve, this, if_pos hlen]
    rfl

/-! ### gain on constant images -/

/-- The low-pass part keeps constants (what a user of a low-pass filter expects). -/
def SeparateKeepsConstants (m : Mat ℝ) (c sigma : ℝ) : Prop :=
  (∀ i < m.h, ∀ j < m.w, m.get i j = c) → ∀ smooth sharp, separateFrequency m false (.gaussian sigma) = .ok (smooth, sharp) →
    ∀ i < m.h, ∀ j < m.w, smooth.get i j = c

/-- The exact gain of the Gaussian low-pass on constant images of even length. -/
theorem separate_gain (m : Mat ℝ) (c sigma : ℝ) (hc : ∀ i < m.h, ∀ j < m.w, m.get i j = c) (heven : m.w % 2 = 0)
    (smooth sharp : Mat ℝ) (h : separateFrequency m false (.gaussian sigma) = .ok (smooth, sharp)) (i j : ℕ) (hi : i < m.h) (hj : j < m.w) :
    smooth.get i j = Real.exp (-(1 / (8 * sigma ^ 2))) * c := by
  unfold separateFrequency at h
  simp only [if_neg Bool.false_ne_true, FreqWindow.resolve, bind, Except.bind, pure, Except.pure, Except.ok.injEq, Prod.mk.injEq] at h
  obtain ⟨rfl, _⟩ := h
  dsimp only
  rw [signFilterLine_const _ _ _ _ c _ hj (fun j hj => hc i hi j hj) heven]
  congr 2
  have e : (((m.w + 2 * pad10 m.w) / 2 : ℕ) : ℝ) = ((m.w + 2 * pad10 m.w : ℕ) : ℝ) / 2 := by
    obtain ⟨k, hk⟩ : ∃ k, m.w + 2 * pad10 m.w = 2 * k := ⟨(m.w + 2 * pad10 m.w) / 2, by omega⟩
    rw [hk, Nat.mul_div_cancel_left _ (by norm_num)]
    push_cast; ring
  rw [e]
  congr 1
  rw [show (((m.w + 2 * pad10 m.w : ℕ) : ℝ) / 2 - (((m.w + 2 * pad10 m.w : ℕ) : ℝ) - 1) / 2) = 1 / 2 by ring]
  ring

theorem exp_ne_one_of_neg {x : ℝ} (hx : x < 0) : Real.exp x ≠ 1 := by
  rw [Ne, Real.exp_eq_one_iff]
  exact hx.ne

/-- C67 is false of the code for every image with an even number of columns. -/
theorem separate_constants_refuted (m : Mat ℝ) (c sigma : ℝ) (hc : ∀ i < m.h, ∀ j < m.w, m.get i j = c) (hc0 : c ≠ 0) (hs : sigma ≠ 0)
    (heven : m.w % 2 = 0) (hh : 0 < m.h) (hw : 0 < m.w) : ¬ SeparateKeepsConstants m c sigma := by
  intro H
  have hok : ∃ smooth sharp, separateFrequency m false (.gaussian sigma) = .ok (smooth, sharp) := ⟨_, _, rfl⟩
  obtain ⟨smooth, sharp, h⟩ := hok
  have h1 := H hc smooth sharp h 0 hh 0 hw
  rw [separate_gain m c sigma hc heven smooth sharp h 0 0 hh hw] at h1
  have h2 : Real.exp (-(1 / (8 * sigma ^ 2))) = 1 := by
    have := mul_right_cancel₀ hc0 (h1.trans (one_mul c).symm)
    exact this
  exact exp_ne_one_of_neg (by have : 0 < sigma ^ 2 := by positivity
                              have : 0 < 1 / (8 * sigma ^ 2) := by positivity
                              linarith) h2

/-- C67 for `apply_gaussian_filter`. -/
def GaussianKeepsConstants (m : Mat ℝ) (c sx sy : ℝ) (pad : ℕ) : Prop :=
  (∀ i < m.h, ∀ j < m.w, m.get i j = c) → ∀ i < m.h, ∀ j < m.w, (gaussianFilter m sx sy pad).get i j = c

/-- The filter on a padded image that is constant. -/
theorem gaussian_core_gain (h w : ℕ) (mp : ℕ → ℕ → ℝ) (c sx sy : ℝ) (pad : ℕ) (hc : ∀ i < h + 2 * pad, ∀ j < w + 2 * pad, mp i j = c)
    (he1 : h % 2 = 0) (he2 : w % 2 = 0) (i j : ℕ) (hi : i < h) (hj : j < w) :
    (gaussianCore h w mp sx sy pad).get i j = Real.exp (-(1 / (8 * sx ^ 2) + 1 / (8 * sy ^ 2))) * c := by
  unfold gaussianCore
  dsimp only
  rw [idft2_congr (h + 2 * pad) (w + 2 * pad) _ (fun k l => dft2 (h + 2 * pad) (w + 2 * pad) (fun i j => (c : ℂ) *
    (exp (2 * Real.pi * I * (((h + 2 * pad) / 2 : ℕ) * i / (h + 2 * pad : ℕ))) *
     exp (2 * Real.pi * I * (((w + 2 * pad) / 2 : ℕ) * j / (w + 2 * pad : ℕ))))) k l *
      ((gaussianWindow (h + 2 * pad) (w + 2 * pad) sx sy k l : ℝ) : ℂ)) _ _ fun k _ l _ => by
      congr 1
      apply dft2_congr
      intro a ha b hb
      have hval := hc a ha b hb
      rw [hval, pow_add, ofReal_mul, ofReal_mul, sign_eq_exp (h + 2 * pad) (by omega) (by omega) a, sign_eq_exp (w + 2 * pad) (by omega) (by omega) b]
      ring,
    filter2_freq _ _ (by omega) (by omega) _ _ _ (by omega) (by omega), ← sign_eq_exp (h + 2 * pad) (by omega) (by omega),
    ← sign_eq_exp (w + 2 * pad) (by omega) (by omega), pow_add, ← ofReal_mul, ← ofReal_mul, ← ofReal_mul, ← ofReal_mul, ofReal_re]
  have hw : gaussianWindow (h + 2 * pad) (w + 2 * pad) sx sy ((h + 2 * pad) / 2) ((w + 2 * pad) / 2) =
      Real.exp (-(1 / (8 * sx ^ 2) + 1 / (8 * sy ^ 2))) := by
    unfold gaussianWindow
    have e : ∀ n : ℕ, n % 2 = 0 → ((n / 2 : ℕ) : ℝ) - ((n : ℝ) - 1) / 2 = 1 / 2 := by
      intro n hn
      obtain ⟨k, rfl⟩ : ∃ k, n = 2 * k := ⟨n / 2, by omega⟩
      rw [Nat.mul_div_cancel_left _ (by norm_num)]
      push_cast; ring
    rw [e _ (by omega), e _ (by omega)]
    congr 2
    ring
  rw [hw]
  have h1 := sign_sq (pad + i)
  have h2 := sign_sq (pad + j)
  linear_combination (Real.exp (-(1 / (8 * sx ^ 2) + 1 / (8 * sy ^ 2))) * c) * (h1 * ((-1) ^ (pad + j) * (-1) ^ (pad + j)) + h2)

/-- The exact gain of `apply_gaussian_filter` on constant images of even size, for every pad: `exp(-1/(8 sx²) - 1/(8 sy²))`. -/
theorem gaussian_filter_gain (m : Mat ℝ) (c sx sy : ℝ) (pad : ℕ) (hc : ∀ i < m.h, ∀ j < m.w, m.get i j = c) (he1 : m.h % 2 = 0)
    (he2 : m.w % 2 = 0) (i j : ℕ) (hi : i < m.h) (hj : j < m.w) :
    (gaussianFilter m sx sy pad).get i j = Real.exp (-(1 / (8 * sx ^ 2) + 1 / (8 * sy ^ 2))) * c := by
  have hh' : (m.h : ℝ) ≠ 0 := by
    have : 0 < m.h := by omega
    exact_mod_cast this.ne'
  refine gaussian_core_gain m.h m.w _ c sx sy pad (fun a _ b _ => ?_) he1 he2 i j hi hj
  have hb : edgeIdx m.w pad b < m.w := by unfold edgeIdx; omega
  dsimp only
  split
  · exact hc _ (by omega) _ hb
  · rw [Finset.sum_congr rfl fun r hr => hc r (Finset.mem_range.1 hr) _ hb]
    simp [hh']

/-- C67 is false of the code for every image of even size: constant images are darkened. -/
theorem gaussian_constants_refuted (m : Mat ℝ) (c sx sy : ℝ) (pad : ℕ) (hc : ∀ i < m.h, ∀ j < m.w, m.get i j = c) (hc0 : c ≠ 0)
    (hsx : sx ≠ 0) (he1 : m.h % 2 = 0) (he2 : m.w % 2 = 0) (hh : 0 < m.h) (hw : 0 < m.w) : ¬ GaussianKeepsConstants m c sx sy pad := by
  intro H
  have h1 := H hc 0 hh 0 hw
  rw [gaussian_filter_gain m c sx sy pad hc he1 he2 0 0 hh hw] at h1
  have h2 := mul_right_cancel₀ hc0 (h1.trans (one_mul c).symm)
  refine exp_ne_one_of_neg ?_ h2
  have : 0 < sx ^ 2 := by positivity
  have h3 : 0 < 1 / (8 * sx ^ 2) := by positivity
  have h4 : 0 ≤ 1 / (8 * sy ^ 2) := by positivity
  linarith

/-- Concrete instance: a 4 × 6 image of ones with sigma 5. -/
example : ¬ GaussianKeepsConstants ⟨4, 6, fun _ _ => 1⟩ 1 5 5 2 :=
  gaussian_constants_refuted _ 1 5 5 2 (fun _ _ _ _ => rfl) one_ne_zero (by norm_num) rfl rfl (by norm_num) (by norm_num)

/-! ### C45: ramp filter -/

/-- Circular convolution theorem. -/
theorem idft_mul_dft (N : ℕ) (x y : ℕ → ℂ) (t : ℕ) (ht : t < N) :
    idft N (fun l => dft N x l * dft N y l) t = ∑ m ∈ Finset.range N, x m * y ((t + (N - m)) % N) := by
  have hN : 0 < N := by omega
  have hN' : (N : ℂ) ≠ 0 := by exact_mod_cast hN.ne'
  have key : ∑ l ∈ Finset.range N, dft N x l * dft N y l * exp (2 * Real.pi * I * (l * t / N)) =
      ∑ m ∈ Finset.range N, ∑ p ∈ Finset.range N, x m * y p * ∑ l ∈ Finset.range N, exp (2 * Real.pi * I * (l * ((t : ℤ) - m - p : ℤ) / N)) := by
    simp only [dft, Finset.sum_mul, Finset.mul_sum]
    rw [Finset.sum_comm]
    rw [Finset.sum_congr rfl fun p _ => Finset.sum_comm]
    rw [Finset.sum_comm]
    refine Finset.sum_congr rfl fun m _ => Finset.sum_congr rfl fun p _ => Finset.sum_congr rfl fun l _ => ?_
    rw [show (2 * Real.pi * I * (l * ((t : ℤ) - m - p : ℤ) / N) : ℂ) =
      -(2 * Real.pi * I * (l * m / N)) + -(2 * Real.pi * I * (l * p / N)) + 2 * Real.pi * I * (l * t / N) by push_cast; ring, exp_add, exp_add]
    ring
  unfold idft
  rw [key, Finset.sum_div]
  refine Finset.sum_congr rfl fun m hm => ?_
  have hm := Finset.mem_range.1 hm
  have hp0 : (t + (N - m)) % N < N := Nat.mod_lt _ hN
  rw [Finset.sum_eq_single ((t + (N - m)) % N)]
  · rw [sum_roots N hN, if_pos]
    · field_simp
    · have h1 := Nat.div_add_mod (t + (N - m)) N
      refine ⟨((t + (N - m)) / N : ℕ) - 1, ?_⟩
      have h1' : (N : ℤ) * ((t + (N - m)) / N : ℕ) + ((t + (N - m)) % N : ℕ) = (t : ℤ) + (N - m) := by
        have : ((t + (N - m) : ℕ) : ℤ) = (t : ℤ) + (N - m) := by omega
        rw [← this]
        exact_mod_cast h1
      linear_combination -h1'
  · intro p hp hne
    have hp := Finset.mem_range.1 hp
    rw [sum_roots N hN, if_neg, mul_zero]
    intro hd
    apply hne
    have h2 : (N : ℤ) ∣ ((t + (N - m) : ℕ) : ℤ) - p := by
      have : ((t + (N - m) : ℕ) : ℤ) - p = ((t : ℤ) - m - p) + N := by omega
      rw [this]
      exact dvd_add hd (dvd_refl _)
    have h3 : (p : ℤ) % N = ((t + (N - m) : ℕ) : ℤ) % N := Int.modEq_iff_dvd.2 h2
    have h4 : p % N = (t + (N - m)) % N := by exact_mod_cast h3
    rw [← h4, Nat.mod_eq_of_lt hp]
  · intro h
    exact absurd (Finset.mem_range.2 hp0) h

/-- The band-limited ramp at integer displacement `d`: 1/4 at zero, 0 at even and `-1/(π d)²` at odd displacements. -/
noncomputable def ramp (d : ℤ) : ℝ := if d = 0 then 1 / 4 else if d % 2 = 0 then 0 else -1 / (Real.pi * d) ^ 2

/-- Representative of `z` modulo `n` in `[-(n/2), n - n/2)`. -/
def centered (n : ℕ) (z : ℤ) : ℤ := (z + (n / 2 : ℕ)) % n - (n / 2 : ℕ)

theorem centered_spec (n : ℕ) (hn : 0 < n) (z : ℤ) :
    (n : ℤ) ∣ centered n z - z ∧ -((n / 2 : ℕ) : ℤ) ≤ centered n z ∧ centered n z < (n : ℤ) - (n / 2 : ℕ) := by
  have h1 := Int.emod_nonneg (z + (n / 2 : ℕ)) (by omega : (n : ℤ) ≠ 0)
  have h2 := Int.emod_lt_of_pos (z + (n / 2 : ℕ)) (by omega : (0 : ℤ) < n)
  have h3 := Int.mul_ediv_add_emod (z + (n / 2 : ℕ)) n
  unfold centered
  refine ⟨⟨-((z + (n / 2 : ℕ)) / n), by linear_combination h3⟩, by omega, by omega⟩

theorem rampKernel_eq (n i : ℕ) : rampKernel n i = ramp ((i : ℤ) - (n / 2 : ℕ)) := by
  unfold rampKernel ramp
  rw [ceil_half]
  dsimp only
  congr 2
  rw [mul_comm]

/-- C45: without a smoothing window, `apply_ramp_filter` is, for every width (even or odd), every pad and every pad mode, the circular
convolution of the padded row with the band-limited ramp kernel, not displaced. -/
theorem ramp_filter_convolution (m : Mat ℝ) (pad : ℕ) (padIdx : ℕ → ℕ) (i j : ℕ) (hj : j < m.w) :
    (applyRamp m (fun _ => 1) pad padIdx).get i j =
      ∑ p ∈ Finset.range (m.w + 2 * pad), m.get i (padIdx p) * ramp (centered (m.w + 2 * pad) (((pad + j : ℕ) : ℤ) - p)) := by
  have hn : 0 < m.w + 2 * pad := by omega
  unfold applyRamp
  dsimp only
  set n := m.w + 2 * pad with hndef
  rw [idft_congr n _ (fun l => dft n (fun j => ((m.get i (padIdx j) : ℝ) : ℂ)) l * dft n (fun i => ((rampKernel n i : ℝ) : ℂ)) l) _ fun l hl => by
    unfold rampWindow
    rw [ifft_fft_shift _ _ hl, ofReal_one, mul_one], idft_mul_dft n _ _ _ (ifftshiftIdx_lt _ _ hn)]
  rw [re_sum]
  refine Finset.sum_congr rfl fun p hp => ?_
  have hp := Finset.mem_range.1 hp
  rw [← ofReal_mul, ofReal_re, rampKernel_eq]
  congr 2
  unfold centered ifftshiftIdx
  rw [Nat.mod_add_mod]
  push_cast
  rw [Nat.cast_sub hp.le]
  congr 1
  rw [show ((pad : ℤ) + j + (n : ℤ) / 2 + ((n : ℤ) - p)) = ((pad : ℤ) + j - p + (n : ℤ) / 2) + n by ring, Int.add_emod_right]

/-- Entries of the kernel, for the record: `ramp 0 = 1/4`, `ramp 2 = 0`, `ramp (-3) = -1/(3π)²`. -/
example : ramp 0 = 1 / 4 ∧ ramp 2 = 0 ∧ ramp (-3) = -1 / (Real.pi * 3) ^ 2 := by
  refine ⟨by simp [ramp], by simp [ramp], ?_⟩
  unfold ramp
  rw [if_neg (by norm_num), if_neg (by norm_num)]
  congr 1
  push_cast
  ring

/-- The kernel is even. -/
theorem ramp_even (d : ℤ) : ramp (-d) = ramp d := by
  unfold ramp
  by_cases h0 : d = 0
  · simp [h0]
  · rw [if_neg (by omega), if_neg h0]
    by_cases h1 : d % 2 = 0
    · rw [if_pos (by omega), if_pos h1]
    · rw [if_neg (by omega), if_neg h1]
      congr 1
      push_cast
      ring

end Verif.Fourier
