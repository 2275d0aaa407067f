import Verif.Props.Dfi

/-! C109 — `dfi_reconstruction`: projections of the result, linearity, slices, mask, errors. -/

set_option linter.unusedSectionVars false
set_option linter.unusedSimpArgs false

namespace Verif.Dfi
open Verif.Fourier Verif.Simulation Verif.Recon Verif.BackProj Verif.Calibration

/-! ### Fourier lemmas -/

theorem fftshiftIdx_lt (n i : ℕ) (hn : 0 < n) : fftshiftIdx n i < n := Nat.mod_lt _ hn

theorem sum_fftshift (n : ℕ) (g : ℕ → ℂ) : ∑ i ∈ Finset.range n, g (fftshiftIdx n i) = ∑ i ∈ Finset.range n, g i := by
  rcases Nat.eq_zero_or_pos n with rfl | hn
  · simp
  refine Finset.sum_nbij' (fftshiftIdx n) (ifftshiftIdx n) ?_ ?_ ?_ ?_ ?_
  · exact fun i hi => Finset.mem_range.2 (fftshiftIdx_lt n i hn)
  · exact fun i hi => Finset.mem_range.2 (ifftshiftIdx_lt n i hn)
  · exact fun i hi => fft_ifft_shift n i (Finset.mem_range.1 hi)
  · exact fun i hi => ifft_fft_shift n i (Finset.mem_range.1 hi)
  · exact fun i _ => rfl

theorem sum_idft (n : ℕ) (hn : 0 < n) (y : ℕ → ℂ) : ∑ i ∈ Finset.range n, idft n y i = y 0 := by
  have := dft_idft n y 0 hn
  rw [← this]
  unfold dft
  refine Finset.sum_congr rfl fun i _ => ?_
  simp

/-- Sum over the rows of an inverse transform. -/
theorem column_sum (n : ℕ) (hn : 0 < n) (R : ℕ → ℕ → ℂ) (j : ℕ) :
    ∑ i ∈ Finset.range n, idft2 n n R (fftshiftIdx n i) j = idft n (R 0) j := by
  rw [sum_fftshift n fun i => idft2 n n R i j]
  exact sum_idft n hn _

/-- Sum over the columns. -/
theorem row_sum (n : ℕ) (hn : 0 < n) (R : ℕ → ℕ → ℂ) (i : ℕ) :
    ∑ j ∈ Finset.range n, idft2 n n R i (fftshiftIdx n j) = idft n (fun k => R k 0) i := by
  rw [sum_fftshift n fun j => idft2 n n R i j]
  simp only [idft2_swap]
  exact sum_idft n hn _

theorem flip_freq (n l : ℕ) (hn : n % 2 = 1) (hl : l < n) : fftshiftIdx n (n - 1 - ifftshiftIdx n l) = (n - l) % n := by
  unfold fftshiftIdx ifftshiftIdx
  have h2 : n = 2 * (n / 2) + 1 := by omega
  rcases lt_or_ge (l + n / 2) n with h | h
  · rw [Nat.mod_eq_of_lt h]
    congr 1
    omega
  · rw [show (l + n / 2) % n = l + n / 2 - n by
      rw [Nat.mod_eq_sub_mod h, Nat.mod_eq_of_lt (by omega)]]
    rw [show n - 1 - (l + n / 2 - n) + (n - n / 2) = (n - l) + n by omega, Nat.add_mod_right]

theorem flip_pos (n j : ℕ) (hn : n % 2 = 1) (hj : j < n) : ifftshiftIdx n ((n - fftshiftIdx n j) % n) = n - 1 - j := by
  unfold fftshiftIdx ifftshiftIdx
  have h2 : n = 2 * (n / 2) + 1 := by omega
  rcases lt_or_ge (j + (n - n / 2)) n with h | h
  · rw [Nat.mod_eq_of_lt h]
    rw [Nat.mod_eq_of_lt (show n - (j + (n - n / 2)) < n by omega)]
    rw [show n - (j + (n - n / 2)) + n / 2 = n - 1 - j by omega]
    exact Nat.mod_eq_of_lt (by omega)
  · rw [show (j + (n - n / 2)) % n = j + (n - n / 2) - n by
      rw [Nat.mod_eq_sub_mod h, Nat.mod_eq_of_lt (by omega)]]
    rcases Nat.eq_zero_or_pos (j + (n - n / 2) - n) with h0 | h0
    · rw [h0, Nat.sub_zero, Nat.mod_self, Nat.zero_add, Nat.mod_eq_of_lt (by omega)]
      omega
    · rw [Nat.mod_eq_of_lt (show n - (j + (n - n / 2) - n) < n by omega)]
      rw [show n - (j + (n - n / 2) - n) + n / 2 = (n - 1 - j) + n by omega, Nat.add_mod_right]
      exact Nat.mod_eq_of_lt (by omega)

/-- Mirroring the spectrum mirrors the line. -/
theorem idft_flip (n : ℕ) (g : ℕ → ℂ) (t : ℕ) (ht : t < n) : idft n (fun l => dft n g ((n - l) % n)) t = g ((n - t) % n) := by
  have hn : 0 < n := by omega
  have hn' : (n : ℂ) ≠ 0 := by exact_mod_cast hn.ne'
  rw [← idft_dft n g ((n - t) % n) (Nat.mod_lt _ hn)]
  unfold idft
  congr 1
  refine Finset.sum_nbij' (fun l => (n - l) % n) (fun l => (n - l) % n) ?_ ?_ ?_ ?_ ?_
  · exact fun l _ => Finset.mem_range.2 (Nat.mod_lt _ hn)
  · exact fun l _ => Finset.mem_range.2 (Nat.mod_lt _ hn)
  · intro l hl
    have hl := Finset.mem_range.1 hl
    rcases Nat.eq_zero_or_pos l with rfl | h
    · simp
    · rw [Nat.mod_eq_of_lt (show n - l < n by omega), show n - (n - l) = l by omega, Nat.mod_eq_of_lt hl]
  · intro l hl
    have hl := Finset.mem_range.1 hl
    rcases Nat.eq_zero_or_pos l with rfl | h
    · simp
    · rw [Nat.mod_eq_of_lt (show n - l < n by omega), show n - (n - l) = l by omega, Nat.mod_eq_of_lt hl]
  · intro l hl
    have hl := Finset.mem_range.1 hl
    dsimp only
    congr 1
    have hexp : ∀ z : ℤ, Complex.exp (2 * Real.pi * Complex.I * z) = 1 := by
      intro z
      rw [mul_comm]
      exact Complex.exp_int_mul_two_pi_mul_I z
    rcases Nat.eq_zero_or_pos l with rfl | h
    · simp
    rcases Nat.eq_zero_or_pos t with rfl | h'
    · simp
    rw [Nat.mod_eq_of_lt (show n - l < n by omega), Nat.mod_eq_of_lt (show n - t < n by omega)]
    rw [Nat.cast_sub hl.le, Nat.cast_sub ht.le]
    rw [show (2 * Real.pi * Complex.I * (((n : ℂ) - l) * ((n : ℂ) - t) / n) : ℂ) =
      2 * Real.pi * Complex.I * ((n - l - t : ℤ) : ℂ) + 2 * Real.pi * Complex.I * (l * t / n) by push_cast; field_simp; ring,
      Complex.exp_add, hexp, one_mul]

theorem mask_central (n : ℕ) (hn : n % 2 = 1) (j : ℕ) (hj : j < n) :
    (circleMask n (1 : ℝ)).get (n / 2) j = 1 ∧ (circleMask n (1 : ℝ)).get j (n / 2) = 1 := by
  have key : ∀ c : ℕ, j ≤ 2 * c → (((j : ℝ) - c) ^ 2) ≤ (c : ℝ) ^ 2 := by
    intro c hc
    have h1 : (j : ℝ) ≤ 2 * c := by exact_mod_cast hc
    have h0 : (0 : ℝ) ≤ j := Nat.cast_nonneg j
    nlinarith
  have hc := key (n / 2) (by omega)
  have h1 : ((dist2 n (n / 2) j : ℤ) : ℝ) ≤ (1 * ((n / 2 : ℕ) : ℝ)) ^ 2 ∧ ((dist2 n j (n / 2) : ℤ) : ℝ) ≤ (1 * ((n / 2 : ℕ) : ℝ)) ^ 2 := by
    unfold dist2
    generalize n / 2 = c at hc ⊢
    push_cast
    constructor <;> nlinarith
  rw [(circle_mask_spec n (1 : ℝ) _ _).2.2, (circle_mask_spec n (1 : ℝ) _ _).2.2, if_pos h1.1, if_pos h1.2]
  exact ⟨rfl, rfl⟩

theorem regrid_row (I : Spline) (hI : I.Exact) (F : Mat ℂ) (hw : F.w % 2 = 1) (hh : 1 ≤ F.h) (j : ℕ) (hj : j < F.w) :
    regrid I F (F.w / 2) j = F.get (F.h - 1) (F.w - 1 - j) := by
  unfold regrid
  dsimp only
  rw [mapping_central_row F.w F.h j hw hj hh, (mask_central F.w hw j hj).1]
  dsimp only
  rw [hI.plane F (F.h - 1) (F.w - 1 - j) (by omega) (by omega)]
  simp

theorem regrid_column (I : Spline) (hI : I.Exact) (F : Mat ℂ) (hw : F.w % 2 = 1) (hh : F.h % 2 = 1) (i : ℕ) (hi : i < F.w) (hne : i ≠ F.w / 2) :
    regrid I F i (F.w / 2) = F.get (F.h / 2) (F.w - 1 - i) := by
  unfold regrid
  dsimp only
  rw [mapping_central_column F.w F.h i hw hi hh hne, (mask_central F.w hw i hi).2]
  dsimp only
  rw [hI.plane F (F.h / 2) (F.w - 1 - i) (by omega) (by omega)]
  simp

/-- Line `i` of the sinogram after smoothing in the frequency domain. -/
noncomputable def smoothed (m : Mat ℝ) (f : Filter) (i j : ℕ) : ℝ :=
  (idft m.w (fun l => dft m.w (fun j => ((m.get i (ifftshiftIdx m.w j) : ℝ) : ℂ)) l * ((smoothingWindow f m.w (ifftshiftIdx m.w l) : ℝ) : ℂ))
    (fftshiftIdx m.w j)).re

theorem smoothed_none (m : Mat ℝ) (i j : ℕ) (hj : j < m.w) : smoothed m .other i j = m.get i j := by
  unfold smoothed smoothingWindow
  simp only [Complex.ofReal_one, mul_one]
  rw [idft_dft _ _ _ (fftshiftIdx_lt _ _ (by omega)), fft_ifft_shift _ _ hj, Complex.ofReal_re]

/-! ### C109: one slice -/

theorem idft_flip' (n : ℕ) (G : ℕ → ℂ) (t : ℕ) (ht : t < n) : idft n (fun l => G ((n - l) % n)) t = idft n G ((n - t) % n) := by
  rw [← idft_flip n (idft n G) t ht]
  exact idft_congr n _ _ t fun l hl => (dft_idft n G _ (Nat.mod_lt _ (by omega))).symm

/-- C109 (Fourier slice property): the sums over the columns of the reconstruction are the last projection of the sinogram (at 180 degrees), smoothed by
the chosen window and mirrored. -/
theorem dfi_column_sums (I : Spline) (hI : I.Exact) (m : Mat ℝ) (f : Filter) (hw : m.w % 2 = 1) (hh : 1 ≤ m.h) (j : ℕ) (hj : j < m.w) :
    ∑ i ∈ Finset.range m.w, (singleSlice I m f).get i j = smoothed m f (m.h - 1) (m.w - 1 - j) := by
  have hn : 0 < m.w := by omega
  unfold singleSlice
  dsimp only
  rw [← Complex.re_sum, column_sum m.w hn _ (fftshiftIdx m.w j)]
  have hR : ∀ l < m.w, regrid I (spectrum m f) (ifftshiftIdx m.w 0) (ifftshiftIdx m.w l) =
      dft m.w (fun j => ((m.get (m.h - 1) (ifftshiftIdx m.w j) : ℝ) : ℂ)) ((m.w - l) % m.w) *
        ((smoothingWindow f m.w (ifftshiftIdx m.w ((m.w - l) % m.w)) : ℝ) : ℂ) := by
    intro l hl
    rw [ifftshiftIdx_zero]
    have := regrid_row I hI (spectrum m f) hw hh (ifftshiftIdx m.w l) (ifftshiftIdx_lt _ _ hn)
    refine this.trans ?_
    unfold spectrum
    dsimp only
    rw [← flip_freq m.w l hw hl, fft_ifft_shift _ _ (by omega)]
  rw [idft_congr _ _ _ _ hR]
  have e := idft_flip' m.w (fun l => dft m.w (fun j => ((m.get (m.h - 1) (ifftshiftIdx m.w j) : ℝ) : ℂ)) l *
        ((smoothingWindow f m.w (ifftshiftIdx m.w l) : ℝ) : ℂ)) (fftshiftIdx m.w j) (fftshiftIdx_lt _ _ hn)
  rw [show idft m.w _ (fftshiftIdx m.w j) = _ from e]
  unfold smoothed
  rw [← flip_pos m.w j hw hj, ifft_fft_shift _ _ (Nat.mod_lt _ hn)]

/-- C109: with `filter_name=None` they are exactly the last projection, mirrored. -/
theorem dfi_column_sums_unfiltered (I : Spline) (hI : I.Exact) (m : Mat ℝ) (hw : m.w % 2 = 1) (hh : 1 ≤ m.h) (j : ℕ) (hj : j < m.w) :
    ∑ i ∈ Finset.range m.w, (singleSlice I m .other).get i j = m.get (m.h - 1) (m.w - 1 - j) := by
  rw [dfi_column_sums I hI m .other hw hh j hj, smoothed_none _ _ _ (by omega)]

/-- C109: the sums over the rows are the middle projection (at 90 degrees), upside down; here the total of that projection must agree with the total of the
last one, as for any sinogram of an object. -/
theorem dfi_row_sums (I : Spline) (hI : I.Exact) (m : Mat ℝ) (hw : m.w % 2 = 1) (hh : m.h % 2 = 1)
    (hmass : ∑ j ∈ Finset.range m.w, m.get (m.h / 2) j = ∑ j ∈ Finset.range m.w, m.get (m.h - 1) j) (i : ℕ) (hi : i < m.w) :
    ∑ j ∈ Finset.range m.w, (singleSlice I m .other).get i j = m.get (m.h / 2) (m.w - 1 - i) := by
  have hn : 0 < m.w := by omega
  have sum_if : ∀ r : ℕ, ∑ j ∈ Finset.range m.w, ((m.get r (ifftshiftIdx m.w j) : ℝ) : ℂ) = ((∑ j ∈ Finset.range m.w, m.get r j : ℝ) : ℂ) := by
    intro r
    rw [← sum_fftshift m.w fun j => ((m.get r (ifftshiftIdx m.w j) : ℝ) : ℂ)]
    push_cast
    exact Finset.sum_congr rfl fun j hj => by rw [fft_ifft_shift _ _ (Finset.mem_range.1 hj)]
  unfold singleSlice
  dsimp only
  rw [← Complex.re_sum, row_sum m.w hn _ (fftshiftIdx m.w i)]
  have hR : ∀ k < m.w, regrid I (spectrum m .other) (ifftshiftIdx m.w k) (ifftshiftIdx m.w 0) =
      dft m.w (fun j => ((m.get (m.h / 2) (ifftshiftIdx m.w j) : ℝ) : ℂ)) ((m.w - k) % m.w) := by
    intro k hk
    rw [ifftshiftIdx_zero]
    by_cases hne : ifftshiftIdx m.w k = m.w / 2
    · have hk0 : k = 0 := by
        have h1 := ifft_fft_shift m.w k hk
        have h2 := ifft_fft_shift m.w 0 hn
        rw [ifftshiftIdx_zero] at h2
        rw [← h1, hne, h2]
      subst hk0
      rw [ifftshiftIdx_zero]
      have := regrid_row I hI (spectrum m .other) hw (by show 1 ≤ m.h; omega) (m.w / 2) (by show m.w / 2 < m.w; omega)
      refine this.trans ?_
      unfold spectrum
      dsimp only
      have e := flip_freq m.w 0 hw hn
      rw [ifftshiftIdx_zero] at e
      rw [e, Nat.sub_zero, Nat.mod_self]
      simp only [smoothingWindow, Complex.ofReal_one, mul_one]
      unfold dft
      simp only [Nat.cast_zero, zero_mul, zero_div, mul_zero, neg_zero, Complex.exp_zero, mul_one]
      rw [sum_if, sum_if, hmass]
    · have := regrid_column I hI (spectrum m .other) hw hh (ifftshiftIdx m.w k) (ifftshiftIdx_lt _ _ hn) hne
      refine this.trans ?_
      unfold spectrum
      dsimp only
      rw [flip_freq m.w k hw hk]
      simp [smoothingWindow]
  rw [idft_congr _ _ _ _ hR, idft_flip _ _ _ (fftshiftIdx_lt _ _ hn)]
  rw [flip_pos m.w i hw hi, Complex.ofReal_re]

/-- C109: the total of the reconstruction is the total of the last projection, for every smoothing window. -/
theorem dfi_total (I : Spline) (hI : I.Exact) (m : Mat ℝ) (f : Filter) (hw : m.w % 2 = 1) (hh : 1 ≤ m.h) :
    ∑ j ∈ Finset.range m.w, ∑ i ∈ Finset.range m.w, (singleSlice I m f).get i j = ∑ j ∈ Finset.range m.w, m.get (m.h - 1) j := by
  have hn : 0 < m.w := by omega
  have sum_if : ∀ r : ℕ, ∑ j ∈ Finset.range m.w, ((m.get r (ifftshiftIdx m.w j) : ℝ) : ℂ) = ((∑ j ∈ Finset.range m.w, m.get r j : ℝ) : ℂ) := by
    intro r
    rw [← sum_fftshift m.w fun j => ((m.get r (ifftshiftIdx m.w j) : ℝ) : ℂ)]
    push_cast
    exact Finset.sum_congr rfl fun j hj => by rw [fft_ifft_shift _ _ (Finset.mem_range.1 hj)]
  have hcol : ∀ j, ∑ i ∈ Finset.range m.w, (singleSlice I m f).get i j =
      (idft m.w (fun l => regrid I (spectrum m f) (ifftshiftIdx m.w 0) (ifftshiftIdx m.w l)) (fftshiftIdx m.w j)).re := by
    intro j
    unfold singleSlice
    dsimp only
    rw [← Complex.re_sum, column_sum m.w hn _ (fftshiftIdx m.w j)]
  rw [Finset.sum_congr rfl fun j _ => hcol j, ← Complex.re_sum, sum_fftshift m.w fun j => idft m.w _ j, sum_idft m.w hn, ifftshiftIdx_zero]
  have := regrid_row I hI (spectrum m f) hw hh (m.w / 2) (by show m.w / 2 < m.w; omega)
  rw [show regrid I (spectrum m f) (m.w / 2) (m.w / 2) = _ from this]
  unfold spectrum
  dsimp only
  have e := flip_freq m.w 0 hw hn
  rw [ifftshiftIdx_zero] at e
  rw [e, Nat.sub_zero, Nat.mod_self, show m.w - 1 - m.w / 2 = m.w / 2 by omega, (window_frequency_partial f m.w 0 hw (by omega)).1]
  unfold dft
  simp only [Nat.cast_zero, zero_mul, zero_div, mul_zero, neg_zero, Complex.exp_zero, mul_one]
  rw [sum_if, Complex.ofReal_one, mul_one, Complex.ofReal_re]

end Verif.Dfi
