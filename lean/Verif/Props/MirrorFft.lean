import Verif.Props.MirrorStripe
import Verif.Props.Surface

/-! C172 — the FFT-based stripe removal treats left and right alike. -/

set_option linter.unusedSectionVars false
set_option linter.unusedSimpArgs false

namespace Verif.StripeFilters
open Verif.Sorting Verif.Fourier Verif.Surface Complex

/-- The index of the negated frequency. -/
def neg (n k : ℕ) : ℕ := (n - k) % n

theorem neg_lt {n k : ℕ} (hk : k < n) : neg n k < n := Nat.mod_lt _ (by omega)

theorem neg_neg' {n k : ℕ} (hk : k < n) : neg n (neg n k) = k := by
  unfold neg
  rcases Nat.eq_zero_or_pos k with h | h
  · subst h
    simp
  · rw [Nat.mod_eq_of_lt (show n - k < n by omega), show n - (n - k) = k by omega, Nat.mod_eq_of_lt hk]

theorem exp_neg_idx {n k : ℕ} (hk : k < n) (a : ℕ) : exp (2 * Real.pi * I * ((neg n k : ℕ) * a / n)) = exp (-(2 * Real.pi * I * (k * a / n))) := by
  have hn : (n : ℂ) ≠ 0 := by exact_mod_cast (show n ≠ 0 by omega)
  unfold neg
  rcases Nat.eq_zero_or_pos k with h | h
  · subst h
    simp
  · rw [Nat.mod_eq_of_lt (show n - k < n by omega), Nat.cast_sub hk.le]
    have : 2 * (Real.pi : ℂ) * I * (((n : ℂ) - k) * a / n) = -(2 * Real.pi * I * (k * a / n)) + a * (2 * Real.pi * I) := by
      field_simp
      ring
    rw [this, Complex.exp_add, Complex.exp_nat_mul_two_pi_mul_I, mul_one]

theorem exp_neg_idx' {n k : ℕ} (hk : k < n) (a : ℕ) : exp (-(2 * Real.pi * I * ((neg n k : ℕ) * a / n))) = exp (2 * Real.pi * I * (k * a / n)) := by
  rw [Complex.exp_neg, exp_neg_idx hk, Complex.exp_neg, inv_inv]

theorem sum_neg (n : ℕ) (f : ℕ → ℂ) : ∑ k ∈ Finset.range n, f (neg n k) = ∑ k ∈ Finset.range n, f k := by
  refine Finset.sum_nbij' (fun k => neg n k) (fun k => neg n k) ?_ ?_ ?_ ?_ ?_
  · intro k hk
    exact Finset.mem_range.2 (neg_lt (Finset.mem_range.1 hk))
  · intro k hk
    exact Finset.mem_range.2 (neg_lt (Finset.mem_range.1 hk))
  · intro k hk
    exact neg_neg' (Finset.mem_range.1 hk)
  · intro k hk
    exact neg_neg' (Finset.mem_range.1 hk)
  · intro k hk
    rfl

theorem idft_congr' {N : ℕ} {y y' : ℕ → ℂ} (h : ∀ k < N, y k = y' k) (n : ℕ) : idft N y n = idft N y' n := by
  unfold idft
  rw [Finset.sum_congr rfl fun k hk => by rw [h k (Finset.mem_range.1 hk)]]

theorem dft_mirror (N : ℕ) (x x' : ℕ → ℂ) (h : ∀ n < N, x' n = x (N - 1 - n)) (l : ℕ) (hl : l < N) :
    dft N x' l = exp (2 * Real.pi * I * (l / N)) * dft N x (neg N l) := by
  have hN : (N : ℂ) ≠ 0 := by exact_mod_cast (show N ≠ 0 by omega)
  unfold dft
  rw [Finset.mul_sum, ← Finset.sum_range_reflect]
  refine Finset.sum_congr rfl fun n hn => ?_
  have hn := Finset.mem_range.1 hn
  rw [h _ (by omega), show N - 1 - (N - 1 - n) = n by omega, exp_neg_idx' hl, mul_left_comm, ← Complex.exp_add]
  congr 1
  have : ((N - 1 - n : ℕ) : ℂ) = (N : ℂ) - 1 - n := by rw [Nat.cast_sub (by omega), Nat.cast_sub (by omega), Nat.cast_one]
  rw [this, show -(2 * (Real.pi : ℂ) * I * (l * ((N : ℂ) - 1 - n) / N)) = (2 * Real.pi * I * (l / N) + 2 * Real.pi * I * (l * n / N)) - l * (2 * Real.pi * I) by
    field_simp
    ring, Complex.exp_sub, Complex.exp_nat_mul_two_pi_mul_I, div_one]

theorem idft_mirror (N : ℕ) (y : ℕ → ℂ) (j : ℕ) (hj : j < N) :
    idft N (fun l => exp (2 * Real.pi * I * (l / N)) * y (neg N l)) j = idft N y (N - 1 - j) := by
  have hN : (N : ℂ) ≠ 0 := by exact_mod_cast (show N ≠ 0 by omega)
  unfold idft
  congr 1
  rw [← sum_neg N fun k => y k * exp (2 * Real.pi * I * (k * ((N - 1 - j : ℕ) : ℂ) / N))]
  refine Finset.sum_congr rfl fun l hl => ?_
  have hl := Finset.mem_range.1 hl
  dsimp only
  rw [exp_neg_idx hl, mul_comm (exp _) (y _), mul_assoc, ← Complex.exp_add]
  congr 1
  have : ((N - 1 - j : ℕ) : ℂ) = (N : ℂ) - 1 - j := by rw [Nat.cast_sub (by omega), Nat.cast_sub (by omega), Nat.cast_one]
  rw [this, show -(2 * (Real.pi : ℂ) * I * (l * ((N : ℂ) - 1 - j) / N)) = (2 * Real.pi * I * (l / N) + 2 * Real.pi * I * (l * j / N)) - l * (2 * Real.pi * I) by
    field_simp
    ring, Complex.exp_sub, Complex.exp_nat_mul_two_pi_mul_I, div_one]

/-- A Fourier multiplier applied to the mirrored image. -/
theorem multiplier_mirror (h w : ℕ) (x x' : ℕ → ℕ → ℂ) (hx : ∀ i, ∀ j < w, x' i j = x i (w - 1 - j)) (mult : ℕ → ℕ → ℂ) (i j : ℕ) (hj : j < w) :
    idft2 h w (fun k l => dft2 h w x' k l * mult k l) i j = idft2 h w (fun k l => dft2 h w x k l * mult k (neg w l)) i (w - 1 - j) := by
  unfold idft2
  refine idft_congr' (fun k _ => ?_) i
  rw [← idft_mirror w (fun l => dft2 h w x k l * mult k (neg w l)) j hj]
  refine idft_congr' (fun l hl => ?_) j
  have : dft2 h w x' k l = exp (2 * Real.pi * I * (l / w)) * dft2 h w x k (neg w l) := by
    unfold dft2
    rw [show (fun i => dft w (x' i) l) = fun i => exp (2 * Real.pi * I * (l / w)) * dft w (x i) (neg w l) from
      funext fun i => dft_mirror w (x i) (x' i) (hx i) l hl]
    unfold dft
    rw [Finset.mul_sum]
    exact Finset.sum_congr rfl fun n _ => mul_assoc _ _ _
  dsimp only
  rw [this, neg_neg' hl, mul_assoc]

theorem dft_conj (N : ℕ) (x : ℕ → ℂ) (k : ℕ) (hk : k < N) : starRingEnd ℂ (dft N x k) = dft N (fun n => starRingEnd ℂ (x n)) (neg N k) := by
  unfold dft
  rw [map_sum]
  refine Finset.sum_congr rfl fun n _ => ?_
  rw [map_mul, ← Complex.exp_conj, exp_neg_idx' hk]
  simp [Complex.conj_ofReal, map_ofNat]

theorem idft_conj (N : ℕ) (y : ℕ → ℂ) (n : ℕ) : starRingEnd ℂ (idft N y n) = idft N (fun k => starRingEnd ℂ (y (neg N k))) n := by
  unfold idft
  rw [map_div₀, map_sum, Complex.conj_natCast]
  congr 1
  rw [← sum_neg]
  refine Finset.sum_congr rfl fun k hk => ?_
  rw [map_mul, ← Complex.exp_conj]
  congr 1
  have := exp_neg_idx' (Finset.mem_range.1 hk) n
  rw [← this]
  simp [Complex.conj_ofReal, map_ofNat]

/-- A real multiplier applied to a real image: the complex conjugate. -/
theorem multiplier_conj (h w : ℕ) (x : ℕ → ℕ → ℝ) (mult : ℕ → ℕ → ℝ) (i j : ℕ) :
    starRingEnd ℂ (idft2 h w (fun k l => dft2 h w (fun i j => (x i j : ℂ)) k l * (mult k l : ℂ)) i j) =
      idft2 h w (fun k l => dft2 h w (fun i j => (x i j : ℂ)) k l * (mult (neg h k) (neg w l) : ℂ)) i j := by
  unfold idft2
  rw [idft_conj]
  refine idft_congr' (fun k hk => ?_) i
  rw [idft_conj]
  refine idft_congr' (fun l hl => ?_) j
  rw [map_mul, Complex.conj_ofReal]
  congr 1
  unfold dft2
  rw [dft_conj h _ _ (neg_lt hk), neg_neg' hk]
  congr 1
  funext n
  rw [dft_conj w _ _ (neg_lt hl), neg_neg' hl]
  simp only [Complex.conj_ofReal]

/-- The window of the method, read at the negated frequency along an axis of odd length. -/
theorem butterworth_neg_col (w h : ℕ) (u : ℝ) (v n i l : ℕ) (hw : w % 2 = 1) (hl : l < w) :
    butterworth w h u v n i (ifftshiftIdx w (neg w l)) = butterworth w h u v n i (ifftshiftIdx w l) := by
  have e : ((ifftshiftIdx w (neg w l) : ℕ) : ℝ) = 2 * ((w / 2 : ℕ) : ℝ) - (ifftshiftIdx w l : ℕ) := by
    have : ifftshiftIdx w (neg w l) + ifftshiftIdx w l = 2 * (w / 2) := by
      unfold ifftshiftIdx neg
      rcases Nat.eq_zero_or_pos l with h | h
      · subst h
        simp only [Nat.sub_zero, Nat.mod_self, Nat.zero_add]
        rw [Nat.mod_eq_of_lt (by omega)]
        omega
      · rw [Nat.mod_eq_of_lt (show w - l < w by omega)]
        by_cases h1 : l ≤ w / 2
        · rw [Nat.mod_eq_of_lt (show l + w / 2 < w by omega), Nat.mod_eq_sub_mod (by omega), Nat.mod_eq_of_lt (by omega)]
          omega
        · rw [Nat.mod_eq_of_lt (show w - l + w / 2 < w by omega), Nat.mod_eq_sub_mod (by omega), Nat.mod_eq_of_lt (by omega)]
          omega
    have := congrArg (Nat.cast : ℕ → ℝ) this
    push_cast at this
    linarith
  unfold butterworth
  dsimp only
  rw [ceil_half' w, Int.cast_natCast, show (w + 1) / 2 = w / 2 + 1 by omega, e]
  have : ((2 * ((w / 2 : ℕ) : ℝ) - (ifftshiftIdx w l : ℕ) - (((w / 2 + 1 : ℕ) : ℝ) - 1)) / u) ^ (2 * n) =
      (((ifftshiftIdx w l : ℕ) - (((w / 2 + 1 : ℕ) : ℝ) - 1)) / u) ^ (2 * n) := by
    push_cast
    rw [pow_mul, pow_mul]
    congr 1
    ring
  rw [this]

/-- The same along the rows. -/
theorem butterworth_neg_row (w h : ℕ) (u : ℝ) (v n k j : ℕ) (hh : h % 2 = 1) (hk : k < h) :
    butterworth w h u v n (ifftshiftIdx h (neg h k)) j = butterworth w h u v n (ifftshiftIdx h k) j := by
  have e : ifftshiftIdx h (neg h k) + ifftshiftIdx h k = 2 * (h / 2) := by
    unfold ifftshiftIdx neg
    rcases Nat.eq_zero_or_pos k with h0 | h0
    · subst h0
      simp only [Nat.sub_zero, Nat.mod_self, Nat.zero_add]
      rw [Nat.mod_eq_of_lt (by omega)]
      omega
    · rw [Nat.mod_eq_of_lt (show h - k < h by omega)]
      by_cases h1 : k ≤ h / 2
      · rw [Nat.mod_eq_of_lt (show k + h / 2 < h by omega), Nat.mod_eq_sub_mod (by omega), Nat.mod_eq_of_lt (by omega)]
        omega
      · rw [Nat.mod_eq_of_lt (show h - k + h / 2 < h by omega), Nat.mod_eq_sub_mod (by omega), Nat.mod_eq_of_lt (by omega)]
        omega
  unfold butterworth
  dsimp only
  rw [ceil_half' h, show (h + 1) / 2 = h / 2 + 1 by omega]
  have hrow : ((((h / 2 + 1 : ℕ) : ℤ) - 1 - v ≤ ((ifftshiftIdx h (neg h k) : ℕ) : ℤ) ∧ ((ifftshiftIdx h (neg h k) : ℕ) : ℤ) < ((h / 2 + 1 : ℕ) : ℤ) - 1 + v + 1) ↔
      (((h / 2 + 1 : ℕ) : ℤ) - 1 - v ≤ ((ifftshiftIdx h k : ℕ) : ℤ) ∧ ((ifftshiftIdx h k : ℕ) : ℤ) < ((h / 2 + 1 : ℕ) : ℤ) - 1 + v + 1)) := by omega
  by_cases h1 : (((h / 2 + 1 : ℕ) : ℤ) - 1 - v ≤ ((ifftshiftIdx h k : ℕ) : ℤ) ∧ ((ifftshiftIdx h k : ℕ) : ℤ) < ((h / 2 + 1 : ℕ) : ℤ) - 1 + v + 1)
  · rw [if_pos h1, if_pos (hrow.2 h1)]
  · rw [if_neg h1, if_neg fun h => h1 (hrow.1 h)]

theorem padMeanEdge_mirror (m m' : Mat ℝ) (h : Mirrored m m') (pad : ℕ) (hw : 0 < m.w) : Mirrored (padMeanEdge m pad) (padMeanEdge m' pad) := by
  refine ⟨by show m'.h + _ = _; rw [h.1]; rfl, by show m'.w + _ = _; rw [h.2.1]; rfl, fun i j hj => ?_⟩
  have hj : j < m.w + 2 * pad := hj
  show (if pad ≤ i ∧ i < pad + m'.h then m'.get (i - pad) (edgeIdx m'.w pad j) else (∑ r ∈ Finset.range m'.h, m'.get r (edgeIdx m'.w pad j)) / m'.h) =
    if pad ≤ i ∧ i < pad + m.h then m.get (i - pad) (edgeIdx m.w pad (m.w + 2 * pad - 1 - j)) else
      (∑ r ∈ Finset.range m.h, m.get r (edgeIdx m.w pad (m.w + 2 * pad - 1 - j))) / m.h
  have he : edgeIdx m.w pad j < m.w := by unfold edgeIdx; omega
  have e : edgeIdx m.w pad (m.w + 2 * pad - 1 - j) = m.w - 1 - edgeIdx m.w pad j := by unfold edgeIdx; omega
  rw [h.1, h.2.1, e, h.2.2 _ _ he, Finset.sum_congr rfl fun r _ => h.2.2 r _ he]

theorem fftCore_mirror (m m' : Mat ℝ) (h : Mirrored m m') (u : ℝ) (v n : ℕ) (hodd : m.w % 2 = 1 ∨ m.h % 2 = 1) : Mirrored (fftCore m u v n) (fftCore m' u v n) := by
  refine ⟨h.1, h.2.1, fun i j hj => ?_⟩
  have hj : j < m.w := hj
  show ‖stripeFft (padMeanEdge m' (pad10 (min m'.h m'.w))) u v n (pad10 (min m'.h m'.w) + i) (pad10 (min m'.h m'.w) + j)‖ =
    ‖stripeFft (padMeanEdge m (pad10 (min m.h m.w))) u v n (pad10 (min m.h m.w) + i) (pad10 (min m.h m.w) + (m.w - 1 - j))‖
  rw [h.1, h.2.1]
  generalize pad10 (min m.h m.w) = pad
  have hp := padMeanEdge_mirror m m' h pad (by omega)
  set P := padMeanEdge m pad with hP
  set P' := padMeanEdge m' pad with hP'
  have hPw : P.w = m.w + 2 * pad := rfl
  have hPh : P.h = m.h + 2 * pad := rfl
  unfold stripeFft
  rw [hp.1, hp.2.1, multiplier_mirror P.h P.w (fun i j => (P.get i j : ℂ)) (fun i j => (P'.get i j : ℂ)) (fun i j hj => by rw [hp.2.2 i j hj]) _ (pad + i) (pad + j) (by omega),
    show P.w - 1 - (pad + j) = pad + (m.w - 1 - j) by omega]
  rcases hodd with ho | ho
  · congr 1
    unfold idft2
    refine idft_congr' (fun k _ => idft_congr' (fun l hl => ?_) _) _
    rw [butterworth_neg_col _ _ _ _ _ _ _ (by omega) hl]
  · rw [← Complex.norm_conj]
    congr 1
    rw [multiplier_conj P.h P.w P.get (fun k l => butterworth P.w P.h u v n (ifftshiftIdx P.h k) (ifftshiftIdx P.w (neg P.w l)))]
    unfold idft2
    refine idft_congr' (fun k hk => idft_congr' (fun l hl => ?_) _) _
    rw [butterworth_neg_row _ _ _ _ _ _ _ (by omega) hk, neg_neg' hl]

/-- **C172.** `remove_stripe_based_fft`, with and without sorting, for sinograms with an odd number of columns or of rows. -/
theorem fft_mirror_partial (as1 : Argsort ℝ) (hu1 : Uniform as1) (as2 : Argsort ℕ) (hu2 : Uniform as2) (u : ℝ) (n v : ℕ) (sort : Bool) (m m' : Mat ℝ) (h : Mirrored m m')
    (hodd : m.w % 2 = 1 ∨ m.h % 2 = 1) : Mirrored (removeFft as1 as2 u n v sort m) (removeFft as1 as2 u n v sort m') := by
  unfold removeFft
  cases sort
  · exact fftCore_mirror m m' h u v n hodd
  · obtain ⟨h1, h2⟩ := sortForward_mirror as1 hu1 m m' h
    exact sortBackward_mirror as2 hu2 _ _ _ _ (fftCore_mirror _ _ h1 u v n hodd) h2 rfl

/-- **C172.** `remove_stripe_based_filtering`, with and without sorting. -/
theorem filtering_mirror (as1 : Argsort ℝ) (hu1 : Uniform as1) (as2 : Argsort ℕ) (hu2 : Uniform as2) (filt : Mat ℝ → Mat ℝ) (hf : MirrorFilter filt) (sigma : ℝ) (sort : Bool)
    (w : ℕ) : MirrorFree w (removeFiltering as1 as2 filt sigma sort) := by
  intro m m' hw h
  set sm : Mat ℝ → Mat ℝ := fun m => ⟨m.h, m.w, fun i j => signFilterLine m.h (pad10 m.h)
    (fun k => Real.exp (-(((k : ℝ) - ((m.h + 2 * pad10 m.h : ℕ) - 1 : ℝ) / 2) ^ 2 / (2 * sigma ^ 2)))) (fun r => m.get r j) i⟩ with hsm
  set sh : Mat ℝ → Mat ℝ := fun m => ⟨m.h, m.w, fun i j => m.get i j - (sm m).get i j⟩ with hsh
  have sep : ∀ m, separateFrequency m true (.gaussian sigma) = .ok (sm m, sh m) := fun m => rfl
  have h1 : Mirrored (sm m) (sm m') := by
    refine ⟨h.1, h.2.1, fun i j hj => ?_⟩
    have hj : j < m.w := hj
    show signFilterLine m'.h (pad10 m'.h) (fun k => Real.exp (-(((k : ℝ) - ((m'.h + 2 * pad10 m'.h : ℕ) - 1 : ℝ) / 2) ^ 2 / (2 * sigma ^ 2)))) (fun r => m'.get r j) i = 
      signFilterLine m.h (pad10 m.h) (fun k => Real.exp (-(((k : ℝ) - ((m.h + 2 * pad10 m.h : ℕ) - 1 : ℝ) / 2) ^ 2 / (2 * sigma ^ 2)))) (fun r => m.get r (m.w - 1 - j)) i
    rw [h.1, show (fun r => m'.get r j) = fun r => m.get r (m.w - 1 - j) from funext fun r => h.2.2 r j hj]
  have h2 : Mirrored (sh m) (sh m') := by
    refine ⟨h.1, h.2.1, fun i j hj => ?_⟩
    show m'.get i j - (sm m').get i j = m.get i (m.w - 1 - j) - (sm m).get i (m.w - 1 - j)
    rw [h.2.2 i j hj, h1.2.2 i j hj]
  set g : Mat ℝ → Mat ℝ := fun s => if sort then sortBackward as2 0 (filt (sortForward as1 0 s).1) (sortForward as1 0 s).2 else filt s with hg
  have e : ∀ m, removeFiltering as1 as2 filt sigma sort m = .ok ⟨m.h, m.w, fun i j => (g (sm m)).get i j + (sh m).get i j⟩ := by
    intro m
    unfold removeFiltering
    rw [sep]
    cases sort <;> rfl
  have h3 : Mirrored (g (sm m)) (g (sm m')) ∧ (g (sm m)).w = (sm m).w := by
    rw [hg]
    cases sort
    · exact hf _ _ h1
    · exact sorting_mirrored as1 hu1 as2 hu2 filt hf _ _ h1
  rw [e, e]
  refine ⟨fun e he => (by cases he), fun out ho => ?_⟩
  cases ho
  refine ⟨hw, _, rfl, h.1, h.2.1, fun i j hj => ?_⟩
  have hj : j < m.w := hj
  show (g (sm m')).get i j + (sh m').get i j = (g (sm m)).get i (m.w - 1 - j) + (sh m).get i (m.w - 1 - j)
  rw [h3.1.2.2 i j (by rw [h3.2]; exact hj), h2.2.2 i j hj, h3.2]

/-- Transform of four values. -/
theorem dft_four (x : ℕ → ℂ) (k : ℕ) : dft 4 x k = x 0 + x 1 * (-I) ^ k + x 2 * (-1) ^ k + x 3 * I ^ k := by
  have e1 : exp (-(2 * Real.pi * I * ((k : ℂ) * (1 : ℕ) / (4 : ℕ)))) = (-I) ^ k := by
    rw [show -(2 * (Real.pi : ℂ) * I * ((k : ℂ) * (1 : ℕ) / (4 : ℕ))) = (k : ℂ) * (-(Real.pi / 2 * I)) by push_cast; ring, Complex.exp_nat_mul, Complex.exp_neg,
      Complex.exp_pi_div_two_mul_I, Complex.inv_I]
  have e2 : exp (-(2 * Real.pi * I * ((k : ℂ) * (2 : ℕ) / (4 : ℕ)))) = (-1) ^ k := by
    rw [show -(2 * (Real.pi : ℂ) * I * ((k : ℂ) * (2 : ℕ) / (4 : ℕ))) = (k : ℂ) * (-(Real.pi * I)) by push_cast; ring, Complex.exp_nat_mul, Complex.exp_neg,
      Complex.exp_pi_mul_I]
    norm_num
  have e3 : exp (-(2 * Real.pi * I * ((k : ℂ) * (3 : ℕ) / (4 : ℕ)))) = I ^ k := by
    rw [show -(2 * (Real.pi : ℂ) * I * ((k : ℂ) * (3 : ℕ) / (4 : ℕ))) = (k : ℂ) * (Real.pi / 2 * I - 2 * Real.pi * I) by push_cast; ring, Complex.exp_nat_mul,
      Complex.exp_sub, Complex.exp_pi_div_two_mul_I, Complex.exp_two_pi_mul_I, div_one]
  unfold dft
  simp only [Finset.sum_range_succ, Finset.sum_range_zero, zero_add, e1, e2, e3, Nat.cast_zero, mul_zero, zero_div, neg_zero, Complex.exp_zero, mul_one]

/-- The sinogram of the counterexample. -/
def evenSino : Mat ℝ := ⟨4, 4, fun i j => if i = j ∧ i < 2 then 2 else if i = j + 2 then 0 else 1⟩

theorem bw_four (k l : ℕ) (hk : k < 4) (hl : l < 4) : butterworth 4 4 1 1 1 (ifftshiftIdx 4 k) (ifftshiftIdx 4 l) =
    if k = 1 then 1 else if l = 3 then 1 else if l = 1 then 1 / 5 else 1 / 2 := by
  have e : (⌈(((4 : ℕ) : ℝ)) / 2⌉ : ℤ) = 2 := by
    rw [show ((4 : ℕ) : ℝ) / 2 = ((2 : ℤ) : ℝ) by norm_num, Int.ceil_intCast]
  unfold butterworth ifftshiftIdx
  dsimp only
  rw [e]
  interval_cases k <;> interval_cases l <;> norm_num

theorem idft2_four (y : ℕ → ℕ → ℂ) : idft2 4 4 y 0 0 =
    (y 0 0 + y 0 1 + y 0 2 + y 0 3 + (y 1 0 + y 1 1 + y 1 2 + y 1 3) + (y 2 0 + y 2 1 + y 2 2 + y 2 3) + (y 3 0 + y 3 1 + y 3 2 + y 3 3)) / 16 := by
  unfold idft2 idft
  simp only [Finset.sum_range_succ, Finset.sum_range_zero, zero_add, Nat.cast_zero, mul_zero, zero_div, Complex.exp_zero, mul_one, Nat.cast_ofNat]
  ring

/-- C172 refuted for the FFT-based method: a sinogram of 4 rows and 4 columns (u = n = v = 1) gives a different result with its rows reversed. -/
theorem fft_mirror_refuted (as1 : Argsort ℝ) (as2 : Argsort ℕ) :
    ¬ Mirrored (removeFft as1 as2 1 1 1 false evenSino) (removeFft as1 as2 1 1 1 false (mirror evenSino)) := by
  intro hm
  have h := hm.2.2 0 3 (by show 3 < 4; norm_num)
  have hp := padMeanEdge_mirror evenSino (mirror evenSino) (mirror_mirrored evenSino) 0 (by show 0 < 4; norm_num)
  have e0 : pad10 (min evenSino.h evenSino.w) = 0 := by decide
  change ‖stripeFft (padMeanEdge (mirror evenSino) (pad10 (min evenSino.h evenSino.w))) 1 1 1 (pad10 (min evenSino.h evenSino.w) + 0) (pad10 (min evenSino.h evenSino.w) + 3)‖ =
    ‖stripeFft (padMeanEdge evenSino (pad10 (min evenSino.h evenSino.w))) 1 1 1 (pad10 (min evenSino.h evenSino.w) + 0) (pad10 (min evenSino.h evenSino.w) + (4 - 1 - 3))‖ at h
  rw [e0] at h
  unfold stripeFft at h
  have hx : ∀ i j, i < 4 → j < 4 → (padMeanEdge evenSino 0).get i j = evenSino.get i j := by
    intro i j hi hj
    show (if 0 ≤ i ∧ i < 0 + 4 then evenSino.get (i - 0) (edgeIdx 4 0 j) else _) = _
    rw [if_pos (by omega), show edgeIdx 4 0 j = j by unfold edgeIdx; omega, Nat.sub_zero]
  rw [show (padMeanEdge (mirror evenSino) 0).h = 4 from rfl, show (padMeanEdge (mirror evenSino) 0).w = 4 from rfl, show (padMeanEdge evenSino 0).h = 4 from rfl,
    show (padMeanEdge evenSino 0).w = 4 from rfl, multiplier_mirror 4 4 (fun i j => ((padMeanEdge evenSino 0).get i j : ℂ))
      (fun i j => ((padMeanEdge (mirror evenSino) 0).get i j : ℂ)) (fun i j hj => by rw [hp.2.2 i j hj]; rfl) _ 0 3 (by norm_num)] at h
  rw [show 4 - 1 - 3 = 0 from rfl, show 0 + 0 = 0 from rfl, idft2_four, idft2_four] at h
  have p4 : I ^ 4 = 1 := Complex.I_pow_four
  have d : ∀ k l, dft2 4 4 (fun i j => ((padMeanEdge evenSino 0).get i j : ℂ)) k l =
      (2 + 1 * (-I) ^ l + 1 * (-1) ^ l + 1 * I ^ l) + (1 + 2 * (-I) ^ l + 1 * (-1) ^ l + 1 * I ^ l) * (-I) ^ k + (0 + 1 * (-I) ^ l + 1 * (-1) ^ l + 1 * I ^ l) * (-1) ^ k +
        (1 + 0 * (-I) ^ l + 1 * (-1) ^ l + 1 * I ^ l) * I ^ k := by
    intro k l
    unfold dft2
    rw [dft_four, dft_four, dft_four, dft_four, dft_four]
    simp only [hx 0 0 (by norm_num) (by norm_num), hx 0 1 (by norm_num) (by norm_num), hx 0 2 (by norm_num) (by norm_num), hx 0 3 (by norm_num) (by norm_num),
      hx 1 0 (by norm_num) (by norm_num), hx 1 1 (by norm_num) (by norm_num), hx 1 2 (by norm_num) (by norm_num), hx 1 3 (by norm_num) (by norm_num),
      hx 2 0 (by norm_num) (by norm_num), hx 2 1 (by norm_num) (by norm_num), hx 2 2 (by norm_num) (by norm_num), hx 2 3 (by norm_num) (by norm_num),
      hx 3 0 (by norm_num) (by norm_num), hx 3 1 (by norm_num) (by norm_num), hx 3 2 (by norm_num) (by norm_num), hx 3 3 (by norm_num) (by norm_num)]
    simp only [evenSino]
    norm_num
  have n0 : neg 4 0 = 0 := rfl
  have n1 : neg 4 1 = 3 := rfl
  have n2 : neg 4 2 = 2 := rfl
  have n3 : neg 4 3 = 1 := rfl
  have i3 : I ^ 3 = -I := by rw [pow_succ, Complex.I_sq]; ring
  have i6 : I ^ 6 = -1 := by rw [show 6 = 4 + 2 from rfl, pow_add, Complex.I_sq, p4]; ring
  have i5 : I ^ 5 = I := by rw [show 5 = 4 + 1 from rfl, pow_add, p4]; ring
  simp (disch := norm_num) only [n0, n1, n2, n3, d, bw_four] at h
  have t1 : (-I) ^ 3 = I := by rw [neg_pow, i3]; ring
  have t2 : (-I) ^ 2 = -1 := by rw [neg_pow, Complex.I_sq]; ring
  simp only [pow_zero, pow_one, t1, t2, i3, Complex.I_sq] at h
  norm_num at h
  ring_nf at h
  rw [Complex.I_sq, show (106 / 5 + -1 * (-4 / 5) : ℂ) = ((22 : ℝ) : ℂ) by push_cast; norm_num, show (98 / 5 + -1 * (4 / 5) : ℂ) = ((94 / 5 : ℝ) : ℂ) by push_cast; norm_num,
    Complex.norm_real, Complex.norm_real, Real.norm_eq_abs, Real.norm_eq_abs, abs_of_pos (by norm_num), abs_of_pos (by norm_num)] at h
  norm_num at h

/-- C172 for the FFT-based method at a typical size: 1801 projections of 2560 columns. -/
example (as1 : Argsort ℝ) (hu1 : Uniform as1) (as2 : Argsort ℕ) (hu2 : Uniform as2) (g : ℕ → ℕ → ℝ) :
    Mirrored (removeFft as1 as2 20 8 1 true ⟨1801, 2560, g⟩) (removeFft as1 as2 20 8 1 true (mirror ⟨1801, 2560, g⟩)) :=
  fft_mirror_partial as1 hu1 as2 hu2 20 8 1 true _ _ (mirror_mirrored _) (.inr (by show 1801 % 2 = 1; norm_num))

end Verif.StripeFilters
