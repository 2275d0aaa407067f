import Verif.Model.Fourier
import Mathlib.Tactic.Ring
import Mathlib.Tactic.FieldSimp
import Mathlib.Tactic.LinearCombination
import Mathlib.Algebra.BigOperators.Ring.Finset
import Mathlib.Algebra.BigOperators.Field
import Mathlib.Algebra.Field.GeomSum

/-! Facts about the discrete Fourier transform used by the properties. -/

set_option linter.unusedSectionVars false
set_option linter.unusedSimpArgs false

namespace Verif.Fourier
open Complex

theorem twoPiI_ne : (2 * Real.pi * I : ℂ) ≠ 0 := two_pi_I_ne_zero

/-- Orthogonality of the roots of unity. -/
theorem sum_roots (N : ℕ) (hN : 0 < N) (t : ℤ) :
    ∑ k ∈ Finset.range N, exp (2 * Real.pi * I * (k * t / N)) = if (N : ℤ) ∣ t then (N : ℂ) else 0 := by
  have hN' : (N : ℂ) ≠ 0 := by exact_mod_cast hN.ne'
  set z := exp (2 * Real.pi * I * (t / N)) with hz
  have hpow : ∀ k : ℕ, exp (2 * Real.pi * I * (k * t / N)) = z ^ k := by
    intro k
    rw [hz, ← exp_nat_mul]
    congr 1
    ring
  rw [Finset.sum_congr rfl fun k _ => hpow k]
  have hzN : z ^ N = 1 := by
    rw [← hpow, exp_eq_one_iff]
    exact ⟨t, by field_simp⟩
  have hone : z = 1 ↔ (N : ℤ) ∣ t := by
    rw [hz, exp_eq_one_iff]
    constructor
    · rintro ⟨n, hn⟩
      have h1 : (2 * Real.pi * I : ℂ) * (t / N) = 2 * Real.pi * I * n := by rw [hn]; ring
      have h2 : (t : ℂ) / N = n := mul_left_cancel₀ twoPiI_ne h1
      rw [div_eq_iff hN'] at h2
      exact ⟨n, by rw [mul_comm]; exact_mod_cast h2⟩
    · rintro ⟨n, rfl⟩
      exact ⟨n, by push_cast; field_simp⟩
  by_cases hd : (N : ℤ) ∣ t
  · rw [if_pos hd, hone.2 hd]; simp
  · rw [if_neg hd]
    have hz1 : z ≠ 1 := fun h => hd (hone.1 h)
    rw [geom_sum_eq hz1, hzN, sub_self, zero_div]

theorem dvd_sub_iff (N n m : ℕ) (hn : n < N) (hm : m < N) : (N : ℤ) ∣ (n : ℤ) - m ↔ n = m := by
  constructor
  · intro h
    have h3 : (m : ℤ) % N = (n : ℤ) % N := Int.modEq_iff_dvd.2 h
    rw [Int.emod_eq_of_lt (by omega) (by omega), Int.emod_eq_of_lt (by omega) (by omega)] at h3
    exact_mod_cast h3.symm
  · rintro rfl; simp

/-- `ifft` inverts `fft`. -/
theorem idft_dft (N : ℕ) (x : ℕ → ℂ) (n : ℕ) (hn : n < N) : idft N (dft N x) n = x n := by
  have hN : 0 < N := by omega
  have hN' : (N : ℂ) ≠ 0 := by exact_mod_cast hN.ne'
  unfold idft dft
  have : ∑ k ∈ Finset.range N, (∑ m ∈ Finset.range N, x m * exp (-(2 * Real.pi * I * (k * m / N)))) * exp (2 * Real.pi * I * (k * n / N)) =
      ∑ m ∈ Finset.range N, x m * ∑ k ∈ Finset.range N, exp (2 * Real.pi * I * (k * ((n : ℤ) - m : ℤ) / N)) := by
    simp only [Finset.sum_mul, Finset.mul_sum]
    rw [Finset.sum_comm]
    refine Finset.sum_congr rfl fun m _ => Finset.sum_congr rfl fun k _ => ?_
    rw [mul_assoc, ← exp_add]
    congr 2
    push_cast
    ring
  rw [this, Finset.sum_congr rfl fun m hm => by rw [sum_roots N hN]]
  rw [Finset.sum_congr rfl fun m hm => by rw [if_congr (dvd_sub_iff N n m hn (Finset.mem_range.1 hm)) rfl rfl]]
  simp only [mul_ite, mul_zero, Finset.sum_ite_eq, Finset.mem_range, hn, if_true]
  field_simp

/-- `fft` inverts `ifft`. -/
theorem dft_idft (N : ℕ) (y : ℕ → ℂ) (k : ℕ) (hk : k < N) : dft N (idft N y) k = y k := by
  have hN : 0 < N := by omega
  have hN' : (N : ℂ) ≠ 0 := by exact_mod_cast hN.ne'
  unfold idft dft
  have : ∑ n ∈ Finset.range N, (∑ m ∈ Finset.range N, y m * exp (2 * Real.pi * I * (m * n / N))) / N * exp (-(2 * Real.pi * I * (k * n / N))) =
      (∑ m ∈ Finset.range N, y m * ∑ n ∈ Finset.range N, exp (2 * Real.pi * I * (n * ((m : ℤ) - k : ℤ) / N))) / N := by
    simp only [div_mul_eq_mul_div, ← Finset.sum_div, Finset.sum_mul, Finset.mul_sum]
    rw [Finset.sum_comm]
    congr 1
    refine Finset.sum_congr rfl fun m _ => Finset.sum_congr rfl fun n _ => ?_
    rw [mul_assoc, ← exp_add]
    congr 2
    push_cast
    ring
  rw [this, Finset.sum_congr rfl fun m hm => by rw [sum_roots N hN]]
  rw [Finset.sum_congr rfl fun m hm => by rw [if_congr (dvd_sub_iff N m k (Finset.mem_range.1 hm) hk) rfl rfl]]
  simp only [mul_ite, mul_zero, Finset.sum_ite_eq', Finset.mem_range, hk, if_true]
  field_simp

theorem dft_congr (N : ℕ) (x y : ℕ → ℂ) (k : ℕ) (h : ∀ n < N, x n = y n) : dft N x k = dft N y k :=
  Finset.sum_congr rfl fun n hn => by rw [h n (Finset.mem_range.1 hn)]

theorem idft_congr (N : ℕ) (x y : ℕ → ℂ) (k : ℕ) (h : ∀ n < N, x n = y n) : idft N x k = idft N y k := by
  unfold idft
  congr 1
  exact Finset.sum_congr rfl fun n hn => by rw [h n (Finset.mem_range.1 hn)]

theorem dft_add (N : ℕ) (x y : ℕ → ℂ) (k : ℕ) : dft N (fun n => x n + y n) k = dft N x k + dft N y k := by
  simp only [dft, add_mul, Finset.sum_add_distrib]

theorem dft_smul (N : ℕ) (c : ℂ) (x : ℕ → ℂ) (k : ℕ) : dft N (fun n => c * x n) k = c * dft N x k := by
  simp only [dft, Finset.mul_sum, mul_assoc]

theorem idft_add (N : ℕ) (x y : ℕ → ℂ) (k : ℕ) : idft N (fun n => x n + y n) k = idft N x k + idft N y k := by
  simp only [idft, add_mul, Finset.sum_add_distrib, add_div]

theorem idft_smul (N : ℕ) (c : ℂ) (x : ℕ → ℂ) (k : ℕ) : idft N (fun n => c * x n) k = c * idft N x k := by
  simp only [idft, mul_div_assoc', Finset.mul_sum, mul_assoc]

theorem idft2_dft2 (h w : ℕ) (x : ℕ → ℕ → ℂ) (i j : ℕ) (hi : i < h) (hj : j < w) : idft2 h w (dft2 h w x) i j = x i j := by
  unfold idft2 dft2
  have e : (fun k => idft w (fun l => dft h (fun i => dft w (x i) l) k) j) = dft h (fun i => x i j) := by
    funext k
    have : (fun l => dft h (fun i => dft w (x i) l) k) = fun l => dft w (fun j => dft h (fun i => x i j) k) l := by
      funext l
      simp only [dft, Finset.sum_mul]
      rw [Finset.sum_comm]
      exact Finset.sum_congr rfl fun _ _ => Finset.sum_congr rfl fun _ _ => by ring
    rw [this]
    exact idft_dft w _ j hj
  rw [e, idft_dft h _ i hi]

theorem dft2_congr (h w : ℕ) (x y : ℕ → ℕ → ℂ) (k l : ℕ) (e : ∀ i < h, ∀ j < w, x i j = y i j) : dft2 h w x k l = dft2 h w y k l :=
  dft_congr h _ _ k fun i hi => dft_congr w _ _ l (e i hi)

theorem idft2_congr (h w : ℕ) (x y : ℕ → ℕ → ℂ) (k l : ℕ) (e : ∀ i < h, ∀ j < w, x i j = y i j) : idft2 h w x k l = idft2 h w y k l :=
  idft_congr h _ _ k fun i hi => idft_congr w _ _ l (e i hi)

theorem dft2_add (h w : ℕ) (x y : ℕ → ℕ → ℂ) (k l : ℕ) : dft2 h w (fun i j => x i j + y i j) k l = dft2 h w x k l + dft2 h w y k l := by
  simp only [dft2, dft_add]

theorem dft2_smul (h w : ℕ) (c : ℂ) (x : ℕ → ℕ → ℂ) (k l : ℕ) : dft2 h w (fun i j => c * x i j) k l = c * dft2 h w x k l := by
  simp only [dft2, dft_smul]

theorem idft2_add (h w : ℕ) (x y : ℕ → ℕ → ℂ) (k l : ℕ) : idft2 h w (fun i j => x i j + y i j) k l = idft2 h w x k l + idft2 h w y k l := by
  simp only [idft2, idft_add]

theorem idft2_smul (h w : ℕ) (c : ℂ) (x : ℕ → ℕ → ℂ) (k l : ℕ) : idft2 h w (fun i j => c * x i j) k l = c * idft2 h w x k l := by
  simp only [idft2, idft_smul]

/-- Transform of a pure frequency `exp(2πi f n / N)`. -/
theorem dft_freq (N : ℕ) (hN : 0 < N) (c : ℂ) (f k : ℕ) (hf : f < N) (hk : k < N) :
    dft N (fun n => c * exp (2 * Real.pi * I * (f * n / N))) k = if k = f then c * N else 0 := by
  have : dft N (fun n => c * exp (2 * Real.pi * I * (f * n / N))) k =
      c * ∑ n ∈ Finset.range N, exp (2 * Real.pi * I * (n * ((f : ℤ) - k : ℤ) / N)) := by
    simp only [dft, Finset.mul_sum]
    refine Finset.sum_congr rfl fun n _ => ?_
    rw [mul_assoc, ← exp_add]
    congr 2
    push_cast
    ring
  rw [this, sum_roots N hN, if_congr (dvd_sub_iff N f k hf hk) rfl rfl]
  by_cases h : k = f
  · rw [if_pos h.symm, if_pos h]
  · rw [if_neg (fun e => h e.symm), if_neg h, mul_zero]

/-- Multiplying the spectrum of a pure frequency by a window scales it by the window's value at that frequency. -/
theorem filter_freq (N : ℕ) (hN : 0 < N) (c : ℂ) (f : ℕ) (hf : f < N) (mult : ℕ → ℂ) (n : ℕ) :
    idft N (fun k => dft N (fun n => c * exp (2 * Real.pi * I * (f * n / N))) k * mult k) n =
      mult f * (c * exp (2 * Real.pi * I * (f * n / N))) := by
  have hN' : (N : ℂ) ≠ 0 := by exact_mod_cast hN.ne'
  rw [idft_congr N _ (fun k => (if k = f then c * N * mult f else 0)) n fun k hk => by
    rw [dft_freq N hN c f k hf hk]
    split
    · rename_i h; rw [h]
    · rw [zero_mul]]
  unfold idft
  simp only [ite_mul, zero_mul, Finset.sum_ite_eq', Finset.mem_range, hf, if_true]
  field_simp

theorem filter2_freq (h w : ℕ) (hh : 0 < h) (hw : 0 < w) (c : ℂ) (f g : ℕ) (hf : f < h) (hg : g < w) (mult : ℕ → ℕ → ℂ) (i j : ℕ) :
    idft2 h w (fun k l => dft2 h w (fun i j => c * (exp (2 * Real.pi * I * (f * i / h)) * exp (2 * Real.pi * I * (g * j / w)))) k l * mult k l) i j =
      mult f g * (c * (exp (2 * Real.pi * I * (f * i / h)) * exp (2 * Real.pi * I * (g * j / w)))) := by
  have hh' : (h : ℂ) ≠ 0 := by exact_mod_cast hh.ne'
  have hw' : (w : ℂ) ≠ 0 := by exact_mod_cast hw.ne'
  have hd : ∀ k < h, ∀ l < w, dft2 h w (fun i j => c * (exp (2 * Real.pi * I * (f * i / h)) * exp (2 * Real.pi * I * (g * j / w)))) k l =
      if k = f then (if l = g then c * w * h else 0) else 0 := by
    intro k hk l hl
    unfold dft2
    have : (fun i : ℕ => dft w (fun j => c * (exp (2 * Real.pi * I * (f * i / h)) * exp (2 * Real.pi * I * (g * j / w)))) l) =
        fun i : ℕ => (if l = g then c * w else 0) * exp (2 * Real.pi * I * (f * i / h)) := by
      funext i
      rw [show (fun j : ℕ => c * (exp (2 * Real.pi * I * (f * i / h)) * exp (2 * Real.pi * I * (g * j / w)))) =
        fun j : ℕ => (c * exp (2 * Real.pi * I * (f * i / h))) * exp (2 * Real.pi * I * (g * j / w)) from funext fun j => by ring,
        dft_freq w hw _ g l hg hl]
      split
      · ring
      · ring
    rw [this, dft_freq h hh _ f k hf hk]
    split
    · split
      · rfl
      · ring
    · rfl
  rw [idft2_congr h w _ (fun k l => if k = f then (if l = g then c * w * h * mult f g else 0) else 0) i j fun k hk l hl => by
    rw [hd k hk l hl]
    split
    · rename_i h1
      split
      · rename_i h2; rw [h1, h2]
      · rw [zero_mul]
    · rw [zero_mul]]
  unfold idft2
  have e : (fun k => idft w (fun l => if k = f then (if l = g then c * w * h * mult f g else 0) else 0) j) =
      fun k => if k = f then c * h * mult f g * exp (2 * Real.pi * I * (g * j / w)) else 0 := by
    funext k
    by_cases hk : k = f
    · simp only [hk, if_true]
      unfold idft
      simp only [ite_mul, zero_mul, Finset.sum_ite_eq', Finset.mem_range, hg, if_true]
      field_simp
    · simp only [if_neg hk]
      unfold idft
      simp
  rw [e]
  unfold idft
  simp only [ite_mul, zero_mul, Finset.sum_ite_eq', Finset.mem_range, hf, if_true]
  field_simp

/-! ### shifts -/

theorem ifft_fft_shift (n i : ℕ) (hi : i < n) : fftshiftIdx n (ifftshiftIdx n i) = i := by
  unfold fftshiftIdx ifftshiftIdx
  rw [Nat.mod_add_mod, show i + n / 2 + (n - n / 2) = i + n by omega, Nat.add_mod_right, Nat.mod_eq_of_lt hi]

theorem fft_ifft_shift (n i : ℕ) (hi : i < n) : ifftshiftIdx n (fftshiftIdx n i) = i := by
  unfold fftshiftIdx ifftshiftIdx
  rw [Nat.mod_add_mod, show i + (n - n / 2) + n / 2 = i + n by omega, Nat.add_mod_right, Nat.mod_eq_of_lt hi]

theorem ifftshiftIdx_lt (n i : ℕ) (hn : 0 < n) : ifftshiftIdx n i < n := Nat.mod_lt _ hn

theorem ifftshiftIdx_zero (n : ℕ) : ifftshiftIdx n 0 = n / 2 := by
  unfold ifftshiftIdx
  rcases Nat.eq_zero_or_pos n with rfl | h
  · rfl
  · rw [Nat.zero_add, Nat.mod_eq_of_lt (by omega)]

theorem ceil_half (n : ℕ) : ⌈((n : ℝ) - 1) / 2⌉ = ((n / 2 : ℕ) : ℤ) := by
  rw [Int.ceil_eq_iff]
  rcases Nat.even_or_odd' n with ⟨k, rfl | rfl⟩
  · rw [show 2 * k / 2 = k by omega]
    push_cast
    constructor <;> linarith
  · rw [show (2 * k + 1) / 2 = k by omega]
    push_cast
    constructor <;> linarith

/-! ### padding -/

theorem edgeIdx_mid (n p i : ℕ) (hi : i < n) : edgeIdx n p (p + i) = i := by
  unfold edgeIdx; omega

theorem reflectPadIdx_mid (n p i : ℕ) (hi : i < n) : reflectPadIdx n p (p + i) = i := by
  unfold reflectPadIdx
  split
  · omega
  · have : (((p + i : ℕ) : ℤ) - p) % (2 * ((n : ℤ) - 1)) = i := by
      rw [show ((p + i : ℕ) : ℤ) - p = i by push_cast; ring]
      exact Int.emod_eq_of_lt (by omega) (by omega)
    dsimp only
    rw [this, if_pos (by omega)]
    rfl

theorem reflectPadIdx_lt (n p i : ℕ) (hn : 0 < n) : reflectPadIdx n p i < n := by
  unfold reflectPadIdx
  split
  · exact hn
  · have h1 := Int.emod_nonneg ((i : ℤ) - p) (show 2 * ((n : ℤ) - 1) ≠ 0 by omega)
    have h2 := Int.emod_lt_of_pos ((i : ℤ) - p) (show 0 < 2 * ((n : ℤ) - 1) by omega)
    dsimp only
    split <;> omega

end Verif.Fourier
