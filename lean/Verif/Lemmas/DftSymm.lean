import Verif.Lemmas.FreqOp
import Mathlib.Analysis.Complex.Trigonometric

/-!
Magnitudes of Fourier spectra of reflected, shifted, affinely changed data.
-/

namespace Verif.Fourier
open Complex Finset

theorem ph_norm (N : ℕ) (t : ℤ) : ‖ph N t‖ = 1 := by
  unfold ph
  rw [show (2 * Real.pi * I * (t / N) : ℂ) = ((2 * Real.pi * (t / N) : ℝ) : ℂ) * I by push_cast; ring]
  exact norm_exp_ofReal_mul_I _

theorem dft_ph (N : ℕ) (x : ℕ → ℂ) (k : ℕ) : dft N x k = ∑ n ∈ range N, x n * ph N (-(k * n)) := by
  unfold dft ph
  refine sum_congr rfl fun n _ => ?_
  congr 2
  push_cast
  ring

theorem ph_congr (N : ℕ) (hN : 0 < N) (s t : ℤ) (h : (N : ℤ) ∣ s - t) : ph N s = ph N t := by
  obtain ⟨q, hq⟩ := h
  rw [show s = N * q + t by omega, ph_add, ph_mul_N N hN, one_mul]

/-- `i -> (s - i) mod N`. -/
def refl (N s i : ℕ) : ℕ := (s + (N - i)) % N

theorem refl_lt (N s i : ℕ) (hN : 0 < N) : refl N s i < N := Nat.mod_lt _ hN

theorem refl_dvd (N s i : ℕ) (hi : i ≤ N) : (N : ℤ) ∣ ((s : ℤ) - i) - refl N s i := by
  unfold refl
  have : ((s : ℤ) - i) - ((s + (N - i)) % N : ℕ) = (((s + (N - i) : ℕ) : ℤ) - ((s + (N - i)) % N : ℕ)) - N := by
    push_cast [Nat.cast_sub hi]
    ring
  rw [this]
  refine dvd_sub ?_ (dvd_refl _)
  rw [Int.natCast_mod]
  exact Int.dvd_self_sub_emod

theorem refl_refl (N s i : ℕ) (hi : i < N) : refl N s (refl N s i) = i := by
  have hN : 0 < N := by omega
  have h1 := refl_dvd N s i hi.le
  have h2 := refl_dvd N s (refl N s i) (refl_lt N s i hN).le
  have h3 := refl_lt N s (refl N s i) hN
  obtain ⟨p, hp⟩ := h1
  obtain ⟨q, hq⟩ := h2
  have h4 : (N : ℤ) * (q - p) = (i : ℤ) - refl N s (refl N s i) := by linear_combination hp - hq
  exact ((dvd_sub_iff N i _ hi h3).1 ⟨q - p, h4.symm⟩).symm

theorem sum_refl {M : Type} [AddCommMonoid M] (N s : ℕ) (f : ℕ → M) : ∑ i ∈ range N, f (refl N s i) = ∑ i ∈ range N, f i := by
  rcases Nat.eq_zero_or_pos N with rfl | hN
  · simp
  · exact Finset.sum_nbij' (refl N s) (refl N s) (fun k _ => mem_range.2 (refl_lt N s k hN)) (fun k _ => mem_range.2 (refl_lt N s k hN))
      (fun k hk => refl_refl N s k (mem_range.1 hk)) (fun k hk => refl_refl N s k (mem_range.1 hk)) fun k _ => rfl

theorem dft_refl (N s : ℕ) (x : ℕ → ℂ) (k : ℕ) (hk : k < N) :
    dft N (fun i => x (refl N s i)) k = ph N (-(k * s)) * dft N x ((N - k) % N) := by
  have hN : 0 < N := by omega
  rw [dft_ph, dft_ph, mul_sum, ← sum_refl N s]
  refine sum_congr rfl fun i hi => ?_
  have hi := mem_range.1 hi
  rw [refl_refl N s i hi, show -((((N - k) % N : ℕ) : ℤ) * (i : ℤ)) = (((N - k) % N : ℕ) : ℤ) * (-(i : ℤ)) by ring, ph_neg_freq N k hN hk]
  have : ph N (-((k : ℤ) * (refl N s i : ℕ))) = ph N (-(k * s)) * ph N (-((k : ℤ) * -(i : ℤ))) := by
    rw [← ph_add]
    refine ph_congr N hN _ _ ?_
    obtain ⟨q, hq⟩ := refl_dvd N s i hi.le
    exact ⟨k * q, by linear_combination (k : ℤ) * hq⟩
  rw [this]
  ring

theorem dft2_row_refl (h w s : ℕ) (x : ℕ → ℕ → ℂ) (k l : ℕ) (hk : k < h) :
    ‖dft2 h w (fun i j => x (refl h s i) j) k l‖ = ‖dft2 h w x ((h - k) % h) l‖ := by
  unfold dft2
  rw [dft_refl h s (fun i => dft w (x i) l) k hk, norm_mul, ph_norm, one_mul]

theorem dft2_col_refl (h w s : ℕ) (x : ℕ → ℕ → ℂ) (k l : ℕ) (hl : l < w) :
    ‖dft2 h w (fun i j => x i (refl w s j)) k l‖ = ‖dft2 h w x k ((w - l) % w)‖ := by
  unfold dft2
  have : (fun i => dft w (fun j => x i (refl w s j)) l) = fun i => ph w (-(l * s)) * dft w (x i) ((w - l) % w) :=
    funext fun i => dft_refl w s (x i) l hl
  rw [this, dft_smul, norm_mul, ph_norm, one_mul]

theorem dft_conj (N : ℕ) (x : ℕ → ℂ) (k : ℕ) (hk : k < N) :
    (starRingEnd ℂ) (dft N x k) = dft N (fun i => (starRingEnd ℂ) (x i)) ((N - k) % N) := by
  have hN : 0 < N := by omega
  rw [dft_ph, dft_ph, map_sum]
  refine sum_congr rfl fun i _ => ?_
  rw [map_mul, ph_conj, show -((((N - k) % N : ℕ) : ℤ) * (i : ℤ)) = (((N - k) % N : ℕ) : ℤ) * (-(i : ℤ)) by ring, ph_neg_freq N k hN hk]
  congr 2
  ring

/-- The spectrum of real data at `-k, l` and at `k, -l` has the same magnitude. -/
theorem dft2_real (h w : ℕ) (x : ℕ → ℕ → ℝ) (k l : ℕ) (hk : k < h) (hl : l < w) :
    ‖dft2 h w (fun i j => (x i j : ℂ)) ((h - k) % h) l‖ = ‖dft2 h w (fun i j => (x i j : ℂ)) k ((w - l) % w)‖ := by
  have hw : 0 < w := by omega
  rw [← RCLike.norm_conj (dft2 h w (fun i j => (x i j : ℂ)) k ((w - l) % w))]
  unfold dft2
  rw [dft_conj h _ k hk]
  congr 2
  funext i
  rw [dft_conj w _ _ (Nat.mod_lt _ hw)]
  have e : (w - (w - l) % w) % w = l := by
    rcases Nat.eq_zero_or_pos l with rfl | h0
    · simp
    · rw [Nat.mod_eq_of_lt (a := w - l) (by omega), Nat.mod_eq_of_lt (by omega)]
      omega
  rw [e]
  congr 1
  funext j
  exact (conj_ofReal _).symm

theorem dft_const (N : ℕ) (c : ℂ) (k : ℕ) (hk : k < N) : dft N (fun _ => c) k = if k = 0 then c * N else 0 := by
  have := dft_freq N (by omega) c 0 k (by omega) hk
  simpa using this

/-- Away from the zero frequency, `a x + b` has the spectrum of `x` times `a`. -/
theorem dft2_affine (h w : ℕ) (x : ℕ → ℕ → ℂ) (a b : ℂ) (k l : ℕ) (hk : k < h) (hl : l < w) (h0 : k ≠ 0 ∨ l ≠ 0) :
    dft2 h w (fun i j => a * x i j + b) k l = a * dft2 h w x k l := by
  rw [dft2_add h w (fun i j => a * x i j) (fun _ _ => b), dft2_smul]
  have : dft2 h w (fun _ _ => b) k l = 0 := by
    unfold dft2
    simp only [dft_const w b l hl]
    by_cases hl0 : l = 0
    · rw [if_pos hl0, dft_const h _ k hk, if_neg (h0.resolve_right (not_not.2 hl0))]
    · rw [if_neg hl0, dft_const h _ k hk]
      simp
  rw [this, add_zero]

end Verif.Fourier
