import Verif.Model.NdiGauss
import Verif.Props.CenterMirror
import Verif.Props.DetectSample
import Verif.Props.TiltRoll
import Verif.Props.Sorting

/-! The Gaussian filter of scipy satisfies the laws assumed of it in C78, C132 and C133. -/

set_option linter.unusedSectionVars false
set_option linter.unusedSimpArgs false

namespace Verif.Ndi
open Finset Verif.Sorting

theorem reflect_lt {n : ℕ} (hn : 0 < n) (i : ℤ) : reflectIdx n i < n := by
  unfold reflectIdx
  dsimp only
  have h0 := Int.emod_nonneg i (show (2 * n : ℤ) ≠ 0 by omega)
  have h1 := Int.emod_lt_of_pos i (show 0 < (2 * n : ℤ) by omega)
  generalize i % (2 * (n : ℤ)) = m at *
  split <;> omega

theorem weight_nonneg (s : ℝ) (q : ℕ) : 0 ≤ weight s q :=
  div_nonneg (Real.exp_pos _).le (Finset.sum_nonneg fun _ _ => (Real.exp_pos _).le)

theorem weight_sum (s : ℝ) : ∑ q ∈ range (2 * radius s + 1), weight s q = 1 := by
  unfold weight
  rw [← Finset.sum_div]
  apply div_self
  have : 0 < ∑ k ∈ range (2 * radius s + 1), Real.exp (-0.5 / s ^ 2 * ((k : ℝ) - radius s) ^ 2) :=
    Finset.sum_pos (fun _ _ => Real.exp_pos _) ⟨0, by simp⟩
  exact this.ne'

theorem weight_symm (s : ℝ) {q : ℕ} (hq : q < 2 * radius s + 1) : weight s (2 * radius s - q) = weight s q := by
  unfold weight
  congr 2
  rw [Nat.cast_sub (by omega)]
  push_cast
  ring

theorem reflectIdx_flip {n : ℕ} (hn : 0 < n) (i : ℤ) : reflectIdx n ((n : ℤ) - 1 - i) = n - 1 - reflectIdx n i := by
  unfold reflectIdx
  dsimp only
  have h0 := Int.emod_nonneg i (show (2 * n : ℤ) ≠ 0 by omega)
  have h1 := Int.emod_lt_of_pos i (show 0 < (2 * n : ℤ) by omega)
  have h2 := Int.emod_add_mul_ediv i (2 * n)
  generalize hq : i / (2 * (n : ℤ)) = q at h2
  generalize hm : i % (2 * (n : ℤ)) = m at *
  by_cases hl : m < n
  · have e : ((n : ℤ) - 1 - i) % (2 * n) = n - 1 - m := by
      rw [show (n : ℤ) - 1 - i = (n - 1 - m) + (2 * n) * (-q) by rw [← h2]; ring, Int.add_mul_emod_self_left]
      exact Int.emod_eq_of_lt (by omega) (by omega)
    rw [e, if_pos (by omega), if_pos (by omega)]
    omega
  · have e : ((n : ℤ) - 1 - i) % (2 * n) = 3 * n - 1 - m := by
      rw [show (n : ℤ) - 1 - i = (3 * n - 1 - m) + (2 * n) * (-q - 1) by rw [← h2]; ring, Int.add_mul_emod_self_left]
      exact Int.emod_eq_of_lt (by omega) (by omega)
    rw [e, if_neg (by omega), if_neg (by omega)]
    omega

theorem gauss1_affine (s : ℝ) (n : ℕ) (f : ℕ → ℝ) (a b : ℝ) (i : ℕ) : gauss1 s n (fun r => a * f r + b) i = a * gauss1 s n f i + b := by
  unfold gauss1
  have e : ∀ q ∈ range (2 * radius s + 1), weight s q * (a * f (reflectIdx n ((i : ℤ) + q - radius s)) + b) =
      a * (weight s q * f (reflectIdx n ((i : ℤ) + q - radius s))) + weight s q * b := fun q _ => by ring
  rw [Finset.sum_congr rfl e, Finset.sum_add_distrib, ← Finset.mul_sum, ← Finset.sum_mul, weight_sum, one_mul]

theorem axis1_affine (s : ℝ) (n : ℕ) (f : ℕ → ℝ) (a b : ℝ) (i : ℕ) : axis1 s n (fun r => a * f r + b) i = a * axis1 s n f i + b := by
  unfold axis1
  by_cases h : (1e-15 : ℝ) < s
  · rw [if_pos h, if_pos h, gauss1_affine]
  · rw [if_neg h, if_neg h]

theorem axis1_congr (s : ℝ) {n : ℕ} {f g : ℕ → ℝ} (h : ∀ r < n, f r = g r) {i : ℕ} (hi : i < n) : axis1 s n f i = axis1 s n g i := by
  unfold axis1 gauss1
  by_cases hs : (1e-15 : ℝ) < s
  · rw [if_pos hs, if_pos hs]
    exact Finset.sum_congr rfl fun q _ => by rw [h _ (reflect_lt (by omega) _)]
  · rw [if_neg hs, if_neg hs, h i hi]

theorem axis1_flip (s : ℝ) {n : ℕ} (f : ℕ → ℝ) {i : ℕ} (hi : i < n) : axis1 s n (fun r => f (n - 1 - r)) i = axis1 s n f (n - 1 - i) := by
  unfold axis1 gauss1
  by_cases hs : (1e-15 : ℝ) < s
  · rw [if_pos hs, if_pos hs]
    rw [← Finset.sum_range_reflect]
    refine Finset.sum_congr rfl fun q hq => ?_
    have hq := Finset.mem_range.1 hq
    rw [show 2 * radius s + 1 - 1 - q = 2 * radius s - q by omega, weight_symm s hq]
    dsimp only
    rw [← reflectIdx_flip (show 0 < n by omega)]
    congr 3
    omega
  · rw [if_neg hs, if_neg hs]

theorem axis1_range (s : ℝ) {n : ℕ} {f : ℕ → ℝ} {lo hi : ℝ} (h : ∀ r < n, lo ≤ f r ∧ f r ≤ hi) {i : ℕ} (hi' : i < n) :
    lo ≤ axis1 s n f i ∧ axis1 s n f i ≤ hi := by
  unfold axis1 gauss1
  by_cases hs : (1e-15 : ℝ) < s
  · rw [if_pos hs]
    have w := weight_sum s
    constructor
    · calc lo = ∑ q ∈ range (2 * radius s + 1), weight s q * lo := by rw [← Finset.sum_mul, w, one_mul]
        _ ≤ _ := Finset.sum_le_sum fun q _ => mul_le_mul_of_nonneg_left (h _ (reflect_lt (by omega) _)).1 (weight_nonneg s q)
    · calc _ ≤ ∑ q ∈ range (2 * radius s + 1), weight s q * hi :=
            Finset.sum_le_sum fun q _ => mul_le_mul_of_nonneg_left (h _ (reflect_lt (by omega) _)).2 (weight_nonneg s q)
        _ = hi := by rw [← Finset.sum_mul, w, one_mul]
  · rw [if_neg hs]
    exact h i hi'

/-- The filter of the centre searches (C132). -/
theorem gaussian_isSmooth (sy sx : ℝ) : CenterMetric.IsSmooth (gaussian sy sx) where
  shape m := ⟨rfl, rfl⟩
  affine m a b := by
    refine ⟨rfl, rfl, fun i hi j hj => ?_⟩
    show axis1 sx m.w (fun c => axis1 sy m.h (fun r => a * m.get r c + b) i) j = a * axis1 sx m.w (fun c => axis1 sy m.h (fun r => m.get r c) i) j + b
    simp only [axis1_affine]
  fliplr m := by
    refine ⟨rfl, rfl, fun i hi j hj => ?_⟩
    exact axis1_flip sx (fun c => axis1 sy m.h (fun r => m.get r c) i) hj
  flipud m := by
    refine ⟨rfl, rfl, fun i hi j hj => ?_⟩
    show axis1 sx m.w (fun c => axis1 sy m.h (fun r => m.get (m.h - 1 - r) c) i) j = axis1 sx m.w (fun c => axis1 sy m.h (fun r => m.get r c) (m.h - 1 - i)) j
    exact congrArg (fun f => axis1 sx m.w f j) (funext fun c => axis1_flip sy (fun r => m.get r c) hi)

/-- The filter of `detect_sample` (C133). -/
theorem gaussian_isGauss : Detect.IsGauss fun n => gaussian n n where
  shape n m := ⟨rfl, rfl⟩
  scale n m m' k _ hh hw h i hi j hj := by
    show axis1 _ m'.w (fun c => axis1 _ m'.h (fun r => m'.get r c) i) j = k * axis1 _ m.w (fun c => axis1 _ m.h (fun r => m.get r c) i) j
    rw [hh, hw]
    have e : ∀ c < m.w, axis1 (n : ℝ) m.h (fun r => m'.get r c) i = k * axis1 (n : ℝ) m.h (fun r => m.get r c) i + 0 := by
      intro c hc
      rw [← axis1_affine]
      exact axis1_congr _ (fun r hr => by rw [h r hr c hc, add_zero]) hi
    rw [axis1_congr _ e hj, axis1_affine, add_zero]

/-- The filter of `find_tilt_roll` (C78). -/
theorem gaussianList_isSmooth (s : ℝ) : Calibration.IsSmooth (gaussianList s) where
  len l := by unfold gaussianList; rw [List.length_map, List.length_range]
  range l lo hi h y hy := by
    unfold gaussianList at hy
    rw [List.mem_map] at hy
    obtain ⟨i, hi', rfl⟩ := hy
    refine axis1_range s (fun r hr => ?_) (List.mem_range.1 hi')
    rw [List.getD_eq_getElem?_getD, List.getElem?_eq_getElem hr]
    exact h _ (List.getElem_mem hr)

end Verif.Ndi
