import Verif.Model.VerticalSearch
import Verif.Lemmas.Fourier
import Verif.Props.Post

/-!
C152 — the autocorrelation metric of the centre search on vertical slices is the mean energy of the rows.
-/

set_option linter.unusedSectionVars false
set_option linter.unusedSimpArgs false

namespace Verif.VerticalSearch
open Verif.Fourier Complex

theorem norm_root (t : ℝ) : ‖exp (2 * Real.pi * I * (t : ℂ))‖ = 1 := by
  have : (2 * Real.pi * I * (t : ℂ) : ℂ) = ((2 * Real.pi * t : ℝ) : ℂ) * I := by push_cast; ring
  rw [this, norm_exp_ofReal_mul_I]

/-- Parseval's identity. -/
theorem parseval (N : ℕ) (x : ℕ → ℂ) : ∑ k ∈ Finset.range N, ‖dft N x k‖ ^ 2 = (N : ℝ) * ∑ n ∈ Finset.range N, ‖x n‖ ^ 2 := by
  rcases Nat.eq_zero_or_pos N with rfl | hN
  · simp
  have hN' : (N : ℂ) ≠ 0 := by exact_mod_cast hN.ne'
  have hsq : ∀ z : ℂ, ((‖z‖ ^ 2 : ℝ) : ℂ) = z * (starRingEnd ℂ) z := fun z => by
    rw [mul_conj, normSq_eq_norm_sq]
  have hconj : ∀ k, (starRingEnd ℂ) (dft N x k) = ∑ n ∈ Finset.range N, (starRingEnd ℂ) (x n) * exp (2 * Real.pi * I * (k * n / N)) := fun k => by
    unfold dft
    rw [map_sum]
    refine Finset.sum_congr rfl fun n _ => ?_
    rw [map_mul, ← exp_conj]
    congr 2
    simp [conj_ofReal, conj_I, map_ofNat]
  have hx : ∀ n < N, ∑ k ∈ Finset.range N, dft N x k * exp (2 * Real.pi * I * (k * n / N)) = N * x n := fun n hn => by
    have := idft_dft N x n hn
    unfold idft at this
    rw [div_eq_iff hN'] at this
    rw [this, mul_comm]
  have : ((∑ k ∈ Finset.range N, ‖dft N x k‖ ^ 2 : ℝ) : ℂ) = (((N : ℝ) * ∑ n ∈ Finset.range N, ‖x n‖ ^ 2 : ℝ) : ℂ) := by
    rw [ofReal_sum, ofReal_mul, ofReal_sum, Finset.mul_sum]
    calc ∑ k ∈ Finset.range N, ((‖dft N x k‖ ^ 2 : ℝ) : ℂ)
        = ∑ k ∈ Finset.range N, ∑ n ∈ Finset.range N, (starRingEnd ℂ) (x n) * (dft N x k * exp (2 * Real.pi * I * (k * n / N))) := by
          refine Finset.sum_congr rfl fun k _ => ?_
          rw [hsq, hconj, Finset.mul_sum]
          exact Finset.sum_congr rfl fun n _ => by ring
      _ = ∑ n ∈ Finset.range N, (starRingEnd ℂ) (x n) * (N * x n) := by
          rw [Finset.sum_comm]
          refine Finset.sum_congr rfl fun n hn => ?_
          rw [← Finset.mul_sum, hx n (Finset.mem_range.1 hn)]
      _ = _ := by
          refine Finset.sum_congr rfl fun n _ => ?_
          rw [hsq]
          push_cast
          ring
  exact_mod_cast this

/-- The autocorrelation of a row is largest at shift 0, where it is the sum of squares. -/
theorem auto_max (N : ℕ) (hN : 0 < N) (x : ℕ → ℂ) :
    ‖idft N (fun k => ((‖dft N x k‖ ^ 2 : ℝ) : ℂ)) 0‖ = ∑ n ∈ Finset.range N, ‖x n‖ ^ 2 ∧
    ∀ n, ‖idft N (fun k => ((‖dft N x k‖ ^ 2 : ℝ) : ℂ)) n‖ ≤ ∑ n ∈ Finset.range N, ‖x n‖ ^ 2 := by
  have hN' : (N : ℝ) ≠ 0 := by exact_mod_cast hN.ne'
  have hp := parseval N x
  have hd : (∑ k ∈ Finset.range N, ‖dft N x k‖ ^ 2) / (N : ℝ) = ∑ n ∈ Finset.range N, ‖x n‖ ^ 2 := by
    rw [hp]
    field_simp
  constructor
  · have : idft N (fun k => ((‖dft N x k‖ ^ 2 : ℝ) : ℂ)) 0 = (((∑ k ∈ Finset.range N, ‖dft N x k‖ ^ 2) / (N : ℝ) : ℝ) : ℂ) := by
      unfold idft
      rw [ofReal_div, ofReal_sum, ofReal_natCast]
      congr 1
      refine Finset.sum_congr rfl fun k _ => ?_
      simp
    rw [this, norm_real, hd, Real.norm_of_nonneg]
    exact Finset.sum_nonneg fun n _ => by positivity
  · intro n
    unfold idft
    rw [norm_div, norm_natCast, ← hd]
    gcongr
    refine (norm_sum_le _ _).trans (Finset.sum_le_sum fun k _ => ?_)
    have h1 : ((k : ℂ) * n / N) = (((k : ℝ) * n / N : ℝ) : ℂ) := by push_cast; ring
    rw [norm_mul, h1, norm_root, mul_one, norm_real, Real.norm_of_nonneg (by positivity)]

/-- **C152.** The coefficient is the mean over the rows of the sum of the squares of their pixels. -/
theorem autocorrelation_eq (m : Mat ℝ) (hh : 0 < m.h) (hw : 0 < m.w) :
    autocorrelation m = .ok ((∑ i ∈ Finset.range m.h, ∑ j ∈ Finset.range m.w, m.get i j ^ 2) / (m.h : ℝ)) := by
  unfold autocorrelation
  rw [if_neg (by omega)]
  dsimp only
  congr 2
  refine Finset.sum_congr rfl fun i _ => ?_
  obtain ⟨h0, hle⟩ := auto_max m.w hw fun j => ((m.get i j : ℝ) : ℂ)
  have hs : ∑ n ∈ Finset.range m.w, ‖((m.get i n : ℝ) : ℂ)‖ ^ 2 = ∑ j ∈ Finset.range m.w, m.get i j ^ 2 :=
    Finset.sum_congr rfl fun n _ => by rw [norm_real, Real.norm_eq_abs, sq_abs]
  rw [hs] at h0 hle
  have hne : ((List.range m.w).map fun n => ‖idft m.w (fun k => ((‖dft m.w (fun j => ((m.get i j : ℝ) : ℂ)) k‖ ^ 2 : ℝ) : ℂ)) n‖) ≠ [] := by
    simp; omega
  refine (Post.npMax_spec _ hne).unique ⟨List.mem_map.2 ⟨0, List.mem_range.2 hw, h0⟩, fun y hy => ?_⟩
  obtain ⟨n, -, rfl⟩ := List.mem_map.1 hy
  exact hle n

theorem autocorrelation_error (m : Mat ℝ) (h : m.h = 0 ∨ m.w = 0) : autocorrelation m = .error .valueError := if_pos h

theorem autocorrelation_congr (m n : Mat ℝ) (h : m.Eqv n) : autocorrelation m = autocorrelation n := by
  by_cases h0 : m.h = 0 ∨ m.w = 0
  · rw [autocorrelation_error m h0, autocorrelation_error n (by rw [← h.1, ← h.2.1]; exact h0)]
  · push Not at h0
    rw [autocorrelation_eq m (by omega) (by omega), autocorrelation_eq n (by rw [← h.1]; omega) (by rw [← h.2.1]; omega), ← h.1, ← h.2.1]
    congr 2
    exact Finset.sum_congr rfl fun i hi => Finset.sum_congr rfl fun j hj => by rw [h.2.2 i (Finset.mem_range.1 hi) j (Finset.mem_range.1 hj)]

/-- The metric is not negative, is 0 only for the zero image, and grows with the square of a factor. -/
theorem autocorrelation_laws (m : Mat ℝ) (hh : 0 < m.h) (hw : 0 < m.w) :
    ∃ v, autocorrelation m = .ok v ∧ 0 ≤ v ∧ (v = 0 ↔ ∀ i < m.h, ∀ j < m.w, m.get i j = 0) ∧
      ∀ k : ℝ, autocorrelation (m.map fun x => k * x) = .ok (k ^ 2 * v) := by
  refine ⟨_, autocorrelation_eq m hh hw, by positivity, ?_, fun k => ?_⟩
  · have hh' : (m.h : ℝ) ≠ 0 := by exact_mod_cast hh.ne'
    rw [div_eq_zero_iff, or_iff_left hh', Finset.sum_eq_zero_iff_of_nonneg fun i _ => Finset.sum_nonneg fun j _ => sq_nonneg _]
    simp only [Finset.mem_range]
    refine forall₂_congr fun i _ => ?_
    rw [Finset.sum_eq_zero_iff_of_nonneg fun j _ => sq_nonneg _]
    simp only [Finset.mem_range, sq_eq_zero_iff]
  · rw [autocorrelation_eq (m.map fun x => k * x) hh hw]
    show Except.ok ((∑ i ∈ Finset.range m.h, ∑ j ∈ Finset.range m.w, (k * m.get i j) ^ 2) / (m.h : ℝ)) = _
    rw [mul_div_assoc', Finset.mul_sum]
    congr 3
    funext i
    rw [Finset.mul_sum]
    exact Finset.sum_congr rfl fun j _ => by ring

/-- It does not see where in its row a pixel is: any rearrangement of the columns, the same for all rows or not, leaves it unchanged. -/
theorem autocorrelation_perm (m n : Mat ℝ) (hh : m.h = n.h) (hw : m.w = n.w)
    (hp : ∀ i < m.h, ((List.range m.w).map (m.get i)).Perm ((List.range m.w).map (n.get i))) : autocorrelation m = autocorrelation n := by
  by_cases h0 : m.h = 0 ∨ m.w = 0
  · rw [autocorrelation_error m h0, autocorrelation_error n (by rw [← hh, ← hw]; exact h0)]
  · push Not at h0
    rw [autocorrelation_eq m (by omega) (by omega), autocorrelation_eq n (by omega) (by omega), ← hh, ← hw]
    congr 2
    refine Finset.sum_congr rfl fun i hi => ?_
    have hs : ∀ f : ℕ → ℝ, ∑ j ∈ Finset.range m.w, f j ^ 2 = (((List.range m.w).map f).map fun v => v ^ 2).sum := fun f => by
      rw [List.map_map]
      rfl
    rw [hs (m.get i), hs (n.get i)]
    exact ((hp i (Finset.mem_range.1 hi)).map _).sum_eq

/-- A concrete case: rows (3, 4) and (0, 1) give (25 + 1) / 2. -/
example : autocorrelation ⟨2, 2, fun i j => if i = 0 then (if j = 0 then 3 else 4) else (if j = 0 then 0 else 1)⟩ = .ok 13 := by
  rw [autocorrelation_eq _ (by norm_num) (by norm_num)]
  norm_num [Finset.sum_range_succ]

end Verif.VerticalSearch
