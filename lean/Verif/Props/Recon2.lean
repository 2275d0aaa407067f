import Verif.Props.Recon
import Mathlib.Algebra.Order.Floor.Semifield

/-! C104, C105 — default arguments, and the circular filter as a convolution. -/

set_option linter.unusedSectionVars false
set_option linter.unusedSimpArgs false

namespace Verif.Recon
open Verif.Fourier Verif.BackProj Verif.Simulation

variable {W : Type}

/-! ### Default arguments -/

/-- C104, C105: the arguments left to their defaults.  Angles: `nrow` equidistant ones from 0 to π, both included; otherwise the caller's.
Padding: 15 percent of the width but at most 150.  `ratio=None`: no mask; `ratio=0`: the largest circle around the image centre whose
radius does not exceed the distance of the rotation axis from the nearer edge (exactly that distance for an even width).  Logarithm: `-ln v`
of positive values, 0 for the others. -/
theorem recon_defaults (a : Args W) (nrow ncol : ℕ) (hn : 2 ≤ nrow) :
    (a.angles = none → a.angle nrow 0 = 0 ∧ a.angle nrow (nrow - 1) = Real.pi ∧
      ∀ i, a.angle nrow (i + 1) - a.angle nrow i = Real.pi / ((nrow : ℝ) - 1)) ∧
    (∀ l, a.angles = some l → ∀ i (h : i < l.length), a.angle nrow i = l[i]) ∧
    (a.pad = none → a.padOf ncol = min ⌊0.15 * (ncol : ℝ)⌋₊ 150) ∧ (∀ p, a.pad = some p → a.padOf ncol = p) ∧
    (∀ v, a.logv v = if a.applyLog then (if 0 < v then -Real.log v else 0) else v) ∧
    (a.ratio = none → ∀ y x, a.maskAt ncol y x = 1) ∧
    (a.ratio = some 0 → 0 < ncol → ∀ y x, a.maskAt ncol y x =
      if (dist2 ncol y x : ℝ) ≤ (min a.center (ncol - a.center) * (2 * ((ncol / 2 : ℕ) : ℝ) / ncol)) ^ 2 then 1 else 0) := by
  have hn' : ((nrow : ℝ) - 1) ≠ 0 := by
    have : (2 : ℝ) ≤ nrow := by exact_mod_cast hn
    linarith
  refine ⟨fun h => ?_, fun l h i hi => ?_, fun h => ?_, fun p h => ?_, fun v => ?_, fun h y x => ?_, fun h hc y x => ?_⟩
  · unfold Args.angle
    simp only [h]
    refine ⟨by simp, ?_, fun i => ?_⟩
    · rw [Nat.cast_sub (by omega)]
      push_cast
      field_simp
    · push_cast
      field_simp
      ring
  · unfold Args.angle
    simp only [h]
    rw [List.getD_eq_getElem _ _ hi]
  · unfold Args.padOf defaultPad
    rw [h]
    simp only [Option.getD_none]
    congr 1
    rw [show (0.15 * (ncol : ℝ)) = ((3 * ncol : ℕ) : ℝ) / ((20 : ℕ) : ℝ) by push_cast; ring, Nat.floor_div_eq_div]
  · unfold Args.padOf
    rw [h]
    rfl
  · unfold Args.logv
    by_cases h : a.applyLog
    · rw [if_pos h, if_pos h]
      by_cases hv : 0 < v
      · rw [if_neg (not_le.2 hv), if_pos hv]
      · rw [if_pos (not_lt.1 hv), if_neg hv]
        simp
    · rw [if_neg h, if_neg h]
  · unfold Args.maskAt
    simp only [h]
  · unfold Args.maskAt
    simp only [h]
    rw [if_pos trivial, (circle_mask_spec _ _ y x).2.2]
    have : (ncol : ℝ) ≠ 0 := by exact_mod_cast hc.ne'
    congr 3
    field_simp
    ring

/-- Concrete instance: 1025 columns and axis at column 500 of an even-width detector of 1024. -/
example : min ⌊0.15 * ((1025 : ℕ) : ℝ)⌋₊ 150 = 150 := by
  refine min_eq_right (Nat.le_floor ?_)
  norm_num

/-! ### The circular filter -/

theorem idft_sum {ι : Type} (s : Finset ι) (N : ℕ) (f : ι → ℕ → ℂ) (n : ℕ) : idft N (fun k => ∑ i ∈ s, f i k) n = ∑ i ∈ s, idft N (f i) n := by
  unfold idft
  rw [← Finset.sum_div]
  congr 1
  simp only [Finset.sum_mul]
  exact Finset.sum_comm

theorem idft2_swap (h w : ℕ) (y : ℕ → ℕ → ℂ) (i j : ℕ) : idft2 h w y i j = idft w (fun l => idft h (fun k => y k l) i) j := by
  unfold idft2 idft
  simp only [Finset.sum_div, Finset.sum_mul, div_mul_eq_mul_div]
  rw [Finset.sum_comm]
  refine Finset.sum_congr rfl fun l _ => Finset.sum_congr rfl fun k _ => ?_
  ring

theorem dft2_idft2 (h w : ℕ) (y : ℕ → ℕ → ℂ) (k l : ℕ) (hk : k < h) (hl : l < w) : dft2 h w (idft2 h w y) k l = y k l := by
  unfold dft2
  rw [dft_congr h _ (fun i => idft h (fun k => y k l) i) k fun i _ => ?_]
  · exact dft_idft h _ k hk
  · rw [dft_congr w _ (fun j => idft w (fun l => idft h (fun k => y k l) i) j) l fun j _ => idft2_swap h w y i j]
    exact dft_idft w _ l hl

/-- Convolution theorem in two dimensions. -/
theorem idft2_mul (h w : ℕ) (x κ : ℕ → ℕ → ℂ) (i j : ℕ) (hi : i < h) (hj : j < w) :
    idft2 h w (fun k l => dft2 h w x k l * dft2 h w κ k l) i j =
      ∑ a ∈ Finset.range h, ∑ b ∈ Finset.range w, x a b * κ ((i + (h - a)) % h) ((j + (w - b)) % w) := by
  rw [idft2_swap]
  unfold dft2
  simp only [idft_mul_dft h (fun a => dft w (x a) _) (fun a => dft w (κ a) _) i hi]
  rw [idft_sum]
  refine Finset.sum_congr rfl fun a _ => ?_
  exact idft_mul_dft w _ _ j hj

/-- Response of the circular filter to a single pixel: the inverse transform of the window (its centre is frequency zero). -/
noncomputable def response (n : ℕ) (W : Mat ℝ) (i j : ℕ) : ℂ :=
  idft2 n n (fun k l => ((W.get (ifftshiftIdx n k) (ifftshiftIdx n l) : ℝ) : ℂ)) i j

/-- C105: `apply_circular_ramp_filter` is the circular convolution of the padded image with the response of the window, read at the pixels of
the image. -/
theorem circ_convolution (m : Mat ℝ) (win : Option (Mat ℝ)) (f : Filter) (pad : ℕ) (p : ℕ → ℕ → ℕ → ℕ) (i j : ℕ) (hi : i < m.h) (hj : j < m.h) :
    (applyCircFilter m win f pad p).get i j = (∑ a ∈ Finset.range (m.h + 2 * pad), ∑ b ∈ Finset.range (m.h + 2 * pad),
      ((m.get (p m.h pad a) (p m.h pad b) : ℝ) : ℂ) *
        response (m.h + 2 * pad) (fitting win (m.h + 2 * pad) (m.h + 2 * pad) (circRamp (m.h + 2 * pad) f))
          ((pad + i + (m.h + 2 * pad - a)) % (m.h + 2 * pad)) ((pad + j + (m.h + 2 * pad - b)) % (m.h + 2 * pad))).re := by
  unfold applyCircFilter filter2
  dsimp only
  congr 1
  set n := m.h + 2 * pad with hn
  rw [← idft2_mul n n _ _ _ _ (by omega) (by omega)]
  refine idft2_congr n n _ _ _ _ fun k hk l hl => ?_
  congr 1
  unfold response
  rw [dft2_idft2 n n _ k l hk hl]

/-- C105: a window of ones that fits leaves the image unchanged, whatever the padding. -/
theorem circ_identity (m v : Mat ℝ) (f : Filter) (pad : ℕ) (p : ℕ → ℕ → ℕ → ℕ) (hp : ∀ i < m.h, p m.h pad (pad + i) = i)
    (hv : v.h = m.h + 2 * pad ∧ v.w = m.h + 2 * pad) (h1 : ∀ k < v.h, ∀ l < v.w, v.get k l = 1) (i j : ℕ) (hi : i < m.h) (hj : j < m.h) :
    (applyCircFilter m (some v) f pad p).get i j = m.get i j := by
  unfold applyCircFilter filter2
  dsimp only
  set n := m.h + 2 * pad with hn
  have hn0 : 0 < n := by omega
  rw [idft2_congr n n _ (dft2 n n fun i j => ((m.get (p m.h pad i) (p m.h pad j) : ℝ) : ℂ)) _ _ fun k hk l hl => ?_]
  · rw [idft2_dft2 n n _ _ _ (by omega) (by omega), hp i hi, hp j hj]
    exact Complex.ofReal_re _
  · rw [show fitting (some v) n n (circRamp n f) = v from if_pos hv, h1 _ (by rw [hv.1]; exact ifftshiftIdx_lt n k hn0) _ (by rw [hv.2]; exact ifftshiftIdx_lt n l hn0)]
    simp

/-- Concrete instance: the padding by edge values satisfies the hypothesis. -/
example (m v : Mat ℝ) (hv : v.h = m.h + 2 * 3 ∧ v.w = m.h + 2 * 3) (h1 : ∀ k < v.h, ∀ l < v.w, v.get k l = 1) (i j : ℕ) (hi : i < m.h) (hj : j < m.h) :
    (applyCircFilter m (some v) .hann 3 edgeIdx).get i j = m.get i j :=
  circ_identity m v _ 3 edgeIdx (fun i hi => edgeIdx_mid m.h 3 i hi) hv h1 i j hi hj

end Verif.Recon
