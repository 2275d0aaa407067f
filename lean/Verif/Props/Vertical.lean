import Verif.Model.Vertical
import Verif.Lemmas.Sched
import Verif.Lemmas.Fourier
import Verif.Props.BackProj
import Mathlib.Analysis.SpecialFunctions.Trigonometric.Basic
import Mathlib.Analysis.Real.Pi.Bounds
import Mathlib.Tactic.Linarith
import Mathlib.Tactic.Positivity
import Mathlib.Tactic.FieldSimp
import Mathlib.Tactic.NormNum
import Mathlib.Tactic.LinearCombination

/-! C47, C48 — vertical slices. -/

set_option linter.unusedSectionVars false
set_option linter.unusedSimpArgs false

namespace Verif.Vertical
open Verif.Sched Verif.BackProj

/-! ### C47: geometry -/

theorem deg2rad_le {a b : ℝ} (h : a ≤ b) : deg2rad a ≤ deg2rad b := by
  unfold deg2rad
  exact mul_le_mul_of_nonneg_right h (by have := Real.pi_pos; positivity)

theorem deg2rad_lt {a b : ℝ} (h : a < b) : deg2rad a < deg2rad b := by
  unfold deg2rad
  exact mul_lt_mul_of_pos_right h (by have := Real.pi_pos; positivity)

theorem deg90 : deg2rad 90 = Real.pi / 2 := by unfold deg2rad; ring
theorem deg180 : deg2rad 180 = Real.pi := by unfold deg2rad; ring
theorem deg0 : deg2rad 0 = 0 := by unfold deg2rad; ring

theorem center_eq (w : Nat) : (⌈(1 / 2 : ℝ) * ((w : ℝ) - 1)⌉ : ℤ) = ((w / 2 : ℕ) : ℤ) := by
  rw [← Fourier.ceil_half]; congr 1; ring

/-- C47.  For every slice index in `[0, width-1]`, every angle in `[0°, 180°]` and every width, the
sampled points are `x = s sin a + k cos a`, `y = -s cos a + k sin a`, where `s = slice_index - c` and
`k = i - c` are measured from the centre pixel `c = width / 2`. -/
theorem vertical_points (sliceIndex alpha : ℝ) (width : Nat) (ha : 0 ≤ alpha ∧ alpha ≤ 180)
    (hs : 0 ≤ sliceIndex ∧ sliceIndex ≤ (width : ℝ) - 1) :
    ∃ pts, getPointsSingleLine sliceIndex alpha width = .ok pts ∧ ∀ i < width,
      pts.1 i = (sliceIndex - (width / 2 : ℕ)) * Real.sin (deg2rad alpha)
        + ((i : ℝ) - (width / 2 : ℕ)) * Real.cos (deg2rad alpha) ∧
      pts.2 i = -(sliceIndex - (width / 2 : ℕ)) * Real.cos (deg2rad alpha)
        + ((i : ℝ) - (width / 2 : ℕ)) * Real.sin (deg2rad alpha) := by
  unfold getPointsSingleLine
  rw [if_neg (by push Not; exact ha), if_neg (by push Not; exact hs)]
  dsimp only
  have hc : ((⌈(1 / 2 : ℝ) * ((width : ℝ) - 1)⌉ : ℤ) : ℝ) = ((width / 2 : ℕ) : ℝ) := by
    rw [center_eq, Int.cast_natCast]
  rw [hc]
  have hpi := Real.pi_lt_four
  have hang : deg2rad alpha ≤ 45 := by
    have := deg2rad_le ha.2; rw [deg180] at this; linarith
  have hsc := Real.sin_sq_add_cos_sq (deg2rad alpha)
  by_cases hb : alpha ≤ 45 ∨ alpha ≥ 135
  · rw [if_pos hb]
    refine ⟨_, rfl, ?_⟩
    intro i _
    have hcos : Real.cos (deg2rad alpha) ≠ 0 := by
      rcases hb with h | h
      · have h1 : deg2rad alpha < Real.pi / 2 := by rw [← deg90]; exact deg2rad_lt (by linarith)
        have h0 : 0 ≤ deg2rad alpha := by rw [← deg0]; exact deg2rad_le ha.1
        exact (Real.cos_pos_of_mem_Ioo ⟨by linarith [Real.pi_pos], h1⟩).ne'
      · have h1 : Real.pi / 2 < deg2rad alpha := by rw [← deg90]; exact deg2rad_lt (by linarith)
        have h0 : deg2rad alpha ≤ Real.pi := by rw [← deg180]; exact deg2rad_le ha.2
        exact (Real.cos_neg_of_pi_div_two_lt_of_lt h1 (by linarith [Real.pi_pos])).ne
    simp only [hang, if_true, Real.tan_eq_sin_div_cos]
    generalize Real.sin (deg2rad alpha) = S at *
    generalize Real.cos (deg2rad alpha) = C at *
    have h1 : 1 + (S / C) ^ 2 = 1 / C ^ 2 := by field_simp; linarith
    rw [h1]
    have e1 : -(S / C) * (-(sliceIndex - ((width / 2 : ℕ) : ℝ)) / C) / (1 / C ^ 2)
        = (sliceIndex - ((width / 2 : ℕ) : ℝ)) * S := by field_simp
    rw [e1]
    constructor
    · ring
    · field_simp
      linear_combination (sliceIndex - ((width / 2 : ℕ) : ℝ)) * hsc
  · rw [if_neg hb]
    refine ⟨_, rfl, ?_⟩
    intro i _
    push Not at hb
    have hsin : Real.sin (deg2rad alpha) ≠ 0 := by
      have h1 : 0 < deg2rad alpha := by rw [← deg0]; exact deg2rad_lt (by linarith)
      have h0 : deg2rad alpha < Real.pi := by rw [← deg180]; exact deg2rad_lt (by linarith)
      exact (Real.sin_pos_of_pos_of_lt_pi h1 h0).ne'
    have hang' : deg2rad alpha ≤ 90 := by linarith
    simp only [hang', if_true]
    generalize Real.sin (deg2rad alpha) = S at *
    generalize Real.cos (deg2rad alpha) = C at *
    have h1 : 1 + (C / S) ^ 2 = 1 / S ^ 2 := by field_simp; linarith
    rw [h1]
    have e1 : -(C / S) * ((sliceIndex - ((width / 2 : ℕ) : ℝ)) / S) / (1 / S ^ 2)
        = -(sliceIndex - ((width / 2 : ℕ) : ℝ)) * C := by field_simp
    rw [e1]
    constructor
    · field_simp
      linear_combination -(sliceIndex - ((width / 2 : ℕ) : ℝ)) * hsc
    · ring

/-- C47: all points lie on one straight line, at signed distance `slice_index - c` from the rotation
axis, and consecutive points are exactly one pixel apart. -/
theorem vertical_points_line (sliceIndex alpha : ℝ) (width : Nat) (pts : (Nat → ℝ) × (Nat → ℝ))
    (h : getPointsSingleLine sliceIndex alpha width = .ok pts) :
    (∀ i < width, pts.1 i * Real.sin (deg2rad alpha) - pts.2 i * Real.cos (deg2rad alpha)
      = sliceIndex - (width / 2 : ℕ)) ∧
    (∀ i, i + 1 < width → (pts.1 (i + 1) - pts.1 i) ^ 2 + (pts.2 (i + 1) - pts.2 i) ^ 2 = 1) ∧
    (∀ i j, i < width → j < width →
      (pts.1 j - pts.1 i) ^ 2 + (pts.2 j - pts.2 i) ^ 2 = ((j : ℝ) - i) ^ 2) := by
  have ha : 0 ≤ alpha ∧ alpha ≤ 180 := by
    unfold getPointsSingleLine at h
    split at h
    · cases h
    · rename_i h1; push Not at h1; exact h1
  have hs : 0 ≤ sliceIndex ∧ sliceIndex ≤ (width : ℝ) - 1 := by
    unfold getPointsSingleLine at h
    split at h
    · cases h
    · split at h
      · cases h
      · rename_i h1; push Not at h1; exact h1
  obtain ⟨pts', h1, h2⟩ := vertical_points sliceIndex alpha width ha hs
  rw [h] at h1; cases h1
  have hsc := Real.sin_sq_add_cos_sq (deg2rad alpha)
  have hd : ∀ i j, i < width → j < width →
      (pts.1 j - pts.1 i) ^ 2 + (pts.2 j - pts.2 i) ^ 2 = ((j : ℝ) - i) ^ 2 := by
    intro i j hi hj
    rw [(h2 i hi).1, (h2 i hi).2, (h2 j hj).1, (h2 j hj).2]
    linear_combination ((j : ℝ) - i) ^ 2 * hsc
  refine ⟨?_, ?_, hd⟩
  · intro i hi
    rw [(h2 i hi).1, (h2 i hi).2]
    linear_combination (sliceIndex - ((width / 2 : ℕ) : ℝ)) * hsc
  · intro i hi
    rw [hd i (i + 1) (by omega) hi]; push_cast; ring

/-- C47: outside the documented ranges the routine raises `ValueError`, and only there. -/
theorem vertical_points_error (sliceIndex alpha : ℝ) (width : Nat) :
    getPointsSingleLine sliceIndex alpha width = .error .valueError ↔
      ¬ (0 ≤ alpha ∧ alpha ≤ 180) ∨ ¬ (0 ≤ sliceIndex ∧ sliceIndex ≤ (width : ℝ) - 1) := by
  constructor
  · intro h
    by_contra hc
    push Not at hc
    obtain ⟨pts, h1, _⟩ := vertical_points sliceIndex alpha width hc.1 hc.2
    rw [h] at h1; cases h1
  · intro h
    unfold getPointsSingleLine
    by_cases h1 : alpha < 0 ∨ alpha > 180
    · rw [if_pos h1]
    · rw [if_neg h1]
      rw [if_pos]
      rcases h with h | h
      · push Not at h1; exact absurd h1 h
      · by_contra hc; push Not at hc; exact h hc

/-- C47: the points of a slice at angle `a + 180°` would be the reversed ones; in particular `0°` and
`180°` give the same line read in opposite directions about the centre pixel. -/
theorem vertical_points_opposite (sliceIndex : ℝ) (width : Nat) (p0 p180 : (Nat → ℝ) × (Nat → ℝ))
    (h0 : getPointsSingleLine sliceIndex 0 width = .ok p0)
    (h180 : getPointsSingleLine ((2 * (width / 2) : ℕ) - sliceIndex) 180 width = .ok p180) :
    ∀ i < width, ∀ j < width, i + j = 2 * (width / 2) →
      p180.1 j = p0.1 i ∧ p180.2 j = p0.2 i := by
  have r : ∀ s a p, getPointsSingleLine s a width = .ok p →
      (0 ≤ a ∧ a ≤ 180) ∧ (0 ≤ s ∧ s ≤ (width : ℝ) - 1) := by
    intro s a p h
    by_contra hc
    have : getPointsSingleLine s a width = .error .valueError :=
      (vertical_points_error s a width).mpr (by tauto)
    rw [h] at this; cases this
  obtain ⟨q0, e0, f0⟩ := vertical_points _ _ _ (r _ _ _ h0).1 (r _ _ _ h0).2
  obtain ⟨q1, e1, f1⟩ := vertical_points _ _ _ (r _ _ _ h180).1 (r _ _ _ h180).2
  rw [h0] at e0; cases e0
  rw [h180] at e1; cases e1
  intro i hi j hj hij
  have hij' : (i : ℝ) + j = 2 * ((width / 2 : ℕ) : ℝ) := by exact_mod_cast hij
  rw [(f0 i hi).1, (f0 i hi).2, (f1 j hj).1, (f1 j hj).2, deg180, deg0]
  simp only [Real.sin_pi, Real.cos_pi, Real.sin_zero, Real.cos_zero]
  push_cast
  constructor <;> linarith

/-- Non-vacuity: slice 2 of a 5-pixel-wide volume at 45°. -/
example : ∃ pts, getPointsSingleLine 2 45 5 = .ok pts ∧ pts.1 2 = 0 ∧ pts.2 2 = 0 ∧
    pts.1 3 = Real.cos (deg2rad 45) := by
  obtain ⟨p, h1, h2⟩ := vertical_points 2 45 5 (by norm_num) (by norm_num)
  refine ⟨p, h1, ?_, ?_, ?_⟩
  · rw [(h2 2 (by norm_num)).1]; norm_num
  · rw [(h2 2 (by norm_num)).2]; norm_num
  · rw [(h2 3 (by norm_num)).1]; norm_num

end Verif.Vertical
