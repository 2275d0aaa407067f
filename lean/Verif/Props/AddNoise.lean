import Verif.Model.Phantom
import Mathlib.Algebra.BigOperators.Group.List.Basic
import Mathlib.Algebra.BigOperators.Field
import Mathlib.Tactic.Linarith
import Mathlib.Tactic.FieldSimp

/-!
C143: adding noise to a projection image.
-/

set_option linter.unusedSectionVars false
set_option linter.unusedSimpArgs false

namespace Verif.Phantom

/-! ### Specification -/

/-- The sum of all pixels. -/
noncomputable def total (m : Mat ℝ) : ℝ := ∑ i ∈ Finset.range m.h, ∑ j ∈ Finset.range m.w, m.get i j
/-- The number of pixels that are not zero. -/
noncomputable def nonzeros (m : Mat ℝ) : ℕ := ∑ i ∈ Finset.range m.h, ((Finset.range m.w).filter fun j => m.get i j ≠ 0).card

/-- Every pixel of the image is zero. -/
def AllZero (m : Mat ℝ) : Prop := ∀ i < m.h, ∀ j < m.w, m.get i j = 0

/-! ### Theorems -/

theorem filter_sum (l : List ℝ) : (l.filter (· ≠ 0)).sum = l.sum := by
  induction l with
  | nil => rfl
  | cons a l ih =>
    rw [List.filter_cons]
    by_cases h : a = 0
    · rw [if_neg (by simp [h]), ih, List.sum_cons, h, zero_add]
    · rw [if_pos (by simp [h]), List.sum_cons, List.sum_cons, ih]

theorem entries_sum (h w : ℕ) (f : ℕ → ℕ → ℝ) :
    ((List.range h).flatMap fun i => (List.range w).map fun j => f i j).sum = ∑ i ∈ Finset.range h, ∑ j ∈ Finset.range w, f i j := by
  induction h with
  | zero => simp
  | succ h ih =>
    rw [List.range_succ, List.flatMap_append, List.sum_append, ih, Finset.sum_range_succ, List.flatMap_cons, List.flatMap_nil, List.append_nil]
    congr 1

theorem entries_count (h w : ℕ) (f : ℕ → ℕ → ℝ) :
    (((List.range h).flatMap fun i => (List.range w).map fun j => f i j).filter (· ≠ 0)).length =
      ∑ i ∈ Finset.range h, ((Finset.range w).filter fun j => f i j ≠ 0).card := by
  induction h with
  | zero => simp
  | succ h ih =>
    rw [List.range_succ, List.flatMap_append, List.filter_append, List.length_append, ih, Finset.sum_range_succ, List.flatMap_cons,
      List.flatMap_nil, List.append_nil]
    congr 1
    rw [List.filter_map, List.length_map]
    rfl

theorem nonzeros_eq_zero (m : Mat ℝ) : nonzeros m = 0 ↔ AllZero m := by
  unfold nonzeros AllZero
  rw [Finset.sum_eq_zero_iff]
  constructor
  · intro h i hi j hj
    have := h i (Finset.mem_range.2 hi)
    rw [Finset.card_eq_zero, Finset.filter_eq_empty_iff] at this
    simpa using this (Finset.mem_range.2 hj)
  · intro h i hi
    rw [Finset.card_eq_zero, Finset.filter_eq_empty_iff]
    intro j hj
    simpa using h i (Finset.mem_range.1 hi) j (Finset.mem_range.1 hj)

/-- **C143.** The complete behaviour: not-a-number everywhere for an image of zeros; an error exactly when the mean noise `ratio * mean` is negative,
with the mean over the pixels that are not zero; otherwise the normal noise is added with this mean and half of it as the deviation. -/
theorem addNoise_spec (z : ℕ → ℕ → ℝ) (m : Mat ℝ) (ratio : ℝ) :
    (AllZero m → addNoise z m ratio = .ok none) ∧
    (¬ AllZero m → total m / nonzeros m * ratio < 0 → addNoise z m ratio = .error .valueError) ∧
    (¬ AllZero m → 0 ≤ total m / nonzeros m * ratio → ∃ r : Mat ℝ, addNoise z m ratio = .ok (some r) ∧ r.h = m.h ∧ r.w = m.w ∧
      ∀ i j, r.get i j = m.get i j + total m / nonzeros m * ratio * (1 + z i j / 2)) := by
  have e1 := (filter_sum ((List.range m.h).flatMap fun i => (List.range m.w).map fun j => m.get i j)).trans (entries_sum m.h m.w m.get)
  have e2 := entries_count m.h m.w m.get
  have h0 : AllZero m ↔ ((List.range m.h).flatMap fun i => (List.range m.w).map fun j => m.get i j).filter (· ≠ 0) = [] := by
    rw [← nonzeros_eq_zero, ← List.length_eq_zero_iff, e2]
    rfl
  unfold addNoise
  dsimp only
  refine ⟨fun h => by rw [if_pos (h0.1 h)], fun h hn => ?_, fun h hn => ?_⟩
  · rw [if_neg (fun hh => h (h0.2 hh)), e1, e2, if_pos]
    show total m / (nonzeros m : ℝ) * ratio * 0.5 < 0
    linarith
  · rw [if_neg (fun hh => h (h0.2 hh)), e1, e2, if_neg]
    · refine ⟨_, rfl, rfl, rfl, fun i j => ?_⟩
      show m.get i j + (total m / (nonzeros m : ℝ) * ratio + total m / (nonzeros m : ℝ) * ratio * 0.5 * z i j) = _
      ring
    · show ¬ total m / (nonzeros m : ℝ) * ratio * 0.5 < 0
      linarith

/-- **C143.** An image without negative pixels, not all zero, and a ratio that is not negative: never an error. -/
theorem addNoise_nonneg (z : ℕ → ℕ → ℝ) (m : Mat ℝ) {ratio : ℝ} (hm : ∀ i < m.h, ∀ j < m.w, 0 ≤ m.get i j) (hr : 0 ≤ ratio) (h0 : ¬ AllZero m) :
    ∃ r : Mat ℝ, addNoise z m ratio = .ok (some r) := by
  have ht : 0 ≤ total m := Finset.sum_nonneg fun i hi => Finset.sum_nonneg fun j hj => hm i (Finset.mem_range.1 hi) j (Finset.mem_range.1 hj)
  obtain ⟨r, h, -⟩ := (addNoise_spec z m ratio).2.2 h0 (by positivity)
  exact ⟨r, h⟩

/-- **C143.** Without noise the image is unchanged. -/
theorem addNoise_zero (z : ℕ → ℕ → ℝ) (m : Mat ℝ) (h0 : ¬ AllZero m) :
    ∃ r : Mat ℝ, addNoise z m 0 = .ok (some r) ∧ r.h = m.h ∧ r.w = m.w ∧ ∀ i j, r.get i j = m.get i j := by
  obtain ⟨r, h, h1, h2, h3⟩ := (addNoise_spec z m 0).2.2 h0 (by rw [mul_zero])
  exact ⟨r, h, h1, h2, fun i j => by rw [h3, mul_zero, zero_mul, add_zero]⟩

/-- **C143.** The noise follows the scale of the image: `c` times the image gives `c` times the result for the same random numbers. -/
theorem addNoise_scale (z : ℕ → ℕ → ℝ) (m : Mat ℝ) (ratio : ℝ) {c : ℝ} (hc : 0 < c) {r : Mat ℝ} (hr : addNoise z m ratio = .ok (some r)) :
    ∃ r' : Mat ℝ, addNoise z ⟨m.h, m.w, fun i j => c * m.get i j⟩ ratio = .ok (some r') ∧ ∀ i j, r'.get i j = c * r.get i j := by
  have hz : AllZero ⟨m.h, m.w, fun i j => c * m.get i j⟩ ↔ AllZero m := by
    unfold AllZero
    constructor
    · intro h i hi j hj
      exact (mul_eq_zero.1 (h i hi j hj)).resolve_left hc.ne'
    · intro h i hi j hj
      show c * m.get i j = 0
      rw [h i hi j hj, mul_zero]
  have ht : total ⟨m.h, m.w, fun i j => c * m.get i j⟩ = c * total m := by unfold total; simp only [Finset.mul_sum]
  have hn : nonzeros ⟨m.h, m.w, fun i j => c * m.get i j⟩ = nonzeros m := by
    unfold nonzeros
    simp [hc.ne']
  have s := addNoise_spec z m ratio
  have s' := addNoise_spec z ⟨m.h, m.w, fun i j => c * m.get i j⟩ ratio
  rw [ht, hn, hz] at s'
  by_cases h0 : AllZero m
  · rw [s.1 h0] at hr; cases hr
  · by_cases hneg : total m / nonzeros m * ratio < 0
    · rw [s.2.1 h0 hneg] at hr; cases hr
    · have hneg := not_lt.1 hneg
      obtain ⟨r1, h1, -, -, h2⟩ := s.2.2 h0 hneg
      rw [h1] at hr
      cases hr
      have e : c * total m / (nonzeros m : ℝ) * ratio = c * (total m / nonzeros m * ratio) := by ring
      rw [e] at s'
      obtain ⟨r', h1', -, -, h2'⟩ := s'.2.2 h0 (mul_nonneg hc.le hneg)
      refine ⟨r', h1', fun i j => ?_⟩
      rw [h2', h2]
      dsimp only
      ring

/-! ### Examples -/

/-- A row with the pixels 0, 1, 3: the mean over the two pixels that are not zero is 2; with the ratio 0.1 the noise has the mean 0.2. -/
example : ∃ r : Mat ℝ, addNoise (fun _ _ => 0) ⟨1, 3, fun _ j => if j = 0 then 0 else if j = 1 then 1 else 3⟩ 0.1 = .ok (some r) ∧ r.get 0 0 = 0.2 := by
  have h0 : ¬ AllZero ⟨1, 3, fun _ j => if j = 0 then 0 else if j = 1 then 1 else 3⟩ := fun h => by
    have := h 0 (by norm_num) 1 (by norm_num)
    norm_num at this
  have ht : total ⟨1, 3, fun _ j => if j = 0 then 0 else if j = 1 then 1 else 3⟩ = 4 := by
    unfold total; norm_num [Finset.sum_range_succ]
  have hn : nonzeros ⟨1, 3, fun _ j => if j = 0 then 0 else if j = 1 then 1 else 3⟩ = 2 := by
    unfold nonzeros
    norm_num [Finset.sum_range_succ, Finset.range_add_one, Finset.filter_insert, Finset.filter_singleton]
  have s := (addNoise_spec (fun _ _ => 0) ⟨1, 3, fun _ j => if j = 0 then 0 else if j = 1 then 1 else 3⟩ 0.1).2.2 h0
  rw [ht, hn] at s
  obtain ⟨r, h, -, -, hg⟩ := s (by norm_num)
  exact ⟨r, h, by rw [hg]; norm_num⟩

/-- Dark-corrected images may have a negative mean: then the call fails. -/
example : addNoise (fun _ _ => 0) ⟨1, 1, fun _ _ => -1⟩ 0.1 = .error .valueError := by
  have h0 : ¬ AllZero ⟨1, 1, fun _ _ => -1⟩ := fun h => by
    have := h 0 (by norm_num) 0 (by norm_num)
    norm_num at this
  refine (addNoise_spec _ _ _).2.1 h0 ?_
  unfold total nonzeros
  norm_num

end Verif.Phantom
