import Verif.Props.SliceMetric3

/-!
The entropy of a slice written with pixel counts (C110).
-/

set_option linter.unusedSectionVars false
set_option linter.unusedSimpArgs false

namespace Verif.SliceMetric


/-- Number of pixels whose value, on the scale 0 to 255, is at least `k` and below `k + 7`. -/
noncomputable def pixelsIn (m : Mat ℝ) (k : ℕ) : ℕ :=
  ∑ i ∈ Finset.range m.h, ∑ j ∈ Finset.range m.w, if (k : ℝ) ≤ m.get i j * 255 ∧ m.get i j * 255 < (k : ℝ) + 7 then 1 else 0

theorem filter_length_map (w : ℕ) (f : ℕ → ℝ) (Q : ℝ → Bool) :
    (((List.range w).map f).filter Q).length = ∑ j ∈ Finset.range w, if Q (f j) = true then 1 else 0 := by
  induction w with
  | zero => rfl
  | succ w ih =>
    rw [List.range_succ, List.map_append, List.filter_append, List.length_append, ih, Finset.sum_range_succ]
    congr 1
    by_cases h : Q (f w) = true <;> simp [h]

theorem filter_length_entries (m : Mat ℝ) (Q : ℝ → Bool) :
    ((entries m).filter Q).length = ∑ i ∈ Finset.range m.h, ∑ j ∈ Finset.range m.w, if Q (m.get i j) = true then 1 else 0 := by
  unfold entries
  generalize m.h = h
  induction h with
  | zero => rfl
  | succ h ih =>
    rw [List.range_succ, List.flatMap_append, List.filter_append, List.length_append, ih, Finset.sum_range_succ]
    congr 1
    rw [List.flatMap_singleton, filter_length_map]

theorem window_count (l : List ℝ) (k n : ℕ) :
    ∑ t ∈ Finset.range n, (l.filter fun v => decide (level v = k + t)).length =
      (l.filter fun v => decide (k ≤ level v ∧ level v < k + n)).length := by
  induction n with
  | zero =>
    rw [Finset.sum_range_zero]
    symm
    rw [List.length_eq_zero_iff, List.filter_eq_nil_iff]
    intro v _ h
    have := of_decide_eq_true h
    omega
  | succ n ih =>
    rw [Finset.sum_range_succ, ih]
    clear ih
    induction l with
    | nil => rfl
    | cons v l ih =>
      by_cases h1 : k ≤ level v ∧ level v < k + n
      · have h2 : ¬ level v = k + n := by omega
        have h3 : k ≤ level v ∧ level v < k + (n + 1) := by omega
        simp only [List.filter_cons, h1, h2, h3, decide_true, decide_false, if_true, List.length_cons, Bool.false_eq_true, if_false] at ih ⊢
        simp only [and_self, decide_true, if_true, List.length_cons]
        omega
      · by_cases h2 : level v = k + n
        · have h3 : k ≤ level v ∧ level v < k + (n + 1) := by omega
          rw [List.filter_cons_of_neg (by simpa using h1), List.filter_cons_of_pos (by simpa using h2),
            List.filter_cons_of_pos (by simpa using h3), List.length_cons, List.length_cons]
          omega
        · have h3 : ¬ (k ≤ level v ∧ level v < k + (n + 1)) := by omega
          rw [List.filter_cons_of_neg (by simpa using h1), List.filter_cons_of_neg (by simpa using h2),
            List.filter_cons_of_neg (by simpa using h3)]
          exact ih

/-- The sum of seven neighbouring histogram bins. -/
theorem smoothHist_eq (m : Mat ℝ) (hm : ∀ i < m.h, ∀ j < m.w, 0 ≤ m.get i j) (k : ℕ) : smoothHist m k = 7 + (pixelsIn m k : ℝ) := by
  unfold smoothHist hist
  rw [Finset.sum_add_distrib, Finset.sum_const, Finset.card_range, ← Nat.cast_sum, window_count, filter_length_entries]
  have e : (∑ i ∈ Finset.range m.h, ∑ j ∈ Finset.range m.w,
      if (decide (k ≤ level (m.get i j) ∧ level (m.get i j) < k + 7)) = true then 1 else 0) = pixelsIn m k := by
    unfold pixelsIn
    refine Finset.sum_congr rfl fun i hi => Finset.sum_congr rfl fun j hj => ?_
    have h0 : 0 ≤ m.get i j * 255 := mul_nonneg (hm i (Finset.mem_range.1 hi) j (Finset.mem_range.1 hj)) (by norm_num)
    refine if_congr ?_ rfl rfl
    rw [decide_eq_true_iff]
    unfold level
    rw [Nat.le_floor_iff h0, Nat.floor_lt h0]
    push_cast
    exact Iff.rfl
  rw [e]
  simp

/-- C110: the entropy of a slice with values between 0 and 1 is `-Σ s log2 s` over 250 sliding windows of the 256 grey levels, `s` being 7
plus the number of pixels in the window of seven levels. -/
theorem entropy_spec (m : Mat ℝ) (hm : ∀ i < m.h, ∀ j < m.w, 0 ≤ m.get i j) :
    entropyOf m = -∑ k ∈ Finset.range 250, (7 + (pixelsIn m k : ℝ)) * Real.logb 2 (7 + (pixelsIn m k : ℝ)) := by
  unfold entropyOf
  refine congrArg _ (Finset.sum_congr rfl fun k _ => ?_)
  rw [smoothHist_eq m hm]

/-- A single black pixel is counted in the first window only. -/
example : pixelsIn ⟨1, 1, fun _ _ => 0⟩ 0 = 1 ∧ pixelsIn ⟨1, 1, fun _ _ => 0⟩ 1 = 0 := by
  unfold pixelsIn
  norm_num

end Verif.SliceMetric
