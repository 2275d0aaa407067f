import Verif.Model.Regularization
import Verif.Props.Removal
import Mathlib.Tactic.Positivity
import Mathlib.Tactic.FieldSimp
import Mathlib.Tactic.LinearCombination

/-!
C55: the coefficients and the correction of `remove_stripe_based_regularization`.
-/

set_option linter.unusedSectionVars false
set_option linter.unusedSimpArgs false

namespace Verif.Regularization
open Verif.Sorting Verif.Removal Real

/-! ### Specification -/

/-- The functional minimised by the method (Ref. [1] of the docstring): roughness of the corrected profile `m + q` plus
`alpha` times the size of the correction. -/
def energy (n : ℕ) (alpha : ℝ) (m q : ℕ → ℝ) : ℝ :=
  ∑ j ∈ Finset.range (n - 1), ((m (j + 1) + q (j + 1)) - (m j + q j)) ^ 2 + alpha * ∑ j ∈ Finset.range n, q j ^ 2

/-- `q` is the best correction. -/
def Optimal (n : ℕ) (alpha : ℝ) (m q : ℕ → ℝ) : Prop := ∀ q', energy n alpha m q ≤ energy n alpha m q'

/-- The inverse of `D^T D + alpha`, in closed form. -/
noncomputable def green (n : ℕ) (alpha : ℝ) (i j : ℕ) : ℝ :=
  cosh (((min i j : ℕ) + 1 / 2) * tau alpha) * cosh ((n - 1 / 2 - (max i j : ℕ)) * tau alpha)
    / (sinh (tau alpha) * sinh (n * tau alpha))

/-! ### Elementary facts -/

theorem tau_pos {alpha : ℝ} (ha : 0 < alpha) : 0 < tau alpha := by
  unfold tau
  have : 0 < arsinh (√alpha * (1 / 2)) := arsinh_pos_iff.2 (by positivity)
  linarith

theorem sinh_half {alpha : ℝ} : sinh (tau alpha / 2) = √alpha / 2 := by
  unfold tau
  rw [show 2 * arsinh (√alpha * (1 / 2)) / 2 = arsinh (√alpha * (1 / 2)) by ring, sinh_arsinh]
  ring

theorem alpha_eq {alpha : ℝ} (ha : 0 < alpha) : alpha = 4 * sinh (tau alpha / 2) ^ 2 := by
  rw [sinh_half, div_pow, sq_sqrt ha.le]; ring

theorem alpha_cosh {alpha : ℝ} (ha : 0 < alpha) : alpha + 2 = 2 * cosh (tau alpha) := by
  have h1 := alpha_eq ha
  have h2 : cosh (tau alpha) = cosh (tau alpha / 2) ^ 2 + sinh (tau alpha / 2) ^ 2 := by
    rw [← cosh_two_mul]; congr 1; ring
  have h3 := cosh_sq (tau alpha / 2)
  rw [h2, h3]; linarith

theorem sinh_tau {alpha : ℝ} : sinh (tau alpha) = 2 * sinh (tau alpha / 2) * cosh (tau alpha / 2) := by
  rw [← sinh_two_mul]; congr 1; ring

/-- Three-term recurrence of the hyperbolic cosine. -/
theorem cosh_rec {alpha : ℝ} (ha : 0 < alpha) (x : ℝ) :
    (2 + alpha) * cosh (x * tau alpha) = cosh ((x + 1) * tau alpha) + cosh ((x - 1) * tau alpha) := by
  have := alpha_cosh ha
  rw [show (x + 1) * tau alpha = x * tau alpha + tau alpha by ring, show (x - 1) * tau alpha = x * tau alpha - tau alpha by ring,
    cosh_add, cosh_sub]
  linear_combination cosh (x * tau alpha) * this

/-- Wronskian. -/
theorem cosh_wronskian (t x y : ℝ) :
    cosh ((x + 1) * t) * cosh (y * t) - cosh (x * t) * cosh ((y - 1) * t) = sinh t * sinh ((x + y) * t) := by
  rw [show (x + 1) * t = x * t + t by ring, show (y - 1) * t = y * t - t by ring, show (x + y) * t = x * t + y * t by ring,
    cosh_add, cosh_sub, sinh_add]
  ring

/-- The coefficients of the code in closed form: like `green` with `min i j - 1/2` in the place of `min i j + 1/2`. -/
theorem regCoef_eq {n : ℕ} {alpha : ℝ} (ha : 0 < alpha) (i j : ℕ) :
    regCoef n alpha i j = -(cosh (((min i j : ℕ) - 1 / 2) * tau alpha) * cosh ((n - 1 / 2 - (max i j : ℕ)) * tau alpha)
      / (sinh (tau alpha) * sinh (n * tau alpha))) := by
  have hs : 0 < sinh (tau alpha / 2) := sinh_pos_iff.2 (by have := tau_pos ha; linarith)
  have hc : 0 < cosh (tau alpha / 2) := cosh_pos _
  have hsum : cosh (((n : ℝ) - 1 - |(i : ℝ) - j|) * tau alpha) + cosh (((n : ℝ) - ((i : ℝ) + j)) * tau alpha)
      = 2 * (cosh (((min i j : ℕ) - 1 / 2) * tau alpha) * cosh ((n - 1 / 2 - (max i j : ℕ)) * tau alpha)) := by
    rcases le_total i j with h | h
    · have h' : (i : ℝ) ≤ j := by exact_mod_cast h
      rw [min_eq_left h, max_eq_right h, abs_of_nonpos (by linarith),
        show ((n : ℝ) - 1 - -((i : ℝ) - j)) * tau alpha = (n - 1 / 2 - (j : ℝ)) * tau alpha + ((i : ℝ) - 1 / 2) * tau alpha by ring,
        show ((n : ℝ) - ((i : ℝ) + j)) * tau alpha = (n - 1 / 2 - (j : ℝ)) * tau alpha - ((i : ℝ) - 1 / 2) * tau alpha by ring,
        cosh_add, cosh_sub]
      ring
    · have h' : (j : ℝ) ≤ i := by exact_mod_cast h
      rw [min_eq_right h, max_eq_left h, abs_of_nonneg (by linarith),
        show ((n : ℝ) - 1 - ((i : ℝ) - j)) * tau alpha = (n - 1 / 2 - (i : ℝ)) * tau alpha + ((j : ℝ) - 1 / 2) * tau alpha by ring,
        show ((n : ℝ) - ((i : ℝ) + j)) * tau alpha = (n - 1 / 2 - (i : ℝ)) * tau alpha - ((j : ℝ) - 1 / 2) * tau alpha by ring,
        cosh_add, cosh_sub]
      ring
  unfold regCoef
  dsimp only
  rw [hsum, show (1 / 2 : ℝ) * tau alpha = tau alpha / 2 by ring, tanh_eq_sinh_div_cosh, sinh_tau]
  generalize cosh (((min i j : ℕ) - 1 / 2) * tau alpha) = A
  generalize cosh ((n - 1 / 2 - (max i j : ℕ)) * tau alpha) = B
  generalize sinh (n * tau alpha) = S
  by_cases hS : S = 0
  · subst hS; simp
  have h1 : alpha ≠ 0 := ha.ne'
  have h2 := alpha_eq ha
  generalize sinh (tau alpha / 2) = s at *
  generalize cosh (tau alpha / 2) = c at *
  rw [h2]
  field_simp
  ring

/-! ### `green` is the inverse -/

/-- The gradient with mirrored neighbours. -/
theorem gradVec_eq {n : ℕ} (hn : 2 ≤ n) (v : ℕ → ℝ) {i : ℕ} (hi : i < n) :
    gradVec n v i = 2 * v i - (if i = 0 then v 0 else v (i - 1)) - (if i = n - 1 then v (n - 1) else v (i + 1)) := by
  unfold gradVec
  by_cases h1 : i = n - 1
  · rw [if_pos h1, if_pos h1, if_neg (by omega)]
    rw [h1, show n - 1 - 1 = n - 2 by omega]; ring
  · rw [if_neg h1, if_neg h1]
    by_cases h0 : i = 0
    · rw [if_pos h0, if_pos h0, h0]; ring
    · rw [if_neg h0, if_neg h0]; ring

/-- **C55 (specification lemma).** `green` inverts `D^T D + alpha I`: column `j` of it solves the equations with right-hand
side the unit vector. -/
theorem green_inverse {n : ℕ} (hn : 2 ≤ n) {alpha : ℝ} (ha : 0 < alpha) {i j : ℕ} (hi : i < n) (hj : j < n) :
    gradVec n (fun k => green n alpha k j) i + alpha * green n alpha i j = if i = j then 1 else 0 := by
  have ht := tau_pos ha
  have hS : 0 < sinh (tau alpha) := sinh_pos_iff.2 ht
  have hN : 0 < sinh (n * tau alpha) := sinh_pos_iff.2 (by
    have : (0 : ℝ) < n := by exact_mod_cast (by omega : 0 < n)
    positivity)
  set c := sinh (tau alpha) * sinh (n * tau alpha) with hc
  have hcne : c ≠ 0 := by rw [hc]; positivity
  set F : ℝ → ℝ := fun x => cosh (x * tau alpha) with hF
  have hFneg : ∀ x, F (-x) = F x := fun x => by rw [hF]; dsimp only; rw [neg_mul, cosh_neg]
  have hrec : ∀ x, (2 + alpha) * F x = F (x + 1) + F (x - 1) := fun x => cosh_rec ha x
  have hlow : ∀ k, k ≤ j → green n alpha k j = F (k + 1 / 2) * F (n - 1 / 2 - j) / c := by
    intro k hk
    unfold green
    rw [min_eq_left hk, max_eq_right hk]
  have hhigh : ∀ k, j ≤ k → green n alpha k j = F (j + 1 / 2) * F (n - 1 / 2 - k) / c := by
    intro k hk
    unfold green
    rw [min_eq_right hk, max_eq_left hk]
  -- left and right neighbours
  have hleft : i ≤ j → (if i = 0 then green n alpha 0 j else green n alpha (i - 1) j)
      = F ((i : ℝ) - 1 / 2) * F (n - 1 / 2 - j) / c := by
    intro h
    by_cases h0 : i = 0
    · rw [if_pos h0, hlow 0 (by omega), h0]
      congr 2
      rw [← hFneg]; congr 1; push_cast; ring
    · rw [if_neg h0, hlow _ (by omega)]
      congr 3
      rw [Nat.cast_sub (by omega)]; push_cast; ring
  have hright : j ≤ i → (if i = n - 1 then green n alpha (n - 1) j else green n alpha (i + 1) j)
      = F (j + 1 / 2) * F (n - 1 / 2 - i - 1) / c := by
    intro h
    by_cases h1 : i = n - 1
    · rw [if_pos h1, hhigh _ (by omega), h1]
      congr 2
      rw [← hFneg]; congr 1
      rw [Nat.cast_sub (by omega)]; push_cast; ring
    · rw [if_neg h1, hhigh _ (by omega)]
      congr 3
      push_cast; ring
  rw [gradVec_eq hn _ hi]
  rcases lt_trichotomy i j with h | h | h
  · rw [hleft h.le, if_neg (by omega : ¬ i = n - 1), hlow (i + 1) (by omega), hlow i h.le, if_neg (by omega)]
    have := hrec (i + 1 / 2)
    push_cast
    rw [show ((i : ℝ) + 1 / 2 + 1) = i + 1 + 1 / 2 by ring, show ((i : ℝ) + 1 / 2 - 1) = i - 1 / 2 by ring] at this
    linear_combination (F (n - 1 / 2 - j) / c) * this
  · subst h
    rw [hleft le_rfl, hright le_rfl, hlow i le_rfl, if_pos rfl]
    have h1 := hrec (i + 1 / 2)
    rw [show ((i : ℝ) + 1 / 2 - 1) = i - 1 / 2 by ring] at h1
    have h2 := cosh_wronskian (tau alpha) (i + 1 / 2) (n - 1 / 2 - i)
    rw [show ((i : ℝ) + 1 / 2 + (n - 1 / 2 - i)) = n by ring, ← hc] at h2
    change F (i + 1 / 2 + 1) * F (n - 1 / 2 - i) - F (i + 1 / 2) * F (n - 1 / 2 - i - 1) = c at h2
    linear_combination (F (n - 1 / 2 - i) / c) * h1 + h2 / c + div_self hcne
  · rw [hright h.le, if_neg (by omega : ¬ i = 0), hhigh (i - 1) (by omega), hhigh i h.le, if_neg (by omega)]
    have := hrec (n - 1 / 2 - i)
    rw [Nat.cast_sub (by omega)]
    push_cast
    rw [show ((n : ℝ) - 1 / 2 - i + 1) = n - 1 / 2 - (i - 1) by ring] at this
    linear_combination (F (j + 1 / 2) / c) * this

/-! ### The optimal correction -/

theorem gradVec_sum {n : ℕ} (u : ℕ → ℕ → ℝ) (c : ℕ → ℝ) (i : ℕ) :
    gradVec n (fun k => ∑ j ∈ Finset.range n, c j * u k j) i = ∑ j ∈ Finset.range n, c j * gradVec n (fun k => u k j) i := by
  unfold gradVec
  split_ifs
  · rw [← Finset.sum_sub_distrib]; exact Finset.sum_congr rfl fun j _ => by ring
  · rw [← Finset.sum_sub_distrib]; exact Finset.sum_congr rfl fun j _ => by ring
  · rw [Finset.mul_sum, ← Finset.sum_sub_distrib, ← Finset.sum_add_distrib, Finset.mul_sum]
    exact Finset.sum_congr rfl fun j _ => by ring

theorem gradVec_neg {n : ℕ} (u : ℕ → ℝ) (i : ℕ) : gradVec n (fun k => -u k) i = -gradVec n u i := by
  unfold gradVec
  split_ifs <;> ring

/-- The correction with the exact inverse. -/
noncomputable def exactCoe (n : ℕ) (alpha : ℝ) (m : ℕ → ℝ) (i : ℕ) : ℝ :=
  -∑ j ∈ Finset.range n, gradVec n m j * green n alpha i j

theorem exactCoe_solves {n : ℕ} (hn : 2 ≤ n) {alpha : ℝ} (ha : 0 < alpha) (m : ℕ → ℝ) {i : ℕ} (hi : i < n) :
    gradVec n (exactCoe n alpha m) i + alpha * exactCoe n alpha m i = -gradVec n m i := by
  unfold exactCoe
  rw [gradVec_neg (fun i => ∑ j ∈ Finset.range n, gradVec n m j * green n alpha i j), gradVec_sum, mul_neg, Finset.mul_sum,
    ← neg_add, ← Finset.sum_add_distrib]
  congr 1
  rw [Finset.sum_congr rfl (g := fun j => if i = j then gradVec n m j else 0), Finset.sum_ite_eq, if_pos (Finset.mem_range.2 hi)]
  intro j hj
  have := green_inverse hn ha hi (Finset.mem_range.1 hj)
  calc _ = gradVec n m j * (gradVec n (fun k => green n alpha k j) i + alpha * green n alpha i j) := by ring
    _ = _ := by rw [this]; split_ifs <;> ring

/-- Summation by parts. -/
theorem sum_by_parts {n : ℕ} (hn : 2 ≤ n) (u h : ℕ → ℝ) :
    ∑ j ∈ Finset.range (n - 1), (u (j + 1) - u j) * (h (j + 1) - h j) = ∑ i ∈ Finset.range n, gradVec n u i * h i := by
  obtain ⟨m, rfl⟩ : ∃ m, n = m + 1 := ⟨n - 1, by omega⟩
  rw [Finset.sum_congr rfl (s₁ := Finset.range (m + 1))
    (g := fun i => (if i = 0 then 0 else u i - u (i - 1)) * h i - (if i = m then 0 else u (i + 1) - u i) * h i)]
  · rw [Finset.sum_sub_distrib, Finset.sum_range_succ' (fun i => (if i = 0 then 0 else u i - u (i - 1)) * h i),
      Finset.sum_range_succ (fun i => (if i = m then 0 else u (i + 1) - u i) * h i)]
    simp only [if_true, zero_mul, add_zero, Nat.add_sub_cancel]
    rw [← Finset.sum_sub_distrib]
    refine Finset.sum_congr rfl fun j hj => ?_
    have := Finset.mem_range.1 hj
    rw [if_neg (by omega), if_neg (by omega)]
    ring
  · intro i hi
    have hi := Finset.mem_range.1 hi
    rw [gradVec_eq hn u hi, Nat.add_sub_cancel, ← sub_mul]
    congr 1
    by_cases h0 : i = 0
    · by_cases h1 : i = m
      · omega
      · rw [if_pos h0, if_neg h1, if_pos h0, if_neg h1, h0]; ring
    · by_cases h1 : i = m
      · rw [if_neg h0, if_pos h1, if_neg h0, if_pos h1, h1]; ring
      · rw [if_neg h0, if_neg h1, if_neg h0, if_neg h1]; ring

theorem energy_diff {n : ℕ} (hn : 2 ≤ n) {alpha : ℝ} (m q q' : ℕ → ℝ)
    (hq : ∀ i < n, gradVec n q i + alpha * q i = -gradVec n m i) :
    energy n alpha m q' = energy n alpha m q
      + (∑ j ∈ Finset.range (n - 1), ((q' (j + 1) - q (j + 1)) - (q' j - q j)) ^ 2
        + alpha * ∑ j ∈ Finset.range n, (q' j - q j) ^ 2) := by
  have hb := sum_by_parts hn (fun k => m k + q k) (fun k => q' k - q k)
  have hg : ∑ i ∈ Finset.range n, gradVec n (fun k => m k + q k) i * (q' i - q i)
      = -alpha * ∑ i ∈ Finset.range n, q i * (q' i - q i) := by
    rw [Finset.mul_sum]
    refine Finset.sum_congr rfl fun i hi => ?_
    have h1 := hq i (Finset.mem_range.1 hi)
    have h2 : gradVec n (fun k => m k + q k) i = gradVec n m i + gradVec n q i := by
      unfold gradVec; split_ifs <;> ring
    rw [h2]
    linear_combination (q' i - q i) * h1
  rw [hg] at hb
  unfold energy
  have e1 : ∑ j ∈ Finset.range (n - 1), ((m (j + 1) + q' (j + 1)) - (m j + q' j)) ^ 2
      = ∑ j ∈ Finset.range (n - 1), ((m (j + 1) + q (j + 1)) - (m j + q j)) ^ 2
        + ∑ j ∈ Finset.range (n - 1), ((q' (j + 1) - q (j + 1)) - (q' j - q j)) ^ 2
        + 2 * ∑ j ∈ Finset.range (n - 1), ((m (j + 1) + q (j + 1)) - (m j + q j)) * ((q' (j + 1) - q (j + 1)) - (q' j - q j)) := by
    rw [Finset.mul_sum, ← Finset.sum_add_distrib, ← Finset.sum_add_distrib]
    exact Finset.sum_congr rfl fun j _ => by ring
  have e2 : ∑ j ∈ Finset.range n, q' j ^ 2 = ∑ j ∈ Finset.range n, q j ^ 2 + ∑ j ∈ Finset.range n, (q' j - q j) ^ 2
      + 2 * ∑ j ∈ Finset.range n, q j * (q' j - q j) := by
    rw [Finset.mul_sum, ← Finset.sum_add_distrib, ← Finset.sum_add_distrib]
    exact Finset.sum_congr rfl fun j _ => by ring
  rw [e1, e2]
  linear_combination 2 * hb

/-- **C55 (specification).** For every profile, width and `alpha > 0` there is exactly one optimal correction: the one
given by the inverse matrix. -/
theorem optimal_iff {n : ℕ} (hn : 2 ≤ n) {alpha : ℝ} (ha : 0 < alpha) (m q : ℕ → ℝ) :
    Optimal n alpha m q ↔ ∀ i < n, q i = exactCoe n alpha m i := by
  have hd := fun q' => energy_diff hn m (exactCoe n alpha m) q' fun i hi => exactCoe_solves hn ha m hi
  constructor
  · intro h i hi
    have h1 := h (exactCoe n alpha m)
    rw [hd q] at h1
    have p1 : 0 ≤ ∑ j ∈ Finset.range (n - 1), ((q (j + 1) - exactCoe n alpha m (j + 1)) - (q j - exactCoe n alpha m j)) ^ 2 :=
      Finset.sum_nonneg fun j _ => sq_nonneg _
    have p2 : (q i - exactCoe n alpha m i) ^ 2 ≤ ∑ j ∈ Finset.range n, (q j - exactCoe n alpha m j) ^ 2 :=
      Finset.single_le_sum (f := fun j => (q j - exactCoe n alpha m j) ^ 2) (fun j _ => sq_nonneg _) (Finset.mem_range.2 hi)
    have p3 : ∑ j ∈ Finset.range n, (q j - exactCoe n alpha m j) ^ 2 ≤ 0 := by nlinarith
    have p4 : (q i - exactCoe n alpha m i) ^ 2 = 0 := le_antisymm (by linarith) (sq_nonneg _)
    exact sub_eq_zero.1 (pow_eq_zero_iff (by norm_num) |>.1 p4)
  · intro h q'
    have he : energy n alpha m q = energy n alpha m (exactCoe n alpha m) := by
      unfold energy
      congr 1
      · refine Finset.sum_congr rfl fun j hj => ?_
        have := Finset.mem_range.1 hj
        rw [h j (by omega), h (j + 1) (by omega)]
      · congr 1
        exact Finset.sum_congr rfl fun j hj => by rw [h j (Finset.mem_range.1 hj)]
    rw [he, hd q']
    have p1 : 0 ≤ ∑ j ∈ Finset.range (n - 1), ((q' (j + 1) - exactCoe n alpha m (j + 1)) - (q' j - exactCoe n alpha m j)) ^ 2 :=
      Finset.sum_nonneg fun j _ => sq_nonneg _
    have p2 : 0 ≤ ∑ j ∈ Finset.range n, (q' j - exactCoe n alpha m j) ^ 2 := Finset.sum_nonneg fun j _ => sq_nonneg _
    nlinarith

/-! ### The coefficients of the code -/

theorem denom_pos {n : ℕ} (hn : 1 ≤ n) {alpha : ℝ} (ha : 0 < alpha) : 0 < sinh (tau alpha) * sinh (n * tau alpha) := by
  have ht := tau_pos ha
  have : (0 : ℝ) < n := by exact_mod_cast hn
  exact mul_pos (sinh_pos_iff.2 ht) (sinh_pos_iff.2 (by positivity))

theorem green_comm (n : ℕ) (alpha : ℝ) (i j : ℕ) : green n alpha i j = green n alpha j i := by
  unfold green; rw [min_comm, max_comm]

theorem green_mirror (n : ℕ) (alpha : ℝ) {i j : ℕ} (hi : i < n) (hj : j < n) :
    green n alpha (n - 1 - i) (n - 1 - j) = green n alpha i j := by
  have key : ∀ i j, i ≤ j → j < n → green n alpha (n - 1 - i) (n - 1 - j) = green n alpha i j := by
    intro i j h hj
    unfold green
    rw [min_eq_right (by omega : n - 1 - j ≤ n - 1 - i), max_eq_left (by omega : n - 1 - j ≤ n - 1 - i), min_eq_left h,
      max_eq_right h, mul_comm (cosh _) (cosh _)]
    congr 3
    · congr 1
      rw [Nat.cast_sub (by omega), Nat.cast_sub (by omega)]; push_cast; ring
    · congr 1
      rw [Nat.cast_sub (by omega), Nat.cast_sub (by omega)]; push_cast; ring
  rcases le_total i j with h | h
  · exact key i j h hj
  · rw [green_comm, key j i h hi, green_comm]

/-- **C55, coefficients.** For every width and `alpha > 0` the coefficient matrix of the code is symmetric and negative; it
equals minus the inverse in its first row and column, and is strictly too small in modulus everywhere else, by a factor
not less than `exp(-tau)`. -/
theorem reg_coef_partial {n : ℕ} (hn : 1 ≤ n) {alpha : ℝ} (ha : 0 < alpha) (i j : ℕ) :
    regCoef n alpha i j = regCoef n alpha j i ∧ regCoef n alpha i j < 0 ∧
    ((i = 0 ∨ j = 0) → regCoef n alpha i j = -green n alpha i j) ∧
    (1 ≤ i → 1 ≤ j → -green n alpha i j < regCoef n alpha i j) ∧
    exp (-tau alpha) * green n alpha i j ≤ -regCoef n alpha i j := by
  have hd := denom_pos hn ha
  have ht := tau_pos ha
  have hm1 := cosh_pos (((min i j : ℕ) - 1 / 2) * tau alpha)
  have hm2 := cosh_pos ((n - 1 / 2 - (max i j : ℕ)) * tau alpha)
  refine ⟨?_, ?_, ?_, ?_, ?_⟩
  · rw [regCoef_eq ha, regCoef_eq ha, min_comm, max_comm]
  · rw [regCoef_eq ha, neg_lt_zero]
    positivity
  · intro h
    rw [regCoef_eq ha]
    unfold green
    rw [show min i j = 0 by omega, ← cosh_neg ((((0 : ℕ) : ℝ) - 1 / 2) * tau alpha)]
    congr 4
    push_cast; ring
  · intro h1 h2
    rw [regCoef_eq ha]
    unfold green
    rw [neg_lt_neg_iff]
    gcongr
    rw [cosh_lt_cosh]
    have : (1 : ℝ) ≤ (min i j : ℕ) := by exact_mod_cast (by omega : 1 ≤ min i j)
    rw [abs_of_nonneg (by nlinarith), abs_of_nonneg (by nlinarith)]
    nlinarith
  · rw [regCoef_eq ha, neg_neg]
    unfold green
    rw [← mul_div_assoc, ← mul_assoc]
    gcongr
    set x : ℝ := ((min i j : ℕ) - 1 / 2) with hx
    rw [show ((min i j : ℕ) + 1 / 2 : ℝ) = x + 1 by rw [hx]; ring, add_mul, one_mul, cosh_add, exp_neg,
      inv_mul_le_iff₀ (exp_pos _), ← cosh_add_sinh]
    have h1 : sinh (x * tau alpha) < cosh (x * tau alpha) := sinh_lt_cosh _
    have h2 : 0 < sinh (tau alpha) := sinh_pos_iff.2 ht
    nlinarith

/-! ### Refutations: the linear ramp -/

/-- A linear ramp. -/
def ramp (k : ℕ) : ℝ := k

theorem gradVec_ramp {n : ℕ} (hn : 2 ≤ n) {j : ℕ} (hj : j < n) :
    gradVec n ramp j = (if j = n - 1 then 1 else 0) - (if j = 0 then 1 else 0) := by
  unfold gradVec ramp
  by_cases h1 : j = n - 1
  · rw [if_pos h1, if_pos h1, if_neg (by omega), Nat.cast_sub (by omega), Nat.cast_sub (by omega)]; push_cast; ring
  · rw [if_neg h1, if_neg h1]
    by_cases h0 : j = 0
    · rw [if_pos h0, if_pos h0]; push_cast; ring
    · rw [if_neg h0, if_neg h0, Nat.cast_sub (by omega)]; push_cast; ring

theorem sum_ramp {n : ℕ} (hn : 2 ≤ n) (f : ℕ → ℝ) :
    ∑ j ∈ Finset.range n, gradVec n ramp j * f j = f (n - 1) - f 0 := by
  rw [Finset.sum_congr rfl (g := fun j => (if j = n - 1 then f j else 0) - (if j = 0 then f j else 0)),
    Finset.sum_sub_distrib, Finset.sum_ite_eq', Finset.sum_ite_eq', if_pos (Finset.mem_range.2 (by omega)),
    if_pos (Finset.mem_range.2 (by omega))]
  intro j hj
  rw [gradVec_ramp hn (Finset.mem_range.1 hj)]
  split_ifs <;> ring

/-- **C55 refuted.** For every width of at least two columns and every `alpha > 0` the correction computed by the code for a
linear ramp is not the optimal one. -/
theorem regularization_optimal_refuted {n : ℕ} (hn : 2 ≤ n) {alpha : ℝ} (ha : 0 < alpha) :
    ¬ Optimal n alpha ramp (listCoe n alpha ramp) := by
  rw [optimal_iff hn ha]
  intro h
  have := h (n - 1) (by omega)
  unfold listCoe exactCoe at this
  rw [sum_ramp hn, sum_ramp hn] at this
  have c1 := (reg_coef_partial (by omega : 1 ≤ n) ha (n - 1) (n - 1)).2.2.2.1 (by omega) (by omega)
  have c2 := (reg_coef_partial (by omega : 1 ≤ n) ha (n - 1) 0).2.2.1 (Or.inr rfl)
  linarith

/-- **C55 refuted.** For every width of at least two columns and every `alpha > 0`, mirroring the profile does not mirror the
correction. -/
theorem regularization_mirror_refuted {n : ℕ} (hn : 2 ≤ n) {alpha : ℝ} (ha : 0 < alpha) :
    ¬ ∀ v : ℕ → ℝ, ∀ i < n, listCoe n alpha (fun k => v (n - 1 - k)) i = listCoe n alpha v (n - 1 - i) := by
  intro h
  have h0 := h ramp 0 (by omega)
  have hg : ∀ j < n, gradVec n (fun k => ramp (n - 1 - k)) j = -gradVec n ramp j := by
    intro j hj
    rw [gradVec_ramp hn hj]
    unfold gradVec ramp
    dsimp only
    by_cases h1 : j = n - 1
    · rw [if_pos h1, if_pos h1, if_neg (by omega), Nat.sub_self, show n - 1 - (n - 2) = 1 by omega]; push_cast; ring
    · rw [if_neg h1, if_neg h1]
      by_cases h0 : j = 0
      · rw [if_pos h0, if_pos h0, show n - 1 - 0 = (n - 1 - 1) + 1 by omega]; push_cast; ring
      · rw [if_neg h0, if_neg h0, show n - 1 - j = (n - 1 - (j + 1)) + 1 by omega,
          show n - 1 - (j - 1) = (n - 1 - (j + 1)) + 2 by omega]
        push_cast; ring
  have e1 : listCoe n alpha (fun k => ramp (n - 1 - k)) 0 = -listCoe n alpha ramp 0 := by
    unfold listCoe
    rw [← Finset.sum_neg_distrib]
    exact Finset.sum_congr rfl fun j hj => by rw [hg j (Finset.mem_range.1 hj)]; ring
  rw [e1] at h0
  unfold listCoe at h0
  rw [sum_ramp hn, sum_ramp hn, Nat.sub_zero] at h0
  have c1 := (reg_coef_partial (by omega : 1 ≤ n) ha (n - 1) (n - 1)).2.2.2.1 (by omega) (by omega)
  have c2 := (reg_coef_partial (by omega : 1 ≤ n) ha (n - 1) 0).2.2.1 (Or.inr rfl)
  have c3 := (reg_coef_partial (by omega : 1 ≤ n) ha 0 (n - 1)).2.2.1 (Or.inl rfl)
  have c4 := (reg_coef_partial (by omega : 1 ≤ n) ha 0 0).2.2.1 (Or.inl rfl)
  have c5 := green_mirror n alpha (i := 0) (j := 0) (by omega) (by omega)
  rw [Nat.sub_zero] at c5
  have c6 := green_comm n alpha (n - 1) 0
  linarith

/-! ### What the procedure does guarantee -/

/-- **C55.** The correction is linear in the profile and vanishes on constant profiles. -/
theorem listCoe_affine {n : ℕ} (hn : 2 ≤ n) (alpha : ℝ) (v w : ℕ → ℝ) (a b c : ℝ) (i : ℕ) :
    listCoe n alpha (fun k => a * v k + b * w k + c) i = a * listCoe n alpha v i + b * listCoe n alpha w i := by
  unfold listCoe
  rw [Finset.mul_sum, Finset.mul_sum, ← Finset.sum_add_distrib]
  refine Finset.sum_congr rfl fun j _ => ?_
  unfold gradVec
  split_ifs <;> ring

theorem listCoe_congr {n : ℕ} (hn : 2 ≤ n) (alpha : ℝ) (v w : ℕ → ℝ) (h : ∀ k < n, v k = w k) (i : ℕ) :
    listCoe n alpha v i = listCoe n alpha w i := by
  unfold listCoe
  refine Finset.sum_congr rfl fun j hj => ?_
  have hj := Finset.mem_range.1 hj
  congr 1
  unfold gradVec
  split_ifs with h1 h0
  · rw [h _ (by omega), h _ (by omega)]
  · rw [h _ (by omega), h _ (by omega)]
  · rw [h _ (by omega), h _ (by omega), h _ (by omega)]

theorem listCoe_const {n : ℕ} (hn : 2 ≤ n) (alpha : ℝ) (v : ℕ → ℝ) (c : ℝ) (h : ∀ k < n, v k = c) (i : ℕ) :
    listCoe n alpha v i = 0 := by
  rw [listCoe_congr hn alpha v (fun k => 0 * (0 : ℕ → ℝ) k + 0 * (0 : ℕ → ℝ) k + c) (fun k hk => by rw [h k hk]; ring),
    listCoe_affine hn]
  ring

theorem regRows_spec (alpha : ℝ) (k : ℕ) (sino : Mat ℝ) (hk : 0 < k) (hkn : k ≤ sino.h) (hw : 2 ≤ sino.w) :
    ∃ out bs, regRows alpha k sino = .ok out ∧ out.h = sino.h ∧ out.w = sino.w ∧ Consec 0 bs sino.h ∧ bs.length = k ∧
      (∀ p ∈ bs, ∀ i, p.1 ≤ i → i < p.2 → ∀ c, out.get i c =
        sino.get i c + listCoe sino.w alpha (rowMean sino.get p.1 p.2) c) := by
  obtain ⟨bs, hb, hc, hl, hbal⟩ := chunkBounds_ok 0 sino.h k hk hkn
  rw [Nat.zero_add] at hc
  have hf := foldl_consec (fun b e (s : ℕ → ℕ → ℝ) i c => s i c + listCoe sino.w alpha (rowMean s b e) c)
    (by
      intro b e s s' i hss h1 h2
      funext c
      rw [rowMean_congr s s' b e hss, hss i h1 h2]) bs 0 sino.h sino.get hc
  refine ⟨⟨sino.h, sino.w, bs.foldl (fun s p i =>
    if p.1 ≤ i ∧ i < p.2 then (fun c => s i c + listCoe sino.w alpha (rowMean s p.1 p.2) c) else s i) sino.get⟩, bs, ?_,
    rfl, rfl, hc, hl, ?_⟩
  · unfold regRows
    rw [hb]
    simp only [bind, Except.bind]
    rw [if_neg (by omega)]
  · intro p hp i h1 h2 c
    exact congrFun (hf.1 p hp i h1 h2) c

/-- **C55, without sorting.** For every sinogram with at least two columns and `1 ≤ num_chunk ≤ rows`: the rows are cut into
`num_chunk` consecutive blocks; without the logarithm each column of a block is shifted by one constant, with it (positive
sinogram) each column of a block is multiplied by one positive constant.  A block whose column means (of the logarithm)
are all equal is not changed. -/
theorem regularization_blocks (as1 : Argsort ℝ) (as2 : Argsort ℕ) (alpha : ℝ) (k : ℕ) (sino : Mat ℝ) (hk : 0 < k)
    (hkn : k ≤ sino.h) (hw : 2 ≤ sino.w) :
    (∃ out bs, removeRegularization as1 as2 alpha k false false sino = .ok out ∧ out.h = sino.h ∧ out.w = sino.w ∧
      Consec 0 bs sino.h ∧ bs.length = k ∧ ∀ p ∈ bs, ∃ q : ℕ → ℝ,
        (∀ i, p.1 ≤ i → i < p.2 → ∀ c, out.get i c = sino.get i c + q c) ∧
        ((∃ m, ∀ c < sino.w, rowMean sino.get p.1 p.2 c = m) → ∀ c, q c = 0)) ∧
    ((∀ i < sino.h, ∀ j < sino.w, 0 < sino.get i j) →
      ∃ out bs, removeRegularization as1 as2 alpha k true false sino = .ok out ∧ out.h = sino.h ∧ out.w = sino.w ∧
        Consec 0 bs sino.h ∧ bs.length = k ∧ ∀ p ∈ bs, ∃ q : ℕ → ℝ, (∀ c, 0 < q c) ∧
          (∀ i, p.1 ≤ i → i < p.2 → ∀ c < sino.w, out.get i c = sino.get i c * q c) ∧
          ((∃ m, ∀ c < sino.w, rowMean (fun i j => log (sino.get i j)) p.1 p.2 c = m) → ∀ c, q c = 1)) := by
  constructor
  · obtain ⟨out, bs, h1, h2, h3, h4, h5, h6⟩ := regRows_spec alpha k sino hk hkn hw
    refine ⟨out, bs, ?_, h2, h3, h4, h5, ?_⟩
    · unfold removeRegularization
      simp only [Bool.false_eq_true, if_false, h1, bind, Except.bind]
    · intro p hp
      refine ⟨fun c => listCoe sino.w alpha (rowMean sino.get p.1 p.2) c, fun i a b c => h6 p hp i a b c, ?_⟩
      rintro ⟨m, hm⟩ c
      exact listCoe_const hw alpha _ m hm c
  · intro hpos
    obtain ⟨out, bs, h1, h2, h3, h4, h5, h6⟩ := regRows_spec alpha k (regLog sino) hk hkn hw
    refine ⟨⟨out.h, out.w, fun i j => exp (-out.get i j)⟩, bs, ?_, h2, h3, h4, h5, ?_⟩
    · unfold removeRegularization
      simp only [Bool.false_eq_true, if_false, if_true, h1, bind, Except.bind]
    · intro p hp
      have hb := consec_bounds _ _ _ h4 p hp
      change 0 ≤ p.1 ∧ p.1 < p.2 ∧ p.2 ≤ sino.h at hb
      refine ⟨fun c => exp (-listCoe sino.w alpha (rowMean (regLog sino).get p.1 p.2) c), fun c => exp_pos _, ?_, ?_⟩
      · intro i a b c hc
        have hp' := hpos i (by omega) c hc
        have hlog : (regLog sino).get i c = -log (sino.get i c) := by
          unfold regLog
          dsimp only
          rw [if_neg (by linarith)]
        show exp (-out.get i c) = _
        rw [h6 p hp i a b c, hlog, neg_add, neg_neg, exp_add, exp_log hp']
        rfl
      · rintro ⟨m, hm⟩ c
        dsimp only
        rw [listCoe_const hw alpha _ (-m), neg_zero, exp_zero]
        intro j hj
        rw [← hm j hj]
        unfold rowMean
        rw [← neg_div, ← Finset.sum_neg_distrib]
        congr 1
        refine Finset.sum_congr rfl fun i hi => ?_
        rw [Finset.mem_Ico] at hi
        unfold regLog
        dsimp only
        rw [if_neg (by have := hpos i (by omega) j hj; linarith)]

/-- **C55, with sorting.** The same happens to the rank-sorted columns, and each pixel receives the corrected value of its
own rank (no logarithm). -/
theorem regularization_sorted (as1 : Argsort ℝ) (as2 : Argsort ℕ) (alpha : ℝ) (k : ℕ) (sino : Mat ℝ) (hk : 0 < k)
    (hkn : k ≤ sino.h) (hw : 2 ≤ sino.w) :
    ∃ (out sorted cor : Mat ℝ) (bs : List (ℕ × ℕ)), removeRegularization as1 as2 alpha k false true sino = .ok out ∧ out.h = sino.h ∧ out.w = sino.w ∧
      sorted.h = sino.h ∧ sorted.w = sino.w ∧ Consec 0 bs sino.h ∧ bs.length = k ∧
      (∀ p ∈ bs, ∃ q : ℕ → ℝ, (∀ i, p.1 ≤ i → i < p.2 → ∀ c, cor.get i c = sorted.get i c + q c) ∧
        ((∃ m, ∀ c < sino.w, rowMean sorted.get p.1 p.2 c = m) → ∀ c, q c = 0)) ∧
      ∀ c, (line sorted.T c).Pairwise (· ≤ ·) ∧ ∃ ρ : ℕ → ℕ, (∀ i < sino.h, ρ i < sino.h) ∧
        (∀ i < sino.h, ∀ i' < sino.h, ρ i = ρ i' → i = i') ∧
        (∀ i < sino.h, sorted.get (ρ i) c = sino.get i c) ∧ (∀ i < sino.h, out.get i c = cor.get (ρ i) c) := by
  obtain ⟨r, bs, h1, h2, h3, h4, h5, h6⟩ := regRows_spec alpha k (sortForward as1 0 sino).1 hk hkn hw
  refine ⟨sortBackward as2 0 r (sortForward as1 0 sino).2, (sortForward as1 0 sino).1, r, bs, ?_, h2, h3, rfl, rfl, h4, h5, ?_, ?_⟩
  · unfold removeRegularization
    simp only [Bool.false_eq_true, if_false, if_true, h1, bind, Except.bind]
  · intro p hp
    refine ⟨fun c => listCoe sino.w alpha (rowMean (sortForward as1 0 sino).1.get p.1 p.2) c, fun i a b c => h6 p hp i a b c, ?_⟩
    rintro ⟨m, hm⟩ c
    exact listCoe_const hw alpha _ m hm c
  · intro c
    refine ⟨((sort_forward_sorted as1 sino).1.2.2 c).1, ?_⟩
    obtain ⟨ρ, a, b, c', d⟩ := mat_core0 as1 as2 sino r h2 c
    exact ⟨ρ, a, b, c', d⟩

/-- One column is not enough (`IndexError`), nor more chunks than rows. -/
theorem regularization_errors (as1 : Argsort ℝ) (as2 : Argsort ℕ) (alpha : ℝ) (k : ℕ) (sino : Mat ℝ) (applyLog sort : Bool) :
    (sino.h < k → removeRegularization as1 as2 alpha k applyLog sort sino = .error .indexError) ∧
    (0 < k → k ≤ sino.h → sino.w < 2 → removeRegularization as1 as2 alpha k applyLog sort sino = .error .indexError) := by
  have hshape : ∀ s : Mat ℝ, s = (if applyLog then regLog (if sort then (sortForward as1 0 sino).1 else sino)
      else (if sort then (sortForward as1 0 sino).1 else sino)) → s.h = sino.h ∧ s.w = sino.w := by
    rintro s rfl
    cases applyLog <;> cases sort <;> exact ⟨rfl, rfl⟩
  obtain ⟨e1, e2⟩ := hshape _ rfl
  constructor
  · intro h
    unfold removeRegularization
    dsimp only
    have : regRows alpha k (if applyLog then regLog (if sort then (sortForward as1 0 sino).1 else sino)
        else (if sort then (sortForward as1 0 sino).1 else sino)) = .error .indexError := by
      unfold regRows
      rw [e1, chunkBounds_error 0 sino.h k h]; rfl
    rw [this]; rfl
  · intro hk hkn hw
    unfold removeRegularization
    dsimp only
    have : regRows alpha k (if applyLog then regLog (if sort then (sortForward as1 0 sino).1 else sino)
        else (if sort then (sortForward as1 0 sino).1 else sino)) = .error .indexError := by
      obtain ⟨bs, hb, -, hl, -⟩ := chunkBounds_ok 0 sino.h k hk hkn
      unfold regRows
      rw [e1, e2, hb]
      simp only [bind, Except.bind]
      rw [if_pos ⟨hw, by intro h0; rw [h0] at hl; simp at hl; omega⟩]
    rw [this]; rfl

/-! ### Non-vacuity -/

example : ∃ i j, 1 ≤ i ∧ 1 ≤ j ∧ -green 3 1 i j < regCoef 3 1 i j :=
  ⟨1, 2, by norm_num, by norm_num, (reg_coef_partial (by norm_num) one_pos 1 2).2.2.2.1 (by norm_num) (by norm_num)⟩

example : Optimal 2 3 ramp (exactCoe 2 3 ramp) := (optimal_iff (by norm_num) (by norm_num) _ _).2 fun _ _ => rfl

def exSino : Mat ℝ := ⟨4, 3, fun i j => i + j + 1⟩

example (as1 : Argsort ℝ) (as2 : Argsort ℕ) : ∃ out, removeRegularization as1 as2 (1 / 2) 2 true false exSino = .ok out := by
  obtain ⟨out, -, h, -⟩ := (regularization_blocks as1 as2 (1 / 2) 2 exSino (by norm_num) (by norm_num [exSino])
    (by norm_num [exSino])).2 fun i _ j _ => by show (0 : ℝ) < i + j + 1; positivity
  exact ⟨out, h⟩

end Verif.Regularization
