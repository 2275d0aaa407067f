import Verif.Num
import Verif.Model.Interp
import Mathlib.Tactic.Linarith
import Mathlib.Tactic.Ring
import Mathlib.Tactic.FieldSimp
import Mathlib.Tactic.NormNum
import Mathlib.Tactic.Positivity
import Mathlib.Algebra.Order.BigOperators.Group.Finset

/-! Lemmas on the numeric primitives. -/

set_option linter.unusedSectionVars false

namespace Verif

section
variable {K : Type _} [Field K] [LinearOrder K] [IsStrictOrderedRing K] [FloorRing K]

theorem npRound_int_eps (v : Int) : npRound ((v : K) + 1 / 1000) = v := by
  have hf : ⌊(v : K) + 1 / 1000⌋ = v := by
    rw [Int.floor_eq_iff]; constructor
    · have : (0 : K) < 1 / 1000 := by norm_num
      linarith
    · have : (1 : K) / 1000 < 1 := by norm_num
      linarith
  unfold npRound
  rw [hf, if_pos]
  have : (1 : K) / 1000 < 1 / 2 := by norm_num
  linarith

theorem npRound_abs (x : K) : |(npRound x : K) - x| ≤ 1 / 2 := by
  have h1 := Int.floor_le x
  have h2 := Int.lt_floor_add_one x
  unfold npRound
  split
  · rw [abs_le]; constructor <;> linarith
  · split
    · push_cast; rw [abs_le]; constructor <;> linarith
    · have : x - (⌊x⌋ : K) = 1 / 2 := le_antisymm (not_lt.mp ‹_›) (not_lt.mp ‹_›)
      split
      · rw [abs_le]; constructor <;> linarith
      · push_cast; rw [abs_le]; constructor <;> linarith

theorem npRound_int (v : Int) : npRound (v : K) = v := by
  unfold npRound
  rw [Int.floor_intCast, if_pos]
  simp

theorem linspace_zero (a b : K) (n : Nat) : linspace a b n 0 = a := by simp [linspace]

theorem linspace10_mem (n k : Nat) (hk : k < n) : 0 ≤ linspace (1 : K) 0 n k ∧ linspace (1 : K) 0 n k ≤ 1 := by
  unfold linspace
  have hk0 : (0 : K) ≤ (k : K) := by positivity
  rcases Nat.lt_or_ge n 2 with h | h
  · have : k = 0 := by omega
    subst this; simp
  · have hn : (0 : K) < (n : K) - 1 := by
      have : (2 : K) ≤ (n : K) := by exact_mod_cast h
      linarith
    have hkn : (k : K) ≤ (n : K) - 1 := by
      have : ((k + 1 : Nat) : K) ≤ (n : K) := by exact_mod_cast hk
      push_cast at this; linarith
    have e : (1 : K) + (k : K) * ((0 - 1) / ((n : K) - 1)) = 1 - (k : K) / ((n : K) - 1) := by ring
    rw [e]
    have h1 : (k : K) / ((n : K) - 1) ≤ 1 := (div_le_one hn).mpr hkn
    have h2 : 0 ≤ (k : K) / ((n : K) - 1) := div_nonneg hk0 hn.le
    constructor <;> linarith

theorem linspace10_last (n : Nat) (hn : 2 ≤ n) : linspace (1 : K) 0 n (n - 1) = 0 := by
  unfold linspace
  have h : (n : K) - 1 ≠ 0 := by
    have : (2 : K) ≤ (n : K) := by exact_mod_cast hn
    intro h; linarith
  rw [Nat.cast_sub (by omega)]
  field_simp
  push_cast
  ring

theorem linspace10_anti (n k l : Nat) (hkl : k ≤ l) (hl : l < n) :
    linspace (1 : K) 0 n l ≤ linspace (1 : K) 0 n k := by
  unfold linspace
  have hn : (0 : K) ≤ (n : K) - 1 := by
    have : (1 : K) ≤ (n : K) := by exact_mod_cast (by omega : 1 ≤ n)
    linarith
  have h1 : (0 - 1 : K) / ((n : K) - 1) ≤ 0 := div_nonpos_of_nonpos_of_nonneg (by norm_num) hn
  have h2 : (k : K) ≤ (l : K) := by exact_mod_cast hkl
  nlinarith [mul_le_mul_of_nonpos_right h2 h1]

/-- Mirror images in a ramp add up to one (two or more samples). -/
theorem linspace_mirror (n k : Nat) (hn : 2 ≤ n) (hk : k < n) :
    linspace (1 : K) 0 n k + linspace (1 : K) 0 n (n - 1 - k) = 1 ∧
    linspace (0 : K) 1 n k + linspace (0 : K) 1 n (n - 1 - k) = 1 := by
  have h : (n : K) - 1 ≠ 0 := by
    have : (2 : K) ≤ (n : K) := by exact_mod_cast hn
    intro h; linarith
  have hc : ((n - 1 - k : Nat) : K) = (n : K) - 1 - k := by
    rw [Nat.cast_sub (by omega), Nat.cast_sub (by omega)]; simp
  unfold linspace
  rw [hc]
  constructor <;> field_simp <;> ring

/-! ### linear interpolation -/

theorem prevGood_some {good : Nat → Bool} {x a : Nat} (h : prevGood good x = some a) :
    a < x ∧ good a = true ∧ ∀ j, a < j → j < x → good j = false := by
  unfold prevGood at h
  obtain ⟨hg, l1, l2, heq, hall⟩ := List.find?_eq_some_iff_append.mp h
  have hrev : List.range x = l2.reverse ++ a :: l1.reverse := by
    have := congrArg List.reverse heq
    simpa using this
  have hmem : a ∈ List.range x := by rw [hrev]; simp
  refine ⟨List.mem_range.mp hmem, hg, ?_⟩
  intro j haj hjx
  have hj : j ∈ List.range x := List.mem_range.mpr hjx
  rw [hrev] at hj
  have hsorted : (l2.reverse ++ a :: l1.reverse).Pairwise (· < ·) := hrev ▸ List.pairwise_lt_range
  rw [List.pairwise_append] at hsorted
  rcases List.mem_append.mp hj with hj | hj
  · have := hsorted.2.2 j hj a (by simp); omega
  · rcases List.mem_cons.mp hj with hj | hj
    · omega
    · have := hall j (by simpa using hj)
      simpa using this

theorem prevGood_none {good : Nat → Bool} {x : Nat} (h : prevGood good x = none) :
    ∀ j < x, good j = false := by
  unfold prevGood at h
  intro j hj
  have := List.find?_eq_none.mp h j (by simpa using hj)
  simpa using this

theorem mem_drop_range {n x j : Nat} : j ∈ (List.range n).drop (x + 1) ↔ x < j ∧ j < n := by
  rw [List.mem_iff_getElem]
  constructor
  · rintro ⟨i, hi, rfl⟩
    rw [List.length_drop, List.length_range] at hi
    rw [List.getElem_drop, List.getElem_range]; omega
  · rintro ⟨h1, h2⟩
    refine ⟨j - (x + 1), ?_, ?_⟩
    · rw [List.length_drop, List.length_range]; omega
    · rw [List.getElem_drop, List.getElem_range]; omega

theorem nextGood_some {good : Nat → Bool} {n x b : Nat} (h : nextGood good n x = some b) :
    x < b ∧ b < n ∧ good b = true ∧ ∀ j, x < j → j < b → good j = false := by
  unfold nextGood at h
  obtain ⟨hg, l1, l2, heq, hall⟩ := List.find?_eq_some_iff_append.mp h
  have hmem : b ∈ (List.range n).drop (x + 1) := by rw [heq]; simp
  have hb := mem_drop_range.mp hmem
  refine ⟨hb.1, hb.2, hg, ?_⟩
  intro j hxj hjb
  have hj : j ∈ (List.range n).drop (x + 1) := mem_drop_range.mpr ⟨hxj, by omega⟩
  rw [heq] at hj
  have hsorted : (l1 ++ b :: l2).Pairwise (· < ·) :=
    heq ▸ (List.pairwise_lt_range.sublist (List.drop_sublist _ _))
  rw [List.pairwise_append, List.pairwise_cons] at hsorted
  rcases List.mem_append.mp hj with hj | hj
  · have := hall j hj; simpa using this
  · rcases List.mem_cons.mp hj with hj | hj
    · omega
    · have := hsorted.2.1.1 j hj; omega

theorem nextGood_none {good : Nat → Bool} {n x : Nat} (h : nextGood good n x = none) :
    ∀ j, x < j → j < n → good j = false := by
  unfold nextGood at h
  intro j h1 h2
  have := List.find?_eq_none.mp h j (mem_drop_range.mpr ⟨h1, h2⟩)
  simpa using this

omit [FloorRing K] in
/-- When good columns exist on both sides, interpolation succeeds, and its value is the point of the
chord between the nearest good columns; it lies between the two values. -/
theorem linInterp_spec (good : Nat → Bool) (n : Nat) (f : Nat → K) (x : Nat)
    (hl : ∃ a < x, good a = true) (hr : ∃ b, x < b ∧ b < n ∧ good b = true) :
    ∃ a b v, linInterp good n f x = .ok v ∧ a < x ∧ x < b ∧ b < n ∧ good a = true ∧ good b = true ∧
      (∀ j, a < j → j < x → good j = false) ∧ (∀ j, x < j → j < b → good j = false) ∧
      v * ((b : K) - a) = f a * ((b : K) - x) + f b * ((x : K) - a) ∧
      min (f a) (f b) ≤ v ∧ v ≤ max (f a) (f b) := by
  cases hp : prevGood good x with
  | none =>
    obtain ⟨a, ha, hg⟩ := hl
    have := prevGood_none hp a ha
    rw [this] at hg; cases hg
  | some a =>
    cases hn : nextGood good n x with
    | none =>
      obtain ⟨b, hb, hbn, hg⟩ := hr
      have := nextGood_none hn b hb hbn
      rw [this] at hg; cases hg
    | some b =>
      obtain ⟨ha, hga, hja⟩ := prevGood_some hp
      obtain ⟨hb, hbn, hgb, hjb⟩ := nextGood_some hn
      have h1 : (a : K) < x := by exact_mod_cast ha
      have h2 : (x : K) < b := by exact_mod_cast hb
      have hba : (0 : K) < (b : K) - a := by linarith
      refine ⟨a, b, f a + ((x : K) - a) * ((f b - f a) / ((b : K) - a)), ?_, ha, hb, hbn, hga, hgb, hja, hjb, ?_, ?_⟩
      · unfold linInterp; rw [hp, hn]
      · field_simp; ring
      · have ht0 : 0 ≤ ((x : K) - a) / ((b : K) - a) := div_nonneg (by linarith) hba.le
        have ht1 : ((x : K) - a) / ((b : K) - a) ≤ 1 := (div_le_one hba).mpr (by linarith)
        have e : f a + ((x : K) - a) * ((f b - f a) / ((b : K) - a))
            = f a + ((x : K) - a) / ((b : K) - a) * (f b - f a) := by ring
        rw [e]
        set t := ((x : K) - a) / ((b : K) - a)
        rcases le_total (f a) (f b) with h | h
        · rw [min_eq_left h, max_eq_right h]
          constructor
          · nlinarith [mul_nonneg ht0 (sub_nonneg.mpr h)]
          · nlinarith [mul_le_mul_of_nonneg_right ht1 (sub_nonneg.mpr h)]
        · rw [min_eq_right h, max_eq_left h]
          constructor
          · nlinarith [mul_le_mul_of_nonneg_right ht1 (sub_nonneg.mpr h)]
          · nlinarith [mul_nonneg ht0 (sub_nonneg.mpr h)]

omit [FloorRing K] in
/-- Outside the good columns `interp1d` raises. -/
theorem linInterp_error (good : Nat → Bool) (n : Nat) (f : Nat → K) (x : Nat)
    (h : (∀ a < x, good a = false) ∨ (∀ b, x < b → b < n → good b = false)) :
    linInterp good n f x = .error .valueError := by
  unfold linInterp
  cases hp : prevGood good x with
  | none => rfl
  | some a =>
    cases hn : nextGood good n x with
    | none => rfl
    | some b =>
      obtain ⟨ha, hga, _⟩ := prevGood_some hp
      obtain ⟨hb, hbn, hgb, _⟩ := nextGood_some hn
      rcases h with h | h
      · rw [h a ha] at hga; cases hga
      · rw [h b hb hbn] at hgb; cases hgb

end

end Verif
