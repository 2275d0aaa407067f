import Verif.Model.Simulation
import Verif.Props.Sorting
import Verif.Props.Post
import Verif.Props.Removal
import Mathlib.Tactic.Linarith
import Mathlib.Tactic.Ring
import Mathlib.Tactic.FieldSimp
import Mathlib.Tactic.NormNum
import Mathlib.Tactic.Positivity
import Mathlib.Tactic.Push
import Mathlib.Tactic.LinearCombination

/-!
C57 (circle mask), C59 (stripe artifacts), C60 (conversion to transmission), C74 (background fluctuation).
-/

set_option linter.unusedSectionVars false
set_option linter.unusedSimpArgs false

namespace Verif.Simulation
open Verif.Sorting

section field
variable {K : Type*} [Field K] [LinearOrder K] [IsStrictOrderedRing K]

/-! ### C57: circle mask -/

/-- Squared distance of pixel `(i, j)` from the centre pixel `(width // 2, width // 2)`. -/
def dist2 (width i j : ℕ) : ℤ := ((j : ℤ) - (width / 2 : ℕ)) ^ 2 + ((i : ℤ) - (width / 2 : ℕ)) ^ 2

/-- C57: the mask is 1 exactly at the pixels not farther from the centre pixel than `ratio * (width // 2)`, 0 elsewhere. -/
theorem circle_mask_spec (width : ℕ) (ratio : K) (i j : ℕ) :
    (circleMask width ratio).h = width ∧ (circleMask width ratio).w = width ∧
    (circleMask width ratio).get i j = if (dist2 width i j : K) ≤ (ratio * ((width / 2 : ℕ) : K)) ^ 2 then 1 else 0 := by
  refine ⟨rfl, rfl, ?_⟩
  unfold circleMask dist2
  dsimp only
  generalize width / 2 = c
  congr 1
  rw [eq_iff_iff]
  push_cast
  constructor <;> intro h <;> nlinarith [h]

theorem circle_mask_01 (width : ℕ) (ratio : K) (i j : ℕ) :
    (circleMask width ratio).get i j = 0 ∨ (circleMask width ratio).get i j = 1 := by
  rw [(circle_mask_spec width ratio i j).2.2]
  split <;> simp

/-- C57: monotone in the ratio. -/
theorem circle_mask_mono (width : ℕ) (r r' : K) (h0 : 0 ≤ r) (h : r ≤ r') (i j : ℕ) :
    (circleMask width r).get i j ≤ (circleMask width r').get i j := by
  rw [(circle_mask_spec width r i j).2.2, (circle_mask_spec width r' i j).2.2]
  have hc : (0 : K) ≤ ((width / 2 : ℕ) : K) := Nat.cast_nonneg _
  have : (r * ((width / 2 : ℕ) : K)) ^ 2 ≤ (r' * ((width / 2 : ℕ) : K)) ^ 2 :=
    pow_le_pow_left₀ (mul_nonneg h0 hc) (mul_le_mul_of_nonneg_right h hc) 2
  by_cases h1 : (dist2 width i j : K) ≤ (r * ((width / 2 : ℕ) : K)) ^ 2
  · rw [if_pos h1, if_pos (h1.trans this)]
  · rw [if_neg h1]
    split
    · exact zero_le_one
    · exact le_rfl

/-- C57: symmetric under transposition and point reflection through the centre pixel; for odd widths symmetric under flips
(partial: for even widths the axis of symmetry runs through pixel `width / 2`, see `circle_mask_flip_refuted`). -/
theorem circle_mask_symm_partial (width : ℕ) (ratio : K) (i j : ℕ) :
    ((circleMask width ratio).get i j = (circleMask width ratio).get j i) ∧
    (width % 2 = 1 → i < width → j < width →
      (circleMask width ratio).get (width - 1 - i) j = (circleMask width ratio).get i j ∧
      (circleMask width ratio).get i (width - 1 - j) = (circleMask width ratio).get i j) ∧
    (width % 2 = 0 → 1 ≤ i → i < width →
      (circleMask width ratio).get (width - i) j = (circleMask width ratio).get i j) ∧
    (width % 2 = 0 → 1 ≤ j → j < width →
      (circleMask width ratio).get i (width - j) = (circleMask width ratio).get i j) := by
  have key : ∀ i j i' j' : ℕ, dist2 width i j = dist2 width i' j' →
      (circleMask width ratio).get i j = (circleMask width ratio).get i' j' := by
    intro i j i' j' h
    rw [(circle_mask_spec width ratio i j).2.2, (circle_mask_spec width ratio i' j').2.2, h]
  have sq : ∀ a b : ℤ, a = -b → a ^ 2 = b ^ 2 := by
    rintro a b rfl
    ring
  refine ⟨key _ _ _ _ (by unfold dist2; ring), ?_, ?_, ?_⟩
  · intro hw hi hj
    constructor <;> apply key <;> unfold dist2
    · rw [sq (((width - 1 - i : ℕ) : ℤ) - (width / 2 : ℕ)) ((i : ℤ) - (width / 2 : ℕ)) (by omega)]
    · rw [sq (((width - 1 - j : ℕ) : ℤ) - (width / 2 : ℕ)) ((j : ℤ) - (width / 2 : ℕ)) (by omega)]
  · intro hw hi hi'
    apply key
    unfold dist2
    rw [sq (((width - i : ℕ) : ℤ) - (width / 2 : ℕ)) ((i : ℤ) - (width / 2 : ℕ)) (by omega)]
  · intro hw hj hj'
    apply key
    unfold dist2
    rw [sq (((width - j : ℕ) : ℤ) - (width / 2 : ℕ)) ((j : ℤ) - (width / 2 : ℕ)) (by omega)]

/-- C57 is false of the code for every even width and every ratio in `[0, 1]`: the mask is not symmetric under flipping. -/
theorem circle_mask_flip_refuted [FloorRing K] (width : ℕ) (hw : width % 2 = 0) (hw2 : 2 ≤ width) (ratio : K) (h0 : 0 ≤ ratio)
    (h1 : ratio ≤ 1) :
    ∃ i j, i < width ∧ j < width ∧ (circleMask width ratio).get (width - 1 - i) j ≠ (circleMask width ratio).get i j := by
  set c := width / 2 with hc
  have hcK : (0 : K) ≤ (c : K) := Nat.cast_nonneg _
  have hr0 : 0 ≤ ratio * (c : K) := mul_nonneg h0 hcK
  set n := ⌊ratio * (c : K)⌋₊ with hn
  have hn1 : (n : K) ≤ ratio * c := Nat.floor_le hr0
  have hn2 : ratio * (c : K) < n + 1 := Nat.lt_floor_add_one _
  have hnc : n ≤ c := by
    have : (n : K) ≤ c := hn1.trans (by nlinarith)
    exact_mod_cast this
  by_cases hlt : n < c
  · -- pixel (c + n, c) is in, its mirror image is not
    refine ⟨c + n, c, by omega, by omega, ?_⟩
    rw [(circle_mask_spec width ratio _ _).2.2, (circle_mask_spec width ratio _ _).2.2, ← hc]
    have d1 : dist2 width (c + n) c = (n : ℤ) ^ 2 := by
      unfold dist2
      rw [← hc]
      push_cast
      ring
    have d2 : dist2 width (width - 1 - (c + n)) c = ((n : ℤ) + 1) ^ 2 := by
      unfold dist2
      rw [← hc]
      have : ((width - 1 - (c + n) : ℕ) : ℤ) = (c : ℤ) - 1 - n := by omega
      rw [this]
      ring
    rw [d1, d2, if_neg, if_pos]
    · exact zero_ne_one
    · push_cast
      exact pow_le_pow_left₀ (Nat.cast_nonneg _) hn1 2
    · push_cast
      exact not_le.2 (pow_lt_pow_left₀ hn2 hr0 two_ne_zero)
  · -- ratio 1
    have hnc : n = c := by omega
    have hrc : ratio * (c : K) = c := by
      apply le_antisymm
      · nlinarith
      · rw [hnc] at hn1; exact hn1
    refine ⟨width - 1, c - 1, by omega, by omega, ?_⟩
    rw [(circle_mask_spec width ratio _ _).2.2, (circle_mask_spec width ratio _ _).2.2, ← hc, hrc]
    have d1 : dist2 width (width - 1) (c - 1) = ((c : ℤ) - 1) ^ 2 + 1 := by
      unfold dist2
      rw [← hc]
      have e1 : ((width - 1 : ℕ) : ℤ) = (c : ℤ) + c - 1 := by omega
      have e2 : ((c - 1 : ℕ) : ℤ) = (c : ℤ) - 1 := by omega
      rw [e1, e2]
      ring
    have d2 : dist2 width (width - 1 - (width - 1)) (c - 1) = (c : ℤ) ^ 2 + 1 := by
      unfold dist2
      rw [← hc]
      have e1 : ((width - 1 - (width - 1) : ℕ) : ℤ) = 0 := by omega
      have e2 : ((c - 1 : ℕ) : ℤ) = (c : ℤ) - 1 := by omega
      rw [e1, e2]
      ring
    have hc1 : (1 : K) ≤ (c : K) := by exact_mod_cast (by omega : 1 ≤ c)
    rw [d1, d2, if_neg, if_pos]
    · exact zero_ne_one
    · push_cast
      nlinarith
    · push_cast
      linarith [pow_nonneg hcK 2]

/-! ### C59: stripe artifacts -/

variable [Inhabited K] [FloorRing K]

theorem position_bounds {w size : ℕ} (hs : size + 1 ≤ w) (position : ℤ) :
    ∃ p : ℕ, pyBound w (npClip position 0 ((w : ℤ) - size - 1)) = p ∧
      pyBound w (npClip position 0 ((w : ℤ) - size - 1) + size) = p + size ∧ p + size < w ∧
      (0 ≤ position → position ≤ (w : ℤ) - size - 1 → (p : ℤ) = position) ∧ (position ≤ 0 → p = 0) ∧
      ((w : ℤ) - size - 1 ≤ position → p = w - size - 1) := by
  refine ⟨(npClip position 0 ((w : ℤ) - size - 1)).toNat, ?_, ?_, ?_, ?_, ?_, ?_⟩ <;> unfold npClip <;> try unfold pyBound
  · rw [if_neg (by omega)]; omega
  · rw [if_neg (by omega)]; omega
  all_goals omega

/-- The relative strength as used. -/
theorem strength_bounds (s : K) : 0 ≤ min (max s 0) 1 ∧ min (max s 0) 1 ≤ 1 ∧ (0 ≤ s → s ≤ 1 → min (max s 0) 1 = s) := by
  refine ⟨le_min (le_max_right _ _) zero_le_one, min_le_right _ _, fun h0 h1 => ?_⟩
  rw [max_eq_left h0, min_eq_left h1]

theorem partRatio_bounds (nrow : ℕ) (s : K) (h0 : 0 ≤ s) (h1 : s ≤ 1) (r : ℕ) :
    1 - s ≤ partRatio nrow s r ∧ partRatio nrow s r ≤ 1 := by
  unfold partRatio linspace
  dsimp only
  split
  · rename_i h
    set pos := ⌊(1 - s) * (nrow : K)⌋₊
    by_cases hd : nrow - pos = 1
    · have : r - pos = 0 := by omega
      rw [this]
      simp [h0]
    · have h2 : 2 ≤ nrow - pos := by omega
      have hk : ((r - pos : ℕ) : K) ≤ ((nrow - pos : ℕ) : K) - 1 := by
        have : ((r - pos + 1 : ℕ) : K) ≤ ((nrow - pos : ℕ) : K) := by exact_mod_cast (by omega : r - pos + 1 ≤ nrow - pos)
        push_cast at this
        linarith
      have hpos : (0 : K) < ((nrow - pos : ℕ) : K) - 1 := by
        have : (2 : K) ≤ ((nrow - pos : ℕ) : K) := by exact_mod_cast h2
        linarith
      have e : ((r - pos : ℕ) : K) * ((1 - s - 1) / (((nrow - pos : ℕ) : K) - 1)) =
          -(s * (((r - pos : ℕ) : K) / (((nrow - pos : ℕ) : K) - 1))) := by ring
      rw [e]
      have q1 : ((r - pos : ℕ) : K) / (((nrow - pos : ℕ) : K) - 1) ≤ 1 := (div_le_one hpos).2 hk
      have q0 : 0 ≤ ((r - pos : ℕ) : K) / (((nrow - pos : ℕ) : K) - 1) := div_nonneg (Nat.cast_nonneg _) hpos.le
      constructor <;> nlinarith
  · exact ⟨by linarith, le_rfl⟩

/-- All pixel values. -/
def pixels (m : Mat K) : List K := (List.range m.h).flatMap fun i => (List.range m.w).map fun j => m.get i j

/-- What `add_stripe_artifact` returns: a stripe of `size` columns starting at `p` is replaced. -/
structure StripeSpec (sino out : Mat K) (p size : ℕ) : Prop where
  height : out.h = sino.h
  width : out.w = sino.w
  outside : ∀ i j, (j < p ∨ p + size ≤ j) → out.get i j = sino.get i j

/-- C59: for stripes narrower than the sinogram and every position, strength, type and noise: a result has the shape of the
input and differs from it only in the `size` columns from `p` on, where `p` is the requested position limited to
`[0, ncol - size - 1]`.  Only a fluctuating stripe on data with a negative mean is refused. -/
theorem add_stripe_local (as1 : Argsort K) (as2 : Argsort ℕ) (z : ℕ → ℕ → K) (sino : Mat K) (size : ℕ)
    (hs : size + 1 ≤ sino.w) (position : ℤ) (strength : K) (ty : StripeType) :
    ∃ p : ℕ, p + size < sino.w ∧ (0 ≤ position → position ≤ (sino.w : ℤ) - size - 1 → (p : ℤ) = position) ∧
      (position ≤ 0 → p = 0) ∧ ((sino.w : ℤ) - size - 1 ≤ position → p = sino.w - size - 1) ∧
      (∀ out, addStripe as1 as2 z sino size position strength ty = .ok out → StripeSpec sino out p size) ∧
      (ty ≠ .fluctuating → (ty = .dead → 0 < sino.h) → ∃ out, addStripe as1 as2 z sino size position strength ty = .ok out) := by
  obtain ⟨p, e1, e2, e3, e4, e5, e6⟩ := position_bounds hs position
  refine ⟨p, e3, e4, e5, e6, ?_, ?_⟩
  · intro out hout
    have put : ∀ m : ℕ → ℕ → K, (∀ out : Mat K, out = ⟨sino.h, sino.w, fun i j => if p ≤ j ∧ j < p + size then m i j else sino.get i j⟩ →
        StripeSpec sino out p size) := by
      rintro m out rfl
      refine ⟨rfl, rfl, fun i j h => ?_⟩
      dsimp only
      rw [if_neg (by omega)]
    unfold addStripe at hout
    dsimp only at hout
    rw [e1, e2] at hout
    cases ty <;> dsimp only at hout
    · rw [if_pos (Or.inl (by omega))] at hout
      injection hout with hout
      exact put _ _ hout.symm
    · split at hout
      · cases hout
      · injection hout with hout
        exact put _ _ hout.symm
    · split at hout
      · cases hout
      · injection hout with hout
        exact put _ _ hout.symm
    · rw [if_pos (Or.inl (by omega))] at hout
      injection hout with hout
      exact put _ _ hout.symm
  · intro h1 h2
    unfold addStripe
    dsimp only
    rw [e1, e2]
    cases ty
    · dsimp only
      rw [if_pos (Or.inl (by omega))]
      exact ⟨_, rfl⟩
    · dsimp only
      rw [if_neg (by have := h2 rfl; omega)]
      exact ⟨_, rfl⟩
    · exact absurd rfl h1
    · dsimp only
      rw [if_pos (Or.inl (by omega))]
      exact ⟨_, rfl⟩

/-- C59: values inside the stripe, `s` being the strength limited to `[0, 1]`.  full: multiplied by `1 - s`; dead: `s` times
the maximum of the sinogram; fluctuating: the noise with standard deviation `s * mean` is added. -/
theorem add_stripe_values (as1 : Argsort K) (as2 : Argsort ℕ) (z : ℕ → ℕ → K) (sino : Mat K) (size : ℕ)
    (hs : size + 1 ≤ sino.w) (position : ℕ) (hp : position + size + 1 ≤ sino.w) (s : K) (h0 : 0 ≤ s) (h1 : s ≤ 1) :
    (∀ out, addStripe as1 as2 z sino size position s .full = .ok out →
      ∀ i j, position ≤ j → j < position + size → out.get i j = (1 - s) * sino.get i j) ∧
    (∀ out, addStripe as1 as2 z sino size position s .dead = .ok out →
      ∃ mx, (∀ i < sino.h, ∀ j < sino.w, sino.get i j ≤ mx) ∧ (∃ i < sino.h, ∃ j < sino.w, sino.get i j = mx) ∧
        ∀ i j, position ≤ j → j < position + size → out.get i j = s * mx) ∧
    (∀ out, addStripe as1 as2 z sino size position s .fluctuating = .ok out →
      ∃ std, 0 ≤ std ∧ std = s * (((pixels sino).filter (· ≠ 0)).sum / (((pixels sino).filter (· ≠ 0)).length : K)) ∧ ∀ i j, position ≤ j → j < position + size → out.get i j = sino.get i j + std * z i (j - position)) := by
  obtain ⟨p, e1, e2, e3, e4, e5, e6⟩ := position_bounds hs (position : ℤ)
  have hpp : p = position := by
    have := e4 (by omega) (by omega)
    omega
  subst hpp
  have hclip := (strength_bounds s).2.2 h0 h1
  refine ⟨?_, ?_, ?_⟩
  · intro out hout i j hj hj'
    unfold addStripe at hout
    dsimp only at hout
    rw [e1, e2, if_pos (Or.inl (by omega)), hclip] at hout
    injection hout with hout
    subst hout
    dsimp only
    rw [if_pos ⟨hj, hj'⟩, show p + (j - p) = j by omega]
    ring
  · intro out hout
    unfold addStripe at hout
    dsimp only at hout
    rw [e1, e2, hclip] at hout
    split at hout
    · cases hout
    · rename_i hne
      push Not at hne
      injection hout with hout
      subst hout
      obtain ⟨m1, m2⟩ := Verif.Post.foldl_max_spec
        ((List.range sino.h).flatMap fun i => (List.range sino.w).map fun j => sino.get i j) (sino.get 0 0)
      refine ⟨((List.range sino.h).flatMap fun i => (List.range sino.w).map fun j => sino.get i j).foldl max (sino.get 0 0), ?_, ?_, ?_⟩
      rotate_right
      · intro i j hj hj'
        dsimp only
        rw [if_pos ⟨hj, hj'⟩, one_mul]
      · intro i hi j hj
        apply m2
        apply List.mem_cons_of_mem
        exact List.mem_flatMap.2 ⟨i, List.mem_range.2 hi, List.mem_map.2 ⟨j, List.mem_range.2 hj, rfl⟩⟩
      · rcases List.mem_cons.1 m1 with h | h
        · exact ⟨0, by omega, 0, by omega, h.symm⟩
        · obtain ⟨i, hi, h⟩ := List.mem_flatMap.1 h
          obtain ⟨j, hj, h⟩ := List.mem_map.1 h
          exact ⟨i, List.mem_range.1 hi, j, List.mem_range.1 hj, h⟩
  · intro out hout
    unfold addStripe at hout
    dsimp only at hout
    rw [e1, e2, hclip] at hout
    split at hout
    · cases hout
    · rename_i hne
      injection hout with hout
      subst hout
      refine ⟨_, not_lt.1 hne, mul_comm _ _, ?_⟩
      intro i j hj hj'
      dsimp only
      rw [if_pos ⟨hj, hj'⟩, show p + (j - p) = j by omega, zero_add]

/-- C59, partial stripe: in every column of the stripe, pixel `i` is multiplied by a ratio that depends only on its rank
`ρ i` in the column: 1 for the `int((1 - s) nrow)` smallest values, decreasing linearly to `1 - s` for the largest one.  So
non-negative values are reduced to between `1 - s` and 1 times themselves. -/
theorem add_stripe_partial_type (as1 : Argsort K) (as2 : Argsort ℕ) (z : ℕ → ℕ → K) (sino : Mat K) (size : ℕ)
    (position : ℕ) (hp : position + size + 1 ≤ sino.w) (s : K) (h0 : 0 ≤ s) (h1 : s ≤ 1) :
    ∃ out, addStripe as1 as2 z sino size position s .part = .ok out ∧
      ∀ j, position ≤ j → j < position + size → ∃ ρ : ℕ → ℕ,
        (∀ i < sino.h, ρ i < sino.h) ∧ (∀ i < sino.h, ∀ i' < sino.h, ρ i = ρ i' → i = i') ∧
        (∀ i < sino.h, ∀ i' < sino.h, sino.get i j < sino.get i' j → ρ i < ρ i') ∧
        ∀ i < sino.h, ∃ t : K, 1 - s ≤ t ∧ t ≤ 1 ∧ out.get i j = sino.get i j * t ∧
          (ρ i < ⌊(1 - s) * (sino.h : K)⌋₊ → t = 1) ∧
          (⌊(1 - s) * (sino.h : K)⌋₊ ≤ ρ i →
            t = 1 - s * (((ρ i : K) - ⌊(1 - s) * (sino.h : K)⌋₊) / ((sino.h : K) - ⌊(1 - s) * (sino.h : K)⌋₊ - 1))) := by
  obtain ⟨p, e1, e2, e3, e4, e5, e6⟩ := position_bounds (show size + 1 ≤ sino.w by omega) (position : ℤ)
  have hpp : p = position := by
    have := e4 (by omega) (by omega)
    omega
  subst hpp
  have hclip := (strength_bounds s).2.2 h0 h1
  have hsw : p + size - p = size := by omega
  set stripe : Mat K := ⟨sino.h, p + size - p, fun i j => sino.get i (p + j)⟩ with hst
  set f : Mat K := ⟨(sortForward as1 0 stripe).1.h, (sortForward as1 0 stripe).1.w,
    fun i j => (sortForward as1 0 stripe).1.get i j * partRatio sino.h s i⟩ with hf
  refine ⟨⟨sino.h, sino.w, fun i j => if p ≤ j ∧ j < p + size then
      (sortBackward as2 0 f (sortForward as1 0 stripe).2).get i (j - p) else sino.get i j⟩, ?_, ?_⟩
  · unfold addStripe
    dsimp only
    rw [e1, e2, if_pos (Or.inl (by omega)), hclip]
  · intro j hj hj'
    obtain ⟨ρ, r1, r2, r3, r4⟩ := mat_core0 as1 as2 stripe f rfl (j - p)
    have hrh : ∀ i < sino.h, ρ i < sino.h := r1
    have hval : ∀ i < sino.h, (sortForward as1 0 stripe).1.get (ρ i) (j - p) = sino.get i j := by
      intro i hi
      rw [r3 i hi]
      show sino.get i (p + (j - p)) = _
      rw [show p + (j - p) = j by omega]
    have hsorted := ((sort_forward_sorted as1 stripe).1.2.2 (j - p)).1
    refine ⟨ρ, r1, r2, ?_, ?_⟩
    · intro i hi i' hi' hlt
      by_contra hc
      push Not at hc
      rcases hc.lt_or_eq with hc | hc
      · have hp := List.pairwise_iff_getElem.1 hsorted (ρ i') (ρ i) (by rw [line_length]; exact hrh i' hi') (by rw [line_length]; exact hrh i hi) hc
        have g : ∀ r, (h : r < sino.h) → ∀ h', (line (sortForward as1 0 stripe).1.T (j - p))[r]'h' = (sortForward as1 0 stripe).1.get r (j - p) := by
          intro r h h'
          simp [line, Mat.T]
        rw [g _ (hrh i' hi'), g _ (hrh i hi), hval i hi, hval i' hi'] at hp
        exact absurd hp (not_le.2 hlt)
      · have := r2 i' hi' i hi hc
        subst this
        exact lt_irrefl _ hlt
    · intro i hi
      obtain ⟨b1, b2⟩ := partRatio_bounds sino.h s h0 h1 (ρ i)
      refine ⟨partRatio sino.h s (ρ i), b1, b2, ?_, ?_, ?_⟩
      · dsimp only
        rw [if_pos ⟨hj, hj'⟩, r4 i hi, hf]
        dsimp only
        rw [hval i hi]
      · intro h
        unfold partRatio
        dsimp only
        rw [if_neg (by omega)]
      · intro h
        unfold partRatio linspace
        dsimp only
        rw [if_pos ⟨h, hrh i hi⟩]
        have hh := hrh i hi
        rw [Nat.cast_sub h, Nat.cast_sub (by omega)]
        ring

/-- C59 is false of the code at the right edge: a stripe asked for at the last possible position `ncol - size` is put one
column to the left: the last column is never changed, for all sinograms, sizes, types and noise. -/
theorem add_stripe_last_refuted (as1 : Argsort K) (as2 : Argsort ℕ) (z : ℕ → ℕ → K) (sino out : Mat K) (size : ℕ)
    (hs : size + 1 ≤ sino.w) (position : ℤ) (strength : K) (ty : StripeType)
    (h : addStripe as1 as2 z sino size position strength ty = .ok out) (i : ℕ) :
    out.get i (sino.w - 1) = sino.get i (sino.w - 1) := by
  obtain ⟨p, h1, _, _, _, h5, _⟩ := add_stripe_local as1 as2 z sino size hs position strength ty
  exact (h5 out h).outside i _ (by omega)

/-- A stripe as wide as the sinogram is refused (full, partial) or silently dropped (dead, fluctuating). -/
theorem add_stripe_whole (as1 : Argsort K) (as2 : Argsort ℕ) (z : ℕ → ℕ → K) (sino : Mat K) (hw : 2 ≤ sino.w)
    (position : ℤ) (strength : K) :
    addStripe as1 as2 z sino sino.w position strength .part = .error .valueError ∧
    addStripe as1 as2 z sino sino.w position strength .full = .error .valueError ∧
    (∀ out, addStripe as1 as2 z sino sino.w position strength .dead = .ok out → ∀ i j, out.get i j = sino.get i j) ∧
    (∀ out, addStripe as1 as2 z sino sino.w position strength .fluctuating = .ok out → ∀ i j, out.get i j = sino.get i j) := by
  have e : npClip position 0 ((sino.w : ℤ) - sino.w - 1) = -1 := by unfold npClip; omega
  have e1 : pyBound sino.w (-1) = sino.w - 1 := by unfold pyBound; rw [if_pos (by omega)]; omega
  have e2 : pyBound sino.w (-1 + sino.w) = sino.w - 1 := by unfold pyBound; rw [if_neg (by omega)]; omega
  refine ⟨?_, ?_, ?_, ?_⟩
  · unfold addStripe
    dsimp only
    rw [e, e1, e2, if_neg (by omega)]
  · unfold addStripe
    dsimp only
    rw [e, e1, e2, if_neg (by omega)]
  · intro out hout i j
    unfold addStripe at hout
    dsimp only at hout
    rw [e, e1, e2] at hout
    split at hout
    · cases hout
    · injection hout with hout
      subst hout
      dsimp only
      rw [if_neg (by omega)]
  · intro out hout i j
    unfold addStripe at hout
    dsimp only at hout
    rw [e, e1, e2] at hout
    split at hout
    · cases hout
    · injection hout with hout
      subst hout
      dsimp only
      rw [if_neg (by omega)]

end field

/-! ### C60: transmission -/

/-- C60: with a positive maximum (given, or found in the non-negative data): path length 0 gives 1, larger ones smaller
transmissions, all in `(0, 1]`; if no path length exceeds the maximum they are at least `exp (-1)`. -/
theorem xray_given (sino : Mat ℝ) (g : ℝ) (hg : 0 < g) :
    ∃ out, convertXray sino (some g) = .ok (some out) ∧ out.h = sino.h ∧ out.w = sino.w ∧
      (∀ i j, 0 < out.get i j) ∧ (∀ i j, 0 ≤ sino.get i j → out.get i j ≤ 1) ∧ (∀ i j, sino.get i j = 0 → out.get i j = 1) ∧
      (∀ i j i' j', sino.get i j < sino.get i' j' ↔ out.get i' j' < out.get i j) ∧
      (∀ i j, sino.get i j ≤ g → Real.exp (-1) ≤ out.get i j) ∧
      ∀ i j, -g * Real.log (out.get i j) = sino.get i j := by
  refine ⟨⟨sino.h, sino.w, fun i j => Real.exp (-(1 * sino.get i j / g))⟩, ?_, rfl, rfl, fun i j => Real.exp_pos _, ?_, ?_, ?_, ?_, ?_⟩
  · show Except.ok _ = _
    rw [if_neg hg.ne']
  · intro i j h
    dsimp only
    rw [Real.exp_le_one_iff]
    have := div_nonneg (mul_nonneg zero_le_one h) hg.le
    linarith
  · intro i j h
    dsimp only
    rw [h]
    simp
  · intro i j i' j'
    dsimp only
    rw [Real.exp_lt_exp, neg_lt_neg_iff, div_lt_div_iff_of_pos_right hg, one_mul, one_mul]
  · intro i j h
    dsimp only
    rw [Real.exp_le_exp, neg_le_neg_iff, div_le_one hg, one_mul]
    exact h
  · intro i j
    dsimp only
    rw [Real.log_exp]
    field_simp

theorem xray_default (sino : Mat ℝ) (hh : 0 < sino.h) (hw : 0 < sino.w) (h0 : ∀ i < sino.h, ∀ j < sino.w, 0 ≤ sino.get i j) :
    ∃ mx, (∀ i < sino.h, ∀ j < sino.w, sino.get i j ≤ mx) ∧ (∃ i < sino.h, ∃ j < sino.w, sino.get i j = mx) ∧
      convertXray sino none = convertXray sino (some mx) ∧
      (0 < mx → ∃ out, convertXray sino none = .ok (some out) ∧
        ∀ i < sino.h, ∀ j < sino.w, Real.exp (-1) ≤ out.get i j ∧ out.get i j ≤ 1) := by
  obtain ⟨m1, m2⟩ := Verif.Post.foldl_max_spec
    ((List.range sino.h).flatMap fun i => (List.range sino.w).map fun j => sino.get i j) (sino.get 0 0)
  set mx := ((List.range sino.h).flatMap fun i => (List.range sino.w).map fun j => sino.get i j).foldl max (sino.get 0 0) with hmx
  have hle : ∀ i < sino.h, ∀ j < sino.w, sino.get i j ≤ mx := by
    intro i hi j hj
    apply m2
    apply List.mem_cons_of_mem
    exact List.mem_flatMap.2 ⟨i, List.mem_range.2 hi, List.mem_map.2 ⟨j, List.mem_range.2 hj, rfl⟩⟩
  have heq : convertXray sino none = convertXray sino (some mx) := by
    unfold convertXray
    dsimp only
    rw [if_neg (by omega)]
  refine ⟨mx, hle, ?_, heq, ?_⟩
  · rcases List.mem_cons.1 m1 with h | h
    · exact ⟨0, by omega, 0, by omega, h.symm⟩
    · obtain ⟨i, hi, h⟩ := List.mem_flatMap.1 h
      obtain ⟨j, hj, h⟩ := List.mem_map.1 h
      exact ⟨i, List.mem_range.1 hi, j, List.mem_range.1 hj, h⟩
  · intro hpos
    obtain ⟨out, h1, _, _, _, h2, _, _, h3, _⟩ := xray_given sino mx hpos
    exact ⟨out, heq.trans h1, fun i hi j hj => ⟨h3 i j (hle i hi j hj), h2 i j (h0 i hi j hj)⟩⟩

/-- C60 is false of the code for an empty field of view: an image of zeros is divided by its maximum 0. -/
theorem xray_zero_refuted (sino : Mat ℝ) (hh : 0 < sino.h) (hw : 0 < sino.w) (h0 : ∀ i < sino.h, ∀ j < sino.w, sino.get i j = 0) :
    convertXray sino none = .ok none := by
  obtain ⟨mx, _, ⟨i, hi, j, hj, h2⟩, h3, _⟩ := xray_default sino hh hw fun i hi j hj => (h0 i hi j hj).ge
  rw [h3, ← h2, h0 i hi j hj]
  show Except.ok _ = _
  rw [if_pos rfl]

/-! ### C74: background fluctuation -/

/-- C74: every row is multiplied by a bell-shaped profile with values in `(0, 1]`, rolled by at most a quarter of the
width; so no value grows in absolute value, signs and zeros are kept. -/
theorem background_spec (u v : ℕ → ℝ) (sino : Mat ℝ) (s : ℝ) (hs0 : 0 ≤ s) (hs1 : s ≤ 1)
    (hu : ∀ i, 0 ≤ u i ∧ u i < 1) (hv : ∀ i, 0 ≤ v i ∧ v i < 1) :
    (addBackground u v sino s).h = sino.h ∧ (addBackground u v sino s).w = sino.w ∧
    ∀ i, ∃ (f : ℕ → ℝ) (k : ℤ), |(k : ℝ)| ≤ s * sino.w / 4 ∧
      (∀ j, 0 < f j ∧ f j ≤ 1) ∧ (∀ j < sino.w, f (sino.w - 1 - j) = f j) ∧
      (∀ j j', j ≤ j' → 2 * j' + 1 ≤ sino.w → f j ≤ f j') ∧
      ∀ j < sino.w, (addBackground u v sino s).get i j = sino.get i j * f (((j : ℤ) - k) % (sino.w : ℤ)).toNat := by
  refine ⟨rfl, rfl, fun i => ?_⟩
  refine ⟨gaussianWin sino.w (0.5 * (1 - u i * s) * sino.w), truncInt ((0.5 - v i) * s * sino.w * 0.5), ?_, ?_, ?_, ?_, fun j _ => rfl⟩
  · have habs : ∀ x : ℝ, |(truncInt x : ℝ)| ≤ |x| := by
      intro x
      unfold truncInt
      by_cases hx : 0 ≤ x
      · rw [if_pos hx, abs_of_nonneg hx, abs_of_nonneg (by exact_mod_cast Int.floor_nonneg.2 hx)]
        exact Int.floor_le x
      · rw [if_neg hx]
        push Not at hx
        have : (⌈x⌉ : ℝ) ≤ 0 := by exact_mod_cast Int.ceil_le.2 (by simpa using hx.le)
        rw [abs_of_neg hx, abs_of_nonpos this]
        linarith [Int.le_ceil x]
    refine (habs _).trans ?_
    have h1 : |(0.5 - v i : ℝ)| ≤ 0.5 := abs_le.2 ⟨by linarith [(hv i).2], by linarith [(hv i).1]⟩
    have hw : (0 : ℝ) ≤ s * sino.w * 0.5 := by positivity
    rw [show (0.5 - v i) * s * (sino.w : ℝ) * 0.5 = (0.5 - v i) * (s * sino.w * 0.5) by ring, abs_mul, abs_of_nonneg hw]
    calc |(0.5 - v i : ℝ)| * (s * sino.w * 0.5) ≤ 0.5 * (s * sino.w * 0.5) := mul_le_mul_of_nonneg_right h1 hw
      _ = s * sino.w / 4 := by ring
  · intro j
    refine ⟨Real.exp_pos _, ?_⟩
    unfold gaussianWin
    rw [Real.exp_le_one_iff]
    apply div_nonpos_of_nonpos_of_nonneg
    · have := sq_nonneg ((j : ℝ) - ((sino.w : ℝ) - 1) / 2)
      linarith
    · nlinarith [sq_nonneg (0.5 * (1 - u i * s) * (sino.w : ℝ))]
  · intro j hj
    unfold gaussianWin
    have : (((sino.w - 1 - j : ℕ) : ℝ) - ((sino.w : ℝ) - 1) / 2) = -((j : ℝ) - ((sino.w : ℝ) - 1) / 2) := by
      rw [Nat.cast_sub (by omega), Nat.cast_sub (by omega)]
      push_cast
      ring
    dsimp only
    rw [this, neg_sq]
  · intro j j' hjj hj'
    unfold gaussianWin
    dsimp only
    rw [Real.exp_le_exp]
    have hf : 0 < 1 - u i * s := by
      have := hu i
      nlinarith
    have hwpos : (0 : ℝ) < sino.w := by exact_mod_cast (by omega : 0 < sino.w)
    have hpos : 0 < 2 * (0.5 * (1 - u i * s) * (sino.w : ℝ)) * (0.5 * (1 - u i * s) * sino.w) := by positivity
    rw [div_le_div_iff_of_pos_right hpos, neg_le_neg_iff]
    have a1 : (j : ℝ) ≤ j' := by exact_mod_cast hjj
    have a2 : 2 * (j' : ℝ) + 1 ≤ sino.w := by exact_mod_cast hj'
    nlinarith

/-! ### The hypotheses are met -/

example : (circleMask 3 (1 : ℚ)).get 0 1 = 1 ∧ (circleMask 3 (1 : ℚ)).get 0 0 = 0 := by
  constructor
  · rw [(circle_mask_spec 3 (1 : ℚ) 0 1).2.2, if_pos (by norm_num [dist2])]
  · rw [(circle_mask_spec 3 (1 : ℚ) 0 0).2.2, if_neg (by norm_num [dist2])]

/-- A sinogram with different columns. -/
def exSino : Mat ℚ := ⟨3, 4, fun i j => i + 2 * j⟩

example (as1 : Argsort ℚ) (as2 : Argsort ℕ) (z : ℕ → ℕ → ℚ) :
    ∃ out, addStripe as1 as2 z exSino 2 1 (1 / 2) .full = .ok out ∧ out.get 1 2 = 5 / 2 ∧ out.get 1 0 = 1 := by
  obtain ⟨p, hp1, hp2, _, _, h5, h6⟩ := add_stripe_local as1 as2 z exSino 2 (by decide) 1 (1 / 2) .full
  obtain ⟨out, ho⟩ := h6 (by simp) (by simp)
  have hp : p = 1 := by
    have := hp2 (by norm_num) (by decide)
    omega
  refine ⟨out, ho, ?_, ?_⟩
  · rw [(add_stripe_values as1 as2 z exSino 2 (by decide) 1 (by decide) (1 / 2) (by norm_num) (by norm_num)).1 out ho 1 2
      (by norm_num) (by norm_num)]
    norm_num [exSino]
  · rw [(h5 out ho).outside 1 0 (by omega)]
    norm_num [exSino]

/-- A sinogram with path lengths 0 to 2. -/
noncomputable def exPath : Mat ℝ := ⟨2, 2, fun i j => i + j⟩

example : ∃ out, convertXray exPath none = .ok (some out) := by
  obtain ⟨mx, h1, _, _, h4⟩ := xray_default exPath (by simp [exPath]) (by simp [exPath])
    (fun i _ j _ => by simp only [exPath]; positivity)
  have : (0 : ℝ) < mx := lt_of_lt_of_le (by norm_num [exPath]) (h1 1 (by simp [exPath]) 1 (by simp [exPath]))
  obtain ⟨out, h, _⟩ := h4 this
  exact ⟨out, h⟩

end Verif.Simulation
