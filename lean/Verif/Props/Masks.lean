import Verif.Model.Simulation
import Verif.Props.Removal
import Mathlib.Tactic.Linarith
import Mathlib.Tactic.Ring
import Mathlib.Tactic.FieldSimp
import Mathlib.Tactic.NormNum
import Mathlib.Tactic.Positivity
import Mathlib.Tactic.Push
import Mathlib.Tactic.LinearCombination

/-!
C75 (phantom masks) and C76 (spiral positions).
-/

set_option linter.unusedSectionVars false
set_option linter.unusedSimpArgs false

namespace Verif.Simulation
open Real

/-! ### Specification -/

/-- Coordinates along the two axes of a figure rotated counter-clockwise by `angle` degrees about its centre, of the pixel
in row `i` and column `j`; the origin is pixel `(size // 2, size // 2)`, x to the right, y upwards. -/
noncomputable def along (size : ℕ) (center : ℝ × ℝ) (angle : ℝ) (i j : ℕ) : ℝ :=
  let c : ℝ := ((size / 2 : ℕ) : ℝ)
  ((j - c) - center.1) * cos (angle * π / 180) + ((c - i) - center.2) * sin (angle * π / 180)

/-- See `along`. -/
noncomputable def across (size : ℕ) (center : ℝ × ℝ) (angle : ℝ) (i j : ℕ) : ℝ :=
  let c : ℝ := ((size / 2 : ℕ) : ℝ);
  -((j - c) - center.1) * sin (angle * π / 180) + ((c - i) - center.2) * cos (angle * π / 180)

theorem maskCoords_eq (size : ℕ) (center length : ℝ × ℝ) (angle : ℝ) (i j : ℕ) :
    maskCoords size center length angle i j =
      (along size center angle i j / (0.5 * length.1), across size center angle i j / (0.5 * length.2)) := by
  unfold maskCoords along across
  dsimp only
  rw [show -angle * π / 180 = -(angle * π / 180) by ring, cos_neg, sin_neg]
  ext
  · show _ / _ = _ / _
    congr 1
    ring
  · show _ / _ = _ / _
    congr 1
    ring

/-- C75: the elliptic mask is 1 exactly inside the ellipse with the given axes (1% tolerance), 0 elsewhere. -/
theorem elliptic_spec (size : ℕ) (center length : ℝ × ℝ) (h1 : 0 < length.1) (h2 : 0 < length.2) (angle : ℝ) (i j : ℕ) :
    (ellipticMask size center length angle).h = size ∧ (ellipticMask size center length angle).w = size ∧
    ((ellipticMask size center length angle).get i j = 0 ∨ (ellipticMask size center length angle).get i j = 1) ∧
    ((ellipticMask size center length angle).get i j = 1 ↔
      (along size center angle i j / length.1) ^ 2 + (across size center angle i j / length.2) ^ 2 ≤ 0.505 ^ 2) := by
  have key : sqrt ((along size center angle i j / (0.5 * length.1)) ^ 2 + (across size center angle i j / (0.5 * length.2)) ^ 2) ≤ 1.01 ↔
      (along size center angle i j / length.1) ^ 2 + (across size center angle i j / length.2) ^ 2 ≤ 0.505 ^ 2 := by
    rw [sqrt_le_left (by norm_num)]
    have e : (along size center angle i j / (0.5 * length.1)) ^ 2 + (across size center angle i j / (0.5 * length.2)) ^ 2 =
        4 * ((along size center angle i j / length.1) ^ 2 + (across size center angle i j / length.2) ^ 2) := by
      rw [mul_comm (0.5 : ℝ), mul_comm (0.5 : ℝ), ← div_div, ← div_div]
      ring
    rw [e]
    constructor <;> intro h <;> nlinarith [h]
  refine ⟨rfl, rfl, ?_, ?_⟩
  · unfold ellipticMask
    dsimp only
    split <;> simp
  · unfold ellipticMask
    dsimp only
    rw [maskCoords_eq, ← key]
    dsimp only
    split <;> rename_i h <;> simp [h]

/-- C75: the rectangular mask. -/
theorem rectangular_spec (size : ℕ) (center length : ℝ × ℝ) (h1 : 0 < length.1) (h2 : 0 < length.2) (angle : ℝ) (i j : ℕ) :
    (rectangularMask size center length angle).h = size ∧ (rectangularMask size center length angle).w = size ∧
    ((rectangularMask size center length angle).get i j = 0 ∨ (rectangularMask size center length angle).get i j = 1) ∧
    ((rectangularMask size center length angle).get i j = 1 ↔
      |along size center angle i j| ≤ 0.505 * length.1 ∧ |across size center angle i j| ≤ 0.505 * length.2) := by
  have key : ∀ x l : ℝ, 0 < l → (|x / (0.5 * l)| ≤ 1.01 ↔ |x| ≤ 0.505 * l) := by
    intro x l hl
    rw [abs_div, abs_of_pos (by positivity : (0 : ℝ) < 0.5 * l), div_le_iff₀ (by positivity)]
    constructor <;> intro h <;> nlinarith [h]
  refine ⟨rfl, rfl, ?_, ?_⟩
  · unfold rectangularMask
    dsimp only
    split <;> simp
  · unfold rectangularMask
    dsimp only
    rw [maskCoords_eq]
    dsimp only
    rw [← key _ _ h1, ← key _ _ h2]
    split <;> rename_i h <;> simp [h]

/-- C75: an ellipse is inside the rectangle with the same parameters, a triangle too, and the triangle mask is 0/1. -/
theorem masks_inside (size : ℕ) (center length : ℝ × ℝ) (h1 : 0 < length.1) (h2 : 0 < length.2) (angle : ℝ) (i j : ℕ) :
    (ellipticMask size center length angle).get i j ≤ (rectangularMask size center length angle).get i j ∧
    (triangularMask size center length angle).get i j ≤ (rectangularMask size center length angle).get i j ∧
    ((triangularMask size center length angle).get i j = 0 ∨ (triangularMask size center length angle).get i j = 1) := by
  have rect01 : ∀ c l a, (rectangularMask size c l a).get i j = 0 ∨ (rectangularMask size c l a).get i j = 1 := by
    intro c l a
    unfold rectangularMask
    dsimp only
    split <;> simp
  refine ⟨?_, ?_⟩
  · obtain ⟨_, _, a1, a2⟩ := elliptic_spec size center length h1 h2 angle i j
    obtain ⟨_, _, b1, b2⟩ := rectangular_spec size center length h1 h2 angle i j
    rcases a1 with a1 | a1
    · rw [a1]
      rcases b1 with b1 | b1 <;> rw [b1] <;> norm_num
    · rw [a1, (b2.2 ?_)]
      have h := a2.1 a1
      have q1 : (along size center angle i j / length.1) ^ 2 ≤ 0.505 ^ 2 := by
        nlinarith [sq_nonneg (across size center angle i j / length.2)]
      have q2 : (across size center angle i j / length.2) ^ 2 ≤ 0.505 ^ 2 := by
        nlinarith [sq_nonneg (along size center angle i j / length.1)]
      rw [sq_le_sq, abs_div, abs_of_pos h1, div_le_iff₀ h1, abs_of_pos (by norm_num : (0 : ℝ) < 0.505)] at q1
      rw [sq_le_sq, abs_div, abs_of_pos h2, div_le_iff₀ h2, abs_of_pos (by norm_num : (0 : ℝ) < 0.505)] at q2
      exact ⟨q1, q2⟩
  · unfold triangularMask
    dsimp only
    generalize (rectangularMask size center length angle).get i j = m, rect01 center length angle = hm
    have step : ∀ x y : ℝ, (x = 0 ∨ x = 1) → (y = 0 ∨ y = 1) → (max (x - y) 0 ≤ x ∧ (max (x - y) 0 = 0 ∨ max (x - y) 0 = 1)) := by
      rintro x y (rfl | rfl) (rfl | rfl) <;> norm_num
    obtain ⟨s1, s2⟩ := step m _ hm (rect01 _ _ _)
    obtain ⟨t1, t2⟩ := step _ _ s2 (rect01 _ _ _)
    exact ⟨t1.trans s1, t2⟩

/-- C75: a half turn does not change a mask. -/
theorem masks_half_turn (size : ℕ) (center length : ℝ × ℝ) (h1 : 0 < length.1) (h2 : 0 < length.2) (angle : ℝ) (i j : ℕ) :
    (ellipticMask size center length (angle + 180)).get i j = (ellipticMask size center length angle).get i j ∧
    (rectangularMask size center length (angle + 180)).get i j = (rectangularMask size center length angle).get i j := by
  have e : (angle + 180) * π / 180 = angle * π / 180 + π := by ring
  have a : along size center (angle + 180) i j = -along size center angle i j := by
    unfold along
    rw [e, cos_add_pi, sin_add_pi]
    ring
  have b : across size center (angle + 180) i j = -across size center angle i j := by
    unfold across
    rw [e, cos_add_pi, sin_add_pi]
    ring
  unfold ellipticMask rectangularMask
  dsimp only
  rw [maskCoords_eq, maskCoords_eq, a, b]
  dsimp only
  rw [neg_div, neg_div, neg_sq, neg_sq, abs_neg, abs_neg]
  exact ⟨rfl, rfl⟩

/-- C75: moving the centre by whole pixels moves the mask: `a` columns to the right and `b` rows up. -/
theorem masks_translate (size : ℕ) (center length : ℝ × ℝ) (angle : ℝ) (a b : ℤ) (i j i' j' : ℕ)
    (hi : (i' : ℤ) = i - b) (hj : (j' : ℤ) = j + a) :
    (ellipticMask size (center.1 + a, center.2 + b) length angle).get i' j' = (ellipticMask size center length angle).get i j ∧
    (rectangularMask size (center.1 + a, center.2 + b) length angle).get i' j' = (rectangularMask size center length angle).get i j := by
  have hi' : (i' : ℝ) = i - b := by exact_mod_cast congrArg (Int.cast : ℤ → ℝ) hi
  have hj' : (j' : ℝ) = j + a := by exact_mod_cast congrArg (Int.cast : ℤ → ℝ) hj
  have e1 : along size (center.1 + a, center.2 + b) angle i' j' = along size center angle i j := by
    unfold along
    dsimp only
    rw [hi', hj']
    ring
  have e2 : across size (center.1 + a, center.2 + b) angle i' j' = across size center angle i j := by
    unfold across
    dsimp only
    rw [hi', hj']
    ring
  unfold ellipticMask rectangularMask
  dsimp only
  rw [maskCoords_eq, maskCoords_eq, e1, e2]
  exact ⟨rfl, rfl⟩

/-- C75: for odd sizes and the central position, 90 degrees more is a quarter turn counter-clockwise of the image
(`np.rot90`); it also exchanges the two lengths. -/
theorem masks_quarter_turn (size : ℕ) (hodd : size % 2 = 1) (length : ℝ × ℝ) (angle : ℝ) (i j : ℕ) (hi : i < size) :
    (ellipticMask size (0, 0) length (angle + 90)).get i j = (ellipticMask size (0, 0) length angle).get j (size - 1 - i) ∧
    (rectangularMask size (0, 0) length (angle + 90)).get i j = (rectangularMask size (0, 0) length angle).get j (size - 1 - i) ∧
    (ellipticMask size (0, 0) length (angle + 90)).get i j = (ellipticMask size (0, 0) (length.2, length.1) angle).get i j ∧
    (rectangularMask size (0, 0) length (angle + 90)).get i j = (rectangularMask size (0, 0) (length.2, length.1) angle).get i j := by
  have e : (angle + 90) * π / 180 = angle * π / 180 + π / 2 := by ring
  have hc : ((size - 1 - i : ℕ) : ℝ) = 2 * ((size / 2 : ℕ) : ℝ) - i := by
    have : ((size - 1 - i : ℕ) : ℤ) = 2 * ((size / 2 : ℕ) : ℤ) - i := by omega
    exact_mod_cast congrArg (Int.cast : ℤ → ℝ) this
  have a1 : along size (0, 0) (angle + 90) i j = along size (0, 0) angle j (size - 1 - i) := by
    unfold along
    dsimp only
    rw [e, cos_add_pi_div_two, sin_add_pi_div_two, hc]
    ring
  have b1 : across size (0, 0) (angle + 90) i j = across size (0, 0) angle j (size - 1 - i) := by
    unfold across
    dsimp only
    rw [e, cos_add_pi_div_two, sin_add_pi_div_two, hc]
    ring
  have a2 : along size (0, 0) (angle + 90) i j = across size (0, 0) angle i j := by
    unfold along across
    dsimp only
    rw [e, cos_add_pi_div_two, sin_add_pi_div_two]
    ring
  have b2 : across size (0, 0) (angle + 90) i j = -along size (0, 0) angle i j := by
    unfold along across
    dsimp only
    rw [e, cos_add_pi_div_two, sin_add_pi_div_two]
    ring
  refine ⟨?_, ?_, ?_, ?_⟩
  · unfold ellipticMask
    dsimp only
    rw [maskCoords_eq, maskCoords_eq, a1, b1]
  · unfold rectangularMask
    dsimp only
    rw [maskCoords_eq, maskCoords_eq, a1, b1]
  · unfold ellipticMask
    dsimp only
    rw [maskCoords_eq, maskCoords_eq, a2, b2]
    dsimp only
    rw [neg_div, neg_sq, add_comm]
  · unfold rectangularMask
    dsimp only
    rw [maskCoords_eq, maskCoords_eq, a2, b2]
    dsimp only
    rw [neg_div, abs_neg]
    exact if_congr and_comm rfl rfl

/-- C75: the angle of a circle does not matter, and larger lengths give larger masks. -/
theorem masks_circle_mono (size : ℕ) (center length length' : ℝ × ℝ) (h1 : 0 < length.1) (h2 : 0 < length.2)
    (l1 : length.1 ≤ length'.1) (l2 : length.2 ≤ length'.2) (angle angle' d : ℝ) (hd : 0 < d) (i j : ℕ) :
    (ellipticMask size center (d, d) angle).get i j = (ellipticMask size center (d, d) angle').get i j ∧
    (ellipticMask size center length angle).get i j ≤ (ellipticMask size center length' angle).get i j ∧
    (rectangularMask size center length angle).get i j ≤ (rectangularMask size center length' angle).get i j := by
  refine ⟨?_, ?_, ?_⟩
  · have e : ∀ a, along size center a i j ^ 2 + across size center a i j ^ 2 =
        ((j - ((size / 2 : ℕ) : ℝ)) - center.1) ^ 2 + ((((size / 2 : ℕ) : ℝ) - i) - center.2) ^ 2 := by
      intro a
      unfold along across
      dsimp only
      linear_combination (((j - ((size / 2 : ℕ) : ℝ)) - center.1) ^ 2 + ((((size / 2 : ℕ) : ℝ) - i) - center.2) ^ 2) * sin_sq_add_cos_sq (a * π / 180)
    unfold ellipticMask
    dsimp only
    rw [maskCoords_eq, maskCoords_eq]
    dsimp only
    rw [div_pow, div_pow, div_pow, div_pow, ← add_div, ← add_div, e, e]
  · obtain ⟨_, _, a1, a2⟩ := elliptic_spec size center length h1 h2 angle i j
    obtain ⟨_, _, b1, b2⟩ := elliptic_spec size center length' (h1.trans_le l1) (h2.trans_le l2) angle i j
    rcases a1 with a1 | a1
    · rw [a1]
      rcases b1 with b1 | b1 <;> rw [b1] <;> norm_num
    · rw [a1, (b2.2 ?_)]
      refine le_trans ?_ (a2.1 a1)
      have q : ∀ x l l' : ℝ, 0 < l → l ≤ l' → (x / l') ^ 2 ≤ (x / l) ^ 2 := by
        intro x l l' hl hll
        rw [div_pow, div_pow]
        exact div_le_div_of_nonneg_left (sq_nonneg x) (by positivity) (pow_le_pow_left₀ hl.le hll 2)
      exact add_le_add (q _ _ _ h1 l1) (q _ _ _ h2 l2)
  · obtain ⟨_, _, a1, a2⟩ := rectangular_spec size center length h1 h2 angle i j
    obtain ⟨_, _, b1, b2⟩ := rectangular_spec size center length' (h1.trans_le l1) (h2.trans_le l2) angle i j
    rcases a1 with a1 | a1
    · rw [a1]
      rcases b1 with b1 | b1 <;> rw [b1] <;> norm_num
    · rw [a1, (b2.2 ?_)]
      obtain ⟨c1, c2⟩ := a2.1 a1
      exact ⟨c1.trans (by nlinarith), c2.trans (by nlinarith)⟩

/-! ### C76: spiral positions -/

/-- Radius of position `i`. -/
theorem spiral_radius (step shape : ℝ) (i : ℕ) :
    (spiralPos step shape i).1 ^ 2 + (spiralPos step shape i).2 ^ 2 = step ^ 2 * i := by
  unfold spiralPos
  dsimp only
  have h := sin_sq_add_cos_sq ((i : ℝ) * spiralPhi shape)
  have hs : sqrt (i : ℝ) ^ 2 = i := sq_sqrt (Nat.cast_nonneg i)
  linear_combination (step ^ 2 * sqrt (i : ℝ) ^ 2) * h + step ^ 2 * hs

theorem mapM_ok_iff {α β : Type*} (f : α → Py β) : ∀ (l : List α) (r : List β),
    l.mapM f = .ok r ↔ List.Forall₂ (fun x y => f x = .ok y) l r := by
  intro l
  induction l with
  | nil =>
    intro r
    constructor
    · intro h
      injection h with h
      rw [← h]
      exact .nil
    · intro h
      cases h
      rfl
  | cons a l ih =>
    intro r
    rw [List.mapM_cons]
    constructor
    · intro h
      cases hfa : f a with
      | error e => rw [hfa] at h; cases h
      | ok y =>
        cases hl : l.mapM f with
        | error e => rw [hfa, hl] at h; cases h
        | ok ys =>
          rw [hfa, hl] at h
          injection h with h
          rw [← h]
          exact .cons hfa ((ih ys).1 hl)
    · intro h
      cases h with
      | cons h1 h2 =>
        rw [h1, (ih _).2 h2]
        rfl

/-- C76: the positions are returned iff all of them are inside the field of view; position `i` is at distance
`step * sqrt i` from the centre, so that for a non-zero step no two coincide and later ones are farther out. -/
theorem spiral_spec (step : ℝ) (num height width : ℕ) (shape : ℝ) :
    (∀ l, spiralPositions step num height width shape = .ok l → l.length = num ∧
      (∀ i (h : i < l.length), |(l[i]).1| ≤ ((width / 2 : ℕ) : ℝ) ∧ |(l[i]).2| ≤ ((height / 2 : ℕ) : ℝ) ∧
        (l[i]).1 ^ 2 + (l[i]).2 ^ 2 = step ^ 2 * i) ∧
      (step ≠ 0 → l.Nodup)) ∧
    ((∀ i < num, |(spiralPos step shape i).1| ≤ ((width / 2 : ℕ) : ℝ) ∧ |(spiralPos step shape i).2| ≤ ((height / 2 : ℕ) : ℝ)) →
      spiralPositions step num height width shape = .ok ((List.range num).map (spiralPos step shape))) ∧
    ((∃ i < num, |(spiralPos step shape i).1| > ((width / 2 : ℕ) : ℝ) ∨ |(spiralPos step shape i).2| > ((height / 2 : ℕ) : ℝ)) →
      spiralPositions step num height width shape = .error .valueError) := by
  refine ⟨?_, ?_, ?_⟩
  · intro l hl
    have hf := (mapM_ok_iff _ _ _).1 hl
    have hlen : l.length = num := by rw [← hf.length_eq, List.length_range]
    have hget : ∀ i (h : i < l.length), l[i] = spiralPos step shape i ∧ |(l[i]).1| ≤ ((width / 2 : ℕ) : ℝ) ∧
        |(l[i]).2| ≤ ((height / 2 : ℕ) : ℝ) := by
      intro i h
      have := hf.get (i := i) (by simpa using hlen ▸ h) h
      simp only [List.get_eq_getElem, List.getElem_range] at this
      split at this
      · cases this
      · rename_i hc
        push Not at hc
        injection this with this
        rw [← this]
        exact ⟨rfl, hc.1, hc.2⟩
    refine ⟨hlen, ?_, ?_⟩
    · intro i h
      obtain ⟨e, h1, h2⟩ := hget i h
      refine ⟨h1, h2, ?_⟩
      rw [e]
      exact spiral_radius step shape i
    · intro hs
      rw [List.nodup_iff_injective_get]
      rintro ⟨i, hi⟩ ⟨j, hj⟩ e
      simp only [List.get_eq_getElem] at e
      rw [(hget i hi).1, (hget j hj).1] at e
      have r1 := spiral_radius step shape i
      have r2 := spiral_radius step shape j
      rw [e, r2] at r1
      have : (j : ℝ) = i := mul_left_cancel₀ (pow_ne_zero 2 hs) r1
      simp only [Fin.mk.injEq]
      exact_mod_cast this.symm
  · intro h
    unfold spiralPositions
    apply Verif.Removal.mapM_all_ok
    intro i hi
    obtain ⟨h1, h2⟩ := h i (List.mem_range.1 hi)
    dsimp only
    rw [if_neg]
    push Not
    exact ⟨h1, h2⟩
  · rintro ⟨i, hi, h⟩
    rcases hr : spiralPositions step num height width shape with e | l
    · have : ∀ (l : List ℕ) (e : PyErr), l.mapM (fun i => if |(spiralPos step shape i).1| > ((width / 2 : ℕ) : ℝ) ∨
          |(spiralPos step shape i).2| > ((height / 2 : ℕ) : ℝ) then (.error .valueError : Py (ℝ × ℝ)) else .ok (spiralPos step shape i)) = .error e →
          e = .valueError := by
        intro l
        induction l with
        | nil => intro e h; cases h
        | cons a l ih =>
          intro e h
          rw [List.mapM_cons] at h
          by_cases hc : |(spiralPos step shape a).1| > ((width / 2 : ℕ) : ℝ) ∨ |(spiralPos step shape a).2| > ((height / 2 : ℕ) : ℝ)
          · rw [if_pos hc] at h
            injection h with h
            exact h.symm
          · rw [if_neg hc] at h
            cases hl : l.mapM (fun i => if |(spiralPos step shape i).1| > ((width / 2 : ℕ) : ℝ) ∨
              |(spiralPos step shape i).2| > ((height / 2 : ℕ) : ℝ) then (.error .valueError : Py (ℝ × ℝ)) else .ok (spiralPos step shape i)) with
            | error e' =>
              rw [hl] at h
              injection h with h
              rw [← h]
              exact ih _ hl
            | ok ys => rw [hl] at h; cases h
      rw [this _ _ hr]
    · exfalso
      have hf := (mapM_ok_iff _ _ _).1 hr
      have hlen : l.length = num := by rw [← hf.length_eq, List.length_range]
      have := hf.get (i := i) (by simpa using hi) (by omega)
      simp only [List.get_eq_getElem, List.getElem_range] at this
      rw [if_pos h] at this
      cases this

/-- A small step always fits. -/
theorem spiral_fits (step : ℝ) (num height width : ℕ) (shape : ℝ)
    (hw : step ^ 2 * num ≤ ((width / 2 : ℕ) : ℝ) ^ 2) (hh : step ^ 2 * num ≤ ((height / 2 : ℕ) : ℝ) ^ 2) :
    ∃ l, spiralPositions step num height width shape = .ok l ∧ l.length = num := by
  have h := (spiral_spec step num height width shape).2.1 ?_
  · exact ⟨_, h, by simp⟩
  · intro i hi
    have r := spiral_radius step shape i
    have hin : step ^ 2 * (i : ℝ) ≤ step ^ 2 * num :=
      mul_le_mul_of_nonneg_left (by exact_mod_cast hi.le) (sq_nonneg step)
    constructor
    · apply abs_le_of_sq_le_sq _ (Nat.cast_nonneg _)
      nlinarith [sq_nonneg (spiralPos step shape i).2]
    · apply abs_le_of_sq_le_sq _ (Nat.cast_nonneg _)
      nlinarith [sq_nonneg (spiralPos step shape i).1]

/-! ### The hypotheses are met -/

example : ∃ l, spiralPositions 2 25 40 30 1 = .ok l ∧ l.length = 25 := spiral_fits 2 25 40 30 1 (by norm_num) (by norm_num)

example : (ellipticMask 9 (0, 0) (4, 2) 0).get 4 5 = 1 := by
  rw [(elliptic_spec 9 (0, 0) (4, 2) (by norm_num) (by norm_num) 0 4 5).2.2.2]
  norm_num [along, across]

end Verif.Simulation
