import Verif.Model.Phantom
import Verif.Props.Masks
import Verif.Props.Post
import Mathlib.Tactic.IntervalCases

/-!
C141: the line target.
-/

set_option linter.unusedSectionVars false
set_option linter.unusedSimpArgs false

namespace Verif.Phantom
open Verif.Simulation

/-! ### Specification -/

/-- Half of the line height, rounded down; the first line on the right is next to it. -/
def halfHei (size : ℕ) : ℕ := size / 16 / 2

/-- Three lines of width `w` (and the narrower groups, each followed by a gap of 6) fit on the right of the centre. -/
def Fits (size w : ℕ) : Prop := halfHei size + 1 + 3 * (w - 1) * (w + 2) + 6 * w + 6 ≤ size / 2

/-- Pixel column `x` (relative to the centre) belongs to line `b` of the group of width `w` on the right: the line has exactly `w` columns, the
distance of two lines of a group is `2*w`. -/
def InRight (size w b : ℕ) (x : ℤ) : Prop :=
  let first : ℤ := halfHei size + 1 + 3 * ((w : ℤ) - 1) * (w + 2) + 2 * w * b - ((w - 1) / 2 : ℕ)
  first ≤ x ∧ x < first + w

/-- The same on the left, where the `k` groups follow from wide to narrow. -/
def InLeft (size k w b : ℕ) (x : ℤ) : Prop :=
  let n : ℤ := (k : ℤ) - w
  let first : ℤ := -((size / 16 + 1) / 2 : ℕ) - ((k + 1) / 2 : ℕ) - (6 * n * k - 3 * n ^ 2 + 9 * n) - 2 * w * b - (w / 2 : ℕ)
  first ≤ x ∧ x < first + w

/-- Pixel `(i, j)` belongs to a line: the lines are `size / 16` high. -/
def Inked (size k i j : ℕ) : Prop :=
  200 * |((size / 2 : ℕ) : ℤ) - i| ≤ 101 * ((size / 16 : ℕ) : ℤ) ∧
  ∃ w b : ℕ, 1 ≤ w ∧ w ≤ k ∧ b < 3 ∧
    (InRight size w b ((j : ℤ) - (size / 2 : ℕ)) ∨ InLeft size k w b ((j : ℤ) - (size / 2 : ℕ)))

/-! ### The loops -/

theorem right_spec (lim : ℤ) (w : ℕ) (start : ℤ) :
    ∃ k : ℕ, (right lim w start).2 = w + k + 1 ∧
      (right lim w start).1 = (List.range k).map (fun n : ℕ => (start + 6 * n * w + 3 * (n : ℤ) ^ 2 + 9 * n, w + n + 1)) ∧
      (∀ n : ℕ, n < k → start + 6 * n * w + 3 * (n : ℤ) ^ 2 + 9 * n + 6 * (w + n + 1) ≤ lim) ∧
      lim < start + 6 * k * w + 3 * (k : ℤ) ^ 2 + 9 * k + 6 * (w + k + 1) := by
  induction w, start using right.induct lim with
  | case1 w start h =>
    refine ⟨0, ?_, ?_, fun n hn => absurd hn (Nat.not_lt_zero _), ?_⟩
    · rw [right, if_pos h]
    · rw [right, if_pos h]; rfl
    · push_cast; nlinarith [h]
  | case2 w start h ih =>
    obtain ⟨k, h1, h2, h3, h4⟩ := ih
    refine ⟨k + 1, ?_, ?_, ?_, ?_⟩
    · rw [right, if_neg h]; dsimp only; rw [h1]; omega
    · rw [right, if_neg h]; dsimp only; rw [h2, List.range_succ_eq_map, List.map_cons, List.map_map]
      congr 1
      · push_cast; simp
      · apply List.map_congr_left
        intro n _
        refine Prod.ext ?_ ?_
        · dsimp only [Function.comp]; push_cast; ring
        · dsimp only [Function.comp]; omega
    · intro n hn
      cases n with
      | zero => push_cast; linarith [not_lt.1 h]
      | succ n =>
        have := h3 n (by omega)
        push_cast at this ⊢
        linarith
    · push_cast at h4 ⊢
      linarith

theorem left_spec (w : ℕ) (start : ℤ) :
    left w start = (List.range w).map fun n : ℕ => (start - (6 * n * w - 3 * (n : ℤ) ^ 2 + 9 * n), w - n) := by
  induction w generalizing start with
  | zero => rfl
  | succ w ih =>
    rw [left, ih, List.range_succ_eq_map, List.map_cons, List.map_map]
    congr 1
    · push_cast; simp
    · apply List.map_congr_left
      intro n _
      refine Prod.ext ?_ ?_
      · dsimp only [Function.comp]; push_cast; ring
      · dsimp only [Function.comp]; omega

/-! ### One rectangle and one group -/

open Classical in
/-- 1 if the proposition holds, 0 otherwise. -/
noncomputable def ind (p : Prop) : ℝ := if p then 1 else 0

theorem ind_pos {p : Prop} (h : p) : ind p = 1 := if_pos h
theorem ind_neg {p : Prop} (h : ¬ p) : ind p = 0 := if_neg h
theorem ind_congr {p q : Prop} (h : p ↔ q) : ind p = ind q := by rw [propext h]

/-- The rows of the lines. -/
def RowIn (size i : ℕ) : Prop := 200 * |((size / 2 : ℕ) : ℤ) - i| ≤ 101 * ((size / 16 : ℕ) : ℤ)

theorem rect_eq {size : ℕ} (hs : 16 ≤ size) (xc : ℤ) {len h : ℕ} (hl : len = 2 * h + 1) (hh : h < 50) (i j : ℕ) :
    (rectangularMask size ((xc : ℝ), 0) ((len : ℝ), (lineHei size : ℝ)) 0).get i j =
      ind (RowIn size i ∧ xc - h ≤ (j : ℤ) - (size / 2 : ℕ) ∧ (j : ℤ) - (size / 2 : ℕ) ≤ xc + h) := by
  have hhei : 1 ≤ size / 16 := by omega
  obtain ⟨-, -, h01, hiff⟩ := rectangular_spec size ((xc : ℝ), 0) ((len : ℝ), (lineHei size : ℝ)) (by show (0 : ℝ) < (len : ℝ); rw [hl]; positivity)
    (by show (0 : ℝ) < ((size / 16 : ℕ) : ℝ); exact_mod_cast hhei) 0 i j
  have hal : along size ((xc : ℝ), 0) 0 i j = (((j : ℤ) - (size / 2 : ℕ) - xc : ℤ) : ℝ) := by
    unfold along; generalize size / 2 = c; push_cast; simp
  have hac : across size ((xc : ℝ), 0) 0 i j = ((((size / 2 : ℕ) : ℤ) - i : ℤ) : ℝ) := by
    unfold across; generalize size / 2 = c; push_cast; simp
  rw [hal, hac] at hiff
  have e1 : ∀ (d : ℤ) (l : ℕ), |(d : ℝ)| ≤ 0.505 * (l : ℝ) ↔ 200 * |d| ≤ 101 * (l : ℤ) := by
    intro d l
    rw [← Int.cast_abs]
    constructor
    · intro h
      have : (200 : ℝ) * ((|d| : ℤ) : ℝ) ≤ 101 * (l : ℝ) := by nlinarith [h]
      exact_mod_cast this
    · intro h
      have : (200 : ℝ) * ((|d| : ℤ) : ℝ) ≤ 101 * (l : ℝ) := by exact_mod_cast h
      nlinarith [this]
  rw [e1, e1] at hiff
  have e2 : 200 * |(j : ℤ) - (size / 2 : ℕ) - xc| ≤ 101 * (len : ℤ) ↔
      xc - h ≤ (j : ℤ) - (size / 2 : ℕ) ∧ (j : ℤ) - (size / 2 : ℕ) ≤ xc + h := by
    rcases abs_cases ((j : ℤ) - (size / 2 : ℕ) - xc) with ⟨h1, _⟩ | ⟨h1, _⟩ <;> rw [h1] <;> omega
  rw [e2] at hiff
  by_cases hc : RowIn size i ∧ xc - h ≤ (j : ℤ) - (size / 2 : ℕ) ∧ (j : ℤ) - (size / 2 : ℕ) ≤ xc + h
  · rw [ind_pos hc]
    exact hiff.2 ⟨hc.2, hc.1⟩
  · rw [ind_neg hc]
    rcases h01 with h | h
    · exact h
    · exact absurd ⟨(hiff.1 h).2, (hiff.1 h).1⟩ hc

theorem range3 (a : ℤ) {w : ℕ} (hw : 0 < w) (d : ℕ) (hd : d ≤ w / 2) :
    pyRange (a + d) (a + 3 * 2 * (w : ℤ)) (2 * w) = [a + d, a + d + 2 * w, a + d + 4 * w] := by
  rw [Post.pyRange_eq _ _ _ (by omega)]
  have e : ((a + 3 * 2 * (w : ℤ) - (a + d)).toNat + (2 * w - 1)) / (2 * w) = 3 := by
    rw [show (a + 3 * 2 * (w : ℤ) - (a + d)).toNat = 6 * w - d by omega]
    rw [Nat.div_eq_iff (by omega)]
    omega
  rw [e]
  simp [List.range_succ]
  ring

/-- What one group adds to pixel `(i, j)`. -/
noncomputable def groupSum (size : ℕ) (ps : List (ℤ × ℕ)) (i j : ℕ) : ℝ :=
  (ps.map fun p => (rectangularMask size ((p.1 : ℝ), 0) ((p.2 : ℝ), (lineHei size : ℝ)) 0).get i j).sum

theorem ind3 {R A B C : Prop} (h1 : ¬ (A ∧ B)) (h2 : ¬ (A ∧ C)) (h3 : ¬ (B ∧ C)) :
    ind (R ∧ A) + (ind (R ∧ B) + (ind (R ∧ C) + 0)) = ind (R ∧ (A ∨ B ∨ C)) := by
  unfold ind
  by_cases hR : R <;> by_cases hA : A <;> by_cases hB : B <;> by_cases hC : C <;> simp_all

theorem ind6 {R A B C A' B' C' A2 B2 C2 : Prop} (a : A ∨ A' ↔ A2) (b : B ∨ B' ↔ B2) (c : C ∨ C' ↔ C2) (ha : ¬ (A ∧ A')) (hb : ¬ (B ∧ B'))
    (hc : ¬ (C ∧ C')) (h1 : ¬ (A2 ∧ B2)) (h2 : ¬ (A2 ∧ C2)) (h3 : ¬ (B2 ∧ C2)) :
    ind (R ∧ A) + (ind (R ∧ B) + (ind (R ∧ C) + (ind (R ∧ A') + (ind (R ∧ B') + (ind (R ∧ C') + 0))))) = ind (R ∧ (A2 ∨ B2 ∨ C2)) := by
  rw [← ind3 h1 h2 h3]
  have e : ∀ X X' X2 : Prop, (X ∨ X' ↔ X2) → ¬ (X ∧ X') → ind (R ∧ X2) = ind (R ∧ X) + ind (R ∧ X') := by
    intro X X' X2 h hn
    unfold ind
    by_cases hR : R <;> by_cases hX : X <;> by_cases hX' : X' <;> by_cases hX2 : X2 <;> simp_all
  rw [e A A' A2 a ha, e B B' B2 b hb, e C C' C2 c hc]
  ring

/-- The columns of the lines of a group: `lo b` is the first column of line `b`. -/
def Cols (w : ℕ) (lo : ℤ) (step : ℤ) (x : ℤ) : Prop :=
  (lo ≤ x ∧ x < lo + w) ∨ (lo + step ≤ x ∧ x < lo + step + w) ∨ (lo + 2 * step ≤ x ∧ x < lo + 2 * step + w)

theorem right_group {size : ℕ} (hs : 16 ≤ size) (s : ℤ) {w : ℕ} (hw : 0 < w) (hw' : w < 100) (i j : ℕ) :
    groupSum size (rightParts (s, w)) i j =
      ind (RowIn size i ∧ Cols w (s - ((w - 1) / 2 : ℕ)) (2 * w) ((j : ℤ) - (size / 2 : ℕ))) := by
  have r0 := range3 s hw 0 (by omega)
  rw [Nat.cast_zero, add_zero] at r0
  unfold groupSum rightParts
  dsimp only
  by_cases hodd : w % 2 = 1
  · rw [if_pos hodd, r0]
    simp only [List.map_cons, List.map_nil, List.sum_cons, List.sum_nil]
    rw [rect_eq hs _ (h := w / 2) (by omega) (by omega), rect_eq hs _ (h := w / 2) (by omega) (by omega),
      rect_eq hs _ (h := w / 2) (by omega) (by omega)]
    generalize (j : ℤ) - (size / 2 : ℕ) = x
    rw [ind3 (by omega) (by omega) (by omega)]
    unfold Cols
    apply ind_congr
    apply and_congr Iff.rfl
    omega
  · rw [if_neg hodd, r0, range3 s hw (w / 2) le_rfl]
    simp only [List.map_cons, List.map_nil, List.map_append, List.sum_cons, List.sum_nil, List.cons_append, List.nil_append]
    rw [rect_eq hs _ (len := w - 1) (h := w / 2 - 1) (by omega) (by omega), rect_eq hs _ (len := w - 1) (h := w / 2 - 1) (by omega) (by omega),
      rect_eq hs _ (len := w - 1) (h := w / 2 - 1) (by omega) (by omega), rect_eq hs _ (len := 1) (h := 0) (by omega) (by omega),
      rect_eq hs _ (len := 1) (h := 0) (by omega) (by omega), rect_eq hs _ (len := 1) (h := 0) (by omega) (by omega)]
    unfold Cols
    generalize (j : ℤ) - (size / 2 : ℕ) = x
    refine ind6 ?_ ?_ ?_ ?_ ?_ ?_ ?_ ?_ ?_ <;> omega

theorem left_group {size : ℕ} (hs : 16 ≤ size) (s : ℤ) {w : ℕ} (hw : 0 < w) (hw' : w < 100) (i j : ℕ) :
    groupSum size (leftParts (s, w)) i j =
      ind (RowIn size i ∧ Cols w (s - (w / 2 : ℕ)) (-(2 * w)) ((j : ℤ) - (size / 2 : ℕ))) := by
  have r0 := range3 (-s) hw 0 (by omega)
  rw [Nat.cast_zero, add_zero] at r0
  have r1 := range3 (-s) hw (w / 2) le_rfl
  unfold groupSum leftParts pyRangeDown
  dsimp only
  rw [show -(s - 3 * 2 * (w : ℤ)) = -s + 3 * 2 * (w : ℤ) by ring, show -(s - (w / 2 : ℕ)) = -s + (w / 2 : ℕ) by ring]
  by_cases hodd : w % 2 = 1
  · rw [if_pos hodd, r0]
    simp only [List.map_cons, List.map_nil, List.sum_cons, List.sum_nil]
    rw [rect_eq hs _ (h := w / 2) (by omega) (by omega), rect_eq hs _ (h := w / 2) (by omega) (by omega),
      rect_eq hs _ (h := w / 2) (by omega) (by omega)]
    generalize (j : ℤ) - (size / 2 : ℕ) = x
    rw [ind3 (by omega) (by omega) (by omega)]
    unfold Cols
    apply ind_congr
    apply and_congr Iff.rfl
    omega
  · rw [if_neg hodd, r0, r1]
    simp only [List.map_cons, List.map_nil, List.map_append, List.sum_cons, List.sum_nil, List.cons_append, List.nil_append]
    rw [rect_eq hs _ (len := w - 1) (h := w / 2 - 1) (by omega) (by omega), rect_eq hs _ (len := w - 1) (h := w / 2 - 1) (by omega) (by omega),
      rect_eq hs _ (len := w - 1) (h := w / 2 - 1) (by omega) (by omega), rect_eq hs _ (len := 1) (h := 0) (by omega) (by omega),
      rect_eq hs _ (len := 1) (h := 0) (by omega) (by omega), rect_eq hs _ (len := 1) (h := 0) (by omega) (by omega)]
    unfold Cols
    generalize (j : ℤ) - (size / 2 : ℕ) = x
    refine ind6 ?_ ?_ ?_ ?_ ?_ ?_ ?_ ?_ ?_ <;> omega

/-! ### All groups -/

theorem sum_disjoint {α : Type*} (P : α → Prop) : ∀ l : List α, l.Pairwise (fun a b => ¬ (P a ∧ P b)) →
    (l.map fun a => ind (P a)).sum = ind (∃ a ∈ l, P a) := by
  intro l
  induction l with
  | nil => intro _; rw [ind_neg (by simp)]; rfl
  | cons a l ih =>
    intro h
    rw [List.pairwise_cons] at h
    rw [List.map_cons, List.sum_cons, ih h.2]
    by_cases ha : P a
    · have hn : ¬ ∃ b ∈ l, P b := by rintro ⟨b, hb, hp⟩; exact h.1 b hb ⟨ha, hp⟩
      rw [ind_pos ha, ind_neg hn, ind_pos ⟨a, by simp, ha⟩, add_zero]
    · rw [ind_neg ha, zero_add]
      apply ind_congr
      simp [ha]

theorem sum_append_flatMap {α : Type*} (f : ℤ × ℕ → ℝ) (g : α → List (ℤ × ℕ)) : ∀ l : List α,
    ((l.flatMap g).map f).sum = (l.map fun a => ((g a).map f).sum).sum := by
  intro l
  induction l with
  | nil => rfl
  | cons a l ih => rw [List.flatMap_cons, List.map_append, List.sum_append, ih, List.map_cons, List.sum_cons]

/-- The number of line widths, and the loop bounds. -/
theorem groups_spec (size : ℕ) :
    ∃ k : ℕ, (rightGroups size).2 = k + 1 ∧
      (rightGroups size).1 = (List.range k).map (fun n : ℕ => ((halfHei size : ℤ) + 1 + 3 * (n : ℤ) ^ 2 + 9 * n, n + 1)) ∧
      leftGroups size = (List.range k).map (fun n : ℕ =>
        (-((size / 16 + 1) / 2 : ℕ) - ((k + 1) / 2 : ℕ) - (6 * n * k - 3 * (n : ℤ) ^ 2 + 9 * n), k - n)) ∧
      ∀ w : ℕ, 1 ≤ w → (w ≤ k ↔ Fits size w) := by
  obtain ⟨k, h1, h2, h3, h4⟩ := right_spec (((size / 2 : ℕ) : ℤ) - 6) 0 ((lineHei size / 2 : ℕ) + 1)
  have h1' : (rightGroups size).2 = k + 1 := by show (right _ _ _).2 = _; rw [h1]; omega
  refine ⟨k, h1', ?_, ?_, ?_⟩
  · show (right _ _ _).1 = _
    rw [h2]
    apply List.map_congr_left
    intro n _
    refine Prod.ext ?_ ?_
    · show ((lineHei size / 2 : ℕ) : ℤ) + 1 + 6 * n * ((0 : ℕ) : ℤ) + 3 * (n : ℤ) ^ 2 + 9 * n = (halfHei size : ℤ) + 1 + 3 * (n : ℤ) ^ 2 + 9 * n
      have : lineHei size / 2 = halfHei size := rfl
      rw [this]
      push_cast
      ring
    · dsimp only; omega
  · unfold leftGroups
    rw [h1', left_spec, Nat.add_sub_cancel]
    have e : -(lineHei size : ℤ) / 2 = -((size / 16 + 1) / 2 : ℕ) := by unfold lineHei; omega
    rw [e]
  · intro w hw
    obtain ⟨n, rfl⟩ : ∃ n, w = n + 1 := ⟨w - 1, by omega⟩
    have e : Fits size (n + 1) ↔ ((lineHei size / 2 : ℕ) : ℤ) + 1 + 6 * n * ((0 : ℕ) : ℤ) + 3 * (n : ℤ) ^ 2 + 9 * n + 6 * (((0 : ℕ) : ℤ) + n + 1) ≤ ((size / 2 : ℕ) : ℤ) - 6 := by
      unfold Fits
      rw [Nat.add_sub_cancel, show halfHei size = lineHei size / 2 from rfl]
      generalize lineHei size / 2 = a
      generalize size / 2 = b
      have : a + 1 + 3 * n * (n + 1 + 2) + 6 * (n + 1) + 6 ≤ b ↔ ((a + 1 + 3 * n * (n + 1 + 2) + 6 * (n + 1) + 6 : ℕ) : ℤ) ≤ (b : ℤ) := by rw [Nat.cast_le]
      rw [this]
      push_cast
      constructor <;> intro h <;> nlinarith [h]
    rw [e]
    constructor
    · intro h
      exact h3 n (by omega)
    · intro h
      by_contra hlt
      have hkn : (k : ℤ) ≤ n := by omega
      push_cast at h h4
      nlinarith [h, h4, hkn, Int.natCast_nonneg k, Int.natCast_nonneg n]

theorem fits_lt {size w : ℕ} (hs : size < 60000) (h : Fits size w) : w < 100 := by
  unfold Fits at h
  by_contra hw
  have hw : 100 ≤ w := by omega
  have h1 : 3 * 99 * 102 ≤ 3 * (w - 1) * (w + 2) :=
    Nat.mul_le_mul (Nat.mul_le_mul le_rfl (by omega)) (by omega)
  generalize 3 * (w - 1) * (w + 2) = z at h h1
  omega

/-- **C141.** What is drawn: for every width `w` that fits (on the right) three lines of exactly `w` columns, at distances `2*w`, on the right of the
centre from narrow to wide and on the left from wide to narrow; no pixel is drawn twice. -/
theorem bars_spec {size : ℕ} (hs : 16 ≤ size) (hs' : size < 60000) :
    ∃ k : ℕ, (∀ w : ℕ, 1 ≤ w → (w ≤ k ↔ Fits size w)) ∧ ∀ i j, bars size i j = ind (Inked size k i j) := by
  obtain ⟨k, -, hr, hl, hf⟩ := groups_spec size
  refine ⟨k, hf, fun i j => ?_⟩
  have hk : k < 100 := by
    rcases Nat.eq_zero_or_pos k with h | h
    · omega
    · exact fits_lt hs' ((hf k h).1 le_rfl)
  have hsum : bars size i j =
      ((List.range k).map fun n : ℕ => groupSum size (rightParts ((halfHei size : ℤ) + 1 + 3 * (n : ℤ) ^ 2 + 9 * n, n + 1)) i j).sum +
      ((List.range k).map fun n : ℕ => groupSum size (leftParts
        (-((size / 16 + 1) / 2 : ℕ) - ((k + 1) / 2 : ℕ) - (6 * n * k - 3 * (n : ℤ) ^ 2 + 9 * n), k - n)) i j).sum := by
    unfold bars parts
    rw [List.map_append, List.sum_append, sum_append_flatMap, sum_append_flatMap, hr, hl, List.map_map, List.map_map]
    rfl
  rw [hsum]
  generalize hx : (j : ℤ) - (size / 2 : ℕ) = x
  have e1 : ((List.range k).map fun n : ℕ => groupSum size (rightParts ((halfHei size : ℤ) + 1 + 3 * (n : ℤ) ^ 2 + 9 * n, n + 1)) i j)
      = (List.range k).map fun n : ℕ => ind (RowIn size i ∧
        Cols (n + 1) ((halfHei size : ℤ) + 1 + 3 * (n : ℤ) ^ 2 + 9 * n - (n / 2 : ℕ)) (2 * ((n + 1 : ℕ) : ℤ)) x) := by
    apply List.map_congr_left
    intro n hn
    have hn := List.mem_range.1 hn
    rw [right_group hs _ (by omega) (by omega), hx, Nat.add_sub_cancel]
  have e2 : ((List.range k).map fun n : ℕ => groupSum size (leftParts
        (-((size / 16 + 1) / 2 : ℕ) - ((k + 1) / 2 : ℕ) - (6 * n * k - 3 * (n : ℤ) ^ 2 + 9 * n), k - n)) i j)
      = (List.range k).map fun n : ℕ => ind (RowIn size i ∧
        Cols (k - n) (-((size / 16 + 1) / 2 : ℕ) - ((k + 1) / 2 : ℕ) - (6 * n * k - 3 * (n : ℤ) ^ 2 + 9 * n) - ((k - n) / 2 : ℕ))
          (-(2 * ((k - n : ℕ) : ℤ))) x) := by
    apply List.map_congr_left
    intro n hn
    have hn := List.mem_range.1 hn
    rw [left_group hs _ (by omega) (by omega), hx]
  rw [e1, e2]
  -- bounds of the groups
  have b1 : ∀ n : ℕ, ∀ y, Cols (n + 1) ((halfHei size : ℤ) + 1 + 3 * (n : ℤ) ^ 2 + 9 * n - (n / 2 : ℕ)) (2 * ((n + 1 : ℕ) : ℤ)) y →
      (halfHei size : ℤ) + 1 + 3 * (n : ℤ) ^ 2 + 9 * n - (n / 2 : ℕ) ≤ y ∧
      y < (halfHei size : ℤ) + 1 + 3 * (n : ℤ) ^ 2 + 9 * n - (n / 2 : ℕ) + 5 * (n + 1) := by
    intro n y h
    unfold Cols at h
    generalize (halfHei size : ℤ) + 1 + 3 * (n : ℤ) ^ 2 + 9 * n - (n / 2 : ℕ) = z at *
    push_cast at h
    omega
  have b2 : ∀ n : ℕ, n < k → ∀ y, Cols (k - n) (-((size / 16 + 1) / 2 : ℕ) - ((k + 1) / 2 : ℕ) - (6 * n * k - 3 * (n : ℤ) ^ 2 + 9 * n) - ((k - n) / 2 : ℕ))
          (-(2 * ((k - n : ℕ) : ℤ))) y →
      -((size / 16 + 1) / 2 : ℕ) - ((k + 1) / 2 : ℕ) - (6 * n * k - 3 * (n : ℤ) ^ 2 + 9 * n) - ((k - n) / 2 : ℕ) - 4 * (k - n) ≤ y ∧
      y < -((size / 16 + 1) / 2 : ℕ) - ((k + 1) / 2 : ℕ) - (6 * n * k - 3 * (n : ℤ) ^ 2 + 9 * n) - ((k - n) / 2 : ℕ) + (k - n) := by
    intro n hn y h
    unfold Cols at h
    generalize -(((size / 16 + 1) / 2 : ℕ) : ℤ) - ((k + 1) / 2 : ℕ) - (6 * n * k - 3 * (n : ℤ) ^ 2 + 9 * n) - ((k - n) / 2 : ℕ) = z at *
    have e : ((k - n : ℕ) : ℤ) = (k : ℤ) - n := by omega
    rw [e] at h
    omega
  rw [sum_disjoint (fun n : ℕ => RowIn size i ∧
        Cols (n + 1) ((halfHei size : ℤ) + 1 + 3 * (n : ℤ) ^ 2 + 9 * n - (n / 2 : ℕ)) (2 * ((n + 1 : ℕ) : ℤ)) x),
    sum_disjoint (fun n : ℕ => RowIn size i ∧
        Cols (k - n) (-((size / 16 + 1) / 2 : ℕ) - ((k + 1) / 2 : ℕ) - (6 * n * k - 3 * (n : ℤ) ^ 2 + 9 * n) - ((k - n) / 2 : ℕ))
          (-(2 * ((k - n : ℕ) : ℤ))) x)]
  · have pR : ∀ n : ℕ, Cols (n + 1) ((halfHei size : ℤ) + 1 + 3 * (n : ℤ) ^ 2 + 9 * n - (n / 2 : ℕ)) (2 * ((n + 1 : ℕ) : ℤ)) x ↔
        ∃ b < 3, InRight size (n + 1) b x := by
      intro n
      unfold Cols InRight
      dsimp only
      rw [Nat.add_sub_cancel]
      have e : ∀ b : ℕ, (halfHei size : ℤ) + 1 + 3 * (((n + 1 : ℕ) : ℤ) - 1) * (((n + 1 : ℕ) : ℤ) + 2) + 2 * ((n + 1 : ℕ) : ℤ) * b - (n / 2 : ℕ)
          = (halfHei size : ℤ) + 1 + 3 * (n : ℤ) ^ 2 + 9 * n - (n / 2 : ℕ) + 2 * ((n + 1 : ℕ) : ℤ) * b := by
        intro b
        generalize n / 2 = m
        push_cast
        ring
      simp only [e]
      generalize (halfHei size : ℤ) + 1 + 3 * (n : ℤ) ^ 2 + 9 * n - (n / 2 : ℕ) = z
      constructor
      · rintro (h | h | h)
        · exact ⟨0, by omega, by push_cast at *; omega⟩
        · exact ⟨1, by omega, by push_cast at *; omega⟩
        · exact ⟨2, by omega, by push_cast at *; omega⟩
      · rintro ⟨b, hb, h⟩
        interval_cases b <;> push_cast at * <;> omega
    have pL : ∀ n : ℕ, n < k → (Cols (k - n) (-((size / 16 + 1) / 2 : ℕ) - ((k + 1) / 2 : ℕ) - (6 * n * k - 3 * (n : ℤ) ^ 2 + 9 * n) - ((k - n) / 2 : ℕ))
          (-(2 * ((k - n : ℕ) : ℤ))) x ↔ ∃ b < 3, InLeft size k (k - n) b x) := by
      intro n hn
      unfold Cols InLeft
      dsimp only
      have e0 : (k : ℤ) - ((k - n : ℕ) : ℤ) = n := by omega
      rw [e0]
      generalize (6 * n * k - 3 * (n : ℤ) ^ 2 + 9 * n) = t
      generalize (((size / 16 + 1) / 2 : ℕ) : ℤ) = u
      generalize (((k + 1) / 2 : ℕ) : ℤ) = v
      generalize k - n = w
      constructor
      · rintro (h | h | h)
        · exact ⟨0, by omega, by push_cast at *; omega⟩
        · exact ⟨1, by omega, by push_cast at *; omega⟩
        · exact ⟨2, by omega, by push_cast at *; omega⟩
      · rintro ⟨b, hb, h⟩
        interval_cases b <;> push_cast at * <;> omega
    -- a pixel is not on both sides
    have hpos : ∀ n : ℕ, Cols (n + 1) ((halfHei size : ℤ) + 1 + 3 * (n : ℤ) ^ 2 + 9 * n - (n / 2 : ℕ)) (2 * ((n + 1 : ℕ) : ℤ)) x → 0 < x := by
      intro n h
      have := (b1 n x h).1
      have h2 : (n : ℤ) ^ 2 ≥ 0 := sq_nonneg _
      generalize (n : ℤ) ^ 2 = z at *
      omega
    have hneg : ∀ n : ℕ, n < k → Cols (k - n) (-((size / 16 + 1) / 2 : ℕ) - ((k + 1) / 2 : ℕ) - (6 * n * k - 3 * (n : ℤ) ^ 2 + 9 * n) - ((k - n) / 2 : ℕ))
          (-(2 * ((k - n : ℕ) : ℤ))) x → x < 0 := by
      intro n hn h
      have := (b2 n hn x h).2
      have h2 : (n : ℤ) * k - (n : ℤ) ^ 2 ≥ 0 := by
        have : (n : ℤ) ≤ k := by omega
        nlinarith [Int.natCast_nonneg n]
      have h3 : (n : ℤ) * k ≥ 0 := by positivity
      rw [mul_assoc] at this
      generalize (n : ℤ) ^ 2 = z at *
      generalize (n : ℤ) * k = t at *
      omega
    have hfin : Inked size k i j ↔ (∃ n ∈ List.range k, RowIn size i ∧
          Cols (n + 1) ((halfHei size : ℤ) + 1 + 3 * (n : ℤ) ^ 2 + 9 * n - (n / 2 : ℕ)) (2 * ((n + 1 : ℕ) : ℤ)) x) ∨
        (∃ n ∈ List.range k, RowIn size i ∧
          Cols (k - n) (-((size / 16 + 1) / 2 : ℕ) - ((k + 1) / 2 : ℕ) - (6 * n * k - 3 * (n : ℤ) ^ 2 + 9 * n) - ((k - n) / 2 : ℕ))
            (-(2 * ((k - n : ℕ) : ℤ))) x) := by
      unfold Inked
      rw [hx]
      constructor
      · rintro ⟨hrow, w, b, hw1, hw2, hb, h | h⟩
        · refine Or.inl ⟨w - 1, List.mem_range.2 (by omega), hrow, (pR (w - 1)).2 ⟨b, hb, ?_⟩⟩
          rwa [show w - 1 + 1 = w by omega]
        · refine Or.inr ⟨k - w, List.mem_range.2 (by omega), hrow, (pL (k - w) (by omega)).2 ⟨b, hb, ?_⟩⟩
          rwa [show k - (k - w) = w by omega]
      · rintro (⟨n, hn, hrow, h⟩ | ⟨n, hn, hrow, h⟩)
        · have hn := List.mem_range.1 hn
          obtain ⟨b, hb, h⟩ := (pR n).1 h
          exact ⟨hrow, n + 1, b, by omega, by omega, hb, Or.inl h⟩
        · have hn := List.mem_range.1 hn
          obtain ⟨b, hb, h⟩ := (pL n hn).1 h
          exact ⟨hrow, k - n, b, by omega, by omega, hb, Or.inr h⟩
    rw [ind_congr hfin]
    by_cases hA : ∃ n ∈ List.range k, RowIn size i ∧
          Cols (n + 1) ((halfHei size : ℤ) + 1 + 3 * (n : ℤ) ^ 2 + 9 * n - (n / 2 : ℕ)) (2 * ((n + 1 : ℕ) : ℤ)) x
    · rw [ind_pos hA, ind_pos (Or.inl hA), ind_neg, add_zero]
      rintro ⟨n, hn, -, h⟩
      obtain ⟨n', -, -, h'⟩ := hA
      have := hpos n' h'
      have := hneg n (List.mem_range.1 hn) h
      omega
    · rw [ind_neg hA, zero_add]
      apply ind_congr
      constructor
      · exact Or.inr
      · rintro (h | h)
        · exact absurd h hA
        · exact h
  · refine List.pairwise_lt_range.imp_of_mem ?_
    rintro n m hn hm hnm ⟨⟨-, h1⟩, -, h2⟩
    have hn := List.mem_range.1 hn
    have hm := List.mem_range.1 hm
    have l1 := (b2 n hn x h1).1
    have l2 := (b2 m hm x h2).2
    have hF : (6 * (m : ℤ) * k - 3 * (m : ℤ) ^ 2 + 9 * m) - (6 * (n : ℤ) * k - 3 * (n : ℤ) ^ 2 + 9 * n) ≥ 6 * (k - n) + 6 := by
      have d1 : (0 : ℤ) ≤ (m : ℤ) - n - 1 := by omega
      have d2 : (0 : ℤ) ≤ (k : ℤ) - m - 1 := by omega
      nlinarith [mul_nonneg d1 d2, mul_nonneg d1 d1]
    generalize (6 * (m : ℤ) * k - 3 * (m : ℤ) ^ 2 + 9 * m) = f1 at *
    generalize (6 * (n : ℤ) * k - 3 * (n : ℤ) ^ 2 + 9 * n) = f2 at *
    omega
  · refine List.pairwise_lt_range.imp_of_mem ?_
    rintro n m hn hm hnm ⟨⟨-, h1⟩, -, h2⟩
    have l1 := (b1 n x h1).2
    have l2 := (b1 m x h2).1
    have hF : (3 * (m : ℤ) ^ 2 + 9 * m) - (3 * (n : ℤ) ^ 2 + 9 * n) ≥ 9 * (m - n) + 3 * n + 3 * m := by
      have d1 : (0 : ℤ) ≤ (m : ℤ) - n - 1 := by omega
      nlinarith [mul_nonneg d1 (Int.natCast_nonneg n), mul_nonneg d1 d1]
    rw [add_assoc] at l1 l2
    generalize (m : ℤ) ^ 2 = f1 at *
    generalize (n : ℤ) ^ 2 = f2 at *
    omega

/-! ### The target -/

/-- Pixel column `j` belongs to a line. -/
def InkCol (size k j : ℕ) : Prop :=
  ∃ w b : ℕ, 1 ≤ w ∧ w ≤ k ∧ b < 3 ∧
    (InRight size w b ((j : ℤ) - (size / 2 : ℕ)) ∨ InLeft size k w b ((j : ℤ) - (size / 2 : ℕ)))

/-- `r` is the diameter which the program gives to the disc: from the first to the last column of a line in the image, plus the height of the lines. -/
def IsDiameter (size k : ℕ) (len : ℝ) : Prop :=
  ∃ first last : ℕ, first < size ∧ last < size ∧ InkCol size k first ∧ InkCol size k last ∧
    (∀ j < size, InkCol size k j → first ≤ j ∧ j ≤ last) ∧ len = (last : ℝ) - first + (size / 16 : ℕ)

/-- Pixel `(i, j)` lies in the disc of diameter `len` around the centre (1% tolerance). -/
def InDisc (size : ℕ) (len : ℝ) (i j : ℕ) : Prop :=
  ((j : ℝ) - (size / 2 : ℕ)) ^ 2 + (((size / 2 : ℕ) : ℝ) - i) ^ 2 ≤ (0.505 * len) ^ 2

theorem first_right (size w b : ℕ) (hw : 1 ≤ w) (x : ℤ) (h : InRight size w b x) : (halfHei size : ℤ) < x := by
  unfold InRight at h
  dsimp only at h
  have h0 : (0 : ℤ) ≤ ((w : ℤ) - 1) * (w + 2) := mul_nonneg (by omega) (by omega)
  have h2 : ((w : ℤ) - 1) * (w + 2) ≥ (w : ℤ) - 1 := by nlinarith [(by omega : (0 : ℤ) ≤ (w : ℤ) - 1)]
  have h1 : (0 : ℤ) ≤ 2 * (w : ℤ) * b := by positivity
  rw [mul_assoc 3] at h
  generalize ((w : ℤ) - 1) * (w + 2) = z at *
  generalize 2 * (w : ℤ) * b = y at *
  omega

theorem last_left (size k w b : ℕ) (hw : 1 ≤ w) (hk : w ≤ k) (x : ℤ) (h : InLeft size k w b x) : x < -((size / 16 + 1) / 2 : ℕ) := by
  unfold InLeft at h
  dsimp only at h
  have hn : (0 : ℤ) ≤ (k : ℤ) - w := by omega
  have h0 : 6 * ((k : ℤ) - w) * k - 3 * ((k : ℤ) - w) ^ 2 + 9 * ((k : ℤ) - w) ≥ 9 * ((k : ℤ) - w) := by
    nlinarith [mul_nonneg hn (Int.natCast_nonneg k), mul_nonneg hn (Int.natCast_nonneg w)]
  have h1 : (0 : ℤ) ≤ 2 * (w : ℤ) * b := by positivity
  generalize 6 * ((k : ℤ) - w) * k - 3 * ((k : ℤ) - w) ^ 2 + 9 * ((k : ℤ) - w) = z at *
  generalize 2 * (w : ℤ) * b = y at *
  omega

theorem inkCol_center (size k : ℕ) : ¬ InkCol size k (size / 2) := by
  rintro ⟨w, b, h1, h2, -, h | h⟩
  · have := first_right size w b h1 _ h; omega
  · have := last_left size k w b h1 h2 _ h; omega

theorem fits_one (size : ℕ) : Fits size 1 ↔ 26 ≤ size := by unfold Fits halfHei; omega

theorem sorted_ends (l : List ℕ) (hl : l.Pairwise (· < ·)) (hne : l ≠ []) :
    ∃ a b, l.head? = some a ∧ l.getLast? = some b ∧ a ∈ l ∧ b ∈ l ∧ ∀ x ∈ l, a ≤ x ∧ x ≤ b := by
  refine ⟨l.head hne, l.getLast hne, List.head?_eq_some_head hne, List.getLast?_eq_some_getLast hne, List.head_mem hne, List.getLast_mem hne, ?_⟩
  intro x hx
  constructor
  · cases l with
    | nil => exact absurd rfl hne
    | cons a l =>
      rw [List.pairwise_cons] at hl
      rcases List.mem_cons.1 hx with rfl | h
      · exact le_rfl
      · exact (hl.1 x h).le
  · induction l with
    | nil => exact absurd rfl hne
    | cons a l ih =>
      cases l with
      | nil => rw [List.mem_singleton] at hx; subst hx; exact le_rfl
      | cons c l =>
        rw [List.pairwise_cons] at hl
        rw [List.getLast_cons (by simp)]
        rcases List.mem_cons.1 hx with rfl | h
        · exact (hl.1 _ (List.getLast_mem _)).le
        · exact ih hl.2 (by simp) h

theorem parts_small {size : ℕ} (hs : size < 26) : parts size = [] := by
  obtain ⟨k, -, hr, hl, hf⟩ := groups_spec size
  have hk : k = 0 := by
    by_contra h
    have := (fits_one size).1 ((hf 1 le_rfl).1 (by omega))
    omega
  unfold parts
  rw [hr, hl, hk]
  rfl

/-- **C141.** Below 26 pixels no line fits and the call fails with IndexError. -/
theorem lineTarget_small {size : ℕ} (hs : size < 26) : lineTarget size = .error .indexError := by
  have h : ∀ i j, bars size i j = 0 := by intro i j; unfold bars; rw [parts_small hs]; rfl
  unfold lineTarget
  simp [h]

/-- **C141.** From 26 pixels on, the target is a disc minus the lines minus the transposed lines; the widths 1 to `k` are those that fit. -/
theorem lineTarget_spec {size : ℕ} (hs : 26 ≤ size) (hs' : size < 60000) :
    ∃ (k : ℕ) (len : ℝ) (t : Mat ℝ), 1 ≤ k ∧ (∀ w : ℕ, 1 ≤ w → (w ≤ k ↔ Fits size w)) ∧ IsDiameter size k len ∧
      lineTarget size = .ok t ∧ t.h = size ∧ t.w = size ∧
      ∀ i j, t.get i j = ind (InDisc size len i j) - (ind (Inked size k i j) + ind (Inked size k j i)) := by
  obtain ⟨k, hf, hb⟩ := bars_spec (size := size) (by omega) hs'
  have hk : 1 ≤ k := (hf 1 le_rfl).2 ((fits_one size).2 hs)
  have hmask : ∀ j, bars size (size / 2) j + bars size j (size / 2) = ind (InkCol size k j) := by
    intro j
    rw [hb, hb, ind_neg (p := Inked size k j (size / 2)), add_zero]
    · apply ind_congr
      unfold Inked
      constructor
      · exact fun h => h.2
      · intro h
        refine ⟨?_, h⟩
        rw [sub_self, abs_zero]
        positivity
    · exact fun h => inkCol_center size k h.2
  have hpos : ∀ j, j ∈ (List.range size).filter (fun j => decide (bars size (size / 2) j + bars size j (size / 2) = 1)) ↔ j < size ∧ InkCol size k j := by
    intro j
    rw [List.mem_filter, List.mem_range, decide_eq_true_eq, hmask]
    refine and_congr Iff.rfl ?_
    by_cases h : InkCol size k j
    · rw [ind_pos h]; simp [h]
    · rw [ind_neg h]; simp [h]
  have hfirst : InkCol size k (size / 2 + halfHei size + 1) := by
    refine ⟨1, 0, le_rfl, hk, by omega, Or.inl ?_⟩
    unfold InRight
    dsimp only
    push_cast
    simp
    omega
  have hf1 := (hf 1 le_rfl).1 hk
  have hlt : size / 2 + halfHei size + 1 < size := by unfold Fits at hf1; omega
  have hne : (List.range size).filter (fun j => decide (bars size (size / 2) j + bars size j (size / 2) = 1)) ≠ [] :=
    List.ne_nil_of_mem ((hpos _).2 ⟨hlt, hfirst⟩)
  obtain ⟨a, b, h1, h2, ha, hbm, hall⟩ := sorted_ends _ (List.pairwise_lt_range.filter _) hne
  have hle := hall _ hbm
  have hhei : 1 ≤ size / 16 := by omega
  have hlen : (0 : ℝ) < (b : ℝ) - a + (size / 16 : ℕ) := by
    have q1 : (a : ℝ) ≤ b := by exact_mod_cast hle.1
    have q2 : (1 : ℝ) ≤ ((size / 16 : ℕ) : ℝ) := by exact_mod_cast hhei
    linarith
  refine ⟨k, (b : ℝ) - a + (size / 16 : ℕ),
    ⟨size, size, fun i j => (ellipticMask size (0, 0) ((b : ℝ) - a + (lineHei size : ℕ), (b : ℝ) - a + (lineHei size : ℕ)) 0).get i j
      - (bars size i j + bars size j i)⟩, hk, hf,
    ⟨a, b, ((hpos a).1 ha).1, ((hpos b).1 hbm).1, ((hpos a).1 ha).2, ((hpos b).1 hbm).2, fun j hj h => hall j ((hpos j).2 ⟨hj, h⟩), rfl⟩, ?_, rfl, rfl, ?_⟩
  · unfold lineTarget
    dsimp only
    rw [h1, h2]
  · intro i j
    dsimp only
    rw [hb, hb]
    congr 1
    show (ellipticMask size (0, 0) ((b : ℝ) - a + (size / 16 : ℕ), (b : ℝ) - a + (size / 16 : ℕ)) 0).get i j = _
    generalize (b : ℝ) - a + (size / 16 : ℕ) = len at hlen
    obtain ⟨-, -, h01, hiff⟩ := elliptic_spec size (0, 0) (len, len) hlen hlen 0 i j
    have hal : along size ((0 : ℝ), 0) 0 i j = (j : ℝ) - (size / 2 : ℕ) := by unfold along; simp
    have hac : across size ((0 : ℝ), 0) 0 i j = ((size / 2 : ℕ) : ℝ) - i := by unfold across; simp
    rw [hal, hac] at hiff
    have e : (((j : ℝ) - (size / 2 : ℕ)) / len) ^ 2 + ((((size / 2 : ℕ) : ℝ) - i) / len) ^ 2 ≤ 0.505 ^ 2 ↔ InDisc size len i j := by
      unfold InDisc
      rw [div_pow, div_pow, ← add_div, div_le_iff₀ (by positivity), mul_pow]
    dsimp only at hiff
    rw [e] at hiff
    by_cases h : InDisc size len i j
    · rw [ind_pos h]; exact hiff.2 h
    · rw [ind_neg h]
      rcases h01 with h' | h'
      · exact h'
      · exact absurd (hiff.1 h') h

/-- **C141.** The target does not change when it is transposed. -/
theorem lineTarget_symm {size : ℕ} (hs : 26 ≤ size) (hs' : size < 60000) {t : Mat ℝ} (ht : lineTarget size = .ok t) (i j : ℕ) :
    t.get i j = t.get j i := by
  obtain ⟨k, len, t', -, -, -, h, -, -, hg⟩ := lineTarget_spec hs hs'
  rw [ht] at h
  cases h
  rw [hg, hg, add_comm (ind (Inked size k j i))]
  congr 1
  apply ind_congr
  unfold InDisc
  constructor <;> intro h <;> nlinarith [h]

/-- **C141.** All lines on the right are in the image. -/
theorem right_inside {size w b : ℕ} (hf : Fits size w) (hw : 1 ≤ w) (hb : b < 3) {x : ℤ} (hx : InRight size w b x) :
    0 < x ∧ x + (size / 2 : ℕ) + 7 < size := by
  refine ⟨by have := first_right size w b hw x hx; omega, ?_⟩
  unfold Fits at hf
  unfold InRight at hx
  dsimp only at hx
  obtain ⟨n, rfl⟩ : ∃ n, w = n + 1 := ⟨w - 1, by omega⟩
  rw [Nat.add_sub_cancel] at hf hx
  have e : 3 * (((n + 1 : ℕ) : ℤ) - 1) * (((n + 1 : ℕ) : ℤ) + 2) = ((3 * n * (n + 1 + 2) : ℕ) : ℤ) := by push_cast; ring
  rw [e] at hx
  generalize 3 * n * (n + 1 + 2) = z at *
  have hb2 : 2 * ((n + 1 : ℕ) : ℤ) * b ≤ 4 * (n + 1) := by
    have : (b : ℤ) ≤ 2 := by omega
    push_cast
    nlinarith
  generalize 2 * ((n + 1 : ℕ) : ℤ) * b = y at *
  omega

/-- The extent of the lines to the left. -/
theorem left_extent {size k w b : ℕ} (hw : 1 ≤ w) (hk : w ≤ k) (hb : b < 3) {x : ℤ} (hx : InLeft size k w b x) :
    -(((size / 16 + 1) / 2 : ℕ) + ((k + 1) / 2 : ℕ) + 3 * (k : ℤ) ^ 2 + 9 * k - 8) ≤ x := by
  unfold InLeft at hx
  dsimp only at hx
  have hw2 : (w / 2 : ℕ) ≤ w - 1 := by omega
  have h1 : 6 * ((k : ℤ) - w) * k - 3 * ((k : ℤ) - w) ^ 2 + 9 * ((k : ℤ) - w) + 2 * w * b + (w / 2 : ℕ) ≤ 3 * (k : ℤ) ^ 2 + 9 * k - 8 := by
    have hb2 : 2 * (w : ℤ) * b ≤ 4 * w := by
      have : (b : ℤ) ≤ 2 := by omega
      nlinarith
    have h3 : ((w / 2 : ℕ) : ℤ) ≤ (w : ℤ) - 1 := by omega
    nlinarith [hb2, h3, (by exact_mod_cast hw : (1 : ℤ) ≤ w)]
  generalize 6 * ((k : ℤ) - w) * k - 3 * ((k : ℤ) - w) ^ 2 + 9 * ((k : ℤ) - w) = z at *
  generalize 2 * (w : ℤ) * b = y at *
  generalize (k : ℤ) ^ 2 = q at *
  omega

/-- The number of groups: what fits and what does not. -/
theorem fits_cast (size k : ℕ) (hk : 1 ≤ k) : Fits size k ↔ (halfHei size : ℤ) + 1 + 3 * (k : ℤ) ^ 2 + 9 * k ≤ (size / 2 : ℕ) := by
  obtain ⟨n, rfl⟩ : ∃ n, k = n + 1 := ⟨k - 1, by omega⟩
  unfold Fits
  rw [Nat.add_sub_cancel]
  generalize size / 2 = c
  generalize halfHei size = h
  rw [← Int.ofNat_le]
  push_cast
  constructor <;> intro h <;> nlinarith [h]

theorem few_groups {size k : ℕ} (hs : size < 2178) (hk : 1 ≤ k) (hf : Fits size k) : k ≤ 16 := by
  rw [fits_cast size k hk] at hf
  by_contra h
  have h1 : (289 : ℤ) ≤ (k : ℤ) ^ 2 := by nlinarith [(by omega : (17 : ℤ) ≤ k)]
  generalize (k : ℤ) ^ 2 = q at *
  unfold halfHei at hf
  omega

/-- **C141.** Below 2178 pixels all lines on the left are in the image, too. -/
theorem left_inside {size k w b : ℕ} (hs : size < 2178) (hf : Fits size k) (hw : 1 ≤ w) (hk : w ≤ k) (hb : b < 3) {x : ℤ}
    (hx : InLeft size k w b x) : 0 ≤ x + (size / 2 : ℕ) ∧ x < 0 := by
  have h1 := left_extent hw hk hb hx
  have h2 := last_left size k w b hw hk x hx
  have h3 := few_groups hs (by omega) hf
  rw [fits_cast size k (by omega)] at hf
  generalize (k : ℤ) ^ 2 = q at *
  unfold halfHei at hf
  omega

theorem disc_arith {L h D len x y : ℝ} (hx : |x| ≤ L) (hy : 200 * |y| ≤ 101 * h) (hL : 0 ≤ L) (hh : 0 ≤ h) (hD : D ≤ h)
    (hlen : 2 * L + h - D ≤ len) (hbig : 4 * D ≤ 3 * h ∧ h ≤ L ∨ 357 * h ≤ 100 * L) : x ^ 2 + y ^ 2 ≤ (0.505 * len) ^ 2 := by
  have r1 : x ^ 2 ≤ L ^ 2 := by rw [← sq_abs x]; exact pow_le_pow_left₀ (abs_nonneg _) hx 2
  have r2 : y ^ 2 ≤ (0.505 * h) ^ 2 := by rw [← sq_abs y]; exact pow_le_pow_left₀ (abs_nonneg _) (by linarith) 2
  refine le_trans (add_le_add r1 r2) ?_
  have r3 : (0.505 * (2 * L + (h - D))) ^ 2 ≤ (0.505 * len) ^ 2 := pow_le_pow_left₀ (by nlinarith) (by linarith) 2
  refine le_trans ?_ r3
  have he : 0 ≤ h - D := by linarith
  rcases hbig with ⟨hA, hB⟩ | hC
  · have a1 : 0 ≤ L * (h - D - h / 4) := mul_nonneg hL (by linarith)
    have a2 : 0 ≤ h * (L - h) := mul_nonneg hh (by linarith)
    have a3 : 0 ≤ (h - D) ^ 2 := sq_nonneg _
    nlinarith [a1, a2, a3, sq_nonneg L]
  · have a1 : 0 ≤ L * (h - D) := mul_nonneg hL he
    have a3 : 0 ≤ (h - D) ^ 2 := sq_nonneg _
    have a2 : (357 * h) ^ 2 ≤ (100 * L) ^ 2 := pow_le_pow_left₀ (by positivity) hC 2
    nlinarith [a1, a2, a3]

/-- **C141.** Below 2178 pixels all lines are inside the disc. -/
theorem inked_in_disc {size k : ℕ} (hs : 26 ≤ size) (hs' : size < 2178) (hk : 1 ≤ k) (hf : ∀ w : ℕ, 1 ≤ w → (w ≤ k ↔ Fits size w)) {len : ℝ}
    (hlen : IsDiameter size k len) {i j : ℕ} (h : Inked size k i j) : InDisc size len i j ∧ InDisc size len j i := by
  have hfk := (hf k hk).1 le_rfl
  have hk16 := few_groups hs' hk hfk
  obtain ⟨first, last, hf1, hl1, -, -, hmin, rfl⟩ := hlen
  have hfc := hfk
  rw [fits_cast size k hk] at hfc
  -- the leftmost and the rightmost column
  generalize hL : (((size / 16 + 1) / 2 : ℕ) : ℤ) + ((k + 1) / 2 : ℕ) + 3 * (k : ℤ) ^ 2 + 9 * k - 8 = L
  generalize hR : ((size / 16 / 2 : ℕ) : ℤ) + 3 * (k : ℤ) ^ 2 + 8 * k - 6 - ((k - 1) / 2 : ℕ) = R
  have hk2 : (k : ℤ) ≤ (k : ℤ) ^ 2 := by nlinarith [(by omega : (1 : ℤ) ≤ k)]
  have hLc : L ≤ (size / 2 : ℕ) := by
    generalize (k : ℤ) ^ 2 = q at *
    unfold halfHei at hfc
    omega
  have hL0 : 0 ≤ L := by generalize (k : ℤ) ^ 2 = q at *; omega
  have cL : InkCol size k (size / 2 - L.toNat) := by
    refine ⟨1, 2, le_rfl, hk, by omega, Or.inr ?_⟩
    unfold InLeft
    dsimp only
    have e : 6 * ((k : ℤ) - (1 : ℕ)) * k - 3 * ((k : ℤ) - (1 : ℕ)) ^ 2 + 9 * ((k : ℤ) - (1 : ℕ)) = 3 * (k : ℤ) ^ 2 + 9 * k - 12 := by push_cast; ring
    rw [e]
    generalize (k : ℤ) ^ 2 = q at *
    constructor <;> push_cast <;> omega
  have hR0 : 0 ≤ R := by generalize (k : ℤ) ^ 2 = q at *; omega
  have cR : InkCol size k (size / 2 + R.toNat) := by
    refine ⟨k, 2, hk, le_rfl, by omega, Or.inl ?_⟩
    unfold InRight
    dsimp only
    have e : 3 * ((k : ℤ) - 1) * ((k : ℤ) + 2) = 3 * (k : ℤ) ^ 2 + 3 * k - 6 := by ring
    rw [e]
    unfold halfHei
    generalize (k : ℤ) ^ 2 = q at *
    constructor <;> push_cast <;> omega
  have hRc : size / 2 + R.toNat < size := by
    generalize (k : ℤ) ^ 2 = q at *
    unfold halfHei at hfc
    omega
  have m1 := (hmin _ (by omega) cL).1
  have m2 := (hmin _ hRc cR).2
  -- bounds of the pixel
  obtain ⟨hrow, hcol⟩ := h
  have hx : |(j : ℤ) - (size / 2 : ℕ)| ≤ L := by
    have hRL : R ≤ L := by generalize (k : ℤ) ^ 2 = q at *; omega
    obtain ⟨w, b, hw, hwk, hb, h | h⟩ := hcol
    · have h1 := first_right size w b hw _ h
      rw [abs_of_pos (by omega)]
      refine le_trans ?_ hRL
      unfold InRight at h
      dsimp only at h
      have h2 : 3 * ((w : ℤ) - 1) * (w + 2) + 2 * w * b + w - ((w - 1) / 2 : ℕ) ≤ 3 * (k : ℤ) ^ 2 + 3 * k - 6 + 5 * k - ((k - 1) / 2 : ℕ) := by
        have hb2 : 2 * (w : ℤ) * b ≤ 4 * w := by
          have : (b : ℤ) ≤ 2 := by omega
          nlinarith
        have h3 : (k : ℤ) - w ≥ ((k - 1) / 2 : ℕ) - ((w - 1) / 2 : ℕ) := by omega
        have h4 : (w : ℤ) ^ 2 ≤ (k : ℤ) ^ 2 := pow_le_pow_left₀ (by omega) (by omega) 2
        have h5 : 3 * ((w : ℤ) - 1) * (w + 2) = 3 * (w : ℤ) ^ 2 + 3 * w - 6 := by ring
        rw [h5]
        generalize 2 * (w : ℤ) * b = y at *
        generalize (k : ℤ) ^ 2 = q at *
        generalize (w : ℤ) ^ 2 = q' at *
        omega
      generalize 3 * ((w : ℤ) - 1) * (w + 2) = z at *
      generalize 2 * (w : ℤ) * b = y at *
      generalize (k : ℤ) ^ 2 = q at *
      unfold halfHei at h
      omega
    · have h1 := left_extent hw hwk hb h
      have h2 := last_left size k w b hw hwk _ h
      rw [abs_of_neg (by omega)]
      omega
  -- real arithmetic
  have hD : 2 * L + (size / 16 : ℕ) - (2 * k - 1) ≤ (last : ℤ) - first + (size / 16 : ℕ) := by
    generalize (k : ℤ) ^ 2 = q at *
    omega
  have hDh : 2 * (k : ℤ) - 1 ≤ (size / 16 : ℕ) := by
    have : 0 ≤ ((k : ℤ) - 1) ^ 2 := sq_nonneg _
    have e : ((k : ℤ) - 1) ^ 2 = (k : ℤ) ^ 2 - 2 * k + 1 := by ring
    rw [e] at this
    generalize (k : ℤ) ^ 2 = q at *
    unfold halfHei at hfc
    omega
  have hbig : 4 * (2 * (k : ℤ) - 1) ≤ 3 * (size / 16 : ℕ) ∧ ((size / 16 : ℕ) : ℤ) ≤ L ∨ 100 * L ≥ 357 * (size / 16 : ℕ) := by
    have hnot : ¬ Fits size (k + 1) := fun hh => by have := (hf (k + 1) (by omega)).2 hh; omega
    rw [fits_cast size (k + 1) (by omega)] at hnot
    have e : ((k + 1 : ℕ) : ℤ) ^ 2 = (k : ℤ) ^ 2 + 2 * k + 1 := by push_cast; ring
    rw [e] at hnot
    unfold halfHei at hnot hfc
    clear hmin m1 m2 hx hD cL cR hf hrow hcol hRc hLc
    generalize (k : ℤ) ^ 2 = q at *
    push_cast at hnot
    omega
  generalize hhei : ((size / 16 : ℕ) : ℤ) = hh at *
  have key : ∀ x y : ℝ, |x| ≤ L → 200 * |y| ≤ 101 * (hh : ℝ) → x ^ 2 + y ^ 2 ≤ (0.505 * ((last : ℝ) - first + (size / 16 : ℕ))) ^ 2 := by
    intro x y hx hy
    have e : ((size / 16 : ℕ) : ℝ) = (hh : ℝ) := by rw [← hhei, Int.cast_natCast]
    rw [e]
    refine disc_arith (D := 2 * (k : ℝ) - 1) hx hy (by exact_mod_cast hL0) (by rw [← e]; positivity) (by exact_mod_cast hDh) (by exact_mod_cast hD) ?_
    rcases hbig with ⟨hA, hB⟩ | hC
    · exact Or.inl ⟨by exact_mod_cast hA, by exact_mod_cast hB⟩
    · exact Or.inr (by exact_mod_cast hC)
  have hxr : |(j : ℝ) - (size / 2 : ℕ)| ≤ L := by
    have : ((|(j : ℤ) - (size / 2 : ℕ)| : ℤ) : ℝ) ≤ L := by exact_mod_cast hx
    generalize size / 2 = c at *
    push_cast at this
    exact this
  have hyr : 200 * |((size / 2 : ℕ) : ℝ) - i| ≤ 101 * (hh : ℝ) := by
    have : ((200 * |((size / 2 : ℕ) : ℤ) - i| : ℤ) : ℝ) ≤ ((101 * hh : ℤ) : ℝ) := by exact_mod_cast hrow
    generalize size / 2 = c at *
    push_cast at this
    exact this
  refine ⟨key _ _ hxr hyr, ?_⟩
  unfold InDisc
  have := key _ _ hxr hyr
  nlinarith [this]

theorem not_both {size k i j : ℕ} (hs : size < 1616) (h1 : Inked size k i j) (h2 : Inked size k j i) : False := by
  obtain ⟨hrow, -⟩ := h1
  obtain ⟨-, w, b, hw, hwk, -, h | h⟩ := h2
  · have h1 := first_right size w b hw _ h
    rw [abs_of_neg (by omega)] at hrow
    unfold halfHei at h1
    omega
  · have h1 := last_left size k w b hw hwk _ h
    rw [abs_of_pos (by omega)] at hrow
    omega

/-- **C141.** From 26 to 1615 pixels the target is a binary image: 1 in the disc outside all lines, 0 elsewhere. -/
theorem lineTarget_binary {size : ℕ} (hs : 26 ≤ size) (hs' : size < 1616) :
    ∃ (k : ℕ) (len : ℝ) (t : Mat ℝ), 1 ≤ k ∧ (∀ w : ℕ, 1 ≤ w → (w ≤ k ↔ Fits size w)) ∧ IsDiameter size k len ∧ lineTarget size = .ok t ∧
      t.h = size ∧ t.w = size ∧ ∀ i j, (t.get i j = 0 ∨ t.get i j = 1) ∧
        (t.get i j = 1 ↔ InDisc size len i j ∧ ¬ Inked size k i j ∧ ¬ Inked size k j i) := by
  obtain ⟨k, len, t, hk, hf, hlen, ht, hh, hw, hg⟩ := lineTarget_spec hs (by omega)
  refine ⟨k, len, t, hk, hf, hlen, ht, hh, hw, fun i j => ?_⟩
  rw [hg]
  by_cases h1 : Inked size k i j
  · have h2 : ¬ Inked size k j i := fun h => not_both hs' h1 h
    have h3 := (inked_in_disc hs (by omega) hk hf hlen h1).1
    rw [ind_pos h1, ind_neg h2, ind_pos h3]
    norm_num
    exact fun _ h => absurd h1 h
  · by_cases h2 : Inked size k j i
    · have h3 := (inked_in_disc hs (by omega) hk hf hlen h2).2
      rw [ind_neg h1, ind_pos h2, ind_pos h3]
      norm_num
      exact fun _ _ => h2
    · rw [ind_neg h1, ind_neg h2]
      by_cases h3 : InDisc size len i j
      · rw [ind_pos h3]; norm_num; exact ⟨h3, h1, h2⟩
      · rw [ind_neg h3]; norm_num; exact fun h => absurd h h3

/-- **C141, refuted for larger targets.** With 1616 pixels the horizontal and the vertical lines overlap and the target has the value -1. -/
theorem lineTarget_not_binary : ∃ t : Mat ℝ, lineTarget 1616 = .ok t ∧ t.get 859 859 = -1 := by
  obtain ⟨k, len, t, hk, hf, hlen, ht, -, -, hg⟩ := lineTarget_spec (size := 1616) (by norm_num) (by norm_num)
  refine ⟨t, ht, ?_⟩
  have hr : ∀ b : ℕ, b < 3 → InkCol 1616 k (859 + 2 * b) := by
    intro b hb
    refine ⟨1, b, le_rfl, hk, hb, Or.inl ?_⟩
    unfold InRight halfHei
    dsimp only
    push_cast
    omega
  have hi : Inked 1616 k 859 859 := ⟨by norm_num, hr 0 (by norm_num)⟩
  have hd : InDisc 1616 len 859 859 := by
    obtain ⟨first, last, -, -, -, -, hmin, rfl⟩ := hlen
    have h1 := (hmin _ (by norm_num) (hr 2 (by norm_num))).2
    have hl : InkCol 1616 k (808 - 51 - k) := by
      refine ⟨k, 0, hk, le_rfl, by norm_num, Or.inr ?_⟩
      have hk100 := fits_lt (size := 1616) (by norm_num) ((hf k hk).1 le_rfl)
      unfold InLeft
      dsimp only
      push_cast
      rw [sub_self]
      omega
    have h2 := (hmin _ (by omega) hl).1
    have h3 : ((0 : ℕ) : ℝ) + 106 ≤ (last : ℝ) - first := by
      have : ((first + 106 : ℕ) : ℝ) ≤ (last : ℝ) := by exact_mod_cast (by omega)
      push_cast at this
      push_cast
      linarith
    unfold InDisc
    push_cast at h3
    generalize (last : ℝ) - first = d at *
    norm_num
    nlinarith
  rw [hg, ind_pos hi, ind_pos hd]
  norm_num

/-- **C141, refuted for larger targets.** With 2420 pixels the centre of the last line on the left is outside the image: the finest lines are
missing there. -/
theorem left_outside : ∃ k : ℕ, (∀ w : ℕ, 1 ≤ w → (w ≤ k ↔ Fits 2420 w)) ∧ 1 ≤ k ∧ ∃ x : ℤ, InLeft 2420 k 1 2 x ∧ x + ((2420 / 2 : ℕ) : ℤ) < 0 := by
  obtain ⟨k, -, -, -, hf⟩ := groups_spec 2420
  have hk : k = 18 := by
    have h1 := (hf 18 (by norm_num)).2 (by unfold Fits halfHei; norm_num)
    have h2 : ¬ 19 ≤ k := fun h => by
      have := (hf 19 (by norm_num)).1 h
      unfold Fits halfHei at this
      norm_num at this
    omega
  subst hk
  refine ⟨18, hf, by norm_num, -1211, ?_, by norm_num⟩
  unfold InLeft
  norm_num

/-- The loops for 26 pixels: one group of three lines of width 1 on each side. -/
example : (rightGroups 26).1 = [(1, 1)] ∧ (rightGroups 26).2 = 2 ∧ leftGroups 26 = [(-2, 1)] ∧
    parts 26 = [(1, 1), (3, 1), (5, 1), (-2, 1), (-4, 1), (-6, 1)] := by
  refine ⟨by decide +kernel, by decide +kernel, by decide +kernel, by decide +kernel⟩

/-- Widths 1 to 6 fit into 512 pixels. -/
example : Fits 512 1 ∧ Fits 512 6 ∧ ¬ Fits 512 8 := by unfold Fits halfHei; norm_num

end Verif.Phantom
