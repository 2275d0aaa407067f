import Verif.Props.GlobalShift

/-!
C72: `find_local_shifts` recovers a locally translated image stack, pixel by pixel.
-/

set_option linter.unusedSectionVars false
set_option linter.unusedSimpArgs false

namespace Verif.LocalShifts
open Verif.Correlation

/-! ### Specification -/

/-- In the window of half size `radi` around `(i, j)`, every image of the second stack is the reference image translated by
`(dy, dx)`, up to one common brightness and contrast. -/
def StackCopy (ref mat : Arr3 ℝ) (i j radi : ℕ) (dy dx : ℤ) (a b : ℝ) : Prop :=
  ∀ n < ref.d, ∀ p q : ℕ, i ≤ p + radi → p ≤ i + radi → j ≤ q + radi → q ≤ j + radi →
    mat.get n p q = a * ref.get n (p + dy).toNat (q + dx).toNat + b

/-- The second stack is not constant in that window. -/
def StackTextured (d : ℕ) (mat : Arr3 ℝ) (i j radi : ℕ) : Prop :=
  ∃ n < d, ∃ n' < d, ∃ p q p' q' : ℕ, (i ≤ p + radi ∧ p ≤ i + radi ∧ j ≤ q + radi ∧ q ≤ j + radi) ∧
    (i ≤ p' + radi ∧ p' ≤ i + radi ∧ j ≤ q' + radi ∧ q' ≤ j + radi) ∧ mat.get n p q ≠ mat.get n' p' q'

/-- `(dy, dx)` is the translation of that window, and the only one within the search range. -/
def StackShift (ref mat : Arr3 ℝ) (i j radi margin : ℕ) (dy dx : ℤ) : Prop :=
  (∃ a b : ℝ, 0 < a ∧ StackCopy ref mat i j radi dy dx a b) ∧ StackTextured ref.d mat i j radi ∧
  ∀ ey ex : ℤ, |ey| ≤ margin → |ex| ≤ margin → (∃ a b : ℝ, 0 < a ∧ StackCopy ref mat i j radi ey ex a b) →
    ey = dy ∧ ex = dx

theorem stack_copy {ref mat : Arr3 ℝ} {i j radi margin : ℕ} (hi : margin + radi ≤ i) (hj : margin + radi ≤ j) (ey ex : ℤ)
    (hy : |ey| ≤ margin) (hx : |ex| ≤ margin) (a b : ℝ) :
    (∀ n < ref.d, ∀ p < 2 * radi + 1, ∀ q < 2 * radi + 1, mat.get n (i - radi + p) (j - radi + q)
      = a * ref.get n (i - (margin + radi) + ((margin : ℤ) + p + ey).toNat)
        (j - (margin + radi) + ((margin : ℤ) + q + ex).toNat) + b)
    ↔ StackCopy ref mat i j radi ey ex a b := by
  rw [abs_le] at hy hx
  constructor
  · intro h n hn p q h1 h2 h3 h4
    have := h n hn (p + radi - i) (by omega) (q + radi - j) (by omega)
    rw [show i - radi + (p + radi - i) = p by omega, show j - radi + (q + radi - j) = q by omega] at this
    rw [this]
    congr 3 <;> omega
  · intro h n hn p hp q hq
    rw [h n hn (i - radi + p) (j - radi + q) (by omega) (by omega) (by omega) (by omega)]
    congr 3 <;> omega

/-- **C72.** `find_local_shifts(dim=2)` with or without normalisation and for every chunking without empty chunks: at every
pixel at least `margin + radi` from the border whose window is translated by some integer `(dy, dx)` within the margin
(and by no other), the result is `(dx, dy)`: exactly without sub-pixel search, to less than one pixel with method "diff".
The translation may differ from pixel to pixel. -/
theorem find_local_shifts_recovers_partial {ref mat : Arr3 ℝ} {radi margin : ℕ} {chunkSize : Option ℤ}
    {norm subPixel : Bool} {method : Method ℝ} {size : Int} (hd : mat.d = ref.d) (hmh : mat.h = ref.h) (hw : mat.w = ref.w) (hm1 : 1 ≤ margin)
    (hh : 2 * (margin + radi) + 1 ≤ ref.h) (hww : 2 * (margin + radi) + 1 ≤ ref.w) (hn : numChunk ref.h chunkSize ≤ ref.h - 2 * (margin + radi))
    (hr : ∀ i, i + 2 * (margin + radi) < ref.h → VariedRows ref i (i + 2 * (margin + radi) + 1))
    (hm : ∀ i, i + 2 * (margin + radi) < ref.h → VariedRows mat i (i + 2 * (margin + radi) + 1)) :
    ∃ out, findLocalShifts2d ref mat radi margin chunkSize norm subPixel method size = .ok out ∧
      ∀ (i j : ℕ) (dy dx : ℤ), margin + radi ≤ i → i + (margin + radi) < ref.h → margin + radi ≤ j →
        j + (margin + radi) < ref.w → |dy| ≤ margin → |dx| ≤ margin → StackShift ref mat i j radi margin dy dx →
        ∃ v, out i j = .ok v ∧ Recovered subPixel method 2 dy dx v := by
  obtain ⟨out, h1, h2, -⟩ := find_local_shifts_2d_partial (norm := norm) (subPixel := subPixel) (method := method)
    (size := size) hd hmh hw (by omega) hh hww hn hr hm
  refine ⟨out, h1, ?_⟩
  rintro i j dy dx hi hi' hj hj' hy hx ⟨⟨a, b, ha, hc⟩, ht, hu⟩
  rw [h2 i j hi hi' hj hj']
  refine GlobalShift.find_shift_template (ref := ⟨ref.d, 2 * (margin + radi) + 1, 2 * (margin + radi) + 1,
      fun k p q => ref.get k (i - (margin + radi) + p) (j - (margin + radi) + q)⟩)
    (t := ⟨ref.d, 2 * radi + 1, 2 * radi + 1, fun k p q => mat.get k (i - radi + p) (j - radi + q)⟩) (a := a) (b := b) rfl
    (by dsimp only; omega) (by dsimp only; omega) hm1 (by dsimp only; omega) (by dsimp only; omega) hy hx ha
    ((stack_copy hi hj dy dx hy hx a b).2 hc) ?_ ?_ _ _ _ _
  · obtain ⟨n, hn, n', hn', p, q, p', q', h1, h2, hne⟩ := ht
    refine ⟨n, hn, p + radi - i, (by show p + radi - i < 2 * radi + 1; omega), q + radi - j,
      (by show q + radi - j < 2 * radi + 1; omega), n', hn', p' + radi - i, (by show p' + radi - i < 2 * radi + 1; omega),
      q' + radi - j, (by show q' + radi - j < 2 * radi + 1; omega), ?_⟩
    show mat.get n (i - radi + (p + radi - i)) (j - radi + (q + radi - j))
      ≠ mat.get n' (i - radi + (p' + radi - i)) (j - radi + (q' + radi - j))
    rwa [show i - radi + (p + radi - i) = p by omega, show j - radi + (q + radi - j) = q by omega,
      show i - radi + (p' + radi - i) = p' by omega, show j - radi + (q' + radi - j) = q' by omega]
  · rintro ey ex h1 h2 ⟨a', b', ha', h⟩
    exact hu ey ex h1 h2 ⟨a', b', ha', (stack_copy hi hj ey ex h1 h2 a' b').1 h⟩

/-! ### Non-vacuity: 9x9 stacks of one image, window 3, margin 1, the pixel (4, 4) -/

def exLRef : Arr3 ℝ := ⟨1, 9, 9, fun _ i j => if i = 5 ∧ j = 3 then 1 else if j = 0 then 7 else 0⟩
def exLMat : Arr3 ℝ := ⟨1, 9, 9, fun _ i j => if i = 4 ∧ j = 4 then 3 else if j = 0 then 7 else 2⟩

theorem exL_varied (i : ℕ) : VariedRows exLRef i (i + 5) ∧ VariedRows exLMat i (i + 5) := by
  constructor
  · refine ⟨0, by norm_num [exLRef], 0, by norm_num [exLRef], 0, by norm_num [exLRef], 1, by norm_num [exLRef], i, i,
      by omega, by omega, ?_⟩
    norm_num [exLRef]
  · refine ⟨0, by norm_num [exLMat], 0, by norm_num [exLMat], 0, by norm_num [exLMat], 1, by norm_num [exLMat], i, i,
      by omega, by omega, ?_⟩
    norm_num [exLMat]

theorem exL_shift : StackShift exLRef exLMat 4 4 1 1 1 (-1) := by
  refine ⟨⟨1, 2, one_pos, ?_⟩, ⟨0, by norm_num [exLRef], 0, by norm_num [exLRef], 4, 4, 3, 3, by omega, by omega, ?_⟩, ?_⟩
  · intro n _ p q h1 h2 h3 h4
    show (if p = 4 ∧ q = 4 then (3 : ℝ) else if q = 0 then 7 else 2)
      = 1 * (if ((p : ℤ) + 1).toNat = 5 ∧ ((q : ℤ) + -1).toNat = 3 then 1 else if ((q : ℤ) + -1).toNat = 0 then 7 else 0) + 2
    by_cases hc : p = 4 ∧ q = 4
    · rw [if_pos hc, if_pos (by omega)]; norm_num
    · rw [if_neg hc, if_neg (by omega), if_neg (by omega), if_neg (by omega)]; norm_num
  · norm_num [exLMat]
  · rintro ey ex hy hx ⟨a, b, ha, ht⟩
    rw [abs_le] at hy hx
    push_cast at hy hx
    have e1 := ht 0 (by norm_num [exLRef]) 4 4 (by omega) (by omega) (by omega) (by omega)
    have e2 := ht 0 (by norm_num [exLRef]) 3 3 (by omega) (by omega) (by omega) (by omega)
    change (3 : ℝ) = a * (if (((4 : ℕ) : ℤ) + ey).toNat = 5 ∧ (((4 : ℕ) : ℤ) + ex).toNat = 3 then 1
      else if (((4 : ℕ) : ℤ) + ex).toNat = 0 then 7 else 0) + b at e1
    change (2 : ℝ) = a * (if (((3 : ℕ) : ℤ) + ey).toNat = 5 ∧ (((3 : ℕ) : ℤ) + ex).toNat = 3 then 1
      else if (((3 : ℕ) : ℤ) + ex).toNat = 0 then 7 else 0) + b at e2
    by_contra hne
    rw [if_neg (by omega), if_neg (by omega)] at e1
    rw [if_neg (c := (((3 : ℕ) : ℤ) + ex).toNat = 0) (by omega)] at e2
    split_ifs at e2 <;> linarith

example : ∃ out, findLocalShifts2d exLRef exLMat 1 1 none true false .diff 3 = .ok out ∧ out 4 4 = .ok (-1, 1) := by
  obtain ⟨out, h1, h2⟩ := find_local_shifts_recovers_partial (ref := exLRef) (mat := exLMat) (radi := 1) (margin := 1)
    (chunkSize := none) (norm := true) (subPixel := false) (method := .diff) (size := 3) rfl rfl rfl le_rfl
    (by norm_num [exLRef]) (by norm_num [exLRef]) (by rw [numChunk_none (by norm_num [exLRef])]; norm_num [exLRef])
    (fun i _ => (exL_varied i).1) (fun i _ => (exL_varied i).2)
  obtain ⟨v, hv, h, -⟩ := h2 4 4 1 (-1) (by norm_num) (by norm_num [exLRef]) (by norm_num) (by norm_num [exLRef]) (by norm_num)
    (by norm_num) exL_shift
  refine ⟨out, h1, ?_⟩
  rw [hv, h rfl]
  norm_num

end Verif.LocalShifts
