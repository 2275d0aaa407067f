import Verif.Props.StitchFraction
import Verif.Model.CenterMetric
import Mathlib.Data.Real.Archimedean

/-! C64 — the array compared with the sinogram, for every trial centre on the detector. -/

set_option linter.unusedSectionVars false
set_option linter.unusedSimpArgs false

namespace Verif.CenterMetric
open Verif.Stitch

/-- The scene seen from the other side of a detector of `w` columns. -/
def Opposite (P : ℕ → ℝ → ℝ) (w : ℕ) (i : ℕ) (x : ℝ) : ℝ := P i ((w : ℝ) - 1 - x)

/-- C64: a sinogram that shows `P`, any centre on the detector, a spline shift that is exact for the flipped scene.  The 360-degree sinogram made for the
metric consists of the sinogram and, below it, its mirror image about the centre where that lies on the detector, and the up-down flipped
sinogram elsewhere. -/
theorem completed_mirror (S : Mat ℝ → ℝ → Mat ℝ) (P : ℕ → ℝ → ℝ) (sino : Mat ℝ) (hS : ExactFor S (Opposite P sino.w)) (center : ℝ)
    (h0 : 0 ≤ center) (h1 : center ≤ (sino.w : ℝ) - 1) (hP : ∀ i < sino.h, ∀ j < sino.w, sino.get i j = P i j) :
    (completed S center sino sino.fliplr (flipud sino)).h = 2 * sino.h ∧ (completed S center sino sino.fliplr (flipud sino)).w = sino.w ∧
    (∀ i < sino.h, ∀ j, (completed S center sino sino.fliplr (flipud sino)).get i j = sino.get i j) ∧
    ∀ i < sino.h, ∀ j < sino.w,
      (0 ≤ 2 * center - j → 2 * center - j ≤ (sino.w : ℝ) - 1 →
        (completed S center sino sino.fliplr (flipud sino)).get (sino.h + i) j = P i (2 * center - j)) ∧
      (2 * center - j < 0 ∨ (sino.w : ℝ) - 1 < 2 * center - j →
        (completed S center sino sino.fliplr (flipud sino)).get (sino.h + i) j = sino.get (sino.h - 1 - i) j) := by
  set s : ℝ := 2 * (center - ((sino.w : ℝ) - 1) / 2) with hs
  have hmir : ∀ i < sino.h, ∀ j < sino.w, sino.fliplr.get i j = Opposite P sino.w i j := by
    intro i hi j hj
    show sino.get i (sino.w - 1 - j) = _
    rw [hP i hi _ (by omega)]
    unfold Opposite
    rw [Nat.cast_sub (by omega), Nat.cast_sub (by omega), Nat.cast_one]
  have hcase : ∀ (low : Mat ℝ), completed S center sino sino.fliplr (flipud sino) = vstack sino low → low.h = sino.h →
      (∀ i < sino.h, ∀ j < sino.w, (0 ≤ 2 * center - j → 2 * center - j ≤ (sino.w : ℝ) - 1 → low.get i j = P i (2 * center - j)) ∧
        (2 * center - j < 0 ∨ (sino.w : ℝ) - 1 < 2 * center - j → low.get i j = sino.get (sino.h - 1 - i) j)) →
      (completed S center sino sino.fliplr (flipud sino)).h = 2 * sino.h ∧ (completed S center sino sino.fliplr (flipud sino)).w = sino.w ∧
      (∀ i < sino.h, ∀ j, (completed S center sino sino.fliplr (flipud sino)).get i j = sino.get i j) ∧
      ∀ i < sino.h, ∀ j < sino.w,
        (0 ≤ 2 * center - j → 2 * center - j ≤ (sino.w : ℝ) - 1 →
          (completed S center sino sino.fliplr (flipud sino)).get (sino.h + i) j = P i (2 * center - j)) ∧
        (2 * center - j < 0 ∨ (sino.w : ℝ) - 1 < 2 * center - j →
          (completed S center sino sino.fliplr (flipud sino)).get (sino.h + i) j = sino.get (sino.h - 1 - i) j) := by
    intro low e hlh hlow
    rw [e]
    refine ⟨by show sino.h + low.h = _; omega, rfl, fun i hi j => if_pos hi, fun i hi j hj => ?_⟩
    have e2 : (vstack sino low).get (sino.h + i) j = low.get i j := by
      show (if sino.h + i < sino.h then _ else low.get (sino.h + i - sino.h) j) = _
      rw [if_neg (by omega), Nat.add_sub_cancel_left]
    rw [e2]
    exact hlow i hi j hj
  by_cases hint : |s - ⌊s⌋| = 0
  · refine hcase (rollFill sino.fliplr (flipud sino) ⌊s⌋) (by unfold completed; rw [← hs]; dsimp only; rw [if_pos hint]) rfl fun i hi j hj => ?_
    have hsn : s = (⌊s⌋ : ℝ) := sub_eq_zero.1 (abs_eq_zero.1 hint)
    generalize ⌊s⌋ = n at *
    have hc : 2 * center = n + (sino.w : ℝ) - 1 := by rw [← hsn, hs]; ring
    have hn1 : -(sino.w : ℤ) < n := by
      have : (0 : ℝ) < n + sino.w := by linarith
      have : (0 : ℤ) < n + sino.w := by exact_mod_cast this
      omega
    have hn2 : n < sino.w := by
      have : (n : ℝ) < sino.w := by linarith
      exact_mod_cast this
    have hin : (0 ≤ 2 * center - j ∧ 2 * center - j ≤ (sino.w : ℝ) - 1) ↔ (n ≤ j ∧ (j : ℤ) < sino.w + n) := by
      rw [hc]
      constructor
      · rintro ⟨a, b⟩
        have a' : (j : ℝ) + 1 ≤ n + sino.w := by linarith
        have b' : (n : ℝ) ≤ j := by linarith
        have a'' : (j : ℤ) + 1 ≤ n + sino.w := by exact_mod_cast a'
        exact ⟨by exact_mod_cast b', by omega⟩
      · rintro ⟨a, b⟩
        have a' : (n : ℝ) ≤ j := by exact_mod_cast a
        have b' : (j : ℝ) + 1 ≤ sino.w + n := by exact_mod_cast (by omega : (j : ℤ) + 1 ≤ sino.w + n)
        constructor <;> linarith
    have hval : (rollFill sino.fliplr (flipud sino) n).get i j = (if n ≤ j ∧ (j : ℤ) < sino.w + n
        then sino.fliplr.get i ((j : ℤ) - n).toNat else sino.get (sino.h - 1 - i) j) := by
      show (if 0 ≤ n then (if (j : ℤ) < n then sino.get (sino.h - 1 - i) j else sino.fliplr.get i (((j : ℤ) - n) % (sino.w : ℕ)).toNat)
        else (if (sino.w : ℤ) + n ≤ j then sino.get (sino.h - 1 - i) j else sino.fliplr.get i (((j : ℤ) - n) % (sino.w : ℕ)).toNat)) = _
      by_cases hp : 0 ≤ n
      · rw [if_pos hp]
        by_cases hj' : (j : ℤ) < n
        · rw [if_pos hj', if_neg (by omega)]
        · rw [if_neg hj', if_pos (by omega), Int.emod_eq_of_lt (by omega) (by omega)]
      · rw [if_neg hp]
        by_cases hj' : (sino.w : ℤ) + n ≤ j
        · rw [if_pos hj', if_neg (by omega)]
        · rw [if_neg hj', if_pos (by omega), Int.emod_eq_of_lt (by omega) (by omega)]
    rw [hval]
    refine ⟨fun a b => ?_, fun h => ?_⟩
    · have hj' := hin.1 ⟨a, b⟩
      rw [if_pos hj', hmir i hi _ (by omega)]
      unfold Opposite
      congr 1
      have : ((((j : ℤ) - n).toNat : ℕ) : ℝ) = (j : ℝ) - n := by
        have : ((((j : ℤ) - n).toNat : ℕ) : ℤ) = (j : ℤ) - n := Int.toNat_of_nonneg (by omega)
        exact_mod_cast this
      rw [this, hc]
      ring
    · rw [if_neg fun hh => ?_]
      obtain ⟨a, b⟩ := hin.2 hh
      rcases h with h | h <;> linarith
  · refine hcase (shiftFill S sino.fliplr (flipud sino) s) (by unfold completed; rw [← hs]; dsimp only; rw [if_neg hint]) rfl fun i hi j hj => ?_
    have hnot : ∀ n : ℤ, s ≠ n := by
      intro n hn
      apply hint
      rw [hn, Int.floor_intCast, sub_self, abs_zero]
    have hc : 2 * center = s + (sino.w : ℝ) - 1 := by rw [hs]; ring
    have hsh : Shows (Opposite P sino.w) sino.fliplr 0 := fun i hi j hj => by rw [zero_add]; exact hmir i hi j hj
    obtain ⟨-, -, ex⟩ := hS _ _ s hsh
    have hval : (shiftFill S sino.fliplr (flipud sino) s).get i j = (if 0 ≤ s then (if (j : ℤ) < ⌈s⌉ then sino.get (sino.h - 1 - i) j else (S sino.fliplr s).get i j)
        else (if (sino.w : ℤ) + ⌊s⌋ ≤ j then sino.get (sino.h - 1 - i) j else (S sino.fliplr s).get i j)) := by
      unfold shiftFill
      dsimp only
      show (if 0 ≤ s then (if (j : ℤ) < ⌈s⌉ then sino.get (sino.h - 1 - i) j else _) else (if (sino.w : ℤ) + ⌊s⌋ ≤ j then sino.get (sino.h - 1 - i) j else _)) = _
      split_ifs <;> rfl
    rw [hval]
    have hin : ∀ (_ : 0 ≤ 2 * center - j) (_ : 2 * center - j ≤ (sino.w : ℝ) - 1), (S sino.fliplr s).get i j = P i (2 * center - j) := by
      intro a b
      rw [ex i hi j hj (by linarith) (by show (j : ℝ) - s ≤ (sino.w : ℝ) - 1; linarith)]
      unfold Opposite
      congr 1
      rw [hc]
      ring
    by_cases hp : 0 ≤ s
    · rw [if_pos hp]
      refine ⟨fun a b => ?_, fun h => ?_⟩
      · rw [if_neg ?_]
        · exact hin a b
        · rw [not_lt, Int.ceil_le]
          rw [Int.cast_natCast]
          linarith
      · rw [if_pos ?_]
        rw [Int.lt_ceil, Int.cast_natCast]
        rcases h with h | h
        · have : (j : ℝ) + 1 ≤ sino.w := by exact_mod_cast hj
          linarith
        · linarith
    · rw [if_neg hp]
      push Not at hp
      refine ⟨fun a b => ?_, fun h => ?_⟩
      · rw [if_neg ?_]
        · exact hin a b
        · have : ((j : ℤ) + 1 - sino.w : ℤ) ≤ ⌊s⌋ := by
            rw [Int.le_floor]
            push_cast
            linarith
          omega
      · rw [if_pos ?_]
        have : ⌊s⌋ < (j : ℤ) + 1 - sino.w := by
          rw [Int.floor_lt]
          push_cast
          rcases h with h | h
          · linarith
          · have : (0 : ℝ) ≤ j := by positivity
            linarith
        omega

/-- The hypotheses can be met: linear interpolation and a scene with a gradient, four columns, centre at 1.3. -/
example : (completed linShift (13 / 10) ⟨2, 4, fun i j => (i : ℝ) + j⟩ (Mat.fliplr ⟨2, 4, fun i j => (i : ℝ) + j⟩) (flipud ⟨2, 4, fun i j => (i : ℝ) + j⟩)).get
    (2 + 1) 0 = 1 + (2 * (13 / 10) - 0) := by
  have h := completed_mirror linShift (fun i x => (i : ℝ) + x) ⟨2, 4, fun i j => (i : ℝ) + j⟩ (by
    have := linShift_exact (K := ℝ) (fun _ => -1) (fun i => (i : ℝ) + 3)
    have e : (Opposite (fun i x => (i : ℝ) + x) 4) = (fun (i : ℕ) x => (-1) * x + ((i : ℝ) + 3)) := by
      funext i x
      unfold Opposite
      push_cast
      ring
    rw [e]
    exact this) (13 / 10) (by norm_num) (by norm_num) (fun i _ j _ => rfl)
  have := (h.2.2.2 1 (by decide) 0 (by decide)).1 (by norm_num) (by norm_num)
  simpa using this

end Verif.CenterMetric
