import Verif.Props.FlatOptions
import Mathlib.Algebra.BigOperators.Ring.Finset
import Mathlib.Data.Set.Function

/-!
**C175.** `flat_field_correction` does not depend on gain and offset of the detector and follows every rearrangement of the pixels
(algotom/prep/correction.py:45-132).
-/

set_option linter.unusedSectionVars false
set_option linter.unusedSimpArgs false

namespace Verif.FlatOptions
open Verif.Correction

variable {K : Type} [Field K] [LinearOrder K] [IsStrictOrderedRing K] [FloorRing K] {P : Type}

/-! ### specification -/

/-- The image read out with gain `a` and offset `b`. -/
def readOut (a b : K) (m : Mat K) : Mat K := ⟨m.h, m.w, fun i j => a * m.get i j + b⟩

/-- The stack read out with gain `a` and offset `b`. -/
def readOut3 (a b : K) (m : Arr3 K) : Arr3 K := ⟨m.d, m.h, m.w, fun d i j => a * m.get d i j + b⟩

/-- `σ` permutes the numbers below `n`. -/
def Permutes (σ : ℕ → ℕ) (n : ℕ) : Prop := Set.BijOn σ (Set.Iio n) (Set.Iio n)

/-- The image with its rows rearranged by `σ` and its columns by `τ` (mirroring: `σ i = h - 1 - i`). -/
def rearrange (σ τ : ℕ → ℕ) (m : Mat K) : Mat K := ⟨m.h, m.w, fun i j => m.get (σ i) (τ j)⟩

/-- The stack with its images rearranged by `π`, and rows and columns in every image by `σ` and `τ`. -/
def rearrange3 (π σ τ : ℕ → ℕ) (m : Arr3 K) : Arr3 K := ⟨m.d, m.h, m.w, fun d i j => m.get (π d) (σ i) (τ j)⟩

/-- The sum of all divisors. -/
def total (ratio : K) (useDark : Bool) (flat dark : Mat K) : K :=
  ∑ i ∈ Finset.range flat.h, ∑ j ∈ Finset.range flat.w, divisor ratio useDark flat dark i j

/-! ### lemmas -/

theorem hasZero_iff (m : Mat K) : hasZero m = true ↔ ∃ i < m.h, ∃ j < m.w, m.get i j = 0 := by
  simp [hasZero, List.any_eq_true]

theorem hasZero_readOut {a : K} (ha : a ≠ 0) (m : Mat K) : hasZero (readOut a 0 m) = hasZero m := by
  rw [Bool.eq_iff_iff, hasZero_iff, hasZero_iff]
  simp [readOut, ha]

theorem meanAll_readOut (a : K) (m : Mat K) : meanAll (readOut a 0 m) = a * meanAll m := by
  unfold meanAll readOut
  dsimp only
  simp only [add_zero, ← Finset.mul_sum, mul_div_assoc]

theorem fixZeros_readOut {a : K} (ha : a ≠ 0) (m : Mat K) (hm : hasZero m = true → meanAll m ≠ 0) :
    fixZeros false (readOut a 0 m) = readOut a 0 (fixZeros false m) := by
  unfold fixZeros
  rw [hasZero_readOut ha]
  by_cases hz : hasZero m = true
  · rw [if_pos hz, if_pos hz, meanAll_readOut]
    dsimp only
    rw [if_pos (mul_ne_zero ha (hm hz)), if_pos (hm hz)]
    unfold readOut
    congr 1
    funext i j
    dsimp only
    by_cases h0 : m.get i j = 0
    · simp [h0, storeAs]
    · simp [h0, ha, storeAs]
  · rw [if_neg hz, if_neg hz]

theorem denominator_readOut {a b ratio : K} {useDark : Bool} (ha : a ≠ 0) (hb : b = 0 ∨ (useDark = true ∧ ratio = 1)) (flat dark : Mat K)
    (ht : total ratio useDark flat dark ≠ 0) :
    denominator false ratio useDark (readOut a b flat) (readOut a b dark) = readOut a 0 (denominator false ratio useDark flat dark) := by
  have hmean : ∀ m : Mat K, m.h = flat.h → m.w = flat.w → (∀ i j, m.get i j = divisor ratio useDark flat dark i j) →
      hasZero m = true → meanAll m ≠ 0 := by
    intro m h1 h2 h3 hz
    obtain ⟨i, hi, j, hj, -⟩ := (hasZero_iff m).1 hz
    unfold meanAll
    refine div_ne_zero ?_ (Nat.cast_ne_zero.2 (Nat.mul_ne_zero (by omega) (by omega)))
    simp only [h1, h2, h3]
    exact ht
  unfold denominator
  dsimp only
  cases useDark with
  | false =>
    have hb0 : b = 0 := hb.resolve_right (fun h => by cases h.1)
    subst hb0
    simp only [Bool.false_eq_true, if_false]
    rw [← fixZeros_readOut ha ⟨flat.h, flat.w, fun i j => ratio * flat.get i j⟩ (hmean _ rfl rfl fun i j => by simp [divisor])]
    congr 1
    unfold readOut
    congr 1
    funext i j
    dsimp only
    ring
  | true =>
    simp only [if_true]
    rw [← fixZeros_readOut ha ⟨flat.h, flat.w, fun i j => ratio * flat.get i j - dark.get i j⟩ (hmean _ rfl rfl fun i j => by simp [divisor])]
    congr 1
    unfold readOut
    congr 1
    funext i j
    dsimp only
    rcases hb with rfl | ⟨-, rfl⟩ <;> ring

theorem quotient_readOut {a b : K} {useDark : Bool} (ha : a ≠ 0) (hb : b = 0 ∨ useDark = true) (p d q : K) :
    (if useDark then (a * p + b) - (a * d + b) else a * p + b) / (a * q + 0) = (if useDark then p - d else p) / q := by
  cases useDark with
  | false =>
    have hb0 : b = 0 := hb.resolve_right (fun h => by cases h)
    subst hb0
    simp only [Bool.false_eq_true, if_false, add_zero]
    rw [mul_div_mul_left _ _ ha]
  | true =>
    simp only [if_true, add_zero]
    rw [show a * p + b - (a * d + b) = a * (p - d) by ring, mul_div_mul_left _ _ ha]

/-- **C175.** Gain and offset: if projections, flat field and dark field are read out as `a * x + b` (`a ≠ 0`), the corrected data are the same, with any
further options, for images, sinograms and stacks. The offset is removed by the dark field, so it must be zero if no dark field is used or the exposure
times differ (`ratio ≠ 1`). The flat field must not average to the dark field. -/
theorem flat_field_gain (ns : Modules K P) {a b ratio : K} {useDark : Bool} (ha : a ≠ 0) (hb : b = 0 ∨ (useDark = true ∧ ratio = 1)) (flat dark : Mat K)
    (ht : total ratio useDark flat dark ≠ 0) (options : List (Opt P)) :
    (∀ proj : Mat K, correct2 ns false ratio useDark (readOut a b proj) (readOut a b flat) (readOut a b dark) options =
      correct2 ns false ratio useDark proj flat dark options) ∧
    (∀ proj : Arr3 K, correct3 ns false ratio useDark (readOut3 a b proj) (readOut a b flat) (readOut a b dark) options =
      correct3 ns false ratio useDark proj flat dark options) := by
  have hq := fun p d q => quotient_readOut (a := a) (b := b) (useDark := useDark) ha (hb.imp_right And.left) p d q
  constructor
  · intro proj
    unfold correct2
    congr 1
    unfold divide2
    dsimp only
    rw [denominator_readOut ha hb flat dark ht, hasZero_readOut ha]
    show (if ¬((flat.h = proj.h ∨ flat.h = 1) ∧ flat.w = proj.w) then _ else _) = _
    split
    · rfl
    · split
      · rfl
      · congr 1
        unfold readOut
        congr 1
        funext i j
        exact hq _ _ _
  · intro proj
    unfold correct3
    congr 1
    unfold divide3
    dsimp only
    rw [denominator_readOut ha hb flat dark ht, hasZero_readOut ha]
    show (if ¬(flat.h = proj.h ∧ flat.w = proj.w) then _ else _) = _
    split
    · rfl
    · split
      · rfl
      · congr 1
        unfold readOut readOut3
        congr 1
        funext d i j
        exact hq _ _ _

/-! ### rearrangements -/

theorem hasZero_rearrange {σ τ : ℕ → ℕ} (m : Mat K) (hσ : Permutes σ m.h) (hτ : Permutes τ m.w) : hasZero (rearrange σ τ m) = hasZero m := by
  rw [Bool.eq_iff_iff, hasZero_iff, hasZero_iff]
  constructor
  · rintro ⟨i, hi, j, hj, h⟩
    exact ⟨σ i, hσ.mapsTo hi, τ j, hτ.mapsTo hj, h⟩
  · rintro ⟨i, hi, j, hj, h⟩
    obtain ⟨i', hi', rfl⟩ := hσ.surjOn hi
    obtain ⟨j', hj', rfl⟩ := hτ.surjOn hj
    exact ⟨i', hi', j', hj', h⟩

theorem sum_permutes {σ : ℕ → ℕ} {n : ℕ} (hσ : Permutes σ n) (f : ℕ → K) : ∑ i ∈ Finset.range n, f (σ i) = ∑ i ∈ Finset.range n, f i := by
  refine Finset.sum_nbij σ ?_ ?_ ?_ fun _ _ => rfl
  · intro i hi
    exact Finset.mem_range.2 (hσ.mapsTo (Finset.mem_range.1 hi))
  · intro i hi j hj h
    exact hσ.injOn (by simpa using hi) (by simpa using hj) h
  · intro i hi
    obtain ⟨i', hi', h⟩ := hσ.surjOn (show i ∈ Set.Iio n by simpa using hi)
    exact ⟨i', by simpa using hi', h⟩

theorem meanAll_rearrange {σ τ : ℕ → ℕ} (m : Mat K) (hσ : Permutes σ m.h) (hτ : Permutes τ m.w) : meanAll (rearrange σ τ m) = meanAll m := by
  unfold meanAll rearrange
  dsimp only
  rw [sum_permutes hσ fun i => ∑ j ∈ Finset.range m.w, m.get i (τ j)]
  congr 1
  exact Finset.sum_congr rfl fun i _ => sum_permutes hτ fun j => m.get i j

theorem denominator_rearrange {σ τ : ℕ → ℕ} (isInt : Bool) (ratio : K) (useDark : Bool) (flat dark : Mat K) (hσ : Permutes σ flat.h) (hτ : Permutes τ flat.w) :
    denominator isInt ratio useDark (rearrange σ τ flat) (rearrange σ τ dark) = rearrange σ τ (denominator isInt ratio useDark flat dark) := by
  have key : ∀ m : Mat K, m.h = flat.h → m.w = flat.w → fixZeros isInt (rearrange σ τ m) = rearrange σ τ (fixZeros isInt m) := by
    intro m h1 h2
    rw [← h1] at hσ
    rw [← h2] at hτ
    unfold fixZeros
    rw [hasZero_rearrange m hσ hτ, meanAll_rearrange m hσ hτ]
    by_cases hz : hasZero m = true
    · rw [if_pos hz, if_pos hz]; rfl
    · rw [if_neg hz, if_neg hz]
  cases useDark with
  | false => exact key ⟨flat.h, flat.w, fun i j => ratio * flat.get i j⟩ rfl rfl
  | true => exact key ⟨flat.h, flat.w, fun i j => ratio * flat.get i j - dark.get i j⟩ rfl rfl

/-- **C175.** Orientation: if rows and columns of projections, flat field and dark field are rearranged in the same way (mirrored, rolled, …), so is the
result, and the same calls raise. -/
theorem flat_field_rearrange_image (ns : Modules K P) {σ τ : ℕ → ℕ} (isInt : Bool) (ratio : K) (useDark : Bool) (proj flat dark : Mat K) (hσ : Permutes σ flat.h)
    (hτ : Permutes τ flat.w) (hh : flat.h = proj.h) :
    correct2 ns isInt ratio useDark (rearrange σ τ proj) (rearrange σ τ flat) (rearrange σ τ dark) [] =
      (correct2 ns isInt ratio useDark proj flat dark []).map (rearrange σ τ) := by
  obtain ⟨s1, s2⟩ := denominator_shape isInt ratio useDark flat dark
  unfold correct2 divide2
  dsimp only
  rw [denominator_rearrange isInt ratio useDark flat dark hσ hτ, hasZero_rearrange _ (by rwa [s1]) (by rwa [s2])]
  show (if ¬((flat.h = proj.h ∨ flat.h = 1) ∧ flat.w = proj.w) then (_ : Py (Mat K)) else _).bind _ = _
  by_cases hc : ¬((flat.h = proj.h ∨ flat.h = 1) ∧ flat.w = proj.w)
  · rw [if_pos hc, if_pos hc]; rfl
  · rw [if_neg hc, if_neg hc]
    by_cases hz : hasZero (denominator isInt ratio useDark flat dark) = true
    · rw [if_pos hz, if_pos hz]; rfl
    · rw [if_neg hz, if_neg hz]
      show Except.ok _ = Except.ok _
      congr 1
      unfold rearrange
      dsimp only
      congr 1
      funext i j
      by_cases h1 : flat.h = 1
      · have h0 : σ 0 = 0 := by
          have h2 : σ 0 < flat.h := hσ.mapsTo (show 0 < flat.h by omega)
          omega
        simp only [h1, if_true, h0]
      · simp only [h1, if_false]

/-- **C175.** Sinograms, corrected with one row of the flat field: the columns are rearranged as those of the flat field, the projections in any way. -/
theorem flat_field_rearrange_sinogram (ns : Modules K P) {τ : ℕ → ℕ} (π : ℕ → ℕ) (isInt : Bool) (ratio : K) (useDark : Bool) (sino flat dark : Mat K)
    (hτ : Permutes τ flat.w) (hh : flat.h = 1) :
    correct2 ns isInt ratio useDark (rearrange π τ sino) (rearrange id τ flat) (rearrange id τ dark) [] =
      (correct2 ns isInt ratio useDark sino flat dark []).map (rearrange π τ) := by
  have hσ : Permutes id flat.h := Set.bijOn_id _
  obtain ⟨s1, s2⟩ := denominator_shape isInt ratio useDark flat dark
  unfold correct2 divide2
  dsimp only
  rw [denominator_rearrange isInt ratio useDark flat dark hσ hτ, hasZero_rearrange _ (by rwa [s1]) (by rwa [s2])]
  show (if ¬((flat.h = sino.h ∨ flat.h = 1) ∧ flat.w = sino.w) then (_ : Py (Mat K)) else _).bind _ = _
  by_cases hc : ¬((flat.h = sino.h ∨ flat.h = 1) ∧ flat.w = sino.w)
  · rw [if_pos hc, if_pos hc]; rfl
  · rw [if_neg hc, if_neg hc]
    by_cases hz : hasZero (denominator isInt ratio useDark flat dark) = true
    · rw [if_pos hz, if_pos hz]; rfl
    · rw [if_neg hz, if_neg hz]
      show Except.ok _ = Except.ok _
      congr 1
      unfold rearrange
      dsimp only
      congr 1
      funext i j
      simp only [hh, if_true, id]

/-- **C175.** Stacks: rows and columns are rearranged as those of the flat field, the projections in any way. -/
theorem flat_field_rearrange_stack (ns : Modules K P) {σ τ : ℕ → ℕ} (π : ℕ → ℕ) (isInt : Bool) (ratio : K) (useDark : Bool) (proj : Arr3 K) (flat dark : Mat K)
    (hσ : Permutes σ flat.h) (hτ : Permutes τ flat.w) :
    correct3 ns isInt ratio useDark (rearrange3 π σ τ proj) (rearrange σ τ flat) (rearrange σ τ dark) [] =
      (correct3 ns isInt ratio useDark proj flat dark []).map (rearrange3 π σ τ) := by
  obtain ⟨s1, s2⟩ := denominator_shape isInt ratio useDark flat dark
  unfold correct3 divide3
  dsimp only
  rw [denominator_rearrange isInt ratio useDark flat dark hσ hτ, hasZero_rearrange _ (by rwa [s1]) (by rwa [s2])]
  show (if ¬(flat.h = proj.h ∧ flat.w = proj.w) then (_ : Py (Arr3 K)) else _).bind _ = _
  by_cases hc : ¬(flat.h = proj.h ∧ flat.w = proj.w)
  · rw [if_pos hc, if_pos hc]; rfl
  · rw [if_neg hc, if_neg hc]
    by_cases hz : hasZero (denominator isInt ratio useDark flat dark) = true
    · rw [if_pos hz, if_pos hz]; rfl
    · rw [if_neg hz, if_neg hz]
      rfl

/-- Mirroring is a rearrangement. -/
theorem mirror_permutes (n : ℕ) : Permutes (fun i => n - 1 - i) n := by
  refine ⟨fun i hi => ?_, fun i hi j hj h => ?_, fun i hi => ⟨n - 1 - i, ?_, ?_⟩⟩ <;> simp only [Set.mem_Iio] at * <;> omega

/-! ### non-vacuity -/

/-- A flat field with a dead pixel. -/
def exGainFlat : Mat ℚ := ⟨2, 2, fun i j => if i = 0 ∧ j = 0 then 1 else 5⟩

/-- Its dark field. -/
def exGainDark : Mat ℚ := ⟨2, 2, fun _ _ => 1⟩

/-- No further functions. -/
def exNone : Modules ℚ Unit := ⟨fun _ => none, fun _ => none, fun _ => none⟩

example : hasZero (⟨2, 2, fun i j => exGainFlat.get i j - exGainDark.get i j⟩ : Mat ℚ) = true ∧ total 1 true exGainFlat exGainDark = 12 ∧
    ((correct2 exNone false 1 true (readOut 3 7 ⟨2, 2, fun i j => ((i + j : ℕ) : ℚ)⟩) (readOut 3 7 exGainFlat) (readOut 3 7 exGainDark) []).toOption.map
      fun out => (out.get 0 0, out.get 1 1)) = some (-1 / 3, 1 / 4) := by
  have ht : total 1 true exGainFlat exGainDark = 12 := by norm_num [total, divisor, Finset.sum_range_succ, exGainFlat, exGainDark]
  refine ⟨by decide +kernel, ht, ?_⟩
  rw [(flat_field_gain exNone (a := 3) (b := 7) (ratio := 1) (useDark := true) (by norm_num) (Or.inr ⟨rfl, rfl⟩) exGainFlat exGainDark
    (by rw [ht]; norm_num) []).1]
  decide +kernel

/-- The sum of the divisors matters: with zeros in a flat field that averages to the dark field the gain shows (`0 in flat_dark` and `nmean == 0`). -/
theorem flat_field_gain_balanced : ∃ proj flat dark : Mat ℚ, total 1 true flat dark = 0 ∧
    (correct2 exNone false 1 true proj flat dark []).toOption.map (fun out => out.get 0 0) = some 1 ∧
    (correct2 exNone false 1 true (readOut 2 0 proj) (readOut 2 0 flat) (readOut 2 0 dark) []).toOption.map (fun out => out.get 0 0) = some 2 := by
  refine ⟨⟨1, 1, fun _ _ => 1⟩, ⟨1, 1, fun _ _ => 0⟩, ⟨1, 1, fun _ _ => 0⟩, ?_, ?_, ?_⟩
  · norm_num [total, divisor, Finset.sum_range_succ]
  · decide +kernel
  · decide +kernel

end Verif.FlatOptions
