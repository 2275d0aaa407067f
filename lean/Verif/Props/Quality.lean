import Verif.Model.Quality
import Verif.Props.Phase
import Verif.Props.Correction
import Verif.Lemmas.Fourier

set_option linter.unusedSectionVars false
set_option linter.unusedSimpArgs false

/-!
**C122.** Quality map of a phase image (algotom/prep/phase.py:130-147).
-/

namespace Verif.Quality
open Verif.Phase Verif.Sorting Verif.Fourier Real

/-! ### specification -/

/-- The index before `i` on an axis of length `n`, mirrored at the start. -/
def prev (n i : ℕ) : ℕ := if i = 0 then min 1 (n - 1) else i - 1

/-- Wrapped horizontal phase step that the map uses at `(i, j)`. -/
noncomputable def stepX (m : Mat ℝ) (i j : ℕ) : ℝ := wrapToPi (m.get (prev m.h i) j - m.get (prev m.h i) (prev m.w j))

/-- Wrapped vertical phase step that the map uses at `(i, j)`. -/
noncomputable def stepY (m : Mat ℝ) (i j : ℕ) : ℝ := wrapToPi (m.get i (prev m.w j) - m.get (prev m.h i) (prev m.w j))

/-- Pixel `(a, b)` is in the window of half-size `rad` around `(i, j)`. -/
def Near (rad i j a b : ℕ) : Prop := (i ≤ a + rad ∧ a ≤ i + rad) ∧ j ≤ b + rad ∧ b ≤ j + rad

/-! ### lemmas -/

theorem padIdx_zero (n : ℕ) (hn : 0 < n) : reflectPadIdx n 1 0 = min 1 (n - 1) := by
  unfold reflectPadIdx
  by_cases h : n ≤ 1
  · rw [if_pos h]; omega
  · rw [if_neg h]
    have e : (((0 : ℕ) : ℤ) - ((1 : ℕ) : ℤ)) % (2 * ((n : ℤ) - 1)) = 2 * ((n : ℤ) - 1) - 1 := by
      rw [show (((0 : ℕ) : ℤ) - ((1 : ℕ) : ℤ)) = (2 * ((n : ℤ) - 1) - 1) + (2 * ((n : ℤ) - 1)) * (-1) by push_cast; ring, Int.add_mul_emod_self_left]
      exact Int.emod_eq_of_lt (by omega) (by omega)
    dsimp only
    rw [e]
    by_cases h2 : 2 * ((n : ℤ) - 1) - 1 < n
    · rw [if_pos h2]; omega
    · rw [if_neg h2]; omega

theorem padIdx_eq (n i : ℕ) (hn : 0 < n) (hi : i ≤ n) : reflectPadIdx n 1 i = prev n i := by
  unfold prev
  by_cases h : i = 0
  · rw [if_pos h, h, padIdx_zero n hn]
  · rw [if_neg h]
    obtain ⟨k, rfl⟩ : ∃ k, i = 1 + k := ⟨i - 1, by omega⟩
    rw [reflectPadIdx_mid n 1 k (by omega)]
    omega

theorem padIdx_succ (n i : ℕ) (hi : i < n) : reflectPadIdx n 1 (i + 1) = i := by
  rw [add_comm]; exact reflectPadIdx_mid n 1 i hi

theorem prev_lt (n i : ℕ) (hi : i < n) : prev n i < n := by
  unfold prev; split <;> omega

theorem rhoX_eq (m : Mat ℝ) (i j : ℕ) (hi : i < m.h) (hj : j < m.w) : (rhoX m).get i j = stepX m i j := by
  unfold rhoX padded stepX
  dsimp only
  rw [padIdx_succ _ _ hj, padIdx_eq _ _ (by omega) hi.le, padIdx_eq _ _ (by omega) hj.le]

theorem rhoY_eq (m : Mat ℝ) (i j : ℕ) (hi : i < m.h) (hj : j < m.w) : (rhoY m).get i j = stepY m i j := by
  unfold rhoY padded stepY
  dsimp only
  rw [padIdx_succ _ _ hi, padIdx_eq _ _ (by omega) hi.le, padIdx_eq _ _ (by omega) hj.le]

theorem rollIdx_lt (n : ℕ) (s : ℤ) (i : ℕ) (hn : 0 < n) : rollIdx n s i < n := by
  unfold rollIdx
  have h1 := Int.emod_lt_of_pos ((i : ℤ) - s) (show (0 : ℤ) < n by omega)
  have h2 := Int.emod_nonneg ((i : ℤ) - s) (show (n : ℤ) ≠ 0 by omega)
  omega

theorem rollIdx_in (n : ℕ) (s : ℤ) (i : ℕ) (h0 : 0 ≤ (i : ℤ) - s) (h1 : (i : ℤ) - s < n) : rollIdx n s i = ((i : ℤ) - s).toNat := by
  unfold rollIdx
  rw [Int.emod_eq_of_lt h0 h1]

/-- The spread does not look outside the image. -/
theorem spread_congr (rad : ℕ) (m m' : Mat ℝ) (hs : m.h = m'.h ∧ m.w = m'.w) (h : ∀ i < m.h, ∀ j < m.w, m.get i j = m'.get i j) (i j : ℕ)
    (hi : i < m.h) (hj : j < m.w) :
    (spread rad m (boxMean rad m)).get i j = (spread rad m' (boxMean rad m')).get i j := by
  unfold spread boxMean
  dsimp only
  rw [← hs.1, ← hs.2]
  refine Finset.sum_congr rfl fun a _ => Finset.sum_congr rfl fun b _ => ?_
  rw [h _ (rollIdx_lt _ _ _ (by omega)) _ (rollIdx_lt _ _ _ (by omega))]
  congr 2
  refine Finset.sum_congr rfl fun a _ => Finset.sum_congr rfl fun b _ => ?_
  rw [h _ (reflectIdx_lt _ _ (by omega)) _ (reflectIdx_lt _ _ (by omega))]

/-- Half-size of the window. -/
def radius (size : ℤ) : ℕ := (size / 2).toNat

theorem qualityMap_ok (m : Mat ℝ) (size : ℤ) (hh : 0 < m.h) (hw : 0 < m.w) (hs : 0 ≤ size) :
    qualityMap m size = .ok ⟨m.h, m.w, fun i j => (sqrt ((spread (radius size) (rhoX m) (boxMean (radius size) (rhoX m))).get i j) +
      sqrt ((spread (radius size) (rhoY m) (boxMean (radius size) (rhoY m))).get i j)) / ((2 * radius size + 1 : ℕ) : ℝ) ^ 2⟩ := by
  unfold qualityMap
  dsimp only
  have h2 : 0 ≤ size / 2 := by omega
  rw [if_neg (by omega)]
  have e : ((2 * (size / 2) + 1) / 2).toNat = radius size := by unfold radius; omega
  have e2 : (((2 * (size / 2) + 1 : ℤ)) : ℝ) = ((2 * radius size + 1 : ℕ) : ℝ) := by
    have : (2 * (size / 2) + 1 : ℤ) = ((2 * radius size + 1 : ℕ) : ℤ) := by unfold radius; omega
    rw [this]; push_cast; ring
  rw [e, e2]

/-- The map is refused exactly for an empty image or a negative size. -/
theorem quality_error (m : Mat ℝ) (size : ℤ) : (∃ q, qualityMap m size = .ok q) ↔ 0 < m.h ∧ 0 < m.w ∧ 0 ≤ size := by
  constructor
  · rintro ⟨q, hq⟩
    unfold qualityMap at hq
    dsimp only at hq
    by_cases h : m.h = 0 ∨ m.w = 0 ∨ 2 * (size / 2) + 1 < 0
    · rw [if_pos h] at hq; cases hq
    · omega
  · rintro ⟨h1, h2, h3⟩
    exact ⟨_, qualityMap_ok m size h1 h2 h3⟩

theorem step_range (m : Mat ℝ) (i j : ℕ) : |stepX m i j| ≤ π ∧ |stepY m i j| ≤ π := by
  constructor
  · obtain ⟨h1, h2⟩ := (wrap_to_pi (m.get (prev m.h i) j - m.get (prev m.h i) (prev m.w j))).1
    exact abs_le.2 ⟨h1, h2.le⟩
  · obtain ⟨h1, h2⟩ := (wrap_to_pi (m.get i (prev m.w j) - m.get (prev m.h i) (prev m.w j))).1
    exact abs_le.2 ⟨h1, h2.le⟩

theorem boxMean_abs (rad : ℕ) (m : Mat ℝ) (c : ℝ) (h : ∀ i < m.h, ∀ j < m.w, |m.get i j| ≤ c) (i j : ℕ) (hi : i < m.h) (hj : j < m.w) :
    |(boxMean rad m).get i j| ≤ c := by
  unfold boxMean
  dsimp only
  have hp : (0 : ℝ) < ((2 * rad + 1 : ℕ) : ℝ) := by positivity
  refine (Finset.abs_sum_le_sum_abs _ _).trans ?_
  calc _ ≤ ∑ _a ∈ Finset.range (2 * rad + 1), ∑ _b ∈ Finset.range (2 * rad + 1), c / ((2 * rad + 1 : ℕ) : ℝ) ^ 2 := by
        refine Finset.sum_le_sum fun a _ => (Finset.abs_sum_le_sum_abs _ _).trans (Finset.sum_le_sum fun b _ => ?_)
        rw [abs_div, abs_of_pos (show (0 : ℝ) < ((2 * rad + 1 : ℕ) : ℝ) ^ 2 by positivity)]
        exact div_le_div_of_nonneg_right (h _ (reflectIdx_lt _ _ (by omega)) _ (reflectIdx_lt _ _ (by omega))) (by positivity)
    _ = c := by
        simp only [Finset.sum_const, Finset.card_range, nsmul_eq_mul]
        field_simp

theorem spread_nonneg (rad : ℕ) (m mean : Mat ℝ) (i j : ℕ) : 0 ≤ (spread rad m mean).get i j := by
  unfold spread
  dsimp only
  exact Finset.sum_nonneg fun _ _ => Finset.sum_nonneg fun _ _ => sq_nonneg _

theorem spread_le (rad : ℕ) (m : Mat ℝ) (c : ℝ) (h : ∀ i < m.h, ∀ j < m.w, |m.get i j| ≤ c) (i j : ℕ) (hi : i < m.h) (hj : j < m.w) :
    sqrt ((spread rad m (boxMean rad m)).get i j) ≤ ((2 * rad + 1 : ℕ) : ℝ) * (2 * c) := by
  have hc : 0 ≤ c := (abs_nonneg _).trans (h i hi j hj)
  refine Real.sqrt_le_iff.2 ⟨by positivity, ?_⟩
  unfold spread
  dsimp only
  calc _ ≤ ∑ _a ∈ Finset.range (2 * rad + 1), ∑ _b ∈ Finset.range (2 * rad + 1), (2 * c) ^ 2 := by
        refine Finset.sum_le_sum fun a _ => Finset.sum_le_sum fun b _ => ?_
        have h1 := h _ (rollIdx_lt _ ((a : ℤ) - rad) i (by omega)) _ (rollIdx_lt _ ((b : ℤ) - rad) j (show 0 < m.w by omega))
        have h2 := boxMean_abs rad m c h i j hi hj
        refine sq_le_sq.2 ?_
        rw [abs_of_nonneg (show 0 ≤ 2 * c by positivity)]
        exact (abs_sub _ _).trans (by linarith)
    _ = _ := by
        simp only [Finset.sum_const, Finset.card_range, nsmul_eq_mul]
        ring

/-- All steps in the windows of the pixel agree with the mean. -/
theorem spread_zero_iff (rad : ℕ) (m mean : Mat ℝ) (i j : ℕ) : (spread rad m mean).get i j = 0 ↔
    ∀ a < 2 * rad + 1, ∀ b < 2 * rad + 1, m.get (rollIdx m.h ((a : ℤ) - rad) i) (rollIdx m.w ((b : ℤ) - rad) j) = mean.get i j := by
  unfold spread
  dsimp only
  rw [Finset.sum_eq_zero_iff_of_nonneg fun _ _ => Finset.sum_nonneg fun _ _ => sq_nonneg _]
  constructor
  · intro h a ha b hb
    have h1 := h a (Finset.mem_range.2 ha)
    rw [Finset.sum_eq_zero_iff_of_nonneg fun _ _ => sq_nonneg _] at h1
    have h2 := h1 b (Finset.mem_range.2 hb)
    exact sub_eq_zero.1 (pow_eq_zero_iff two_ne_zero |>.1 h2)
  · intro h a ha
    refine Finset.sum_eq_zero fun b hb => ?_
    rw [h a (Finset.mem_range.1 ha) b (Finset.mem_range.1 hb), sub_self]
    norm_num

theorem spread_zero_interior (rad : ℕ) (m : Mat ℝ) (i j : ℕ) (hi : rad ≤ i ∧ i + rad < m.h) (hj : rad ≤ j ∧ j + rad < m.w) :
    (spread rad m (boxMean rad m)).get i j = 0 ↔ ∀ a b, Near rad i j a b → m.get a b = m.get i j := by
  rw [spread_zero_iff]
  have key : ∀ a b, Near rad i j a b → ∃ s < 2 * rad + 1, ∃ t < 2 * rad + 1,
      rollIdx m.h ((s : ℤ) - rad) i = a ∧ rollIdx m.w ((t : ℤ) - rad) j = b := by
    rintro a b ⟨⟨h1, h2⟩, h3, h4⟩
    refine ⟨i + rad - a, by omega, j + rad - b, by omega, ?_, ?_⟩
    · rw [rollIdx_in _ _ _ (by omega) (by omega)]; omega
    · rw [rollIdx_in _ _ _ (by omega) (by omega)]; omega
  constructor
  · intro h a b hab
    obtain ⟨s, hs, t, ht, rfl, rfl⟩ := key a b hab
    obtain ⟨s', hs', t', ht', e1, e2⟩ := key i j ⟨⟨by omega, by omega⟩, by omega, by omega⟩
    rw [h s hs t ht, ← h s' hs' t' ht', e1, e2]
  · intro h a ha b hb
    rw [rollIdx_in _ _ _ (by omega) (by omega), rollIdx_in _ _ _ (by omega) (by omega), h _ _ ⟨⟨by omega, by omega⟩, by omega, by omega⟩]
    unfold boxMean
    dsimp only
    have e : ∀ a ∈ Finset.range (2 * rad + 1), ∀ b ∈ Finset.range (2 * rad + 1),
        m.get (reflectIdx m.h ((i : ℤ) + a - rad)) (reflectIdx m.w ((j : ℤ) + b - rad)) / ((2 * rad + 1 : ℕ) : ℝ) ^ 2 =
          m.get i j / ((2 * rad + 1 : ℕ) : ℝ) ^ 2 := by
      intro a ha b hb
      rw [Finset.mem_range] at ha hb
      rw [Correction.reflectIdx_id _ _ (by omega) (by omega), Correction.reflectIdx_id _ _ (by omega) (by omega),
        h _ _ ⟨⟨by omega, by omega⟩, by omega, by omega⟩]
    rw [Finset.sum_congr rfl fun a ha => Finset.sum_congr rfl fun b hb => e a ha b hb]
    simp only [Finset.sum_const, Finset.card_range, nsmul_eq_mul]
    field_simp

/-! ### properties -/

/-- **C122.** Every value lies between `0` and `4π / win_size`. -/
theorem quality_range (m : Mat ℝ) (size : ℤ) (q : Mat ℝ) (hq : qualityMap m size = .ok q) :
    (q.h = m.h ∧ q.w = m.w) ∧ ∀ i < m.h, ∀ j < m.w, 0 ≤ q.get i j ∧ q.get i j ≤ 4 * π / (2 * (size / 2 : ℤ) + 1) := by
  obtain ⟨hh, hw, hs⟩ := (quality_error m size).1 ⟨q, hq⟩
  rw [qualityMap_ok m size hh hw hs] at hq
  cases hq
  refine ⟨⟨rfl, rfl⟩, fun i hi j hj => ⟨by positivity, ?_⟩⟩
  dsimp only
  have h1 := spread_le (radius size) (rhoX m) π (fun a ha b hb => (rhoX_eq m a b ha hb).symm ▸ (step_range m a b).1) i j hi hj
  have h2 := spread_le (radius size) (rhoY m) π (fun a ha b hb => (rhoY_eq m a b ha hb).symm ▸ (step_range m a b).2) i j hi hj
  have e : (2 * ((size / 2 : ℤ) : ℝ) + 1) = ((2 * radius size + 1 : ℕ) : ℝ) := by
    have : (size / 2 : ℤ) = ((radius size : ℕ) : ℤ) := by unfold radius; omega
    rw [this]; push_cast; ring
  rw [e]
  have hp : (0 : ℝ) < ((2 * radius size + 1 : ℕ) : ℝ) := by positivity
  rw [div_le_div_iff₀ (by positivity) hp]
  nlinarith

/-- Shape and pixels of two images agree. -/
theorem quality_congr (m m' : Mat ℝ) (hs : m.h = m'.h ∧ m.w = m'.w) (size : ℤ)
    (hx : ∀ i < m.h, ∀ j < m.w, stepX m i j = stepX m' i j) (hy : ∀ i < m.h, ∀ j < m.w, stepY m i j = stepY m' i j)
    (q q' : Mat ℝ) (hq : qualityMap m size = .ok q) (hq' : qualityMap m' size = .ok q') : q.Eqv q' := by
  obtain ⟨hh, hw, hz⟩ := (quality_error m size).1 ⟨q, hq⟩
  rw [qualityMap_ok m size hh hw hz] at hq
  rw [qualityMap_ok m' size (hs.1 ▸ hh) (hs.2 ▸ hw) hz] at hq'
  cases hq
  cases hq'
  refine ⟨hs.1, hs.2, fun i hi j hj => ?_⟩
  dsimp only at hi hj ⊢
  rw [spread_congr _ (rhoX m) (rhoX m') hs (fun a ha b hb => by
      rw [rhoX_eq m a b ha hb, rhoX_eq m' a b (hs.1 ▸ ha) (hs.2 ▸ hb), hx a ha b hb]) i j hi hj,
    spread_congr _ (rhoY m) (rhoY m') hs (fun a ha b hb => by
      rw [rhoY_eq m a b ha hb, rhoY_eq m' a b (hs.1 ▸ ha) (hs.2 ▸ hb), hy a ha b hb]) i j hi hj]

/-- **C122.** Whole turns added to single pixels and a constant added to all leave the map unchanged. -/
theorem quality_wrap_invariant (m m' : Mat ℝ) (hs : m.h = m'.h ∧ m.w = m'.w) (c : ℝ) (k : ℕ → ℕ → ℤ) (size : ℤ)
    (h : ∀ i < m.h, ∀ j < m.w, m'.get i j = m.get i j + c + 2 * π * k i j)
    (q q' : Mat ℝ) (hq : qualityMap m size = .ok q) (hq' : qualityMap m' size = .ok q') : q.Eqv q' := by
  have key : ∀ a b a' b', a < m.h → b < m.w → a' < m.h → b' < m.w →
      wrapToPi (m.get a b - m.get a' b') = wrapToPi (m'.get a b - m'.get a' b') := by
    intro a b a' b' ha hb ha' hb'
    rw [h a ha b hb, h a' ha' b' hb', ← (wrap_to_pi (m.get a b - m.get a' b')).2.2.2.2 (k a b - k a' b')]
    congr 1
    push_cast; ring
  refine quality_congr m m' hs size (fun i hi j hj => ?_) (fun i hi j hj => ?_) q q' hq hq'
  · unfold stepX
    rw [← hs.1, ← hs.2]
    exact key _ _ _ _ (prev_lt _ _ hi) hj (prev_lt _ _ hi) (prev_lt _ _ hj)
  · unfold stepY
    rw [← hs.1, ← hs.2]
    exact key _ _ _ _ hi (prev_lt _ _ hj) (prev_lt _ _ hi) (prev_lt _ _ hj)

theorem spread_transpose (rad : ℕ) (m : Mat ℝ) (i j : ℕ) :
    (spread rad m.T (boxMean rad m.T)).get j i = (spread rad m (boxMean rad m)).get i j := by
  have e : (boxMean rad m.T).get j i = (boxMean rad m).get i j := by
    unfold boxMean
    dsimp only [Mat.T]
    rw [Finset.sum_comm]
  unfold spread
  dsimp only
  rw [e]
  dsimp only [Mat.T]
  rw [Finset.sum_comm]

/-- **C122.** The map of the transposed image is the transposed map. -/
theorem quality_transpose (m : Mat ℝ) (size : ℤ) (q q' : Mat ℝ) (hq : qualityMap m size = .ok q) (hq' : qualityMap m.T size = .ok q') :
    q'.Eqv q.T := by
  obtain ⟨hh, hw, hz⟩ := (quality_error m size).1 ⟨q, hq⟩
  rw [qualityMap_ok m size hh hw hz] at hq
  rw [qualityMap_ok m.T size hw hh hz] at hq'
  cases hq
  cases hq'
  refine ⟨rfl, rfl, fun j hj i hi => ?_⟩
  show _ = (sqrt _ + sqrt _) / _
  dsimp only
  have e1 : rhoX m.T = (rhoY m).T := rfl
  have e2 : rhoY m.T = (rhoX m).T := rfl
  rw [e1, e2, spread_transpose, spread_transpose, add_comm]

/-- **C122.** Away from the border the map is zero exactly where the wrapped steps are the same in the whole window. -/
theorem quality_zero_iff (m : Mat ℝ) (size : ℤ) (q : Mat ℝ) (hq : qualityMap m size = .ok q) (rad : ℕ) (hr : (rad : ℤ) = size / 2) (i j : ℕ)
    (hi : rad ≤ i ∧ i + rad < m.h) (hj : rad ≤ j ∧ j + rad < m.w) :
    q.get i j = 0 ↔ ∀ a b, Near rad i j a b → stepX m a b = stepX m i j ∧ stepY m a b = stepY m i j := by
  obtain ⟨hh, hw, hz⟩ := (quality_error m size).1 ⟨q, hq⟩
  rw [qualityMap_ok m size hh hw hz] at hq
  cases hq
  have hrad : radius size = rad := by unfold radius; omega
  dsimp only
  rw [hrad, div_eq_zero_iff, or_iff_left (by positivity), add_eq_zero_iff_of_nonneg (sqrt_nonneg _) (sqrt_nonneg _),
    sqrt_eq_zero (spread_nonneg _ _ _ _ _), sqrt_eq_zero (spread_nonneg _ _ _ _ _), spread_zero_interior rad (rhoX m) i j hi hj,
    spread_zero_interior rad (rhoY m) i j hi hj]
  have e1 : ∀ a b, Near rad i j a b → (rhoX m).get a b = stepX m a b := fun a b hab => rhoX_eq m a b (by unfold Near at hab; omega) (by unfold Near at hab; omega)
  have e2 : ∀ a b, Near rad i j a b → (rhoY m).get a b = stepY m a b := fun a b hab => rhoY_eq m a b (by unfold Near at hab; omega) (by unfold Near at hab; omega)
  have hij : Near rad i j i j := ⟨⟨by omega, by omega⟩, by omega, by omega⟩
  rw [e1 i j hij, e2 i j hij]
  constructor
  · rintro ⟨h1, h2⟩ a b hab
    exact ⟨e1 a b hab ▸ h1 a b hab, e2 a b hab ▸ h2 a b hab⟩
  · intro h
    exact ⟨fun a b hab => (e1 a b hab).trans (h a b hab).1, fun a b hab => (e2 a b hab).trans (h a b hab).2⟩

/-- **C122.** A wrapped plane has quality value zero at every pixel more than `size // 2` from the border. -/
theorem quality_plane (m : Mat ℝ) (size : ℤ) (q : Mat ℝ) (hq : qualityMap m size = .ok q) (rad : ℕ) (hr : (rad : ℤ) = size / 2) (A B C : ℝ)
    (hm : ∀ i < m.h, ∀ j < m.w, ∃ k : ℤ, m.get i j = A * i + B * j + C + 2 * π * k) (i j : ℕ)
    (hi : rad + 1 ≤ i ∧ i + rad < m.h) (hj : rad + 1 ≤ j ∧ j + rad < m.w) : q.get i j = 0 := by
  have key : ∀ a b a' b' (x : ℝ), a < m.h → b < m.w → a' < m.h → b' < m.w → A * a + B * b - (A * a' + B * b') = x →
      wrapToPi (m.get a b - m.get a' b') = wrapToPi x := by
    intro a b a' b' x ha hb ha' hb' hx
    obtain ⟨k, hk⟩ := hm a ha b hb
    obtain ⟨k', hk'⟩ := hm a' ha' b' hb'
    rw [← hx, ← (wrap_to_pi (A * a + B * b - (A * a' + B * b'))).2.2.2.2 (k - k'), hk, hk']
    congr 1
    push_cast; ring
  have st : ∀ a b, Near rad i j a b → stepX m a b = wrapToPi B ∧ stepY m a b = wrapToPi A := by
    rintro a b ⟨⟨h1, h2⟩, h3, h4⟩
    unfold stepX stepY prev
    rw [if_neg (by omega), if_neg (by omega)]
    have ea : ((a - 1 : ℕ) : ℝ) = a - 1 := by rw [Nat.cast_sub (by omega)]; simp
    have eb : ((b - 1 : ℕ) : ℝ) = b - 1 := by rw [Nat.cast_sub (by omega)]; simp
    exact ⟨key _ _ _ _ _ (by omega) (by omega) (by omega) (by omega) (by rw [ea, eb]; ring),
      key _ _ _ _ _ (by omega) (by omega) (by omega) (by omega) (by rw [ea, eb]; ring)⟩
  refine (quality_zero_iff m size q hq rad hr i j ⟨by omega, hi.2⟩ ⟨by omega, hj.2⟩).2 fun a b hab => ?_
  have hij : Near rad i j i j := ⟨⟨by omega, by omega⟩, by omega, by omega⟩
  exact ⟨(st a b hab).1.trans (st i j hij).1.symm, (st a b hab).2.trans (st i j hij).2.symm⟩

/-- **C122.** With `size` 0 or 1 the map is zero for every image. -/
theorem quality_size_one (m : Mat ℝ) (size : ℤ) (hs : size = 0 ∨ size = 1) (q : Mat ℝ) (hq : qualityMap m size = .ok q) (i j : ℕ)
    (hi : i < m.h) (hj : j < m.w) : q.get i j = 0 := by
  refine (quality_zero_iff m size q hq 0 (by omega) i j (by omega) (by omega)).2 ?_
  rintro a b ⟨⟨h1, h2⟩, h3, h4⟩
  rw [show a = i by omega, show b = j by omega]
  exact ⟨rfl, rfl⟩

/-! ### which pixels matter -/

/-- Pixel `(i, j)` can change the map: two images of the given shape that differ only there have different maps. -/
def PixelMatters (h w : ℕ) (size : ℤ) (i j : ℕ) : Prop :=
  ∃ m m' q q' : Mat ℝ, (m.h = h ∧ m.w = w ∧ m'.h = h ∧ m'.w = w) ∧ (∀ a b, ¬ (a = i ∧ b = j) → m.get a b = m'.get a b) ∧
    qualityMap m size = .ok q ∧ qualityMap m' size = .ok q' ∧ ¬ q.Eqv q'

/-- The steps are the same everywhere if the map vanishes. -/
theorem rho_const (rad : ℕ) (hr : 1 ≤ rad) (m mean : Mat ℝ) (h : ∀ i < m.h, ∀ j < m.w, (spread rad m mean).get i j = 0) :
    ∀ i < m.h, ∀ j < m.w, m.get i j = m.get 0 0 := by
  have h0 : ∀ i j, i < m.h → j < m.w → m.get i j = mean.get i j := by
    intro i j hi hj
    have := (spread_zero_iff rad m mean i j).1 (h i hi j hj) rad (by omega) rad (by omega)
    rwa [rollIdx_in _ _ _ (by omega) (by omega), rollIdx_in _ _ _ (by omega) (by omega), show ((i : ℤ) - ((rad : ℤ) - rad)).toNat = i by omega,
      show ((j : ℤ) - ((rad : ℤ) - rad)).toNat = j by omega] at this
  have hr1 : ∀ i j, i < m.h → j + 1 < m.w → m.get i (j + 1) = m.get i j := by
    intro i j hi hj
    have := (spread_zero_iff rad m mean i j).1 (h i hi j (by omega)) rad (by omega) (rad - 1) (by omega)
    rw [rollIdx_in _ _ _ (by omega) (by omega), rollIdx_in _ _ _ (by omega) (by omega), show ((i : ℤ) - ((rad : ℤ) - rad)).toNat = i by omega,
      show ((j : ℤ) - (((rad - 1 : ℕ) : ℤ) - rad)).toNat = j + 1 by omega] at this
    rw [this, h0 i j hi (by omega)]
  have hr2 : ∀ i j, i + 1 < m.h → j < m.w → m.get (i + 1) j = m.get i j := by
    intro i j hi hj
    have := (spread_zero_iff rad m mean i j).1 (h i (by omega) j hj) (rad - 1) (by omega) rad (by omega)
    rw [rollIdx_in _ _ _ (by omega) (by omega), rollIdx_in _ _ _ (by omega) (by omega), show ((j : ℤ) - ((rad : ℤ) - rad)).toNat = j by omega,
      show ((i : ℤ) - (((rad - 1 : ℕ) : ℤ) - rad)).toNat = i + 1 by omega] at this
    rw [this, h0 i j (by omega) hj]
  intro i hi j hj
  have hrow : ∀ j, j < m.w → m.get i j = m.get i 0 := by
    intro j
    induction j with
    | zero => intro _; rfl
    | succ j ih => intro hj; rw [hr1 i j hi hj, ih (by omega)]
  rw [hrow j hj]
  clear hrow
  induction i with
  | zero => rfl
  | succ i ih => rw [hr2 i 0 hi (by omega), ih (by omega)]

theorem wrap_zero : wrapToPi 0 = 0 := wrapToPi_id (by linarith [pi_pos]) pi_pos

theorem wrap_one : wrapToPi 1 = 1 := wrapToPi_id (by linarith [pi_pos]) (by linarith [pi_gt_three])

/-- **C122.** In an image of at least 3 × 3 pixels every pixel can influence the map, except the one in the bottom right corner. -/
theorem pixel_matters_iff (h w : ℕ) (size : ℤ) (hh : 3 ≤ h) (hw : 3 ≤ w) (hz : 2 ≤ size) (i j : ℕ) (hi : i < h) (hj : j < w) :
    PixelMatters h w size i j ↔ ¬ (i = h - 1 ∧ j = w - 1) := by
  constructor
  · rintro ⟨m, m', q, q', ⟨h1, h2, h3, h4⟩, hd, hq, hq', hne⟩ ⟨hi', hj'⟩
    refine hne (quality_congr m m' (by omega) size (fun a ha b hb => ?_) (fun a ha b hb => ?_) q q' hq hq')
    · unfold stepX
      have hp : prev m.h a ≠ h - 1 := by unfold prev; split <;> omega
      rw [h3, h4, ← h1, ← h2, hd _ _ (by omega), hd _ _ (by omega)]
    · unfold stepY
      have hp : prev m.w b ≠ w - 1 := by unfold prev; split <;> omega
      rw [h3, h4, ← h1, ← h2, hd _ _ (by omega), hd _ _ (by omega)]
  · intro hc
    set z : Mat ℝ := ⟨h, w, fun _ _ => 0⟩ with hz0
    set e : Mat ℝ := ⟨h, w, fun a b => if a = i ∧ b = j then 1 else 0⟩ with he
    have okz := qualityMap_ok z size (show 0 < h by omega) (show 0 < w by omega) (by omega)
    have oke := qualityMap_ok e size (show 0 < h by omega) (show 0 < w by omega) (by omega)
    refine ⟨z, e, _, _, ⟨rfl, rfl, rfl, rfl⟩, fun a b hab => ?_, okz, oke, fun hE => ?_⟩
    · show (0 : ℝ) = if a = i ∧ b = j then 1 else 0
      rw [if_neg hab]
    obtain ⟨-, -, hE⟩ := hE
    have hr : 1 ≤ radius size := by unfold radius; omega
    -- the spreads of the impulse vanish
    have zx : ∀ a < h, ∀ b < w, (rhoX z).get a b = 0 := fun a ha b hb => by
      rw [rhoX_eq z a b ha hb]; unfold stepX; rw [hz0]; dsimp only; rw [sub_self, wrap_zero]
    have zy : ∀ a < h, ∀ b < w, (rhoY z).get a b = 0 := fun a ha b hb => by
      rw [rhoY_eq z a b ha hb]; unfold stepY; rw [hz0]; dsimp only; rw [sub_self, wrap_zero]
    have sz : ∀ r : Mat ℝ, r.h = h → r.w = w → (∀ a < h, ∀ b < w, r.get a b = 0) → ∀ a < h, ∀ b < w,
        (spread (radius size) r (boxMean (radius size) r)).get a b = 0 := by
      intro r h1 h2 h0 a ha b hb
      rw [spread_zero_iff]
      intro s _ t _
      rw [h0 _ (h1 ▸ rollIdx_lt _ _ _ (by omega)) _ (h2 ▸ rollIdx_lt _ _ _ (by omega))]
      unfold boxMean
      dsimp only
      symm
      refine Finset.sum_eq_zero fun a _ => Finset.sum_eq_zero fun b _ => ?_
      rw [h0 _ (h1 ▸ reflectIdx_lt _ _ (by omega)) _ (h2 ▸ reflectIdx_lt _ _ (by omega)), zero_div]
    have both : ∀ a < h, ∀ b < w, (spread (radius size) (rhoX e) (boxMean (radius size) (rhoX e))).get a b = 0 ∧
        (spread (radius size) (rhoY e) (boxMean (radius size) (rhoY e))).get a b = 0 := by
      intro a ha b hb
      have := hE a ha b hb
      dsimp only at this
      rw [sz (rhoX z) rfl rfl zx a ha b hb, sz (rhoY z) rfl rfl zy a ha b hb, sqrt_zero, add_zero, zero_div] at this
      have := this.symm
      rwa [div_eq_zero_iff, or_iff_left (by positivity), add_eq_zero_iff_of_nonneg (sqrt_nonneg _) (sqrt_nonneg _),
        sqrt_eq_zero (spread_nonneg _ _ _ _ _), sqrt_eq_zero (spread_nonneg _ _ _ _ _)] at this
    have cx := rho_const (radius size) hr (rhoX e) _ (fun a ha b hb => (both a ha b hb).1)
    have cy := rho_const (radius size) hr (rhoY e) _ (fun a ha b hb => (both a ha b hb).2)
    have cx' : ∀ a < h, ∀ b < w, ∀ a' < h, ∀ b' < w, stepX e a b = stepX e a' b' := fun a ha b hb a' ha' b' hb' => by
      rw [← rhoX_eq e a b ha hb, ← rhoX_eq e a' b' ha' hb', cx a ha b hb, cx a' ha' b' hb']
    have cy' : ∀ a < h, ∀ b < w, ∀ a' < h, ∀ b' < w, stepY e a b = stepY e a' b' := fun a ha b hb a' ha' b' hb' => by
      rw [← rhoY_eq e a b ha hb, ← rhoY_eq e a' b' ha' hb', cy a ha b hb, cy a' ha' b' hb']
    by_cases hi1 : i < h - 1
    · -- a row above the last: the horizontal steps are 1 at (i+1, j) and 0 in the last but one row or the first
      have v1 : stepX e (i + 1) j = 1 := by
        unfold stepX
        rw [he]
        dsimp only
        have hp : prev w j ≠ j := by unfold prev; split <;> omega
        rw [show prev h (i + 1) = i by unfold prev; simp, if_pos ⟨rfl, rfl⟩, if_neg (fun hh => hp hh.2), sub_zero, wrap_one]
      obtain ⟨a, ha, hai⟩ : ∃ a < h, prev h a ≠ i := by
        by_cases h0 : i = 1
        · exact ⟨1, by omega, by unfold prev; simp; omega⟩
        · exact ⟨0, by omega, by unfold prev; simp; omega⟩
      have v2 : stepX e a j = 0 := by
        unfold stepX
        rw [he]
        dsimp only
        rw [if_neg (fun hh => hai hh.1), if_neg (fun hh => hai hh.1), sub_self, wrap_zero]
      have := cx' (i + 1) (by omega) j hj a ha j hj
      rw [v1, v2] at this
      exact one_ne_zero this
    · have hj1 : j < w - 1 := by omega
      have v1 : stepY e i (j + 1) = 1 := by
        unfold stepY
        rw [he]
        dsimp only
        have hp : prev h i ≠ i := by unfold prev; split <;> omega
        rw [show prev w (j + 1) = j by unfold prev; simp, if_pos ⟨rfl, rfl⟩, if_neg (fun hh => hp hh.1), sub_zero, wrap_one]
      obtain ⟨b, hb, hbj⟩ : ∃ b < w, prev w b ≠ j := by
        by_cases h0 : j = 1
        · exact ⟨1, by omega, by unfold prev; simp; omega⟩
        · exact ⟨0, by omega, by unfold prev; simp; omega⟩
      have v2 : stepY e i b = 0 := by
        unfold stepY
        rw [he]
        dsimp only
        rw [if_neg (fun hh => hbj hh.2), if_neg (fun hh => hbj hh.2), sub_self, wrap_zero]
      have := cy' i hi (j + 1) (by omega) i hi b hb
      rw [v1, v2] at this
      exact one_ne_zero this

/-- The full property, which the code does not have. -/
def EveryPixelMatters : Prop := ∀ h w : ℕ, 3 ≤ h → 3 ≤ w → ∀ size : ℤ, 2 ≤ size → ∀ i < h, ∀ j < w, PixelMatters h w size i j

/-- **C122** is false of the code: a defect in the bottom right corner of a 100 × 100 image leaves no trace in the map. -/
theorem quality_corner_refuted : ¬ EveryPixelMatters := fun H =>
  (pixel_matters_iff 100 100 5 (by norm_num) (by norm_num) (by norm_num) 99 99 (by norm_num) (by norm_num)).1
    (H 100 100 (by norm_num) (by norm_num) 5 (by norm_num) 99 (by norm_num) 99 (by norm_num)) ⟨rfl, rfl⟩

/-- Concrete instance: the map of a wrapped plane exists and vanishes at the centre of a 9 × 9 image. -/
example : ∃ q, qualityMap ⟨9, 9, fun i j => wrapToPi (2 * i + 3 * j)⟩ 5 = .ok q ∧ q.get 4 4 = 0 := by
  obtain ⟨q, hq⟩ := (quality_error ⟨9, 9, fun i j => wrapToPi (2 * i + 3 * j)⟩ 5).2 ⟨by norm_num, by norm_num, by norm_num⟩
  refine ⟨q, hq, quality_plane _ 5 q hq 2 rfl 2 3 0 (fun i _ j _ => ?_) 4 4 ⟨by norm_num, ?_⟩ ⟨by norm_num, ?_⟩⟩
  · obtain ⟨k, hk, -, -⟩ := wrapToPi_spec (2 * i + 3 * j)
    exact ⟨-k, by show wrapToPi (2 * i + 3 * j) = _; rw [hk]; push_cast; ring⟩
  · show 4 + 2 < 9; norm_num
  · show 4 + 2 < 9; norm_num

end Verif.Quality
