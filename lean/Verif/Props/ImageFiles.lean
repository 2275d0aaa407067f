import Verif.Model.Convert
import Verif.Props.Correction

set_option linter.unusedSectionVars false
set_option linter.unusedSimpArgs false

/-!
**C128.** Grey values of image files: `load_image` and the 8-bit formats of `save_image` (algotom/io/loadersaver.py:92-113, 382-418).
-/

namespace Verif.Convert
open Verif.Io

variable {K : Type} [Field K] [LinearOrder K] [IsStrictOrderedRing K] [FloorRing K]

/-! ### load_image -/

/-- A colour image with `c` channels is loaded as the mean of its channels. -/
def LoadsChannelMean (a : Arr3 K) : Prop :=
  (loadImage (.three a)).Eqv ⟨a.d, a.h, fun i j => (∑ k ∈ Finset.range a.w, a.get i j k) / (a.w : K)⟩

/-- **C128** (partial): holds for images larger than the number of channels in both directions. -/
theorem load_colour_partial (a : Arr3 K) (h1 : a.w < a.d) (h2 : a.w < a.h) : LoadsChannelMean a := by
  have e : argmin3 a.d a.h a.w = 2 := by
    unfold argmin3
    rw [if_neg (by omega), if_neg (by omega)]
  unfold LoadsChannelMean
  simp only [loadImage, e, if_neg (show ¬ ((2 : Nat) = 0) by decide), if_neg (show ¬ ((2 : Nat) = 1) by decide)]
  exact ⟨rfl, rfl, fun _ _ _ _ => rfl⟩

/-- **C128.** A grey image is loaded as it is. -/
theorem load_flat (m : Mat K) : (loadImage (.two m)).Eqv m := ⟨rfl, rfl, fun _ _ _ _ => rfl⟩

/-- Grey images saved with equal channels keep their values. -/
theorem load_grey (a : Arr3 K) (h0 : 0 < a.w) (h1 : a.w < a.d) (h2 : a.w < a.h) (m : Mat K) (hm : ∀ i < a.d, ∀ j < a.h, ∀ k < a.w, a.get i j k = m.get i j)
    (hh : m.h = a.d) (hw : m.w = a.h) : (loadImage (.three a)).Eqv m := by
  obtain ⟨e1, e2, e3⟩ := load_colour_partial a h1 h2
  refine ⟨e1.trans hh.symm, e2.trans hw.symm, fun i hi j hj => ?_⟩
  rw [e3 i hi j hj]
  have hi' : i < a.d := lt_of_lt_of_eq hi e1
  have hj' : j < a.h := lt_of_lt_of_eq hj e2
  show (∑ k ∈ Finset.range a.w, a.get i j k) / (a.w : K) = _
  rw [Finset.sum_congr rfl fun k hk => hm i hi' j hj' k (Finset.mem_range.1 hk), Finset.sum_const, Finset.card_range, nsmul_eq_mul]
  have : (a.w : K) ≠ 0 := by exact_mod_cast h0.ne'
  field_simp

/-- **C128** is false of the code for small images: a colour image with 3 rows is averaged over its rows. -/
theorem load_colour_refuted : ¬ ∀ a : Arr3 ℚ, 0 < a.d → 0 < a.h → a.w = 3 → LoadsChannelMean a := by
  intro h
  obtain ⟨-, e, -⟩ := h ⟨3, 5, 3, fun _ _ _ => 0⟩ (by decide) (by decide) rfl
  revert e
  decide

/-! ### save_image -/

/-- The values of an image. -/
theorem mem_values (m : Mat K) (v : K) :
    (v ∈ (List.range m.h).flatMap fun i => (List.range m.w).map fun j => m.get i j) ↔ ∃ i < m.h, ∃ j < m.w, m.get i j = v := by
  simp only [List.mem_flatMap, List.mem_map, List.mem_range]

/-- `imgMin` is the smallest value, and attained. -/
theorem imgMin_spec (m : Mat K) (hh : 0 < m.h) (hw : 0 < m.w) :
    (∀ i < m.h, ∀ j < m.w, imgMin m ≤ m.get i j) ∧ ∃ i < m.h, ∃ j < m.w, m.get i j = imgMin m := by
  unfold imgMin
  constructor
  · intro i hi j hj
    exact (Correction.foldl_min_le _ _).2 _ ((mem_values m _).2 ⟨i, hi, j, hj, rfl⟩)
  · rcases Correction.foldl_min_mem ((List.range m.h).flatMap fun i => (List.range m.w).map fun j => m.get i j) (m.get 0 0) with h | h
    · exact ⟨0, hh, 0, hw, h.symm⟩
    · exact (mem_values m _).1 h

/-- `imgMax` is the greatest value, and attained. -/
theorem imgMax_spec (m : Mat K) (hh : 0 < m.h) (hw : 0 < m.w) :
    (∀ i < m.h, ∀ j < m.w, m.get i j ≤ imgMax m) ∧ ∃ i < m.h, ∃ j < m.w, m.get i j = imgMax m := by
  unfold imgMax
  constructor
  · intro i hi j hj
    exact (Correction.le_foldl_max _ _).2 _ ((mem_values m _).2 ⟨i, hi, j, hj, rfl⟩)
  · rcases Correction.foldl_max_mem ((List.range m.h).flatMap fun i => (List.range m.w).map fun j => m.get i j) (m.get 0 0) with h | h
    · exact ⟨0, hh, 0, hw, h.symm⟩
    · exact (mem_values m _).1 h

/-- **C128.** Only images without pixels and uniform images cannot be scaled to 8 bit. -/
theorem bytes_error (m : Mat K) : (∃ r, toBytes m = .ok r) ↔ ∃ i < m.h, ∃ j < m.w, ∃ i' < m.h, ∃ j' < m.w, m.get i j ≠ m.get i' j' := by
  unfold toBytes
  by_cases h0 : m.h = 0 ∨ m.w = 0
  · rw [if_pos h0]
    exact ⟨fun ⟨_, h⟩ => (nomatch h), fun ⟨i, hi, j, hj, _⟩ => by omega⟩
  rw [if_neg h0]
  obtain ⟨m1, i, hi, j, hj, m2⟩ := imgMin_spec m (by omega) (by omega)
  obtain ⟨M1, i', hi', j', hj', M2⟩ := imgMax_spec m (by omega) (by omega)
  by_cases h1 : imgMax m - imgMin m = 0
  · rw [if_pos h1]
    refine ⟨fun ⟨_, h⟩ => (nomatch h), fun ⟨a, ha, b, hb, c, hc, d, hd, h⟩ => absurd ?_ h⟩
    have e : imgMax m = imgMin m := sub_eq_zero.1 h1
    have e1 : m.get a b = imgMin m := le_antisymm (e ▸ M1 a ha b hb) (m1 a ha b hb)
    have e2 : m.get c d = imgMin m := le_antisymm (e ▸ M1 c hc d hd) (m1 c hc d hd)
    rw [e1, e2]
  · rw [if_neg h1]
    refine ⟨fun _ => ⟨i, hi, j, hj, i', hi', j', hj', fun h => h1 ?_⟩, fun _ => ⟨_, rfl⟩⟩
    rw [← m2, ← M2, h, sub_self]

theorem toBytes_ok {m : Mat K} {r : Mat Int} (h : toBytes m = .ok r) : 0 < m.h ∧ 0 < m.w ∧ 0 < imgMax m - imgMin m ∧
    r = ⟨m.h, m.w, fun i j => ⌊255 * (m.get i j - imgMin m) / (imgMax m - imgMin m)⌋⟩ := by
  unfold toBytes at h
  by_cases h0 : m.h = 0 ∨ m.w = 0
  · rw [if_pos h0] at h; exact nomatch h
  rw [if_neg h0] at h
  by_cases h1 : imgMax m - imgMin m = 0
  · rw [if_pos h1] at h; exact nomatch h
  rw [if_neg h1] at h
  obtain ⟨m1, i, hi, j, hj, m2⟩ := imgMin_spec m (by omega) (by omega)
  have := (imgMax_spec m (by omega) (by omega)).1 i hi j hj
  exact ⟨by omega, by omega, lt_of_le_of_ne (by rw [m2] at this; linarith) (Ne.symm h1), (Except.ok.inj h).symm⟩

/-- **C128.** The 8-bit image has the shape of the image, values from 0 to 255, keeps the order of the grey values, is 0 at the darkest pixels and 255 exactly
at the brightest ones, and determines each value to within one of 255 equal steps between the two. -/
theorem bytes_spec (m : Mat K) (r : Mat Int) (h : toBytes m = .ok r) : r.h = m.h ∧ r.w = m.w ∧
    ∃ lo hi : K, lo < hi ∧ (∃ i < m.h, ∃ j < m.w, m.get i j = lo) ∧ (∃ i < m.h, ∃ j < m.w, m.get i j = hi) ∧ ∀ i < m.h, ∀ j < m.w,
      (lo ≤ m.get i j ∧ m.get i j ≤ hi) ∧ (0 ≤ r.get i j ∧ r.get i j ≤ 255) ∧ (m.get i j = lo → r.get i j = 0) ∧ (r.get i j = 255 ↔ m.get i j = hi) ∧
      (lo + (hi - lo) / 255 * (r.get i j : K) ≤ m.get i j ∧ m.get i j < lo + (hi - lo) / 255 * ((r.get i j : K) + 1)) ∧
      ∀ i' < m.h, ∀ j' < m.w, m.get i j ≤ m.get i' j' → r.get i j ≤ r.get i' j' := by
  obtain ⟨hh, hw, hd, rfl⟩ := toBytes_ok h
  obtain ⟨m1, m2⟩ := imgMin_spec m hh hw
  obtain ⟨M1, M2⟩ := imgMax_spec m hh hw
  refine ⟨rfl, rfl, imgMin m, imgMax m, by linarith, m2, M2, fun i hi j hj => ?_⟩
  dsimp only
  generalize hlo : imgMin m = lo at *
  generalize hhi : imgMax m = hi' at *
  have a1 := m1 i hi j hj
  have a2 := M1 i hi j hj
  generalize hv : m.get i j = v at *
  have hq : 255 * (v - lo) / (hi' - lo) ≤ 255 := by rw [div_le_iff₀ hd]; linarith
  have hq0 : 0 ≤ 255 * (v - lo) / (hi' - lo) := div_nonneg (by linarith) hd.le
  have f1 := Int.floor_le (255 * (v - lo) / (hi' - lo))
  have f2 := Int.lt_floor_add_one (255 * (v - lo) / (hi' - lo))
  refine ⟨⟨a1, a2⟩, ⟨Int.floor_nonneg.2 hq0, ?_⟩, fun e => ?_, ?_, ⟨?_, ?_⟩, fun i' hi' j' hj' hle => ?_⟩
  · have : (⌊255 * (v - lo) / (hi' - lo)⌋ : K) ≤ 255 := f1.trans hq
    exact_mod_cast this
  · rw [e, sub_self, mul_zero, zero_div, Int.floor_zero]
  · constructor
    · intro e
      rw [e, le_div_iff₀ hd] at f1
      push_cast at f1
      linarith
    · intro e
      rw [e, mul_div_assoc, div_self hd.ne', mul_one]
      exact_mod_cast Int.floor_intCast (R := K) 255
  · rw [le_div_iff₀ hd] at f1
    linarith
  · rw [div_lt_iff₀ hd] at f2
    linarith
  · exact Int.floor_le_floor (div_le_div_of_nonneg_right (by linarith) hd.le)

/-- **C128.** The 8-bit image does not depend on the unit and the offset of the grey values. -/
theorem bytes_affine (m m' : Mat K) (r r' : Mat Int) (c d : K) (hc : 0 < c) (hh : m'.h = m.h) (hw : m'.w = m.w)
    (hm : ∀ i < m.h, ∀ j < m.w, m'.get i j = c * m.get i j + d) (h : toBytes m = .ok r) (h' : toBytes m' = .ok r') : r'.Eqv r := by
  obtain ⟨h1, h2, hd, rfl⟩ := toBytes_ok h
  obtain ⟨h1', h2', hd', rfl⟩ := toBytes_ok h'
  refine ⟨hh, hw, fun i hi j hj => ?_⟩
  dsimp only at hi hj ⊢
  obtain ⟨m1, a, ha, b, hb, m2⟩ := imgMin_spec m h1 h2
  obtain ⟨M1, a', ha', b', hb', M2⟩ := imgMax_spec m h1 h2
  obtain ⟨n1, p, hp, q, hq, n2⟩ := imgMin_spec m' h1' h2'
  obtain ⟨N1, p', hp', q', hq', N2⟩ := imgMax_spec m' h1' h2'
  have eMin : imgMin m' = c * imgMin m + d := by
    apply le_antisymm
    · rw [← m2, ← hm a ha b hb]; exact n1 a (by omega) b (by omega)
    · rw [← n2, hm p (by omega) q (by omega)]
      have := m1 p (by omega) q (by omega)
      have := mul_le_mul_of_nonneg_left this hc.le
      linarith
  have eMax : imgMax m' = c * imgMax m + d := by
    apply le_antisymm
    · rw [← N2, hm p' (by omega) q' (by omega)]
      have := M1 p' (by omega) q' (by omega)
      have := mul_le_mul_of_nonneg_left this hc.le
      linarith
    · rw [← M2, ← hm a' ha' b' hb']; exact N1 a' (by omega) b' (by omega)
  rw [eMin, eMax, hm i (by omega) j (by omega)]
  congr 1
  rw [show 255 * (c * m.get i j + d - (c * imgMin m + d)) = c * (255 * (m.get i j - imgMin m)) by ring,
    show c * imgMax m + d - (c * imgMin m + d) = c * (imgMax m - imgMin m) by ring, mul_div_mul_left _ _ hc.ne']

/-- Concrete instance: three grey values. -/
example : (match toBytes (⟨1, 3, fun _ j => (j : ℚ) + 1⟩ : Mat ℚ) with
    | .ok r => decide (r.get 0 0 = 0 ∧ r.get 0 1 = 127 ∧ r.get 0 2 = 255)
    | .error _ => false) = true := by
  decide +kernel

end Verif.Convert
