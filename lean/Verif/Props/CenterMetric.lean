import Verif.Model.CenterMetric
import Verif.Lemmas.Fourier
import Verif.Lemmas.DftSymm
import Verif.Props.ForwardProj
import Verif.Props.Center
import Mathlib.Analysis.Complex.Trigonometric

/-! C131 — the inverse double-wedge mask.  C132 — the centre of rotation does not depend on unit, offset, direction of scan. -/

set_option linter.unusedSectionVars false
set_option linter.unusedSimpArgs false

namespace Verif.CenterMetric
open Verif.Fourier Verif.Sched Verif.Center

/-! ### C131: the mask -/

/-- How many columns on each side of the middle are 1 in the row `d` rows below the middle, before the middle columns are dropped. -/
noncomputable def slope (height width : ℕ) (radius : ℝ) : ℝ := ((height : ℝ) - 1) / (2 * Real.pi * height) * (width / radius)

theorem pyBound_range (n : ℕ) (c d : ℤ) (hc : 0 ≤ c) (hcn : c < n) (hd : 0 ≤ d) (h : d ≤ c ∨ n ≤ 1) (j : ℕ) (hj : j < n) :
    (pyBound n (c - d) ≤ j ∧ j < pyBound n (c + d + 1)) ↔ |(j : ℤ) - c| ≤ d := by
  rw [abs_le]
  unfold pyBound
  split_ifs <;> omega

theorem horDrop_nonneg (h : ℕ) (o : Option ℤ) : 0 ≤ horDrop h o ∧ horDrop h o ≤ ((h / 2 : ℕ) : ℤ) := by
  cases o with
  | none => simp only [horDrop]; omega
  | some d => simp only [horDrop, npClip]; omega

theorem verDrop_nonneg (w : ℕ) (o : Option ℤ) : 0 ≤ verDrop w o ∧ (verDrop w o ≤ ((w / 2 : ℕ) : ℤ) ∨ w ≤ 1) := by
  cases o with
  | none => simp only [verDrop]; omega
  | some d => simp only [verDrop, npClip]; omega

/-- **C131.** The mask has the requested size and only the values 0 and 1.  It is 1 exactly at the pixels that lie more than `hor_drop` rows
and more than `ver_drop` columns from the middle pixel `(height // 2, width // 2)` and, sideways, not farther from it than the slope allows
(rounded away from the middle below it and towards it above it). -/
theorem mask_spec (height width : ℕ) (radius : ℝ) (hor ver : Option ℤ) (i j : ℕ) (hi : i < height) (hj : j < width) :
    (invWedge height width radius hor ver).h = height ∧ (invWedge height width radius hor ver).w = width ∧
    (invWedge height width radius hor ver).get i j =
      if horDrop height hor < |(i : ℤ) - (height / 2 : ℕ)| ∧ verDrop width ver < |(j : ℤ) - (width / 2 : ℕ)| ∧
        |(j : ℤ) - (width / 2 : ℕ)| ≤ |⌈((i : ℝ) - (height / 2 : ℕ)) * slope height width radius⌉| then 1 else 0 := by
  refine ⟨rfl, rfl, ?_⟩
  unfold invWedge
  dsimp only
  rw [ceil_half, ceil_half]
  have e : ((i : ℝ) - (((height / 2 : ℕ) : ℤ) : ℝ)) * (((height : ℝ) - 1) / (height * 2 * Real.pi)) / radius / (1 / width) =
      ((i : ℝ) - (height / 2 : ℕ)) * slope height width radius := by
    unfold slope
    rw [one_div, div_inv_eq_mul, Int.cast_natCast]
    ring
  rw [e]
  generalize ⌈((i : ℝ) - (height / 2 : ℕ)) * slope height width radius⌉ = num
  have h1 := pyBound_range width ((width / 2 : ℕ) : ℤ) (verDrop width ver) (by omega) (by omega) (verDrop_nonneg _ _).1 (verDrop_nonneg _ _).2 j hj
  have h2 := pyBound_range height ((height / 2 : ℕ) : ℤ) (horDrop height hor) (by omega) (by omega) (horDrop_nonneg _ _).1
    (.inl (horDrop_nonneg _ _).2) i hi
  have h3 : (npClip (min (-num + (width / 2 : ℕ)) (num + (width / 2 : ℕ))) 0 ((width : ℤ) - 1) ≤ j ∧
      (j : ℤ) < npClip (max (-num + (width / 2 : ℕ)) (num + (width / 2 : ℕ))) 0 ((width : ℤ) - 1) + 1) ↔
        |(j : ℤ) - (width / 2 : ℕ)| ≤ |num| := by
    unfold npClip
    rcases abs_cases num with ⟨e, _⟩ | ⟨e, _⟩ <;> rw [e, abs_le] <;> omega
  by_cases c1 : |(j : ℤ) - (width / 2 : ℕ)| ≤ verDrop width ver
  · rw [if_pos (h1.2 c1), if_neg (fun h => absurd h.2.1 (not_lt.2 c1))]
  rw [if_neg (mt h1.1 c1)]
  by_cases c2 : |(i : ℤ) - (height / 2 : ℕ)| ≤ horDrop height hor
  · rw [if_pos (h2.2 c2), if_neg (fun h => absurd h.1 (not_lt.2 c2))]
  rw [if_neg (mt h2.1 c2)]
  by_cases c3 : |(j : ℤ) - (width / 2 : ℕ)| ≤ |num|
  · rw [if_pos (h3.2 c3), if_pos ⟨not_le.1 c2, not_le.1 c1, c3⟩]
  · rw [if_neg (mt h3.1 c3), if_neg (fun h => c3 h.2.2)]

theorem slope_nonneg (h w : ℕ) (r : ℝ) (hh : 0 < h) (hr : 0 < r) : 0 ≤ slope h w r := by
  unfold slope
  have : (1 : ℝ) ≤ h := by exact_mod_cast hh
  have := Real.pi_pos
  have : (0 : ℝ) ≤ (h : ℝ) - 1 := by linarith
  positivity


/-- **C131.** The sizes of the two dropped bands: by default `min(20, height // 20)` rows and 1 column, otherwise the given numbers, at least 1 and at
most a third of the size. -/
theorem mask_bands (height width : ℕ) :
    horDrop height none = min 20 ((height / 20 : ℕ) : ℤ) ∧ verDrop width none = 1 ∧
    (∀ d : ℤ, 1 ≤ d → d ≤ (height / 3 : ℕ) → horDrop height (some d) = d) ∧ (∀ d : ℤ, 1 ≤ d → d ≤ (width / 3 : ℕ) → verDrop width (some d) = d) ∧
    (∀ d : ℤ, ((height / 3 : ℕ) : ℤ) < d → horDrop height (some d) = (height / 3 : ℕ)) ∧
    ∀ d : ℤ, ((width / 3 : ℕ) : ℤ) < d → verDrop width (some d) = (width / 3 : ℕ) := by
  refine ⟨rfl, rfl, fun d h1 h2 => ?_, fun d h1 h2 => ?_, fun d h => ?_, fun d h => ?_⟩ <;> simp only [horDrop, verDrop, npClip] <;> omega

/-- **C131.** What the rounding means: below the middle a pixel counts if it is less than one column beyond the line
`|j - middle| = (i - middle) * slope`, above it if it is not beyond the line. -/
theorem mask_line (height width : ℕ) (radius : ℝ) (hr : 0 < radius) (hor ver : Option ℤ) (i j : ℕ) (hi : i < height) (hj : j < width)
    (h1 : horDrop height hor < |(i : ℤ) - (height / 2 : ℕ)|) (h2 : verDrop width ver < |(j : ℤ) - (width / 2 : ℕ)|) :
    ((height / 2 : ℕ) ≤ i → ((invWedge height width radius hor ver).get i j = 1 ↔
      |(j : ℝ) - (width / 2 : ℕ)| < ((i : ℝ) - (height / 2 : ℕ)) * slope height width radius + 1)) ∧
    (i ≤ (height / 2 : ℕ) → ((invWedge height width radius hor ver).get i j = 1 ↔
      |(j : ℝ) - (width / 2 : ℕ)| ≤ (((height / 2 : ℕ) : ℝ) - i) * slope height width radius)) := by
  rw [(mask_spec height width radius hor ver i j hi hj).2.2]
  have hs := slope_nonneg height width radius (by omega) hr
  have hc : |(j : ℝ) - (width / 2 : ℕ)| = ((|(j : ℤ) - (width / 2 : ℕ)| : ℤ) : ℝ) := by push_cast; rfl
  have key : ((if horDrop height hor < |(i : ℤ) - (height / 2 : ℕ)| ∧ verDrop width ver < |(j : ℤ) - (width / 2 : ℕ)| ∧
        |(j : ℤ) - (width / 2 : ℕ)| ≤ |⌈((i : ℝ) - (height / 2 : ℕ)) * slope height width radius⌉| then (1 : ℝ) else 0) = 1) ↔
        |(j : ℤ) - (width / 2 : ℕ)| ≤ |⌈((i : ℝ) - (height / 2 : ℕ)) * slope height width radius⌉| := by
    constructor
    · intro h
      by_contra hn
      rw [if_neg (fun h => hn h.2.2)] at h
      norm_num at h
    · intro h
      rw [if_pos ⟨h1, h2, h⟩]
  rw [key, hc]
  generalize |(j : ℤ) - (width / 2 : ℕ)| = d at *
  constructor
  · intro h
    have h0 : (0 : ℝ) ≤ ((i : ℝ) - (height / 2 : ℕ)) * slope height width radius :=
      mul_nonneg (by have : ((height / 2 : ℕ) : ℝ) ≤ i := by exact_mod_cast h
                     linarith) hs
    rw [abs_of_nonneg (Int.ceil_nonneg h0), ← Int.lt_add_one_iff, ← sub_lt_iff_lt_add, Int.lt_ceil]
    push_cast
    exact sub_lt_iff_lt_add
  · intro h
    have h0 : ((i : ℝ) - (height / 2 : ℕ)) * slope height width radius ≤ 0 :=
      mul_nonpos_of_nonpos_of_nonneg (by have : (i : ℝ) ≤ (height / 2 : ℕ) := by exact_mod_cast h
                                         linarith) hs
    have h3 : ⌈((i : ℝ) - (height / 2 : ℕ)) * slope height width radius⌉ ≤ 0 := Int.ceil_le.2 (by simpa using h0)
    rw [abs_of_nonpos h3, ← Int.floor_neg, Int.le_floor]
    rw [show -(((i : ℝ) - (height / 2 : ℕ)) * slope height width radius) = (((height / 2 : ℕ) : ℝ) - i) * slope height width radius by ring]

/-- **C131.** The middle row and the middle column are 0, whatever the options; the mask is symmetric about the middle column; a row
below the middle contains the row as far above it; a larger radius gives a smaller mask. -/
theorem mask_properties (height width : ℕ) (radius : ℝ) (hor ver : Option ℤ) (i j : ℕ) (hi : i < height) (hj : j < width) :
    (i = height / 2 → (invWedge height width radius hor ver).get i j = 0) ∧
    (j = width / 2 → (invWedge height width radius hor ver).get i j = 0) ∧
    (∀ j' < width, j + j' = 2 * (width / 2) → (invWedge height width radius hor ver).get i j' = (invWedge height width radius hor ver).get i j) ∧
    (0 < radius → ∀ i' < height, i ≤ height / 2 → i + i' = 2 * (height / 2) →
      (invWedge height width radius hor ver).get i j ≤ (invWedge height width radius hor ver).get i' j) ∧
    (0 < radius → ∀ radius', radius ≤ radius' → (invWedge height width radius' hor ver).get i j ≤ (invWedge height width radius hor ver).get i j) := by
  have h01 : ∀ (P Q : Prop) [Decidable P] [Decidable Q], (P → Q) → (if P then (1 : ℝ) else 0) ≤ if Q then 1 else 0 := by
    intro P Q _ _ h
    by_cases hp : P
    · rw [if_pos hp, if_pos (h hp)]
    · rw [if_neg hp]
      split <;> norm_num
  refine ⟨fun h => ?_, fun h => ?_, fun j' hj' h => ?_, fun hr i' hi' h1 h2 => ?_, fun hr r' hrr => ?_⟩
  · rw [(mask_spec height width radius hor ver i j hi hj).2.2, if_neg]
    rintro ⟨h1, -⟩
    subst h
    have := (horDrop_nonneg height hor).1
    simp at h1
    omega
  · rw [(mask_spec height width radius hor ver i j hi hj).2.2, if_neg]
    rintro ⟨-, h1, -⟩
    subst h
    have := (verDrop_nonneg width ver).1
    simp at h1
    omega
  · rw [(mask_spec height width radius hor ver i j hi hj).2.2, (mask_spec height width radius hor ver i j' hi hj').2.2]
    have : |(j' : ℤ) - (width / 2 : ℕ)| = |(j : ℤ) - (width / 2 : ℕ)| := by
      rw [show (j' : ℤ) - (width / 2 : ℕ) = -((j : ℤ) - (width / 2 : ℕ)) by omega, abs_neg]
    rw [this]
  · rw [(mask_spec height width radius hor ver i j hi hj).2.2, (mask_spec height width radius hor ver i' j hi' hj).2.2]
    apply h01
    rintro ⟨a, b, c⟩
    have e1 : |(i' : ℤ) - (height / 2 : ℕ)| = |(i : ℤ) - (height / 2 : ℕ)| := by
      rw [show (i' : ℤ) - (height / 2 : ℕ) = -((i : ℤ) - (height / 2 : ℕ)) by omega, abs_neg]
    refine ⟨by rw [e1]; exact a, b, c.trans ?_⟩
    have e2 : ((i' : ℝ) - (height / 2 : ℕ)) = -((i : ℝ) - (height / 2 : ℕ)) := by
      have : (i : ℝ) + i' = 2 * ((height / 2 : ℕ) : ℝ) := by exact_mod_cast h2
      linarith
    rw [e2, neg_mul]
    have hs := slope_nonneg height width radius (by omega) hr
    have h0 : ((i : ℝ) - (height / 2 : ℕ)) * slope height width radius ≤ 0 :=
      mul_nonpos_of_nonpos_of_nonneg (by have : (i : ℝ) ≤ (height / 2 : ℕ) := by exact_mod_cast h1
                                         linarith) hs
    generalize ((i : ℝ) - (height / 2 : ℕ)) * slope height width radius = t at *
    have h3 : ⌈t⌉ ≤ 0 := Int.ceil_le.2 (by simpa using h0)
    have h4 : 0 ≤ ⌈-t⌉ := Int.ceil_nonneg (by linarith)
    rw [abs_of_nonpos h3, abs_of_nonneg h4, ← Int.floor_neg]
    exact Int.floor_le_ceil _
  · rw [(mask_spec height width radius hor ver i j hi hj).2.2, (mask_spec height width r' hor ver i j hi hj).2.2]
    apply h01
    rintro ⟨a, b, c⟩
    refine ⟨a, b, c.trans ?_⟩
    have hh : (1 : ℝ) ≤ height := by exact_mod_cast (by omega : 1 ≤ height)
    have hsl : slope height width r' ≤ slope height width radius := by
      unfold slope
      have := Real.pi_pos
      have h5 : (0 : ℝ) ≤ (height : ℝ) - 1 := by linarith
      exact mul_le_mul_of_nonneg_left (div_le_div_of_nonneg_left (by positivity) hr hrr) (by positivity)
    have hs := slope_nonneg height width r' (by omega) (by linarith)
    rcases le_total (i : ℝ) (height / 2 : ℕ) with h | h
    · have h6 : ((i : ℝ) - (height / 2 : ℕ)) * slope height width r' ≤ 0 := mul_nonpos_of_nonpos_of_nonneg (by linarith) hs
      have h7 : ((i : ℝ) - (height / 2 : ℕ)) * slope height width radius ≤ ((i : ℝ) - (height / 2 : ℕ)) * slope height width r' :=
        mul_le_mul_of_nonpos_left hsl (by linarith)
      have h8 := Int.ceil_le_ceil h7
      have h9 : ⌈((i : ℝ) - (height / 2 : ℕ)) * slope height width r'⌉ ≤ 0 := Int.ceil_le.2 (by simpa using h6)
      rw [abs_of_nonpos h9, abs_of_nonpos (by omega)]
      omega
    · have h6 : 0 ≤ ((i : ℝ) - (height / 2 : ℕ)) * slope height width r' := mul_nonneg (by linarith) hs
      have h7 : ((i : ℝ) - (height / 2 : ℕ)) * slope height width r' ≤ ((i : ℝ) - (height / 2 : ℕ)) * slope height width radius :=
        mul_le_mul_of_nonneg_left hsl (by linarith)
      have h8 := Int.ceil_le_ceil h7
      have h9 := Int.ceil_nonneg h6
      rw [abs_of_nonneg h9, abs_of_nonneg (by omega)]
      exact h8

/-! ### C132: specification -/

/-- `a m + b`. -/
def aff (a b : ℝ) (m : Mat ℝ) : Mat ℝ := ⟨m.h, m.w, fun i j => a * m.get i j + b⟩

/-- What is assumed of `scipy.ndimage.shift` along the columns: it works on the pixels of the image, keeps unit and offset where the source
position lies inside the image, and treats left and right, top and bottom alike. -/
structure IsShift (S : Mat ℝ → ℝ → Mat ℝ) : Prop where
  congr : ∀ m m' : Mat ℝ, m.Eqv m' → ∀ s, ∀ i < m.h, ∀ j < m.w, (S m s).get i j = (S m' s).get i j
  affine : ∀ (m : Mat ℝ) (a b s : ℝ), ∀ i < m.h, ∀ j < m.w, 0 ≤ (j : ℝ) - s → (j : ℝ) - s ≤ m.w - 1 →
    (S (aff a b m) s).get i j = a * (S m s).get i j + b
  fliplr : ∀ (m : Mat ℝ) (s : ℝ), ∀ i < m.h, ∀ j < m.w, (S m.fliplr (-s)).get i j = (S m s).get i (m.w - 1 - j)
  flipud : ∀ (m : Mat ℝ) (s : ℝ), ∀ i < m.h, ∀ j < m.w, (S (flipud m) s).get i j = (S m s).get (m.h - 1 - i) j

/-- What is assumed of `scipy.ndimage.gaussian_filter`. -/
structure IsSmooth (G : Mat ℝ → Mat ℝ) : Prop where
  shape : ∀ m, (G m).h = m.h ∧ (G m).w = m.w
  affine : ∀ (m : Mat ℝ) (a b : ℝ), (G (aff a b m)).Eqv (aff a b (G m))
  fliplr : ∀ m : Mat ℝ, (G m.fliplr).Eqv (G m).fliplr
  flipud : ∀ m : Mat ℝ, (G (CenterMetric.flipud m)).Eqv (CenterMetric.flipud (G m))

/-- The metric of a sinogram as the searches compute it. -/
noncomputable def metricOf (S : Mat ℝ → ℝ → Mat ℝ) (o : Opts) (sino : Mat ℝ) (c : ℝ) : ℝ :=
  centerMetric S c sino sino.fliplr (flipud sino) (invWedge (2 * sino.h) sino.w (0.5 * o.ratio * sino.w) o.hor o.ver)

/-! ### lemmas -/

theorem spectrum_freq (m mask : Mat ℝ) (hh : 0 < m.h) (hw : 0 < m.w) : spectrumMean m mask =
    (∑ k ∈ Finset.range m.h, ∑ l ∈ Finset.range m.w, ‖dft2 m.h m.w (fun i j => (m.get i j : ℂ)) k l‖ *
      mask.get (ifftshiftIdx m.h k) (ifftshiftIdx m.w l)) / (m.h * m.w) := by
  unfold spectrumMean
  congr 1
  rw [← ForwardProj.shift_sum m.h hh]
  refine Finset.sum_congr rfl fun k hk => ?_
  rw [← ForwardProj.shift_sum m.w hw]
  refine Finset.sum_congr rfl fun l hl => ?_
  rw [ifft_fft_shift _ _ (Finset.mem_range.1 hk), ifft_fft_shift _ _ (Finset.mem_range.1 hl)]

/-- The spectrum mean depends on the pixels only. -/
theorem spectrum_congr (m m' mask : Mat ℝ) (h : m.Eqv m') : spectrumMean m mask = spectrumMean m' mask := by
  obtain ⟨h1, h2, h3⟩ := h
  unfold spectrumMean
  rw [← h1, ← h2]
  congr 1
  refine Finset.sum_congr rfl fun k _ => Finset.sum_congr rfl fun l _ => ?_
  rw [dft2_congr m.h m.w _ (fun i j => (m'.get i j : ℂ)) _ _ fun i hi j hj => by rw [h3 i hi j hj]]

theorem ifft_mid (n k : ℕ) (hk : k < n) : ifftshiftIdx n k = n / 2 ↔ k = 0 := by
  unfold ifftshiftIdx
  constructor
  · intro h
    rcases Nat.lt_or_ge (k + n / 2) n with h1 | h1
    · rw [Nat.mod_eq_of_lt h1] at h; omega
    · rw [Nat.mod_eq_sub_mod h1, Nat.mod_eq_of_lt (by omega)] at h; omega
  · rintro rfl
    rw [Nat.zero_add, Nat.mod_eq_of_lt (by omega)]

theorem ifft_neg (n l : ℕ) (hl : l < n) :
    ifftshiftIdx n ((n - l) % n) + ifftshiftIdx n l = 2 * (n / 2) ∨ ifftshiftIdx n ((n - l) % n) = ifftshiftIdx n l := by
  unfold ifftshiftIdx
  rcases Nat.eq_zero_or_pos l with rfl | h0
  · simp
  · rw [Nat.mod_eq_of_lt (a := n - l) (by omega)]
    rcases Nat.lt_or_ge (l + n / 2) n with h1 | h1
    · rw [Nat.mod_eq_of_lt h1]
      rw [Nat.mod_eq_sub_mod (by omega), Nat.mod_eq_of_lt (by omega)]
      left; omega
    · rw [Nat.mod_eq_sub_mod h1, Nat.mod_eq_of_lt (a := l + n / 2 - n) (by omega)]
      rcases Nat.lt_or_ge (n - l + n / 2) n with h2 | h2
      · rw [Nat.mod_eq_of_lt h2]
        left; omega
      · rw [Nat.mod_eq_sub_mod h2, Nat.mod_eq_of_lt (by omega)]
        right; omega

/-- Unit and offset. -/
theorem spectrum_affine (m : Mat ℝ) (a b r : ℝ) (hor ver : Option ℤ) (hh : 0 < m.h) (hw : 0 < m.w) :
    spectrumMean (aff a b m) (invWedge m.h m.w r hor ver) = |a| * spectrumMean m (invWedge m.h m.w r hor ver) := by
  rw [spectrum_freq (aff a b m) _ hh hw, spectrum_freq m _ hh hw, mul_div_assoc', Finset.mul_sum]
  congr 1
  refine Finset.sum_congr rfl fun k hk => ?_
  rw [Finset.mul_sum]
  refine Finset.sum_congr rfl fun l hl => ?_
  have hk := Finset.mem_range.1 hk
  have hl := Finset.mem_range.1 hl
  show ‖dft2 m.h m.w (fun i j => ((a * m.get i j + b : ℝ) : ℂ)) k l‖ * (invWedge m.h m.w r hor ver).get (ifftshiftIdx m.h k) (ifftshiftIdx m.w l) = _
  by_cases h0 : k ≠ 0 ∨ l ≠ 0
  · have e : (fun i j => ((a * m.get i j + b : ℝ) : ℂ)) = fun i j => (a : ℂ) * (m.get i j : ℂ) + (b : ℂ) := by
      funext i j
      push_cast
      rfl
    rw [e, dft2_affine m.h m.w _ _ _ k l hk hl h0, norm_mul, Complex.norm_real, Real.norm_eq_abs]
    ring
  · push Not at h0
    obtain ⟨rfl, rfl⟩ := h0
    rw [(mask_properties m.h m.w r hor ver _ _ (ifftshiftIdx_lt _ _ hh) (ifftshiftIdx_lt _ _ hw)).1 ((ifft_mid _ _ hh).2 rfl)]
    ring

/-- Left and right exchanged. -/
theorem spectrum_col (m m' : Mat ℝ) (s : ℕ) (r : ℝ) (hor ver : Option ℤ) (hh : 0 < m.h) (hw : 0 < m.w) (h1 : m'.h = m.h) (h2 : m'.w = m.w)
    (h3 : ∀ i < m.h, ∀ j < m.w, m'.get i j = m.get i (Fourier.refl m.w s j)) :
    spectrumMean m' (invWedge m.h m.w r hor ver) = spectrumMean m (invWedge m.h m.w r hor ver) := by
  rw [spectrum_congr m' ⟨m.h, m.w, fun i j => m.get i (Fourier.refl m.w s j)⟩ _ ⟨h1, h2, fun i hi j hj => h3 i (h1 ▸ hi) j (h2 ▸ hj)⟩,
    spectrum_freq ⟨m.h, m.w, fun i j => m.get i (Fourier.refl m.w s j)⟩ _ hh hw, spectrum_freq m _ hh hw]
  congr 1
  refine Finset.sum_congr rfl fun k hk => ?_
  rw [← sum_neg_freq m.w (fun l => ‖dft2 m.h m.w (fun i j => (m.get i j : ℂ)) k l‖ * _)]
  refine Finset.sum_congr rfl fun l hl => ?_
  have hl := Finset.mem_range.1 hl
  rw [dft2_col_refl m.h m.w s (fun i j => (m.get i j : ℂ)) k l hl]
  congr 1
  rcases ifft_neg m.w l hl with h | h
  · exact (mask_properties m.h m.w r hor ver _ _ (ifftshiftIdx_lt _ _ hh) (ifftshiftIdx_lt _ _ hw)).2.2.1 _ (ifftshiftIdx_lt _ _ hw) h
  · rw [h]

/-- Top and bottom exchanged. -/
theorem spectrum_row (m m' : Mat ℝ) (s : ℕ) (r : ℝ) (hor ver : Option ℤ) (hh : 0 < m.h) (hw : 0 < m.w) (h1 : m'.h = m.h) (h2 : m'.w = m.w)
    (h3 : ∀ i < m.h, ∀ j < m.w, m'.get i j = m.get (Fourier.refl m.h s i) j) :
    spectrumMean m' (invWedge m.h m.w r hor ver) = spectrumMean m (invWedge m.h m.w r hor ver) := by
  rw [spectrum_congr m' ⟨m.h, m.w, fun i j => m.get (Fourier.refl m.h s i) j⟩ _ ⟨h1, h2, fun i hi j hj => h3 i (h1 ▸ hi) j (h2 ▸ hj)⟩,
    spectrum_freq ⟨m.h, m.w, fun i j => m.get (Fourier.refl m.h s i) j⟩ _ hh hw, spectrum_freq m _ hh hw]
  congr 1
  refine Finset.sum_congr rfl fun k hk => ?_
  rw [← sum_neg_freq m.w (fun l => ‖dft2 m.h m.w (fun i j => (m.get i j : ℂ)) k l‖ * _)]
  refine Finset.sum_congr rfl fun l hl => ?_
  have hk := Finset.mem_range.1 hk
  have hl := Finset.mem_range.1 hl
  rw [dft2_row_refl m.h m.w s (fun i j => (m.get i j : ℂ)) k l hk, dft2_real m.h m.w m.get k l hk hl]
  congr 1
  rcases ifft_neg m.w l hl with h | h
  · exact (mask_properties m.h m.w r hor ver _ _ (ifftshiftIdx_lt _ _ hh) (ifftshiftIdx_lt _ _ hw)).2.2.1 _ (ifftshiftIdx_lt _ _ hw) h
  · rw [h]

/-- The completed sinogram, entry by entry: upper half, then the lower half with the position of the source. -/
theorem completed_get (S : Mat ℝ → ℝ → Mat ℝ) (c : ℝ) (m : Mat ℝ) (i j : ℕ) (hj : j < m.w) :
    (completed S c m m.fliplr (flipud m)).h = 2 * m.h ∧ (completed S c m m.fliplr (flipud m)).w = m.w ∧
    (i < m.h → (completed S c m m.fliplr (flipud m)).get i j = m.get i j) ∧
    (∀ s : ℝ, s = 2 * c - (m.w - 1) → (completed S c m m.fliplr (flipud m)).get (m.h + i) j =
      if (j : ℝ) - s < 0 ∨ (m.w : ℝ) - 1 < (j : ℝ) - s then m.get (m.h - 1 - i) j
      else if (⌊s⌋ : ℝ) = s then m.get i (m.w - 1 - ((j : ℤ) - ⌊s⌋).toNat) else (S m.fliplr s).get i j) := by
  have hsh : ∀ f : Prop, ∀ [Decidable f], (if f then rollFill m.fliplr (flipud m) ⌊2 * (c - ((m.w : ℝ) - 1) / 2)⌋ else
      shiftFill S m.fliplr (flipud m) (2 * (c - ((m.w : ℝ) - 1) / 2))).h = m.h := by
    intro f _
    split <;> rfl
  refine ⟨?_, rfl, fun hi => ?_, fun s hs => ?_⟩
  · unfold completed vstack
    dsimp only
    rw [hsh]
    ring
  · unfold completed vstack
    dsimp only
    rw [if_pos hi]
  · unfold completed vstack
    dsimp only
    rw [if_neg (by omega), Nat.add_sub_cancel_left, show 2 * (c - ((m.w : ℝ) - 1) / 2) = s by rw [hs]; ring]
    have hj' : (j : ℝ) ≤ (m.w : ℝ) - 1 := by
      have : (j : ℝ) + 1 ≤ m.w := by exact_mod_cast hj
      linarith
    have hj0 : (0 : ℝ) ≤ j := Nat.cast_nonneg j
    by_cases hint : (⌊s⌋ : ℝ) = s
    · rw [if_pos (by rw [hint, sub_self, abs_zero]), if_pos hint]
      unfold rollFill Mat.fliplr flipud
      dsimp only
      rw [← hint]
      generalize ⌊s⌋ = z
      simp only [Int.floor_intCast]
      have e1 : ((j : ℝ) - (z : ℝ) < 0) ↔ (j : ℤ) < z := by
        rw [sub_neg]
        exact_mod_cast Iff.rfl
      have e2 : ((m.w : ℝ) - 1 < (j : ℝ) - z) ↔ (m.w : ℤ) + z ≤ j := by
        rw [show ((m.w : ℝ) - 1 < (j : ℝ) - z) ↔ ((m.w : ℝ) + z < j + 1) by constructor <;> intro h <;> linarith]
        have : ((m.w : ℝ) + z < j + 1) ↔ ((m.w : ℤ) + z < j + 1) := by exact_mod_cast Iff.rfl
        rw [this]
        omega
      by_cases h0 : 0 ≤ z
      · rw [if_pos h0]
        by_cases h1 : (j : ℤ) < z
        · rw [if_pos h1, if_pos (.inl (e1.2 h1))]
        · rw [if_neg h1, if_neg (by rw [e1, e2]; omega), Int.emod_eq_of_lt (by omega) (by omega)]
      · rw [if_neg h0]
        by_cases h1 : (m.w : ℤ) + z ≤ j
        · rw [if_pos h1, if_pos (.inr (e2.2 h1))]
        · rw [if_neg h1, if_neg (by rw [e1, e2]; omega), Int.emod_eq_of_lt (by omega) (by omega)]
    · have hne : ¬ |s - ⌊s⌋| = 0 := fun h => hint (by linarith [abs_eq_zero.1 h])
      rw [if_neg hne, if_neg hint]
      unfold shiftFill Mat.fliplr flipud
      dsimp only
      by_cases h0 : 0 ≤ s
      · rw [if_pos h0]
        have e : (j : ℤ) < ⌈s⌉ ↔ (j : ℝ) - s < 0 := by
          rw [Int.lt_ceil, sub_neg]
          rfl
        by_cases h1 : (j : ℤ) < ⌈s⌉
        · rw [if_pos h1, if_pos (.inl (e.1 h1))]
        · rw [if_neg h1, if_neg]
          rintro (h | h)
          · exact h1 (e.2 h)
          · linarith
      · rw [if_neg h0]
        have e : (m.w : ℤ) + ⌊s⌋ ≤ j ↔ (m.w : ℝ) - 1 < (j : ℝ) - s := by
          have h2 : (⌊s⌋ : ℝ) < s := lt_of_le_of_ne (Int.floor_le s) hint
          have h3 := Int.lt_floor_add_one s
          constructor
          · intro h
            have : (m.w : ℝ) + ⌊s⌋ ≤ j := by exact_mod_cast h
            linarith
          · intro h
            have h4 : ⌊s⌋ < (j : ℤ) - m.w + 1 := Int.floor_lt.2 (by push_cast; linarith)
            omega
        by_cases h1 : (m.w : ℤ) + ⌊s⌋ ≤ j
        · rw [if_pos h1, if_pos (.inr (e.1 h1))]
        · rw [if_neg h1, if_neg]
          rintro (h | h)
          · linarith
          · exact h1 (e.2 h)

theorem completed_shape (S : Mat ℝ → ℝ → Mat ℝ) (c : ℝ) (m : Mat ℝ) :
    (completed S c m m.fliplr (flipud m)).h = 2 * m.h ∧ (completed S c m m.fliplr (flipud m)).w = m.w := by
  constructor
  · unfold completed vstack
    dsimp only
    split <;> (show m.h + m.h = _; ring)
  · rfl

theorem eqv_fliplr {m m' : Mat ℝ} (h : m.Eqv m') : m.fliplr.Eqv m'.fliplr := by
  obtain ⟨h1, h2, h3⟩ := h
  refine ⟨h1, h2, fun i hi j hj => ?_⟩
  show m.get i (m.w - 1 - j) = m'.get i (m'.w - 1 - j)
  rw [← h2]
  exact h3 i hi _ (by have : j < m.w := hj; omega)

/-- The metric depends on the pixels only. -/
theorem metric_congr (S : Mat ℝ → ℝ → Mat ℝ) (hS : IsShift S) (o : Opts) (m m' : Mat ℝ) (h : m.Eqv m') (c : ℝ) :
    metricOf S o m c = metricOf S o m' c := by
  unfold metricOf centerMetric
  obtain ⟨h1, h2, h3⟩ := id h
  rw [h1, h2]
  refine spectrum_congr _ _ _ ?_
  refine ⟨by rw [(completed_shape S c m).1, (completed_shape S c m').1, h1], by rw [(completed_shape S c m).2, (completed_shape S c m').2, h2],
    fun i hi j hj => ?_⟩
  rw [(completed_shape S c m).1] at hi
  rw [(completed_shape S c m).2] at hj
  have hj' : j < m'.w := h2 ▸ hj
  rcases Nat.lt_or_ge i m.h with hlt | hge
  · rw [(completed_get S c m i j hj).2.2.1 hlt, (completed_get S c m' i j hj').2.2.1 (h1 ▸ hlt), h3 i hlt j hj]
  · obtain ⟨k, rfl⟩ := Nat.exists_eq_add_of_le hge
    have hk : k < m.h := by omega
    rw [(completed_get S c m k j hj).2.2.2 _ rfl]
    have := (completed_get S c m' k j hj').2.2.2 _ rfl
    rw [← h1, ← h2] at this
    rw [this]
    by_cases ho : (j : ℝ) - (2 * c - ((m.w : ℝ) - 1)) < 0 ∨ (m.w : ℝ) - 1 < (j : ℝ) - (2 * c - ((m.w : ℝ) - 1))
    · rw [if_pos ho, if_pos ho, h3 _ (by omega) j hj]
    · rw [if_neg ho, if_neg ho]
      split
      · exact h3 k hk _ (by omega)
      · exact hS.congr _ _ (eqv_fliplr h) _ k hk j hj

/-- **C132.** Unit and offset: the metric of `a * sinogram + b` is `|a|` times the metric of the sinogram, at every centre. -/
theorem metric_affine (S : Mat ℝ → ℝ → Mat ℝ) (hS : IsShift S) (o : Opts) (m : Mat ℝ) (a b c : ℝ) (hh : 0 < m.h) (hw : 0 < m.w) :
    metricOf S o (aff a b m) c = |a| * metricOf S o m c := by
  unfold metricOf centerMetric
  have hs := completed_shape S c m
  have key := spectrum_affine (completed S c m m.fliplr (flipud m)) a b (0.5 * o.ratio * m.w) o.hor o.ver (by omega) (by omega)
  rw [hs.1, hs.2] at key
  show spectrumMean _ (invWedge (2 * m.h) m.w (0.5 * o.ratio * m.w) o.hor o.ver) = _
  rw [← key]
  refine spectrum_congr _ _ _ ?_
  have hs' := completed_shape S c (aff a b m)
  refine ⟨by rw [hs'.1]; exact hs.1.symm, by rw [hs'.2]; exact hs.2.symm, fun i hi j hj => ?_⟩
  rw [hs'.1] at hi
  rw [hs'.2] at hj
  have hi : i < 2 * m.h := hi
  have hj : j < m.w := hj
  show _ = a * (completed S c m m.fliplr (flipud m)).get i j + b
  rcases Nat.lt_or_ge i m.h with hlt | hge
  · rw [(completed_get S c (aff a b m) i j hj).2.2.1 hlt, (completed_get S c m i j hj).2.2.1 hlt]
    rfl
  · obtain ⟨k, rfl⟩ := Nat.exists_eq_add_of_le hge
    have hk : k < m.h := by omega
    rw [(completed_get S c m k j hj).2.2.2 _ rfl]
    have := (completed_get S c (aff a b m) k j hj).2.2.2 (2 * c - ((m.w : ℝ) - 1)) rfl
    refine this.trans ?_
    show (if (j : ℝ) - (2 * c - ((m.w : ℝ) - 1)) < 0 ∨ (m.w : ℝ) - 1 < (j : ℝ) - (2 * c - ((m.w : ℝ) - 1)) then _ else _) = _
    by_cases ho : (j : ℝ) - (2 * c - ((m.w : ℝ) - 1)) < 0 ∨ (m.w : ℝ) - 1 < (j : ℝ) - (2 * c - ((m.w : ℝ) - 1))
    · rw [if_pos ho, if_pos ho]
      rfl
    · rw [if_neg ho, if_neg ho]
      push Not at ho
      split
      · rfl
      · exact hS.affine m.fliplr a b _ k hk j hj ho.1 ho.2

/-- **C132.** Direction of the scan: the projections in the opposite order give the same metric, at every centre. -/
theorem metric_reverse (S : Mat ℝ → ℝ → Mat ℝ) (hS : IsShift S) (o : Opts) (m : Mat ℝ) (c : ℝ) (hh : 0 < m.h) (hw : 0 < m.w) :
    metricOf S o (flipud m) c = metricOf S o m c := by
  unfold metricOf centerMetric
  have hs := completed_shape S c m
  have hs' := completed_shape S c (flipud m)
  have key := spectrum_row (completed S c m m.fliplr (flipud m)) (completed S c (flipud m) (flipud m).fliplr (flipud (flipud m))) (m.h - 1)
    (0.5 * o.ratio * m.w) o.hor o.ver (by omega) (by omega) (by rw [hs'.1, hs.1]; rfl) (by rw [hs'.2, hs.2]; rfl) ?_
  · rw [hs.1, hs.2] at key
    exact key
  · rw [hs.1, hs.2]
    intro i hi j hj
    rcases Nat.lt_or_ge i m.h with hlt | hge
    · have e : Fourier.refl (2 * m.h) (m.h - 1) i = m.h - 1 - i := by
        unfold Fourier.refl
        rw [show m.h - 1 + (2 * m.h - i) = (m.h - 1 - i) + 2 * m.h by omega, Nat.add_mod_right, Nat.mod_eq_of_lt (by omega)]
      rw [e, (completed_get S c (flipud m) i j hj).2.2.1 hlt, (completed_get S c m _ j hj).2.2.1 (by omega)]
      rfl
    · obtain ⟨k, rfl⟩ := Nat.exists_eq_add_of_le hge
      have hk : k < m.h := by omega
      have e : Fourier.refl (2 * m.h) (m.h - 1) (m.h + k) = m.h + (m.h - 1 - k) := by
        unfold Fourier.refl
        rw [show m.h - 1 + (2 * m.h - (m.h + k)) = m.h + (m.h - 1 - k) by omega, Nat.mod_eq_of_lt (by omega)]
      rw [e, (completed_get S c m _ j hj).2.2.2 _ rfl]
      refine ((completed_get S c (flipud m) k j hj).2.2.2 (2 * c - ((m.w : ℝ) - 1)) rfl).trans ?_
      show (if (j : ℝ) - (2 * c - ((m.w : ℝ) - 1)) < 0 ∨ (m.w : ℝ) - 1 < (j : ℝ) - (2 * c - ((m.w : ℝ) - 1)) then _ else _) = _
      by_cases ho : (j : ℝ) - (2 * c - ((m.w : ℝ) - 1)) < 0 ∨ (m.w : ℝ) - 1 < (j : ℝ) - (2 * c - ((m.w : ℝ) - 1))
      · rw [if_pos ho, if_pos ho]
        rfl
      · rw [if_neg ho, if_neg ho]
        split
        · rfl
        · exact hS.flipud m.fliplr _ k hk j hj

/-- **C132.** Mirrored detector: the metric of the left-right mirrored sinogram at the mirrored centre `ncol - 1 - c` is that of the sinogram
at `c`. -/
theorem metric_mirror (S : Mat ℝ → ℝ → Mat ℝ) (hS : IsShift S) (o : Opts) (m : Mat ℝ) (c : ℝ) (hh : 0 < m.h) (hw : 0 < m.w) :
    metricOf S o m.fliplr ((m.w : ℝ) - 1 - c) = metricOf S o m c := by
  unfold metricOf centerMetric
  generalize hc' : (m.w : ℝ) - 1 - c = c'
  have hs := completed_shape S c m
  have hs' := completed_shape S c' m.fliplr
  have key := spectrum_col (completed S c m m.fliplr (flipud m)) (completed S c' m.fliplr m.fliplr.fliplr (flipud m.fliplr)) (m.w - 1)
    (0.5 * o.ratio * m.w) o.hor o.ver (by omega) (by omega) (by rw [hs'.1, hs.1]; rfl) (by rw [hs'.2, hs.2]; rfl) ?_
  · rw [hs.1, hs.2] at key
    exact key
  · rw [hs.1, hs.2]
    intro i hi j hj
    have e : Fourier.refl m.w (m.w - 1) j = m.w - 1 - j := by
      unfold Fourier.refl
      rw [show m.w - 1 + (m.w - j) = (m.w - 1 - j) + m.w by omega, Nat.add_mod_right, Nat.mod_eq_of_lt (by omega)]
    rw [e]
    have hj2 : m.w - 1 - j < m.w := by omega
    rcases Nat.lt_or_ge i m.h with hlt | hge
    · rw [(completed_get S c' m.fliplr i j hj).2.2.1 hlt, (completed_get S c m i _ hj2).2.2.1 hlt]
      rfl
    · obtain ⟨k, rfl⟩ := Nat.exists_eq_add_of_le hge
      have hk : k < m.h := by omega
      generalize hz : 2 * c - ((m.w : ℝ) - 1) = s
      rw [(completed_get S c m k _ hj2).2.2.2 s hz.symm]
      refine ((completed_get S c' m.fliplr k j hj).2.2.2 (-s) (by show -s = 2 * c' - ((m.w : ℝ) - 1); rw [← hz, ← hc']; ring)).trans ?_
      show (if (j : ℝ) - -s < 0 ∨ (m.w : ℝ) - 1 < (j : ℝ) - -s then _ else _) = _
      have ej : ((m.w - 1 - j : ℕ) : ℝ) = (m.w : ℝ) - 1 - j := by
        rw [Nat.cast_sub (by omega), Nat.cast_sub (by omega), Nat.cast_one]
      rw [ej]
      by_cases ho : (m.w : ℝ) - 1 - j - s < 0 ∨ (m.w : ℝ) - 1 < (m.w : ℝ) - 1 - j - s
      · rw [if_pos ho, if_pos (by rcases ho with h | h; · right; linarith
                                  · left; linarith)]
        rfl
      · rw [if_neg ho, if_neg (by rintro (h | h); · exact ho (.inr (by linarith))
                                  · exact ho (.inl (by linarith)))]
        push Not at ho
        by_cases hint : (⌊s⌋ : ℝ) = s
        · have hneg : (⌊-s⌋ : ℝ) = -s ∧ ⌊-s⌋ = -⌊s⌋ := by
            have : ⌊-s⌋ = -⌊s⌋ := by
              conv_lhs => rw [← hint]
              rw [← Int.cast_neg, Int.floor_intCast]
            rw [this]
            push_cast
            exact ⟨by rw [hint], rfl⟩
          rw [if_pos hint, if_pos hneg.1, hneg.2]
          show m.get k (m.w - 1 - (m.w - 1 - ((j : ℤ) - -⌊s⌋).toNat)) = m.get k (m.w - 1 - (((m.w - 1 - j : ℕ) : ℤ) - ⌊s⌋).toNat)
          have h1 : (0 : ℤ) ≤ (m.w : ℤ) - 1 - j - ⌊s⌋ := by
            have := ho.1
            rw [← hint] at this
            exact_mod_cast this
          have h2 : (m.w : ℤ) - 1 - j - ⌊s⌋ ≤ (m.w : ℤ) - 1 := by
            have := ho.2
            rw [← hint] at this
            exact_mod_cast this
          congr 1
          omega
        · have hneg : ¬ (⌊-s⌋ : ℝ) = -s := by
            intro h
            apply hint
            have : s = ((-⌊-s⌋ : ℤ) : ℝ) := by push_cast; rw [h]; ring
            rw [this, Int.floor_intCast]
          rw [if_neg hint, if_neg hneg]
          exact hS.fliplr m.fliplr s k hk j hj

/-! ### the searches -/

/-- What a search returns, whatever the number of workers and the order in which they finish. -/
theorem search_eq (ncore : ℕ) (f : ℝ → ℝ) (cors : List ℝ) (sched : List Ev) (r : Py ℝ) (h : search ncore id f cors sched = some r) :
    r = (argmin (cors.map f)).map fun i => cors.getD i 0 := by
  unfold search metricList at h
  by_cases hn : ncore = 1
  · simp only [hn, if_true, id, Option.map_some, Option.some.injEq] at h
    exact h.symm
  · simp only [hn, if_false] at h
    cases hp : parMap cors.length ncore (fun i => f (cors.getD i 0)) sched with
    | none => rw [hp] at h; cases h
    | some l =>
      rw [hp, parMap_eq _ _ _ _ _ hp, parMap_getD] at h
      simpa using h.symm

theorem argmin_scale (l l' : List ℝ) (k : ℝ) (hk : 0 < k) (h : l' = l.map fun x => k * x) : argmin l' = argmin l := by
  subst h
  unfold argmin
  by_cases h0 : l = []
  · subst h0
    rfl
  · rw [if_neg h0, if_neg (by simpa using h0), List.findIdx_map]
    congr 1
    congr 1
    funext x
    simp only [Function.comp, List.all_map]
    congr 1
    funext y
    simp only [Function.comp, decide_eq_decide]
    exact mul_le_mul_iff_right₀ hk

/-- Two searches over the same candidates whose metrics differ by a positive factor agree. -/
theorem search_scale (n n' : ℕ) (f f' : ℝ → ℝ) (k : ℝ) (hk : 0 < k) (hf : ∀ c, f' c = k * f c) (cors : List ℝ) (sc sc' : List Ev) (r r' : Py ℝ)
    (h : search n id f cors sc = some r) (h' : search n' id f' cors sc' = some r') : r' = r := by
  rw [search_eq _ _ _ _ _ h, search_eq _ _ _ _ _ h',
    argmin_scale (cors.map f) (cors.map f') k hk (by rw [List.map_map]; exact List.map_congr_left fun c _ => hf c)]

theorem searchCor_def (S : Mat ℝ → ℝ → Mat ℝ) (o : Opts) (m : Mat ℝ) (cors : List ℝ) (sc : List Ev) :
    searchCor S o m cors sc = search o.ncore id (metricOf S o m) cors sc := rfl

/-- **C132.** Either search, unit and offset: `a * sinogram + b` with `a ≠ 0` gives the same centre over the same candidates, for all numbers
of workers and all orders in which they finish. -/
theorem search_affine (S : Mat ℝ → ℝ → Mat ℝ) (hS : IsShift S) (o : Opts) (n' : ℕ) (m : Mat ℝ) (a b : ℝ) (ha : a ≠ 0) (hh : 0 < m.h)
    (hw : 0 < m.w) (cors : List ℝ) (sc sc' : List Ev) (r r' : Py ℝ) (h : searchCor S o m cors sc = some r)
    (h' : searchCor S { o with ncore := n' } (aff a b m) cors sc' = some r') : r' = r :=
  search_scale _ _ _ _ |a| (abs_pos.2 ha) (fun c => metric_affine S hS o m a b c hh hw) cors sc sc' r r' h h'

/-- **C132.** Either search, direction of the scan: the projections in the opposite order give the same centre. -/
theorem search_reverse (S : Mat ℝ → ℝ → Mat ℝ) (hS : IsShift S) (o : Opts) (n' : ℕ) (m : Mat ℝ) (hh : 0 < m.h) (hw : 0 < m.w)
    (cors : List ℝ) (sc sc' : List Ev) (r r' : Py ℝ) (h : searchCor S o m cors sc = some r)
    (h' : searchCor S { o with ncore := n' } (flipud m) cors sc' = some r') : r' = r :=
  search_scale _ _ _ _ 1 one_pos (fun c => (metric_reverse S hS o m c hh hw).trans (one_mul _).symm) cors sc sc' r r' h h'

/-- `c` is the only best candidate. -/
def OnlyBest (f : ℝ → ℝ) (cors : List ℝ) (c : ℝ) : Prop := c ∈ cors ∧ ∀ c' ∈ cors, c' ≠ c → f c < f c'

theorem search_only (n : ℕ) (f : ℝ → ℝ) (cors : List ℝ) (sc : List Ev) (r : Py ℝ) (c : ℝ) (hc : OnlyBest f cors c)
    (h : search n id f cors sc = some r) : r = .ok c := by
  obtain ⟨c', hr, h1, h2⟩ := search_best n id f cors sc (List.ne_nil_of_mem hc.1) r h
  rw [hr]
  by_contra hne
  have hne' : c' ≠ c := fun e => hne (by rw [e])
  have h3 := hc.2 c' h1 hne'
  have h4 := h2 c hc.1
  simp only [id, ite_self] at h4
  linarith

/-- **C132.** Either search, mirrored detector: over the mirrored candidates the mirrored sinogram has the mirrored centre as its only best
one exactly when the sinogram has the centre as its only best one. -/
theorem search_mirror (S : Mat ℝ → ℝ → Mat ℝ) (hS : IsShift S) (o : Opts) (n' : ℕ) (m : Mat ℝ) (hh : 0 < m.h) (hw : 0 < m.w)
    (cors cors' : List ℝ) (hc : ∀ c, c ∈ cors' ↔ (m.w : ℝ) - 1 - c ∈ cors) (c : ℝ) (hb : OnlyBest (metricOf S o m) cors c)
    (sc sc' : List Ev) (r r' : Py ℝ) (h : searchCor S o m cors sc = some r)
    (h' : searchCor S { o with ncore := n' } m.fliplr cors' sc' = some r') : r = .ok c ∧ r' = .ok ((m.w : ℝ) - 1 - c) := by
  refine ⟨search_only _ _ _ _ _ c hb h, search_only _ _ _ _ _ _ ⟨(hc _).2 (by rw [sub_sub_cancel]; exact hb.1), fun c' h1 h2 => ?_⟩ h'⟩
  have h3 := hb.2 _ ((hc c').1 h1) (fun e => h2 (by rw [← e]; ring))
  have e1 : metricOf S { o with ncore := n' } m.fliplr ((m.w : ℝ) - 1 - c) = metricOf S o m c := metric_mirror S hS o m c hh hw
  have e2 : metricOf S { o with ncore := n' } m.fliplr c' = metricOf S o m ((m.w : ℝ) - 1 - c') := by
    have := metric_mirror S hS o m ((m.w : ℝ) - 1 - c') hh hw
    rw [sub_sub_cancel] at this
    exact this
  show metricOf S { o with ncore := n' } m.fliplr ((m.w : ℝ) - 1 - c) < metricOf S { o with ncore := n' } m.fliplr c'
  rw [e1, e2]
  exact h3

/-- The candidates of a coarse search between whole columns of the detector. -/
theorem coarse_mirror (w : ℕ) (a b : ℤ) (ha : 0 ≤ a) (hb : b ≤ (w : ℤ) - 1) (hab : a ≤ b) (c : ℝ) :
    c ∈ coarseList w ((w : ℝ) - 1 - b) ((w : ℝ) - 1 - a) ↔ (w : ℝ) - 1 - c ∈ coarseList w (a : ℝ) b := by
  have key : ∀ p q : ℤ, 0 ≤ p → q ≤ (w : ℤ) - 1 → p ≤ q → ∀ x : ℝ, x ∈ coarseList w (p : ℝ) q ↔ ∃ z : ℤ, p ≤ z ∧ z ≤ q ∧ x = z := by
    intro p q hp hq hpq x
    have cl : ∀ z : ℤ, 0 ≤ z → z ≤ (w : ℤ) - 1 → pyTrunc (min (max (z : ℝ) 0) ((w : ℝ) - 1)) = z := by
      intro z h0 h1
      have h0' : (0 : ℝ) ≤ z := by exact_mod_cast h0
      have h1' : (z : ℝ) ≤ (w : ℝ) - 1 := by
        have : ((z : ℤ) : ℝ) ≤ (((w : ℤ) - 1 : ℤ) : ℝ) := by exact_mod_cast h1
        push_cast at this
        exact this
      rw [max_eq_left h0', min_eq_left h1']
      unfold pyTrunc
      split <;> simp
    unfold coarseList
    dsimp only
    rw [cl p hp (by omega), cl q (by omega) hq]
    simp only [List.mem_map, List.mem_range]
    constructor
    · rintro ⟨k, hk, rfl⟩
      exact ⟨p + k, by omega, by omega, by push_cast; ring⟩
    · rintro ⟨z, h1, h2, rfl⟩
      refine ⟨(z - p).toNat, by omega, ?_⟩
      have : p + (((z - p).toNat : ℕ) : ℤ) = z := by omega
      rw [this]
  have e1 : ((w : ℝ) - 1 - b) = (((w : ℤ) - 1 - b : ℤ) : ℝ) := by push_cast; ring
  have e2 : ((w : ℝ) - 1 - a) = (((w : ℤ) - 1 - a : ℤ) : ℝ) := by push_cast; ring
  rw [e1, e2, key _ _ (by omega) (by omega) (by omega), key _ _ ha hb hab]
  constructor
  · rintro ⟨z, h1, h2, rfl⟩
    exact ⟨(w : ℤ) - 1 - z, by omega, by omega, by push_cast; ring⟩
  · rintro ⟨z, h1, h2, h3⟩
    exact ⟨(w : ℤ) - 1 - z, by omega, by omega, by push_cast; linarith⟩

/-- The candidates of a fine search whose width is a whole number of steps. -/
theorem fine_mirror (w : ℕ) (start step : ℝ) (N : ℕ) (hs : 0 < step) (hw : 0 < w) (c : ℝ) :
    c ∈ fineList w ((w : ℝ) - 1 - start) (N * step / 2) step ↔ (w : ℝ) - 1 - c ∈ fineList w start (N * step / 2) step := by
  have hn : ⌈((N : ℝ) * step / 2 + step - -((N : ℝ) * step / 2)) / step⌉.toNat = N + 1 := by
    have : ((N : ℝ) * step / 2 + step - -((N : ℝ) * step / 2)) / step = ((N + 1 : ℕ) : ℝ) := by
      field_simp
      push_cast
      ring
    rw [this, Int.ceil_natCast, Int.toNat_natCast]
  have hcl : ∀ x : ℝ, (w : ℝ) - 1 - min (max x 0) ((w : ℝ) - 1) = min (max ((w : ℝ) - 1 - x) 0) ((w : ℝ) - 1) := by
    intro x
    have hw' : (0 : ℝ) ≤ (w : ℝ) - 1 := by
      have : (1 : ℝ) ≤ w := by exact_mod_cast hw
      linarith
    rcases le_total x 0 with h | h
    · rw [max_eq_right h, min_eq_left hw', max_eq_left (by linarith), min_eq_right (by linarith), sub_zero]
    · rw [max_eq_left h]
      rcases le_total x ((w : ℝ) - 1) with h' | h'
      · rw [min_eq_left h', max_eq_left (by linarith), min_eq_left (by linarith)]
      · rw [min_eq_right h', max_eq_right (by linarith), min_eq_left hw', sub_self]
  unfold fineList
  simp only [hn, List.mem_map, List.mem_range]
  constructor
  · rintro ⟨k, hk, rfl⟩
    refine ⟨N - k, by omega, ?_⟩
    rw [hcl, Nat.cast_sub (by omega)]
    congr 2
    ring
  · rintro ⟨k, hk, h⟩
    refine ⟨N - k, by omega, ?_⟩
    have h2 : c = (w : ℝ) - 1 - min (max (start + (-((N : ℝ) * step / 2) + (k : ℝ) * step)) 0) ((w : ℝ) - 1) := by rw [h]; ring
    rw [h2, hcl, Nat.cast_sub (by omega)]
    congr 2
    ring

/-! ### the whole function -/

theorem downsample_shape (m : Mat ℝ) (f0 f1 : ℕ) (hh : 2 ≤ m.h) (hw : 2 ≤ m.w) : 0 < (downsample m f0 f1).h ∧ 0 < (downsample m f0 f1).w := by
  unfold downsample
  exact ⟨Nat.div_pos (by omega) (by omega), Nat.div_pos (by omega) (by omega)⟩

theorem downsample_congr (m m' : Mat ℝ) (f0 f1 : ℕ) (h : m.Eqv m') : (downsample m f0 f1).Eqv (downsample m' f0 f1) := by
  obtain ⟨h1, h2, h3⟩ := h
  unfold downsample
  dsimp only
  rw [← h1, ← h2]
  refine ⟨rfl, rfl, fun i hi j hj => ?_⟩
  dsimp only at hi hj ⊢
  generalize min (max f0 1) (m.h / 2) = d0 at *
  generalize min (max f1 1) (m.w / 2) = d1 at *
  congr 1
  refine Finset.sum_congr rfl fun a ha => ?_
  congr 1
  refine Finset.sum_congr rfl fun b hb => ?_
  have ha := Finset.mem_range.1 ha
  have hb := Finset.mem_range.1 hb
  have q1 : i * d0 + a < m.h := by
    have := Nat.mul_le_of_le_div _ _ _ (Nat.succ_le_of_lt hi)
    rw [Nat.succ_mul] at this
    omega
  have q2 : j * d1 + b < m.w := by
    have := Nat.mul_le_of_le_div _ _ _ (Nat.succ_le_of_lt hj)
    rw [Nat.succ_mul] at this
    omega
  exact h3 _ q1 _ q2

theorem downsample_affine (m : Mat ℝ) (f0 f1 : ℕ) (a b : ℝ) (hh : 2 ≤ m.h) (hw : 2 ≤ m.w) :
    (downsample (aff a b m) f0 f1).Eqv (aff a b (downsample m f0 f1)) := by
  refine ⟨rfl, rfl, fun i hi j hj => ?_⟩
  unfold downsample aff
  dsimp only
  have p0 : 0 < min (max f0 1) (m.h / 2) := by omega
  have p1 : 0 < min (max f1 1) (m.w / 2) := by omega
  generalize min (max f0 1) (m.h / 2) = d0 at *
  generalize min (max f1 1) (m.w / 2) = d1 at *
  have q0 : (d0 : ℝ) ≠ 0 := by exact_mod_cast p0.ne'
  have q1 : (d1 : ℝ) ≠ 0 := by exact_mod_cast p1.ne'
  have e : ∀ x : ℕ, (∑ y ∈ Finset.range d1, (a * m.get (i * d0 + x) (j * d1 + y) + b)) / (d1 : ℝ) =
      a * ((∑ y ∈ Finset.range d1, m.get (i * d0 + x) (j * d1 + y)) / d1) + b := by
    intro x
    rw [Finset.sum_add_distrib, ← Finset.mul_sum, Finset.sum_const, Finset.card_range, nsmul_eq_mul]
    field_simp
  simp only [e]
  rw [Finset.sum_add_distrib, ← Finset.mul_sum, Finset.sum_const, Finset.card_range, nsmul_eq_mul]
  field_simp

theorem downsample_flipud (m : Mat ℝ) (f0 f1 : ℕ) (hh : 2 ≤ m.h) (hd : min (max f0 1) (m.h / 2) ∣ m.h) :
    (downsample (flipud m) f0 f1).Eqv (flipud (downsample m f0 f1)) := by
  refine ⟨rfl, rfl, fun i hi j hj => ?_⟩
  unfold downsample flipud at *
  dsimp only at hi ⊢
  have p0 : 0 < min (max f0 1) (m.h / 2) := by omega
  generalize min (max f0 1) (m.h / 2) = d0 at *
  generalize min (max f1 1) (m.w / 2) = d1 at *
  obtain ⟨q, hq⟩ := hd
  rw [hq] at hi ⊢
  rw [Nat.mul_div_cancel_left _ p0] at hi ⊢
  congr 1
  rw [← Finset.sum_range_reflect]
  refine Finset.sum_congr rfl fun a ha => ?_
  have ha := Finset.mem_range.1 ha
  congr 1
  refine Finset.sum_congr rfl fun b _ => ?_
  congr 1
  obtain ⟨k, hk⟩ : ∃ k, q = i + 1 + k := ⟨q - i - 1, by omega⟩
  subst hk
  rw [show i + 1 + k - 1 - i = k by omega, Nat.mul_add, Nat.mul_add, Nat.mul_comm i d0, Nat.mul_comm k d0]
  omega

/-- The two calls agree when all their metrics differ by positive factors. -/
theorem find_scale (S : Mat ℝ → ℝ → Mat ℝ) (g1 g2 : Mat ℝ → Mat ℝ) (o : Opts) (n' : ℕ) (m m' : Mat ℝ) (start stop : Option ℝ)
    (step radius : ℝ) (dsp : Bool) (sc1 sc2 sc1' sc2' : List Ev) (r r' : Py ℝ) (hsh : m'.h = m.h ∧ m'.w = m.w)
    (k : ℝ) (hk : 0 < k)
    (hg1 : (g1 m').w = (g1 m).w) (hg2 : (g2 m').w = (g2 m).w)
    (hf0 : ∀ c, metricOf S o (g1 m') c = k * metricOf S o (g1 m) c)
    (hf2 : ∀ c, metricOf S o (g2 m') c = k * metricOf S o (g2 m) c)
    (hf1 : dsp = true → ∀ c, metricOf S o (downsample (g1 m') (if 1000 < m.h then m.h / 900 else 1) (if 1000 < m.w then m.w / 640 else 1)) c =
      k * metricOf S o (downsample (g1 m) (if 1000 < m.h then m.h / 900 else 1) (if 1000 < m.w then m.w / 640 else 1)) c)
    (h : findCenterVo S g1 g2 o m start stop step radius dsp sc1 sc2 = some r)
    (h' : findCenterVo S g1 g2 { o with ncore := n' } m' start stop step radius dsp sc1' sc2' = some r') : r' = r := by
  unfold findCenterVo at h h'
  dsimp only at h h'
  rw [hsh.1, hsh.2] at h'
  cases dsp with
  | true =>
    rw [if_pos rfl] at h h'
    have hf1 := hf1 rfl
    generalize (if 1000 < m.w then m.w / 640 else 1) = dcol at *
    generalize (if 1000 < m.h then m.h / 900 else 1) = drow at *
    have hww : (downsample (g1 m') drow dcol).w = (downsample (g1 m) drow dcol).w := by
      unfold downsample
      dsimp only
      rw [hg1]
    unfold coarse fine at h h'
    rw [hww, hg2] at h'
    cases hc : searchCor S o (downsample (g1 m) drow dcol) (coarseList (downsample (g1 m) drow dcol).w
      ((⌊start.getD (((m.w / 2 : ℕ) : ℝ) - ((m.w / 16 : ℕ) : ℝ)) / dcol⌋ : ℤ) : ℝ)
      ((⌈stop.getD (((m.w / 2 : ℕ) : ℝ) + ((m.w / 16 : ℕ) : ℝ)) / dcol⌉ : ℤ) : ℝ)) sc1 with
    | none => rw [hc] at h; cases h
    | some x =>
      cases hc' : searchCor S { o with ncore := n' } (downsample (g1 m') drow dcol) (coarseList (downsample (g1 m) drow dcol).w
        ((⌊start.getD (((m.w / 2 : ℕ) : ℝ) - ((m.w / 16 : ℕ) : ℝ)) / dcol⌋ : ℤ) : ℝ)
        ((⌈stop.getD (((m.w / 2 : ℕ) : ℝ) + ((m.w / 16 : ℕ) : ℝ)) / dcol⌉ : ℤ) : ℝ)) sc1' with
      | none => rw [hc'] at h'; cases h'
      | some x' =>
        have hx := search_scale _ _ _ _ k hk hf1 _ _ _ _ _ hc hc'
        subst hx
        rw [hc] at h
        rw [hc'] at h'
        cases x' with
        | error e =>
          dsimp only at h h'
          rw [← Option.some.inj h, ← Option.some.inj h']
        | ok v => exact search_scale _ _ _ _ k hk hf2 _ _ _ _ _ h h'
  | false =>
    rw [if_neg Bool.false_ne_true] at h h'
    unfold coarse fine at h h'
    rw [hg1, hg2] at h'
    cases hc : searchCor S o (g1 m) (coarseList (g1 m).w (start.getD (((m.w / 2 : ℕ) : ℝ) - ((m.w / 16 : ℕ) : ℝ)))
      (stop.getD (((m.w / 2 : ℕ) : ℝ) + ((m.w / 16 : ℕ) : ℝ)))) sc1 with
    | none => rw [hc] at h; cases h
    | some x =>
      cases hc' : searchCor S { o with ncore := n' } (g1 m') (coarseList (g1 m).w (start.getD (((m.w / 2 : ℕ) : ℝ) - ((m.w / 16 : ℕ) : ℝ)))
        (stop.getD (((m.w / 2 : ℕ) : ℝ) + ((m.w / 16 : ℕ) : ℝ)))) sc1' with
      | none => rw [hc'] at h'; cases h'
      | some x' =>
        have hx := search_scale _ _ _ _ k hk hf0 _ _ _ _ _ hc hc'
        subst hx
        rw [hc] at h
        rw [hc'] at h'
        cases x' with
        | error e =>
          dsimp only at h h'
          rw [← Option.some.inj h, ← Option.some.inj h']
        | ok v => exact search_scale _ _ _ _ k hk hf2 _ _ _ _ _ h h'

/-- **C132.** `find_center_vo` of `a * sinogram + b`, `a ≠ 0`, is `find_center_vo` of the sinogram, for all options, numbers of workers and
orders in which they finish. -/
theorem find_affine (S : Mat ℝ → ℝ → Mat ℝ) (hS : IsShift S) (g1 g2 : Mat ℝ → Mat ℝ) (hG1 : IsSmooth g1) (hG2 : IsSmooth g2) (o : Opts)
    (n' : ℕ) (m : Mat ℝ) (a b : ℝ) (ha : a ≠ 0) (hh : 2 ≤ m.h) (hw : 2 ≤ m.w) (start stop : Option ℝ)
    (step radius : ℝ) (dsp : Bool) (sc1 sc2 sc1' sc2' : List Ev) (r r' : Py ℝ)
    (h : findCenterVo S g1 g2 o m start stop step radius dsp sc1 sc2 = some r)
    (h' : findCenterVo S g1 g2 { o with ncore := n' } (aff a b m) start stop step radius dsp sc1' sc2' = some r') : r' = r := by
  have s1 := hG1.shape m
  have s2 := hG2.shape m
  refine find_scale S g1 g2 o n' m (aff a b m) start stop step radius dsp sc1 sc2 sc1' sc2' r r' ⟨rfl, rfl⟩ |a| (abs_pos.2 ha)
    (by rw [(hG1.shape _).2, s1.2]; rfl) (by rw [(hG2.shape _).2, s2.2]; rfl) (fun c => ?_) (fun c => ?_) (fun _ c => ?_) h h'
  · rw [metric_congr S hS o _ _ (hG1.affine m a b), metric_affine S hS o (g1 m) a b c (by omega) (by omega)]
  · rw [metric_congr S hS o _ _ (hG2.affine m a b), metric_affine S hS o (g2 m) a b c (by omega) (by omega)]
  · have hd := downsample_shape (g1 m) (if 1000 < m.h then m.h / 900 else 1) (if 1000 < m.w then m.w / 640 else 1) (by omega) (by omega)
    rw [metric_congr S hS o _ _ (downsample_congr _ _ _ _ (hG1.affine m a b)),
      metric_congr S hS o _ _ (downsample_affine (g1 m) _ _ a b (by omega) (by omega)), metric_affine S hS o _ a b c hd.1 hd.2]

/-- **C132 (partial).** `find_center_vo` of the projections in the opposite order is `find_center_vo` of the sinogram, when no projections are
left out by the down-sampling: `dsp=False`, at most 1000 projections, or a number of them divisible by the factor `nrow // 900`. -/
theorem find_reverse_partial (S : Mat ℝ → ℝ → Mat ℝ) (hS : IsShift S) (g1 g2 : Mat ℝ → Mat ℝ) (hG1 : IsSmooth g1) (hG2 : IsSmooth g2)
    (o : Opts) (n' : ℕ) (m : Mat ℝ) (hh : 2 ≤ m.h) (hw : 2 ≤ m.w) (start stop : Option ℝ)
    (step radius : ℝ) (dsp : Bool) (hdsp : dsp = false ∨ m.h ≤ 1000 ∨ m.h / 900 ∣ m.h) (sc1 sc2 sc1' sc2' : List Ev) (r r' : Py ℝ)
    (h : findCenterVo S g1 g2 o m start stop step radius dsp sc1 sc2 = some r)
    (h' : findCenterVo S g1 g2 { o with ncore := n' } (flipud m) start stop step radius dsp sc1' sc2' = some r') : r' = r := by
  have s1 := hG1.shape m
  have s2 := hG2.shape m
  refine find_scale S g1 g2 o n' m (flipud m) start stop step radius dsp sc1 sc2 sc1' sc2' r r' ⟨rfl, rfl⟩ 1 one_pos
    (by rw [(hG1.shape _).2, s1.2]; rfl) (by rw [(hG2.shape _).2, s2.2]; rfl) (fun c => ?_) (fun c => ?_) (fun hdt c => ?_) h h'
  · rw [metric_congr S hS o _ _ (hG1.flipud m), metric_reverse S hS o (g1 m) c (by omega) (by omega), one_mul]
  · rw [metric_congr S hS o _ _ (hG2.flipud m), metric_reverse S hS o (g2 m) c (by omega) (by omega), one_mul]
  · have hd := downsample_shape (g1 m) (if 1000 < m.h then m.h / 900 else 1) (if 1000 < m.w then m.w / 640 else 1) (by omega) (by omega)
    have hdv : min (max (if 1000 < m.h then m.h / 900 else 1) 1) ((g1 m).h / 2) ∣ (g1 m).h := by
      rw [s1.1]
      by_cases h1 : 1000 < m.h
      · rw [if_pos h1]
        have : min (max (m.h / 900) 1) (m.h / 2) = m.h / 900 := by omega
        rw [this]
        rcases hdsp with h2 | h2 | h2
        · rw [h2] at hdt; cases hdt
        · omega
        · exact h2
      · rw [if_neg h1, show min (max 1 1) (m.h / 2) = 1 by omega]
        exact one_dvd _
    rw [metric_congr S hS o _ _ (downsample_congr _ _ _ _ (hG1.flipud m)),
      metric_congr S hS o _ _ (downsample_flipud (g1 m) _ _ (by omega) hdv), metric_reverse S hS o _ c hd.1 hd.2, one_mul]

/-- **C132.** Whatever the sinogram and the options, a centre that is returned lies on the detector. -/
theorem find_range (S : Mat ℝ → ℝ → Mat ℝ) (g1 g2 : Mat ℝ → Mat ℝ) (hG2 : IsSmooth g2)
    (o : Opts) (m : Mat ℝ) (hw : 0 < m.w) (start stop : Option ℝ) (step radius : ℝ) (dsp : Bool) (sc1 sc2 : List Ev) (c : ℝ)
    (h : findCenterVo S g1 g2 o m start stop step radius dsp sc1 sc2 = some (.ok c)) : 0 ≤ c ∧ c ≤ (m.w : ℝ) - 1 := by
  have hf : ∀ (start radius : ℝ) (sc : List Ev), fine S o (g2 m) start radius step sc = some (.ok c) → 0 ≤ c ∧ c ≤ (m.w : ℝ) - 1 := by
    intro st rad sc hx
    unfold fine at hx
    have hx2 := search_eq _ _ _ _ _ hx
    by_cases hne : fineList (g2 m).w st rad step = []
    · rw [hne] at hx2
      cases hx2
    · obtain ⟨c', h1, h2, _⟩ := search_best _ _ _ _ _ hne _ hx
      cases h1
      unfold fineList at h2
      obtain ⟨k, _, hk⟩ := List.mem_map.1 h2
      rw [← hk, (hG2.shape m).2]
      have : (1 : ℝ) ≤ m.w := by exact_mod_cast hw
      exact ⟨le_min (le_max_right _ _) (by linarith), min_le_right _ _⟩
  unfold findCenterVo at h
  dsimp only at h
  split at h
  · split at h
    · cases h
    · cases h
    · exact hf _ _ _ h
  · split at h
    · cases h
    · cases h
    · exact hf _ _ _ h

/-- **C132.** `find_center_vo` of the mirrored sinogram over the mirrored interval is the mirrored centre, when both searches have a single
best candidate, `dsp=False`, the interval ends at whole columns of the detector and the width of the fine search is a whole number of
steps. -/
theorem find_mirror_partial (S : Mat ℝ → ℝ → Mat ℝ) (hS : IsShift S) (g1 g2 : Mat ℝ → Mat ℝ) (hG1 : IsSmooth g1) (hG2 : IsSmooth g2)
    (o : Opts) (n' : ℕ) (m : Mat ℝ) (hh : 0 < m.h) (hw : 0 < m.w) (a b : ℤ) (ha : 0 ≤ a) (hb : b ≤ (m.w : ℤ) - 1) (hab : a ≤ b)
    (step : ℝ) (hs : 0 < step) (N : ℕ) (raw c : ℝ) (hraw : OnlyBest (metricOf S o (g1 m)) (coarseList m.w (a : ℝ) b) raw)
    (hc : OnlyBest (metricOf S o (g2 m)) (fineList m.w raw (N * step / 2) step) c) (sc1 sc2 sc1' sc2' : List Ev) (r r' : Py ℝ)
    (h : findCenterVo S g1 g2 o m (some (a : ℝ)) (some (b : ℝ)) step (N * step / 2) false sc1 sc2 = some r)
    (h' : findCenterVo S g1 g2 { o with ncore := n' } m.fliplr (some ((m.w : ℝ) - 1 - b)) (some ((m.w : ℝ) - 1 - a)) step (N * step / 2)
      false sc1' sc2' = some r') : r = .ok c ∧ r' = .ok ((m.w : ℝ) - 1 - c) := by
  have s1 := hG1.shape m
  have s2 := hG2.shape m
  have s1' : (g1 m.fliplr).w = m.w := (hG1.shape _).2
  have s2' : (g2 m.fliplr).w = m.w := (hG2.shape _).2
  unfold findCenterVo coarse fine at h h'
  dsimp only [Option.getD_some] at h h'
  rw [if_neg Bool.false_ne_true, s1.2, s2.2] at h
  rw [if_neg Bool.false_ne_true, s1', s2'] at h'
  have tr : ∀ (G : Mat ℝ → Mat ℝ), IsSmooth G → ∀ cors sc, searchCor S { o with ncore := n' } (G m.fliplr) cors sc =
      searchCor S { o with ncore := n' } (G m).fliplr cors sc := by
    intro G hG cors sc
    rw [searchCor_def, searchCor_def]
    congr 1
    funext x
    exact metric_congr S hS _ _ _ (hG.fliplr m) x
  rw [tr g1 hG1] at h'
  simp only [tr g2 hG2] at h'
  cases hx : searchCor S o (g1 m) (coarseList m.w (a : ℝ) b) sc1 with
  | none => rw [hx] at h; cases h
  | some x =>
    cases hx' : searchCor S { o with ncore := n' } (g1 m).fliplr (coarseList m.w ((m.w : ℝ) - 1 - b) ((m.w : ℝ) - 1 - a)) sc1' with
    | none => rw [hx'] at h'; cases h'
    | some x' =>
      have q := search_mirror S hS o n' (g1 m) (by omega) (by omega) _ _
        (fun y => by rw [s1.2]; exact coarse_mirror m.w a b ha hb hab y) raw hraw sc1 sc1' x x' hx hx'
      rw [s1.2] at q
      rw [hx, q.1] at h
      rw [hx', q.2] at h'
      have q2 := search_mirror S hS o n' (g2 m) (by omega) (by omega) _ _
        (fun y => by rw [s2.2]; exact fine_mirror m.w raw step N hs hw y) c hc sc2 sc2' r r' h h'
      rw [s2.2] at q2
      exact q2

/-! ### the assumptions can be met -/

open Classical in
/-- Linear interpolation, 0 outside the image: `ndi.shift(m, (0, s), order=1)`. -/
noncomputable def linShift (m : Mat ℝ) (s : ℝ) : Mat ℝ :=
  ⟨m.h, m.w, fun i j =>
    let x := (j : ℝ) - s
    if 0 ≤ x ∧ x ≤ (m.w : ℝ) - 1 then m.get i ⌊x⌋.toNat + (x - ⌊x⌋) * (m.get i ⌈x⌉.toNat - m.get i ⌊x⌋.toNat) else 0⟩

theorem linShift_isShift : IsShift linShift := by
  have hin : ∀ (w : ℕ) (x : ℝ), 0 ≤ x ∧ x ≤ (w : ℝ) - 1 → 0 ≤ ⌊x⌋ ∧ ⌊x⌋ ≤ ⌈x⌉ ∧ ⌈x⌉ ≤ (w : ℤ) - 1 := by
    intro w x hx
    exact ⟨Int.floor_nonneg.2 hx.1, Int.floor_le_ceil x, Int.ceil_le.2 (by push_cast; exact hx.2)⟩
  refine ⟨?_, ?_, ?_, ?_⟩
  · rintro m m' ⟨h1, h2, h3⟩ s i hi j hj
    unfold linShift
    dsimp only
    rw [← h2]
    by_cases hx : 0 ≤ (j : ℝ) - s ∧ (j : ℝ) - s ≤ (m.w : ℝ) - 1
    · rw [if_pos hx, if_pos hx]
      have := hin m.w _ hx
      rw [h3 i hi _ (by omega), h3 i hi _ (by omega)]
    · rw [if_neg hx, if_neg hx]
  · intro m a b s i hi j hj h0 h1
    unfold linShift aff
    dsimp only
    rw [if_pos ⟨h0, h1⟩, if_pos ⟨h0, h1⟩]
    ring
  · intro m s i hi j hj
    unfold linShift Mat.fliplr
    dsimp only
    have ej : ((m.w - 1 - j : ℕ) : ℝ) = (m.w : ℝ) - 1 - j := by
      rw [Nat.cast_sub (by omega), Nat.cast_sub (by omega), Nat.cast_one]
    rw [ej]
    generalize hx : (j : ℝ) - -s = x
    have hy : (m.w : ℝ) - 1 - j - s = (m.w : ℝ) - 1 - x := by rw [← hx]; ring
    rw [hy]
    by_cases hc : 0 ≤ x ∧ x ≤ (m.w : ℝ) - 1
    · rw [if_pos hc, if_pos ⟨by linarith [hc.2], by linarith [hc.1]⟩]
      have e1 : ⌊(m.w : ℝ) - 1 - x⌋ = (m.w : ℤ) - 1 - ⌈x⌉ := by
        have : (m.w : ℝ) - 1 - x = -x + (((m.w : ℤ) - 1 : ℤ) : ℝ) := by push_cast; ring
        rw [this, Int.floor_add_intCast, Int.floor_neg]
        ring
      have e2 : ⌈(m.w : ℝ) - 1 - x⌉ = (m.w : ℤ) - 1 - ⌊x⌋ := by
        have : (m.w : ℝ) - 1 - x = -x + (((m.w : ℤ) - 1 : ℤ) : ℝ) := by push_cast; ring
        rw [this, Int.ceil_add_intCast, Int.ceil_neg]
        ring
      have := hin m.w _ hc
      rw [e1, e2, show ((m.w : ℤ) - 1 - ⌈x⌉).toNat = m.w - 1 - ⌈x⌉.toNat by omega,
        show ((m.w : ℤ) - 1 - ⌊x⌋).toNat = m.w - 1 - ⌊x⌋.toNat by omega]
      by_cases hi : ⌈x⌉ = ⌊x⌋
      · rw [hi]
        ring
      · have hcf : ⌈x⌉ = ⌊x⌋ + 1 := by
          have := Int.ceil_le_floor_add_one x
          omega
        rw [hcf]
        push_cast
        ring
    · rw [if_neg hc, if_neg (by rintro ⟨p, q⟩; exact hc ⟨by linarith, by linarith⟩)]
  · intro m s i hi j hj
    rfl

/-- The mean of a pixel and its left and right neighbours, the border pixels repeated. -/
noncomputable def mean3 (m : Mat ℝ) : Mat ℝ :=
  ⟨m.h, m.w, fun i j => (m.get i (j - 1) + m.get i j + m.get i (min (j + 1) (m.w - 1))) / 3⟩

theorem mean3_isSmooth : IsSmooth mean3 := by
  refine ⟨fun _ => ⟨rfl, rfl⟩, fun m a b => ⟨rfl, rfl, fun i hi j hj => ?_⟩, fun m => ⟨rfl, rfl, fun i hi j hj => ?_⟩,
    fun m => ⟨rfl, rfl, fun i hi j hj => rfl⟩⟩
  · unfold mean3 aff
    dsimp only
    ring
  · unfold mean3 Mat.fliplr at *
    dsimp only at *
    rw [show m.w - 1 - (j - 1) = min (m.w - 1 - j + 1) (m.w - 1) by omega, show m.w - 1 - min (j + 1) (m.w - 1) = m.w - 1 - j - 1 by omega]
    ring

/-- Non-vacuity: with linear interpolation and a moving average the assumptions hold, and one worker always returns something. -/
example (o : Opts) (m : Mat ℝ) : IsShift linShift ∧ IsSmooth mean3 ∧
    ∃ r, findCenterVo linShift mean3 mean3 { o with ncore := 1 } m none none 0.5 4 false [] [] = some r := by
  refine ⟨linShift_isShift, mean3_isSmooth, ?_⟩
  unfold findCenterVo coarse fine searchCor search metricList
  simp only [if_true, Option.map_some, Bool.false_eq_true, if_false]
  split
  · rename_i h; cases h
  · exact ⟨_, rfl⟩
  · exact ⟨_, rfl⟩

/-- Non-vacuity of `OnlyBest` and of the mirrored candidates. -/
example : OnlyBest (fun c => (c - 3) ^ 2) (coarseList 8 ((2 : ℤ) : ℝ) ((5 : ℤ) : ℝ)) 3 := by
  have e : coarseList 8 ((2 : ℤ) : ℝ) ((5 : ℤ) : ℝ) = [2, 3, 4, 5] := by
    have h2 : pyTrunc (min (max (((2 : ℤ) : ℝ)) 0) (((8 : ℕ) : ℝ) - 1)) = 2 := by
      rw [max_eq_left (by norm_num), min_eq_left (by norm_num)]
      unfold pyTrunc
      split <;> simp
    have h5 : pyTrunc (min (max (((5 : ℤ) : ℝ)) 0) (((8 : ℕ) : ℝ) - 1)) = 5 := by
      rw [max_eq_left (by norm_num), min_eq_left (by norm_num)]
      unfold pyTrunc
      split <;> simp
    unfold coarseList
    dsimp only
    rw [h2, h5, show ((5 : ℤ) + 1 - 2).toNat = 4 from rfl]
    norm_num [List.range_succ]
  rw [e]
  refine ⟨by simp, ?_⟩
  intro c' h1 h2
  simp only [List.mem_cons, List.not_mem_nil, or_false] at h1
  rcases h1 with rfl | rfl | rfl | rfl
  · norm_num
  · exact absurd rfl h2
  · norm_num
  · norm_num

end Verif.CenterMetric
