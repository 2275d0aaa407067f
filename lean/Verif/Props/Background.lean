import Verif.Model.Quality
import Verif.Model.VisualCenter
import Verif.Props.Stripe
import Verif.Props.Sorting
import Verif.Props.Fourier2
import Verif.Props.Blobs
import Verif.Lemmas.Fourier

set_option linter.unusedSectionVars false
set_option linter.unusedSimpArgs false

/-!
**C123, C124.** Weight mask of phase unwrapping (algotom/prep/phase.py:171-183), background normalisation and automatic threshold
(algotom/util/calibration.py:42-104, 129-157).
-/

namespace Verif.Quality
open Verif.Stripe Verif.Sorting Verif.Fourier

/-! ### specification -/

/-- What is assumed of `ndi.zoom` of a list to a given length: the length, and that values transform with the samples. -/
structure IsZoom (zoom : List ℝ → ℕ → List ℝ) : Prop where
  len : ∀ l n, l ≠ [] → (zoom l n).length = n
  affine : ∀ l n (a b : ℝ), l ≠ [] → zoom (l.map fun x => a * x + b) n = (zoom l n).map fun x => a * x + b

/-- The image with every value `x` replaced by `a x + b`. -/
def affineImage (a b : ℝ) (m : Mat ℝ) : Mat ℝ := ⟨m.h, m.w, fun i j => a * m.get i j + b⟩

/-! ### lemmas -/

theorem flatten_length (m : Mat ℝ) : (flatten m).length = m.h * m.w := by
  unfold flatten
  rw [List.length_flatMap]
  simp

theorem flatten_affine (a b : ℝ) (m : Mat ℝ) : flatten (affineImage a b m) = (flatten m).map fun x => a * x + b := by
  unfold flatten affineImage
  rw [List.map_flatMap]
  simp only [List.map_map, Function.comp_def]

theorem npSort_ne_nil {l : List ℝ} (h : l ≠ []) : npSort l ≠ [] := by
  intro h0
  have := npSort_length l
  rw [h0] at this
  exact h (List.length_eq_zero_iff.1 this.symm)

theorem flatten_ne {m : Mat ℝ} (hh : 0 < m.h) (hw : 0 < m.w) : flatten m ≠ [] := by
  intro h
  have := flatten_length m
  rw [h] at this
  have h2 := Nat.mul_pos hh hw
  simp at this
  omega

/-- The level as a function of the line fitted to the middle of the shortened list. -/
theorem maskLevel_ok (zoom : List ℝ → ℕ → List ℝ) (hz : IsZoom zoom) (m : Mat ℝ) (snr : ℝ) (hh : 0 < m.h) (hw : 0 < m.w)
    (hg : GoodSize (max m.h m.w)) :
    let n := max m.h m.w
    let d := zoom (npSort (flatten m)) n
    let p := polyfit1 (n / 4) (n - n / 4 - 1) fun k => d.getD k 0
    maskLevel zoom m snr = .ok (p.2 + p.1 * ((n : ℝ) - 1) + |p.2 + p.1 * ((n : ℝ) - 1) - p.2| * snr * (1 / 2)) := by
  intro n d p
  have hne := npSort_ne_nil (flatten_ne hh hw)
  have hl : d.length = n := hz.len _ _ hne
  unfold maskLevel
  dsimp only
  rw [if_neg (fun h => hne (List.length_eq_zero_iff.1 h))]
  have hg' := (goodSize_iff _).1 hg
  change (if d.length - d.length / 4 - 1 ≤ d.length / 4 then _ else _) = _
  rw [hl, if_neg (by omega), if_neg (show n ≠ 2 by omega), if_neg (show n ≠ 4 by omega)]

theorem zoom_getD_affine (l : List ℝ) (a b : ℝ) (k : ℕ) (hk : k < l.length) :
    (l.map fun x => a * x + b).getD k 0 = a * l.getD k 0 + b := by
  rw [List.getD_eq_getElem _ _ (by simpa using hk), List.getD_eq_getElem _ _ hk, List.getElem_map]

/-! ### C123: weight mask -/

/-- **C123.** The mask is refused only for images without pixels and images with at most two rows and columns. -/
theorem mask_error (zoom : List ℝ → ℕ → List ℝ) (hz : IsZoom zoom) (m : Mat ℝ) (snr : ℝ) :
    (∃ k, weightMask zoom m snr = .ok k) ↔ 0 < m.h ∧ 0 < m.w ∧ 3 ≤ max m.h m.w := by
  have hl := flatten_length m
  have e : (∃ k, weightMask zoom m snr = .ok k) ↔ ∃ t, maskLevel zoom m snr = .ok t := by
    unfold weightMask
    cases maskLevel zoom m snr with
    | error e => exact ⟨fun ⟨k, hk⟩ => (nomatch hk), fun ⟨k, hk⟩ => (nomatch hk)⟩
    | ok t => exact ⟨fun _ => ⟨t, rfl⟩, fun _ => ⟨_, rfl⟩⟩
  rw [e]
  unfold maskLevel
  dsimp only
  by_cases h0 : (npSort (flatten m)).length = 0
  · rw [if_pos h0]
    rw [npSort_length, hl] at h0
    refine ⟨fun ⟨k, hk⟩ => (nomatch hk), fun ⟨h1, h2, _⟩ => absurd h0 (Nat.mul_pos h1 h2).ne'⟩
  · rw [if_neg h0]
    have hne : npSort (flatten m) ≠ [] := fun h => h0 (by rw [h]; rfl)
    rw [npSort_length, hl] at h0
    have hh : 0 < m.h := Nat.pos_of_ne_zero fun h => h0 (by rw [h, zero_mul])
    have hw : 0 < m.w := Nat.pos_of_ne_zero fun h => h0 (by rw [h, mul_zero])
    rw [hz.len _ _ hne]
    by_cases h1 : max m.h m.w - max m.h m.w / 4 - 1 ≤ max m.h m.w / 4
    · rw [if_pos h1]
      refine ⟨fun ⟨k, hk⟩ => (nomatch hk), fun ⟨_, _, h⟩ => absurd h (by omega)⟩
    · rw [if_neg h1]
      by_cases h2 : max m.h m.w = 2
      · rw [if_pos h2]
        exact ⟨fun ⟨k, hk⟩ => (nomatch hk), fun ⟨_, _, h⟩ => absurd h (by omega)⟩
      · rw [if_neg h2]
        exact ⟨fun _ => ⟨hh, hw, by omega⟩, fun _ => ⟨_, rfl⟩⟩

/-- **C123.** The mask has the shape of the map, is 0/1, and is closed upwards: a pixel at least as bad as a marked one is marked. -/
theorem mask_spec (zoom : List ℝ → ℕ → List ℝ) (m : Mat ℝ) (snr : ℝ) (k : Mat ℝ) (hk : weightMask zoom m snr = .ok k) :
    (k.h = m.h ∧ k.w = m.w) ∧ (∀ i j, k.get i j = 0 ∨ k.get i j = 1) ∧
    ∀ i j i' j', k.get i j = 1 → m.get i j ≤ m.get i' j' → k.get i' j' = 1 := by
  unfold weightMask at hk
  cases ht : maskLevel zoom m snr with
  | error e => rw [ht] at hk; cases hk
  | ok t =>
    rw [ht] at hk
    cases hk
    refine ⟨⟨rfl, rfl⟩, fun i j => ?_, fun i j i' j' h1 h2 => ?_⟩
    · dsimp only
      by_cases h : m.get i j > t
      · rw [if_pos h]; exact Or.inr rfl
      · rw [if_neg h]; exact Or.inl rfl
    · dsimp only at h1 ⊢
      by_cases h : m.get i j > t
      · rw [if_pos (lt_of_lt_of_le h h2)]
      · rw [if_neg h] at h1
        exact absurd h1 zero_ne_one

/-- **C123.** A greater `snr` marks no further pixel. -/
theorem mask_snr_mono (zoom : List ℝ → ℕ → List ℝ) (m : Mat ℝ) (snr snr' : ℝ) (h : snr ≤ snr') (k k' : Mat ℝ)
    (hk : weightMask zoom m snr = .ok k) (hk' : weightMask zoom m snr' = .ok k') (i j : ℕ) (h1 : k'.get i j = 1) : k.get i j = 1 := by
  have hle : ∀ t t', maskLevel zoom m snr = .ok t → maskLevel zoom m snr' = .ok t' → t ≤ t' := by
    intro t t' ht ht'
    unfold maskLevel at ht ht'
    dsimp only at ht ht'
    by_cases h0 : (npSort (flatten m)).length = 0
    · rw [if_pos h0] at ht; cases ht
    rw [if_neg h0] at ht ht'
    generalize hd : zoom (npSort (flatten m)) (max m.h m.w) = d at *
    by_cases h1 : d.length - d.length / 4 - 1 ≤ d.length / 4
    · rw [if_pos h1] at ht; cases ht
    rw [if_neg h1] at ht ht'
    by_cases h2 : d.length = 2
    · rw [if_pos h2] at ht; cases ht
    rw [if_neg h2] at ht ht'
    generalize (if d.length = 4 then (d.getD 1 0 / 2, d.getD 1 0 / 2) else polyfit1 (d.length / 4) (d.length - d.length / 4 - 1) fun k => d.getD k 0) = p at *
    cases ht
    cases ht'
    have : (0 : ℝ) ≤ |p.2 + p.1 * ((d.length : ℝ) - 1) - p.2| := abs_nonneg _
    nlinarith [mul_le_mul_of_nonneg_left h this]
  unfold weightMask at hk hk'
  cases ht : maskLevel zoom m snr with
  | error e => rw [ht] at hk; cases hk
  | ok t =>
    cases ht' : maskLevel zoom m snr' with
    | error e => rw [ht'] at hk'; cases hk'
    | ok t' =>
      rw [ht] at hk
      rw [ht'] at hk'
      cases hk
      cases hk'
      dsimp only at h1 ⊢
      by_cases hgt : m.get i j > t'
      · rw [if_pos (lt_of_le_of_lt (hle t t' ht ht') hgt)]
      · rw [if_neg hgt] at h1
        exact absurd h1 zero_ne_one

/-- **C123.** Scaling the map by a positive factor and adding a constant do not change the mask, unless the longer side has four pixels
(`mask_four_refuted`). -/
theorem mask_affine_partial (zoom : List ℝ → ℕ → List ℝ) (hz : IsZoom zoom) (m : Mat ℝ) (snr a b : ℝ) (ha : 0 < a) (hh : 0 < m.h) (hw : 0 < m.w)
    (hg : GoodSize (max m.h m.w)) : weightMask zoom (affineImage a b m) snr = weightMask zoom m snr := by
  have hg' := (goodSize_iff _).1 hg
  have hne := npSort_ne_nil (flatten_ne hh hw)
  unfold weightMask
  rw [maskLevel_ok zoom hz m snr hh hw hg]
  have h2 := maskLevel_ok zoom hz (affineImage a b m) snr hh hw hg
  dsimp only at h2
  rw [h2]
  change (Except.ok _ : Py (Mat ℝ)) = Except.ok _
  congr 1
  have e : (affineImage a b m).h = m.h ∧ (affineImage a b m).w = m.w := ⟨rfl, rfl⟩
  rw [e.1, e.2, flatten_affine, npSort_map _ _ _ ha, hz.affine _ _ _ _ hne]
  generalize hn : max m.h m.w = n at *
  have hl : (zoom (npSort (flatten m)) n).length = n := hz.len _ _ hne
  rw [fit_congr (n / 4) (n - n / 4 - 1) _ (fun k => a * (zoom (npSort (flatten m)) n).getD k 0 + b) (fun i _ hi =>
    zoom_getD_affine _ _ _ _ (by rw [hl]; omega)), fit_affine _ _ hg']
  generalize polyfit1 (n / 4) (n - n / 4 - 1) (fun k => (zoom (npSort (flatten m)) n).getD k 0) = p
  unfold affineImage
  congr 1
  funext i j
  dsimp only
  have e3 : a * p.2 + b + a * p.1 * ((n : ℝ) - 1) + |a * p.2 + b + a * p.1 * ((n : ℝ) - 1) - (a * p.2 + b)| * snr * (1 / 2) =
      a * (p.2 + p.1 * ((n : ℝ) - 1) + |p.2 + p.1 * ((n : ℝ) - 1) - p.2| * snr * (1 / 2)) + b := by
    rw [show a * p.2 + b + a * p.1 * ((n : ℝ) - 1) - (a * p.2 + b) = a * (p.2 + p.1 * ((n : ℝ) - 1) - p.2) by ring, abs_mul, abs_of_pos ha]
    ring
  rw [e3]
  have : (a * m.get i j + b > a * (p.2 + p.1 * ((n : ℝ) - 1) + |p.2 + p.1 * ((n : ℝ) - 1) - p.2| * snr * (1 / 2)) + b) ↔
      (m.get i j > p.2 + p.1 * ((n : ℝ) - 1) + |p.2 + p.1 * ((n : ℝ) - 1) - p.2| * snr * (1 / 2)) := by
    rw [gt_iff_lt, add_lt_add_iff_right, mul_lt_mul_iff_right₀ ha]
  simp only [this]

/-- **C123.** Only the values count, not where they are: two maps of the same greatest dimension with the same values have the same threshold. -/
theorem mask_perm (zoom : List ℝ → ℕ → List ℝ) (m m' : Mat ℝ) (snr : ℝ) (hs : max m.h m.w = max m'.h m'.w) (hp : (flatten m).Perm (flatten m'))
    (k k' : Mat ℝ) (hk : weightMask zoom m snr = .ok k) (hk' : weightMask zoom m' snr = .ok k') (i j i' j' : ℕ) (he : m.get i j = m'.get i' j') :
    k.get i j = k'.get i' j' := by
  have e : maskLevel zoom m snr = maskLevel zoom m' snr := by
    unfold maskLevel
    rw [npSort_congr hp, hs]
  unfold weightMask at hk hk'
  rw [← e] at hk'
  cases ht : maskLevel zoom m snr with
  | error e => rw [ht] at hk; cases hk
  | ok t =>
    rw [ht] at hk hk'
    cases hk
    cases hk'
    dsimp only
    rw [he]

theorem flatten_mem (m : Mat ℝ) (x : ℝ) : x ∈ flatten m ↔ ∃ i < m.h, ∃ j < m.w, m.get i j = x := by
  unfold flatten
  simp only [List.mem_flatMap, List.mem_map, List.mem_range]

theorem zoom_constant (zoom : List ℝ → ℕ → List ℝ) (hz : IsZoom zoom) (m : Mat ℝ) (c : ℝ) (hm : ∀ i < m.h, ∀ j < m.w, m.get i j = c)
    (hh : 0 < m.h) (hw : 0 < m.w) : zoom (npSort (flatten m)) (max m.h m.w) = List.replicate (max m.h m.w) c := by
  have hne := npSort_ne_nil (flatten_ne hh hw)
  have h1 := hz.affine (npSort (flatten m)) (max m.h m.w) 0 c hne
  have h2 : (npSort (flatten m)).map (fun x => 0 * x + c) = npSort (flatten m) := by
    conv_rhs => rw [← List.map_id (npSort (flatten m))]
    refine List.map_congr_left fun x hx => ?_
    obtain ⟨i, hi, j, hj, rfl⟩ := (flatten_mem m x).1 ((npSort_perm _).mem_iff.1 hx)
    rw [hm i hi j hj]
    simp
  rw [h2] at h1
  rw [h1]
  simp only [zero_mul, zero_add, List.map_const', hz.len _ _ hne]

/-- **C123.** A map without contrast gives an empty mask, with every `snr`, unless the longer side has four pixels (`mask_four_refuted`). -/
theorem mask_constant_partial (zoom : List ℝ → ℕ → List ℝ) (hz : IsZoom zoom) (m : Mat ℝ) (c snr : ℝ) (hm : ∀ i < m.h, ∀ j < m.w, m.get i j = c)
    (hh : 0 < m.h) (hw : 0 < m.w) (hg : GoodSize (max m.h m.w)) :
    ∃ k, weightMask zoom m snr = .ok k ∧ ∀ i < m.h, ∀ j < m.w, k.get i j = 0 := by
  have hg' := (goodSize_iff _).1 hg
  have hne := npSort_ne_nil (flatten_ne hh hw)
  have hlev := maskLevel_ok zoom hz m snr hh hw hg
  dsimp only at hlev
  have hd := zoom_constant zoom hz m c hm hh hw
  generalize hn : max m.h m.w = n at *
  rw [hd, fit_line (n / 4) (n - n / 4 - 1) hg' _ 0 c (fun i _ hi => by
    rw [List.getD_replicate _ (by omega)]; ring)] at hlev
  refine ⟨_, by unfold weightMask; rw [hlev]; rfl, fun i hi j hj => ?_⟩
  dsimp only
  rw [if_neg]
  rw [hm i hi j hj]
  simp

/-- **C123.** False of the code for maps whose longer side has four pixels: one value is left for the line, and the line of smallest norm through it
is not horizontal.  A constant negative map is marked everywhere (`snr < 4 / 3`), a constant non-negative one nowhere, although they differ by an offset. -/
theorem mask_four_refuted (zoom : List ℝ → ℕ → List ℝ) (hz : IsZoom zoom) (m : Mat ℝ) (c snr : ℝ) (hm : ∀ i < m.h, ∀ j < m.w, m.get i j = c)
    (hh : 0 < m.h) (hw : 0 < m.w) (h4 : max m.h m.w = 4) (hs0 : 0 ≤ snr) (hs : snr < 4 / 3) :
    ∃ k, weightMask zoom m snr = .ok k ∧ ∀ i < m.h, ∀ j < m.w, k.get i j = if c < 0 then 1 else 0 := by
  have hne := npSort_ne_nil (flatten_ne hh hw)
  have hd := zoom_constant zoom hz m c hm hh hw
  have hlev : maskLevel zoom m snr = .ok (2 * c + |3 / 2 * c| * snr * (1 / 2)) := by
    unfold maskLevel
    dsimp only
    rw [if_neg (fun h => hne (List.length_eq_zero_iff.1 h)), hd, h4, List.length_replicate, if_neg (by decide), if_neg (by decide), if_pos rfl,
      List.getD_replicate _ (by decide)]
    dsimp only
    push_cast
    congr 1
    rw [show c / 2 + c / 2 * (4 - 1) - c / 2 = 3 / 2 * c by ring]
    ring
  refine ⟨_, by unfold weightMask; rw [hlev]; rfl, fun i hi j hj => ?_⟩
  dsimp only
  rw [hm i hi j hj]
  by_cases hc : c < 0
  · rw [if_pos hc, if_pos]
    rw [abs_of_neg (by linarith)]
    nlinarith
  · rw [if_neg hc, if_neg]
    rw [abs_of_nonneg (by linarith)]
    nlinarith [mul_nonneg (not_lt.1 hc) hs0]

/-- The hypotheses on `zoom` can be met: linear interpolation between the first and the last sample. -/
noncomputable def linZoom (l : List ℝ) (n : ℕ) : List ℝ := (List.range n).map fun k => VisualCenter.zoomLine l.length n (fun i => l.getD i 0) k

theorem linZoom_isZoom : IsZoom linZoom where
  len := fun l n _ => by unfold linZoom; simp
  affine := by
    intro l n a b hl
    have hpos : 0 < l.length := List.length_pos_of_ne_nil hl
    unfold linZoom
    rw [List.map_map]
    refine List.map_congr_left fun k _ => ?_
    simp only [Function.comp, VisualCenter.zoomLine, VisualCenter.lerp, List.length_map]
    set x := SliceMetric.clip ((k : ℝ) * (((l.length : ℝ) - 1) / ((n : ℝ) - 1))) 0 ((l.length : ℝ) - 1) with hx
    have hx1 : x ≤ (l.length : ℝ) - 1 := by
      rw [hx]; unfold SliceMetric.clip
      exact min_le_right _ _
    have hf : ⌊x⌋₊ < l.length := by
      rcases le_or_gt x 0 with h | h
      · rw [Nat.floor_of_nonpos h]; exact hpos
      · rw [Nat.floor_lt h.le]; linarith
    rw [zoom_getD_affine _ _ _ _ hf, zoom_getD_affine _ _ _ _ (show min (⌊x⌋₊ + 1) (l.length - 1) < l.length by omega)]
    ring

/-- Concrete instance: a flat 8 × 8 map. -/
example : ∃ k, weightMask linZoom ⟨8, 8, fun _ _ => 3⟩ 2 = .ok k ∧ ∀ i < 8, ∀ j < 8, k.get i j = 0 :=
  mask_constant_partial linZoom linZoom_isZoom ⟨8, 8, fun _ _ => 3⟩ 3 2 (fun _ _ _ _ => rfl) (by norm_num) (by norm_num) (Or.inr (by norm_num))

/-! ### C124: background normalisation -/

/-- The values that the median filter sorts at `(i, j)`. -/
def window (size : ℕ) (m : Mat ℝ) (i j : ℕ) : List ℝ :=
  (List.range size).flatMap fun a => (List.range size).map fun b =>
    m.get (reflectIdx m.h ((i : ℤ) - (size / 2 : ℕ) + a)) (reflectIdx m.w ((j : ℤ) - (size / 2 : ℕ) + b))

theorem window_length (size : ℕ) (m : Mat ℝ) (i j : ℕ) : (window size m i j).length = size * size := by
  unfold window
  rw [List.length_flatMap]
  simp

theorem median_get (size : ℕ) (m : Mat ℝ) (i j : ℕ) : (medianFilter size m).get i j = (npSort (window size m i j)).getD (size * size / 2) 0 := rfl

theorem window_mem (size : ℕ) (m : Mat ℝ) (i j : ℕ) (hi : i < m.h) (hj : j < m.w) (x : ℝ) (hx : x ∈ window size m i j) :
    ∃ a < m.h, ∃ b < m.w, m.get a b = x := by
  unfold window at hx
  simp only [List.mem_flatMap, List.mem_map, List.mem_range] at hx
  obtain ⟨a, _, b, _, rfl⟩ := hx
  exact ⟨_, reflectIdx_lt _ _ (by omega), _, reflectIdx_lt _ _ (by omega), rfl⟩

theorem rank_mem (l : List ℝ) (k : ℕ) (hk : k < l.length) : (npSort l).getD k 0 ∈ l := by
  rw [List.getD_eq_getElem _ _ (by rw [npSort_length]; exact hk)]
  exact (npSort_perm l).mem_iff.1 (List.getElem_mem _)

/-- A value that fills more than half of the list is its median. -/
theorem median_majority (l : List ℝ) (c : ℝ) (h : l.length / 2 < l.count c) : (npSort l).getD (l.length / 2) 0 = c := by
  set s := npSort l with hs
  have hlen : s.length = l.length := npSort_length l
  have hcount : s.count c = l.count c := (npSort_perm l).count_eq c
  have hle := List.count_le_length (a := c) (l := s)
  have hk : l.length / 2 < s.length := by omega
  rw [List.getD_eq_getElem _ _ hk]
  have hp := npSort_pairwise l
  rw [← hs] at hp
  rw [List.pairwise_iff_getElem] at hp
  rcases lt_trichotomy (s[l.length / 2]) c with hlt | heq | hgt
  · exfalso
    have h1 : (s.take (l.length / 2 + 1)).count c = 0 := by
      rw [List.count_eq_zero]
      intro hmem
      obtain ⟨i, hi, he⟩ := List.mem_iff_getElem.1 hmem
      rw [List.getElem_take] at he
      rw [List.length_take] at hi
      rcases Nat.lt_or_ge i (l.length / 2) with h2 | h2
      · have := hp i (l.length / 2) (by omega) hk h2
        rw [he] at this
        exact absurd hlt (not_lt.2 this)
      · have : i = l.length / 2 := by omega
        subst this
        rw [he] at hlt
        exact lt_irrefl _ hlt
    have h2 : s.count c = (s.take (l.length / 2 + 1)).count c + (s.drop (l.length / 2 + 1)).count c := by
      rw [← List.count_append, List.take_append_drop]
    have h3 := List.count_le_length (a := c) (l := s.drop (l.length / 2 + 1))
    rw [List.length_drop] at h3
    omega
  · exact heq
  · exfalso
    have h1 : (s.drop (l.length / 2)).count c = 0 := by
      rw [List.count_eq_zero]
      intro hmem
      obtain ⟨i, hi, he⟩ := List.mem_iff_getElem.1 hmem
      rw [List.getElem_drop] at he
      rw [List.length_drop] at hi
      rcases Nat.eq_zero_or_pos i with h2 | h2
      · subst h2
        simp only [Nat.add_zero] at he
        rw [he] at hgt
        exact lt_irrefl _ hgt
      · have := hp (l.length / 2) (l.length / 2 + i) hk (by omega) (by omega)
        rw [he] at this
        exact absurd hgt (not_lt.2 this)
    have h2 : s.count c = (s.take (l.length / 2)).count c + (s.drop (l.length / 2)).count c := by
      rw [← List.count_append, List.take_append_drop]
    have h3 := List.count_le_length (a := c) (l := s.take (l.length / 2))
    rw [List.length_take] at h3
    omega

theorem meanOf_const (m : Mat ℝ) (c : ℝ) (hm : ∀ i < m.h, ∀ j < m.w, m.get i j = c) (hh : 0 < m.h) (hw : 0 < m.w) : meanOf m = c := by
  unfold meanOf Blobs.total
  rw [Finset.sum_congr rfl fun i hi => Finset.sum_congr rfl fun j hj => hm i (Finset.mem_range.1 hi) j (Finset.mem_range.1 hj)]
  have h1 : (m.h : ℝ) ≠ 0 := by exact_mod_cast hh.ne'
  have h2 : (m.w : ℝ) ≠ 0 := by exact_mod_cast hw.ne'
  simp only [Finset.sum_const, Finset.card_range, nsmul_eq_mul]
  field_simp

/-- A background without structure changes nothing. -/
theorem divide_flat (bck m : Mat ℝ) (c : ℝ) (hc : c ≠ 0) (hb : ∀ i < bck.h, ∀ j < bck.w, bck.get i j = c) (hs : bck.h = m.h ∧ bck.w = m.w) (i j : ℕ)
    (hi : i < m.h) (hj : j < m.w) : (divideBack bck m).get i j = m.get i j := by
  unfold divideBack
  dsimp only
  rw [meanOf_const bck c hb (by omega) (by omega), hb i (by omega) j (by omega), if_neg hc, mul_div_assoc, mul_comm, div_mul_cancel₀ _ hc]

theorem normalize_ok (m : Mat ℝ) (size : ℕ) (r : Mat ℝ) (hr : normalizeBackground m size = .ok r) : 0 < size ∧ r = divideBack (medianFilter size m) m := by
  unfold normalizeBackground at hr
  by_cases h : size = 0
  · rw [if_pos h] at hr; cases hr
  · rw [if_neg h] at hr
    exact ⟨Nat.pos_of_ne_zero h, (Except.ok.inj hr).symm⟩

/-- **C124.** An image that shows a uniform background, covered by features in less than half of every `size × size` window, is not changed. -/
theorem normalize_features (m : Mat ℝ) (size : ℕ) (r : Mat ℝ) (hr : normalizeBackground m size = .ok r) (c : ℝ) (hc : c ≠ 0)
    (hm : ∀ i < m.h, ∀ j < m.w, size * size / 2 < (window size m i j).count c) : r.Eqv m := by
  obtain ⟨hs, rfl⟩ := normalize_ok m size r hr
  refine ⟨rfl, rfl, fun i hi j hj => ?_⟩
  refine divide_flat (medianFilter size m) m c hc (fun a ha b hb => ?_) ⟨rfl, rfl⟩ i j hi hj
  rw [median_get, ← window_length size m a b]
  exact median_majority _ c (by rw [window_length]; exact hm a ha b hb)

/-- **C124.** Constant images are not changed. -/
theorem normalize_constant (m : Mat ℝ) (size : ℕ) (r : Mat ℝ) (hr : normalizeBackground m size = .ok r) (c : ℝ) (hc : c ≠ 0)
    (hm : ∀ i < m.h, ∀ j < m.w, m.get i j = c) : r.Eqv m := by
  have hs := (normalize_ok m size r hr).1
  refine normalize_features m size r hr c hc fun i hi j hj => ?_
  rw [List.count_eq_length.2 fun x hx => ?_, window_length]
  · have := Nat.mul_pos hs hs
    omega
  · obtain ⟨a, ha, b, hb, h⟩ := window_mem size m i j hi hj x hx
    rw [← h, hm a ha b hb]

theorem meanOf_smul (m : Mat ℝ) (a : ℝ) : meanOf ⟨m.h, m.w, fun i j => a * m.get i j⟩ = a * meanOf m := by
  unfold meanOf Blobs.total
  dsimp only
  simp only [← Finset.mul_sum]
  rw [mul_div_assoc]

theorem divide_smul (bck m : Mat ℝ) (a : ℝ) (ha : a ≠ 0) (i j : ℕ) :
    (divideBack ⟨bck.h, bck.w, fun i j => a * bck.get i j⟩ ⟨m.h, m.w, fun i j => a * m.get i j⟩).get i j = a * (divideBack bck m).get i j := by
  unfold divideBack
  dsimp only
  rw [meanOf_smul]
  by_cases h : bck.get i j = 0
  · rw [if_pos (by rw [h, mul_zero]), if_pos h]
    by_cases h0 : meanOf bck = 0
    · simp [h0]
    · field_simp
  · rw [if_neg (mul_ne_zero ha h), if_neg h]
    field_simp

theorem median_smul (size : ℕ) (m : Mat ℝ) (a : ℝ) (ha : 0 < a) (hs : 0 < size) (i j : ℕ) :
    (medianFilter size ⟨m.h, m.w, fun i j => a * m.get i j⟩).get i j = a * (medianFilter size m).get i j := by
  rw [median_get, median_get]
  have e : window size ⟨m.h, m.w, fun i j => a * m.get i j⟩ i j = (window size m i j).map fun x => a * x + 0 := by
    unfold window
    rw [List.map_flatMap]
    simp only [List.map_map, Function.comp_def, add_zero]
  have hp := Nat.mul_pos hs hs
  rw [e, npSort_map _ _ _ ha, zoom_getD_affine _ _ _ _ (by rw [npSort_length, window_length]; omega), add_zero]

/-- **C124.** Multiplying the image by a positive factor multiplies the result by it. -/
theorem normalize_scale (m : Mat ℝ) (size : ℕ) (a : ℝ) (ha : 0 < a) (r r' : Mat ℝ) (hr : normalizeBackground m size = .ok r)
    (hr' : normalizeBackground ⟨m.h, m.w, fun i j => a * m.get i j⟩ size = .ok r') : r'.Eqv ⟨r.h, r.w, fun i j => a * r.get i j⟩ := by
  obtain ⟨hs, rfl⟩ := normalize_ok _ _ _ hr
  obtain ⟨-, rfl⟩ := normalize_ok _ _ _ hr'
  have e : medianFilter size ⟨m.h, m.w, fun i j => a * m.get i j⟩ =
      ⟨(medianFilter size m).h, (medianFilter size m).w, fun i j => a * (medianFilter size m).get i j⟩ := by
    have h1 : (medianFilter size ⟨m.h, m.w, fun i j => a * m.get i j⟩).get = fun i j => a * (medianFilter size m).get i j :=
      funext fun i => funext fun j => median_smul size m a ha hs i j
    rw [← h1]
    rfl
  refine ⟨rfl, rfl, fun i hi j hj => ?_⟩
  rw [e]
  exact divide_smul _ _ a ha.ne' i j

/-- **C124.** A positive image stays positive, and no division by zero happens. -/
theorem normalize_positive (m : Mat ℝ) (size : ℕ) (r : Mat ℝ) (hr : normalizeBackground m size = .ok r) (hm : ∀ i < m.h, ∀ j < m.w, 0 < m.get i j) :
    ∀ i < m.h, ∀ j < m.w, 0 < r.get i j ∧ 0 < (medianFilter size m).get i j := by
  obtain ⟨hs, rfl⟩ := normalize_ok _ _ _ hr
  have hp := Nat.mul_pos hs hs
  have hb : ∀ i < m.h, ∀ j < m.w, 0 < (medianFilter size m).get i j := by
    intro i hi j hj
    rw [median_get]
    obtain ⟨a, ha, b, hb, h⟩ := window_mem size m i j hi hj _ (rank_mem (window size m i j) (size * size / 2) (by rw [window_length]; omega))
    rw [← h]
    exact hm a ha b hb
  intro i hi j hj
  refine ⟨?_, hb i hi j hj⟩
  have hmean : 0 < meanOf (medianFilter size m) := by
    unfold meanOf Blobs.total
    have h1 : (0 : ℝ) < m.h := by exact_mod_cast (show 0 < m.h by omega)
    have h2 : (0 : ℝ) < m.w := by exact_mod_cast (show 0 < m.w by omega)
    refine div_pos ?_ (mul_pos h1 h2)
    refine Finset.sum_pos (fun a ha => Finset.sum_pos (fun b hb' => hb a (Finset.mem_range.1 ha) b (Finset.mem_range.1 hb')) ⟨j, Finset.mem_range.2 hj⟩)
      ⟨i, Finset.mem_range.2 hi⟩
  unfold divideBack
  dsimp only
  rw [if_neg (hb i hi j hj).ne']
  exact div_pos (mul_pos hmean (hm i hi j hj)) (hb i hi j hj)

theorem normalizeFft_ok (m : Mat ℝ) (sigma : ℝ) (pad : Option ℕ) (r : Mat ℝ) (hr : normalizeFft m sigma pad = .ok r) :
    (0 < m.h ∧ 0 < m.w) ∧ r = divideBack (gaussianReflect m (sigmas m.h m.w sigma).1 (sigmas m.h m.w sigma).2 (pad.getD (pad10 (min m.h m.w)))) m := by
  unfold normalizeFft at hr
  by_cases h : m.h = 0 ∨ m.w = 0
  · rw [if_pos h] at hr; cases hr
  · rw [if_neg h] at hr
    exact ⟨by omega, (Except.ok.inj hr).symm⟩

/-- **C124.** The version with the Fourier filter leaves constant images of even size unchanged (although the filter itself darkens them). -/
theorem fft_constant_partial (m : Mat ℝ) (sigma : ℝ) (pad : Option ℕ) (r : Mat ℝ) (hr : normalizeFft m sigma pad = .ok r) (c : ℝ) (hc : c ≠ 0)
    (hm : ∀ i < m.h, ∀ j < m.w, m.get i j = c) (he1 : m.h % 2 = 0) (he2 : m.w % 2 = 0) : r.Eqv m := by
  obtain ⟨⟨hh, hw⟩, rfl⟩ := normalizeFft_ok m sigma pad r hr
  refine ⟨rfl, rfl, fun i hi j hj => ?_⟩
  refine divide_flat (gaussianReflect m (sigmas m.h m.w sigma).1 (sigmas m.h m.w sigma).2 (pad.getD (pad10 (min m.h m.w)))) m
    (Real.exp (-(1 / (8 * (sigmas m.h m.w sigma).1 ^ 2) + 1 / (8 * (sigmas m.h m.w sigma).2 ^ 2))) * c)
    (mul_ne_zero (Real.exp_pos _).ne' hc) (fun a ha b hb => ?_) ⟨rfl, rfl⟩ i j hi hj
  exact gaussian_core_gain m.h m.w _ c _ _ _ (fun i _ j _ => hm _ (reflectPadIdx_lt _ _ _ hh) _ (reflectPadIdx_lt _ _ _ hw)) he1 he2 a b ha hb

theorem gaussianCore_smul (h w : ℕ) (mp : ℕ → ℕ → ℝ) (a sx sy : ℝ) (pad i j : ℕ) :
    (gaussianCore h w (fun i j => a * mp i j) sx sy pad).get i j = a * (gaussianCore h w mp sx sy pad).get i j := by
  have e : ∀ i' j' : ℕ, ((a * mp i' j' * (-1) ^ (j' + i') : ℝ) : ℂ) = (a : ℂ) * ((mp i' j' * (-1) ^ (j' + i') : ℝ) : ℂ) := by
    intro i' j'
    push_cast; ring
  unfold gaussianCore idft2 dft2 dft idft
  dsimp only
  simp only [e, mul_assoc (a : ℂ), ← Finset.mul_sum, mul_div_assoc]
  rw [Complex.re_ofReal_mul]

/-- **C124.** Multiplying the image by a factor other than zero multiplies the result of the Fourier version by it. -/
theorem fft_scale (m : Mat ℝ) (sigma : ℝ) (pad : Option ℕ) (a : ℝ) (ha : a ≠ 0) (r r' : Mat ℝ) (hr : normalizeFft m sigma pad = .ok r)
    (hr' : normalizeFft ⟨m.h, m.w, fun i j => a * m.get i j⟩ sigma pad = .ok r') : r'.Eqv ⟨r.h, r.w, fun i j => a * r.get i j⟩ := by
  obtain ⟨-, rfl⟩ := normalizeFft_ok _ _ _ _ hr
  obtain ⟨-, rfl⟩ := normalizeFft_ok _ _ _ _ hr'
  refine ⟨rfl, rfl, fun i hi j hj => ?_⟩
  dsimp only
  generalize (sigmas m.h m.w sigma).1 = sx
  generalize (sigmas m.h m.w sigma).2 = sy
  generalize pad.getD (pad10 (min m.h m.w)) = p
  have e : gaussianReflect ⟨m.h, m.w, fun i j => a * m.get i j⟩ sx sy p =
      ⟨(gaussianReflect m sx sy p).h, (gaussianReflect m sx sy p).w, fun i j => a * (gaussianReflect m sx sy p).get i j⟩ := by
    have h1 : (gaussianReflect ⟨m.h, m.w, fun i j => a * m.get i j⟩ sx sy p).get = fun i j => a * (gaussianReflect m sx sy p).get i j :=
      funext fun i => funext fun j => gaussianCore_smul _ _ _ a _ _ _ _ _
    rw [← h1]
    rfl
  rw [e]
  exact divide_smul _ _ a ha i j

/-- Concrete instance: a 6 × 8 image of ones. -/
example : ∃ r, normalizeFft ⟨6, 8, fun _ _ => 1⟩ 5 none = .ok r ∧ r.Eqv ⟨6, 8, fun _ _ => 1⟩ := by
  have h : ∃ r, normalizeFft ⟨6, 8, fun _ _ => 1⟩ 5 none = .ok r := by
    unfold normalizeFft
    rw [if_neg (by simp)]
    exact ⟨_, rfl⟩
  obtain ⟨r, hr⟩ := h
  exact ⟨r, hr, fft_constant_partial _ 5 none r hr 1 one_ne_zero (fun _ _ _ _ => rfl) rfl rfl⟩

/-- Concrete instance: one bright pixel in a row of nine. -/
example : ∃ r, normalizeBackground ⟨1, 9, fun _ j => if j = 4 then 5 else 1⟩ 3 = .ok r ∧ r.Eqv ⟨1, 9, fun _ j => if j = 4 then 5 else 1⟩ := by
  refine ⟨_, rfl, normalize_features _ 3 _ rfl 1 one_ne_zero fun i hi j hj => ?_⟩
  have hi : i < 1 := hi
  have hj : j < 9 := hj
  obtain rfl : i = 0 := by omega
  have hsub : 3 * 3 / 2 < 6 := by norm_num
  refine lt_of_lt_of_le hsub ?_
  interval_cases j <;> simp [window, List.range_succ, reflectIdx]

/-! #### odd sizes -/

/-- The full statement. -/
def FftKeepsConstants : Prop := ∀ (m : Mat ℝ) (sigma : ℝ) (r : Mat ℝ), normalizeFft m sigma none = .ok r → ∀ c, c ≠ 0 →
  (∀ i < m.h, ∀ j < m.w, m.get i j = c) → r.Eqv m

theorem omega_spec : ∃ ω : ℂ, Complex.exp (2 * Real.pi * Complex.I / 3) = ω ∧ ω ^ 3 = 1 ∧ ω.re = -1 / 2 ∧ (ω ^ 2).re = -1 / 2 := by
  refine ⟨_, rfl, ?_, ?_, ?_⟩
  · rw [← Complex.exp_nat_mul]
    rw [show ((3 : ℕ) : ℂ) * (2 * Real.pi * Complex.I / 3) = 2 * Real.pi * Complex.I by push_cast; ring]
    exact Complex.exp_two_pi_mul_I
  · rw [show (2 * Real.pi * Complex.I / 3 : ℂ) = ((2 * Real.pi / 3 : ℝ) : ℂ) * Complex.I by push_cast; ring, Complex.exp_ofReal_mul_I_re,
      show 2 * Real.pi / 3 = Real.pi - Real.pi / 3 by ring, Real.cos_pi_sub, Real.cos_pi_div_three]
    norm_num
  · rw [← Complex.exp_nat_mul, show ((2 : ℕ) : ℂ) * (2 * Real.pi * Complex.I / 3) = ((4 * Real.pi / 3 : ℝ) : ℂ) * Complex.I by push_cast; ring,
      Complex.exp_ofReal_mul_I_re, show 4 * Real.pi / 3 = Real.pi / 3 + Real.pi by ring, Real.cos_add_pi, Real.cos_pi_div_three]
    norm_num

/-- The filtered row of three ones. -/
theorem fft_three (sx sy : ℝ) : let e := Real.exp (-(1 / (2 * sx ^ 2)))
    (gaussianReflect ⟨1, 3, fun _ _ => 1⟩ sx sy 0).get 0 0 = (1 + 2 * e) / 3 ∧ (gaussianReflect ⟨1, 3, fun _ _ => 1⟩ sx sy 0).get 0 1 = (2 + e) / 3 := by
  intro e
  obtain ⟨ω, hω, h3, hr1, hr2⟩ := omega_spec
  have hw : ∀ l, gaussianWindow 1 3 sx sy 0 l = Real.exp (-(((l : ℝ) - 1) ^ 2 / (2 * sx ^ 2))) := by
    intro l
    unfold gaussianWindow
    congr 1
    push_cast
    ring
  have w0 : gaussianWindow 1 3 sx sy 0 0 = e := by rw [hw]; simp [e]
  have w1 : gaussianWindow 1 3 sx sy 0 1 = 1 := by rw [hw]; simp
  have w2 : gaussianWindow 1 3 sx sy 0 2 = e := by rw [hw]; simp [e]; norm_num
  have p : ∀ k : ℕ, Complex.exp (2 * Real.pi * Complex.I * (k / 3)) = ω ^ k := by
    intro k
    rw [← hω, ← Complex.exp_nat_mul]
    congr 1; ring
  have q : ∀ k : ℕ, Complex.exp (-(2 * Real.pi * Complex.I * (k / 3))) = ω ^ (2 * k) := by
    intro k
    rw [Complex.exp_neg, p]
    refine inv_eq_of_mul_eq_one_right ?_
    rw [← pow_add, show k + 2 * k = 3 * k by ring, pow_mul, h3, one_pow]
  have T : ∀ j : ℕ, j < 3 → (gaussianReflect ⟨1, 3, fun _ _ => 1⟩ sx sy 0).get 0 j =
      (((1 - ω ^ 0 + 1) * e * 1 + (1 - ω ^ 2 + ω ^ 4) * ω ^ j + (1 - ω ^ 4 + ω ^ 8) * e * ω ^ (2 * j)) / 3 * (-1) ^ j).re := by
    intro j hj
    unfold gaussianReflect gaussianCore idft2 dft2
    dsimp only
    simp only [idft, dft, Finset.sum_range_one, Finset.sum_range_succ, Finset.sum_range_zero, zero_add, w0, w1, w2, Nat.cast_zero, Nat.cast_one, mul_zero, add_zero]
    have q1 := q 1
    have q2 := q 2
    have q4 := q 4
    have p1 := p j
    have p2 := p (2 * j)
    push_cast at q1 q2 q4 p1 p2 ⊢
    simp only [zero_div, zero_mul, mul_zero, neg_zero, Complex.exp_zero, one_mul, mul_one, div_one, pow_zero, pow_one, show (2 * 2 / 3 : ℂ) = 4 / 3 by norm_num] at q1 q2 q4 p1 p2 ⊢
    rw [q1, q2, q4, p1, p2]
    congr 1
    ring
  have h4 : ω ^ 4 = ω := by rw [show 4 = 3 + 1 by rfl, pow_add, h3, one_mul, pow_one]
  have h8 : ω ^ 8 = ω ^ 2 := by rw [show 8 = 3 * 2 + 2 by rfl, pow_add, pow_mul, h3, one_pow, one_mul]
  have re3 : ∀ (a b c : ℝ) , (((a : ℂ) + b * ω + c * ω ^ 2)).re = a - b / 2 - c / 2 := by
    intro a b c
    rw [Complex.add_re, Complex.add_re, Complex.re_ofReal_mul, Complex.re_ofReal_mul, Complex.ofReal_re, hr1, hr2]
    ring
  constructor
  · rw [T 0 (by norm_num), h4, h8]
    refine Eq.trans (congrArg Complex.re ?_) ((re3 ((2 * e + 1) / 3) ((1 - e) / 3) ((e - 1) / 3)).trans ?_)
    · push_cast; ring
    · ring
  · rw [T 1 (by norm_num), h4, h8]
    refine Eq.trans (congrArg Complex.re ?_) ((re3 (1 / 3) (-(1 + e) / 3) (-(1 + e) / 3)).trans ?_)
    · push_cast
      linear_combination ((1 + e) / 3 - e * ω / 3) * h3
    · ring

/-- **C124** is false of the version with the Fourier filter: a constant image of odd size gets structure.  For a row of three ones (any sigma) the
middle pixel comes out differently from the first. -/
theorem fft_constant_refuted : ¬ FftKeepsConstants := by
  intro H
  have hok : normalizeFft ⟨1, 3, fun _ _ => 1⟩ 5 none = .ok (divideBack (gaussianReflect ⟨1, 3, fun _ _ => 1⟩ (sigmas 1 3 5).1 (sigmas 1 3 5).2
      ((none : Option ℕ).getD (pad10 (min 1 3)))) ⟨1, 3, fun _ _ => 1⟩) := by
    unfold normalizeFft
    rw [if_neg (by simp)]
  obtain ⟨-, -, h⟩ := H ⟨1, 3, fun _ _ => 1⟩ 5 _ hok 1 one_ne_zero (fun _ _ _ _ => rfl)
  have h0 := h 0 (by show 0 < 1; norm_num) 0 (by show 0 < 3; norm_num)
  have h1 := h 0 (by show 0 < 1; norm_num) 1 (by show 1 < 3; norm_num)
  have hp : pad10 (min 1 3) = 0 := by unfold pad10; norm_num
  unfold divideBack at h0 h1
  dsimp only at h0 h1
  rw [Option.getD_none, hp] at h0 h1
  have hs : (sigmas 1 3 5).1 ≠ 0 := by
    unfold sigmas
    rw [if_pos (by norm_num)]
    dsimp only
    rw [show (5 : ℝ) / ((1 : ℕ) / (3 : ℕ)) = ((15 : ℤ) : ℝ) by norm_num, Int.ceil_intCast]
    norm_num
  obtain ⟨e0, e1⟩ := fft_three (sigmas 1 3 5).1 (sigmas 1 3 5).2
  generalize (sigmas 1 3 5).1 = sx at *
  generalize (sigmas 1 3 5).2 = sy at *
  rw [e0] at h0
  rw [e1] at h1
  have hpos := Real.exp_pos (-(1 / (2 * sx ^ 2)))
  have hne : Real.exp (-(1 / (2 * sx ^ 2))) ≠ 1 := by
    intro h
    rw [Real.exp_eq_one_iff] at h
    have : 0 < 1 / (2 * sx ^ 2) := by positivity
    linarith
  generalize Real.exp (-(1 / (2 * sx ^ 2))) = e at *
  generalize meanOf (gaussianReflect ⟨1, 3, fun _ _ => 1⟩ sx sy 0) = mu at *
  rw [if_neg (by positivity), mul_one, div_eq_one_iff_eq (by positivity)] at h0 h1
  rw [h0] at h1
  exact hne (by linarith)

/-! ### automatic threshold -/

/-- What is assumed of the Savitzky–Golay filter of order 3: the length is kept and values transform with the samples, for odd windows of at least five
points that fit into the list. -/
structure IsSavgol (savgol : List ℝ → ℕ → List ℝ) : Prop where
  len : ∀ l n, (savgol l n).length = l.length
  affine : ∀ l n (a b : ℝ), n % 2 = 1 → 5 ≤ n → n ≤ l.length → savgol (l.map fun x => a * x + b) n = (savgol l n).map fun x => a * x + b

/-- The hypotheses can be met. -/
example : IsSavgol fun l _ => l := ⟨fun _ _ => rfl, fun _ _ _ _ _ _ _ => rfl⟩

/-- **C124.** The threshold is refused exactly when the longer side is shorter than 6 pixels. -/
theorem threshold_error (zoom savgol : List ℝ → ℕ → List ℝ) (hz : IsZoom zoom) (m : Mat ℝ) (bright : Bool) :
    (∃ t, calculateThreshold zoom savgol m bright = .ok t) ↔ 0 < m.h ∧ 0 < m.w ∧ 6 ≤ max m.h m.w := by
  have hl := flatten_length m
  unfold calculateThreshold
  dsimp only
  by_cases h0 : (npSort (flatten m)).length = 0
  · rw [if_pos h0]
    rw [npSort_length, hl] at h0
    refine ⟨fun ⟨k, hk⟩ => (nomatch hk), fun ⟨h1, h2, _⟩ => absurd h0 (Nat.mul_pos h1 h2).ne'⟩
  · rw [if_neg h0]
    have hne : npSort (flatten m) ≠ [] := fun h => h0 (by rw [h]; rfl)
    rw [npSort_length, hl] at h0
    have hh : 0 < m.h := Nat.pos_of_ne_zero fun h => h0 (by rw [h, zero_mul])
    have hw : 0 < m.w := Nat.pos_of_ne_zero fun h => h0 (by rw [h, mul_zero])
    rw [hz.len _ _ hne]
    by_cases h1 : 2 * (max m.h m.w / 2) - 1 ≤ 3
    · rw [if_pos h1]
      exact ⟨fun ⟨k, hk⟩ => (nomatch hk), fun ⟨_, _, h⟩ => by omega⟩
    · rw [if_neg h1]
      exact ⟨fun _ => ⟨hh, hw, by omega⟩, fun _ => ⟨_, rfl⟩⟩

/-- **C124.** The threshold is, for a bright background, the darkest and otherwise the brightest end of the smoothed profile of the sorted
grey values, which is resampled to as many points as the longer side has and smoothed over all of them. -/
theorem threshold_spec (zoom savgol : List ℝ → ℕ → List ℝ) (hz : IsZoom zoom) (hs : IsSavgol savgol) (m : Mat ℝ) (bright : Bool) (t : ℝ)
    (ht : calculateThreshold zoom savgol m bright = .ok t) :
    ∃ s : List ℝ, s.Perm (flatten m) ∧ s.Pairwise (· ≤ ·) ∧
      (bright = true → (savgol (zoom s (max m.h m.w)) (2 * (max m.h m.w / 2) - 1)).head? = some t) ∧
      (bright = false → (savgol (zoom s (max m.h m.w)) (2 * (max m.h m.w / 2) - 1)).getLast? = some t) := by
  obtain ⟨hh, hw, h6⟩ := (threshold_error zoom savgol hz m bright).1 ⟨t, ht⟩
  have hne := npSort_ne_nil (flatten_ne hh hw)
  have h0 : (npSort (flatten m)).length ≠ 0 := fun h => hne (List.length_eq_zero_iff.1 h)
  refine ⟨npSort (flatten m), npSort_perm _, npSort_pairwise _, ?_⟩
  unfold calculateThreshold at ht
  dsimp only at ht
  rw [if_neg h0, hz.len _ _ hne, if_neg (by omega)] at ht
  have hl : (savgol (zoom (npSort (flatten m)) (max m.h m.w)) (2 * (max m.h m.w / 2) - 1)).length = max m.h m.w := by
    rw [hs.len, hz.len _ _ hne]
  generalize savgol (zoom (npSort (flatten m)) (max m.h m.w)) (2 * (max m.h m.w / 2) - 1) = r at *
  cases bright
  · refine ⟨fun h => (nomatch h), fun _ => ?_⟩
    simp only [Bool.false_eq_true, if_false] at ht
    rw [List.getLast?_eq_getElem?, ← Except.ok.inj ht, List.getD_eq_getElem _ _ (by omega), List.getElem?_eq_getElem (by omega)]
  · refine ⟨fun _ => ?_, fun h => (nomatch h)⟩
    simp only [if_true] at ht
    rw [List.head?_eq_getElem?, ← Except.ok.inj ht, List.getD_eq_getElem _ _ (by omega), List.getElem?_eq_getElem (by omega)]

/-- **C124.** The threshold follows the grey values: `threshold(a m + b) = a threshold(m) + b` for positive `a`. -/
theorem threshold_affine (zoom savgol : List ℝ → ℕ → List ℝ) (hz : IsZoom zoom) (hs : IsSavgol savgol) (m : Mat ℝ) (bright : Bool) (a b t : ℝ) (ha : 0 < a)
    (ht : calculateThreshold zoom savgol m bright = .ok t) : calculateThreshold zoom savgol (affineImage a b m) bright = .ok (a * t + b) := by
  obtain ⟨hh, hw, h6⟩ := (threshold_error zoom savgol hz m bright).1 ⟨t, ht⟩
  have hne := npSort_ne_nil (flatten_ne hh hw)
  have h0 : (npSort (flatten m)).length ≠ 0 := fun h => hne (List.length_eq_zero_iff.1 h)
  unfold calculateThreshold at ht ⊢
  dsimp only at ht ⊢
  have e : (affineImage a b m).h = m.h ∧ (affineImage a b m).w = m.w := ⟨rfl, rfl⟩
  rw [e.1, e.2, flatten_affine, npSort_map _ _ _ ha, hz.affine _ _ _ _ hne]
  simp only [List.length_map]
  rw [if_neg h0] at ht ⊢
  generalize zoom (npSort (flatten m)) (max m.h m.w) = d at *
  have hl := hs.len d (2 * (d.length / 2) - 1)
  by_cases h1 : 2 * (d.length / 2) - 1 ≤ 3
  · rw [if_pos h1] at ht; cases ht
  · rw [if_neg h1] at ht ⊢
    rw [hs.affine _ _ _ _ (by omega) (by omega) (by omega), List.length_map]
    cases ht
    congr 1
    cases bright
    · simp only [Bool.false_eq_true, if_false]
      exact zoom_getD_affine _ _ _ _ (by omega)
    · simp only [if_true]
      exact zoom_getD_affine _ _ _ _ (by omega)

/-- **C124.** The order of the pixels does not matter. -/
theorem threshold_perm (zoom savgol : List ℝ → ℕ → List ℝ) (m m' : Mat ℝ) (bright : Bool) (hs : max m.h m.w = max m'.h m'.w)
    (hp : (flatten m).Perm (flatten m')) : calculateThreshold zoom savgol m bright = calculateThreshold zoom savgol m' bright := by
  unfold calculateThreshold
  rw [npSort_congr hp, hs]

/-- **C124.** `binarize_image` with the automatic threshold gives the same dots for `a m + b`. -/
theorem binarize_affine (zoom savgol : List ℝ → ℕ → List ℝ) (hz : IsZoom zoom) (hs : IsSavgol savgol) (fill : Mat ℝ → Mat ℝ) (m : Mat ℝ) (invert : Bool)
    (auto : Mat ℝ → ℝ) (bright : Bool) (hauto : ∀ x t, calculateThreshold zoom savgol x bright = .ok t → auto x = t) (a b : ℝ) (ha : 0 < a)
    (h6 : 0 < m.h ∧ 0 < m.w ∧ 6 ≤ max m.h m.w) :
    Blobs.binarize id fill auto (affineImage a b m) none invert = Blobs.binarize id fill auto m none invert := by
  obtain ⟨t, ht⟩ := (threshold_error zoom savgol hz m bright).2 h6
  have e1 := hauto _ _ ht
  have e2 := hauto _ _ (threshold_affine zoom savgol hz hs m bright a b t ha ht)
  have e3 : Blobs.thresholded (affineImage a b m) (a * t + b) = Blobs.thresholded m t := by
    unfold Blobs.thresholded affineImage
    congr 1
    funext i j
    dsimp only
    have : (a * m.get i j + b > a * t + b) ↔ (m.get i j > t) := by rw [gt_iff_lt, add_lt_add_iff_right, mul_lt_mul_iff_right₀ ha]
    simp only [this]
  unfold Blobs.binarize
  simp only [id]
  rw [e2, e1, e3]
  rfl

end Verif.Quality
