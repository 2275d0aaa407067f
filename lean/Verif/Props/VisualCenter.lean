import Verif.Model.VisualCenter
import Verif.Props.SliceMetric2
import Verif.Lemmas.Num

/-! C111, C112 — visual centre searches. -/

set_option linter.unusedSectionVars false
set_option linter.unusedSimpArgs false

namespace Verif.VisualCenter
open Verif.SliceMetric

/-! ### Candidates -/

/-- The step, start and stop in use. -/
theorem grid_eq (ncol : ℕ) (hn : 2 ≤ ncol) (start stop step : ℝ) :
    ∃ s a b : ℝ, 0.05 ≤ s ∧ s ≤ (ncol : ℝ) - 1 ∧ 0 ≤ a ∧ a ≤ (ncol : ℝ) - 1 ∧ b ≤ (ncol : ℝ) - 1 ∧ grid ncol start stop step = arange a b s ∧
      (∀ zoom, zoomGrid ncol start stop step zoom = arange (a * zoom) (b * zoom) (s * zoom)) ∧
      (0.05 ≤ step → step ≤ (ncol : ℝ) - 1 → s = step) ∧ (0 ≤ start → start ≤ (ncol : ℝ) - 1 → a = start) ∧
      b = min (max (stop + s) (a + s)) ((ncol : ℝ) - 1) := by
  have hn' : (2 : ℝ) ≤ ncol := by exact_mod_cast hn
  refine ⟨clip step 0.05 ((ncol : ℝ) - 1), clip start 0 ((ncol : ℝ) - 1),
    clip (stop + clip step 0.05 ((ncol : ℝ) - 1)) (clip start 0 ((ncol : ℝ) - 1) + clip step 0.05 ((ncol : ℝ) - 1)) ((ncol : ℝ) - 1),
    ?_, ?_, ?_, ?_, ?_, rfl, fun _ => rfl, ?_, ?_, rfl⟩
  · exact le_min (le_max_right _ _) (by norm_num; linarith)
  · exact min_le_right _ _
  · exact le_min (le_max_right _ _) (by linarith)
  · exact min_le_right _ _
  · exact min_le_right _ _
  · intro h1 h2
    unfold clip
    rw [max_eq_left h1, min_eq_left h2]
  · intro h1 h2
    unfold clip
    rw [max_eq_left h1, min_eq_left h2]

/-- C111: every candidate lies on the detector, whatever the arguments. -/
theorem visual_candidates_inside (ncol : ℕ) (hn : 2 ≤ ncol) (start stop step c : ℝ) (hc : c ∈ grid ncol start stop step) :
    0 ≤ c ∧ c < (ncol : ℝ) - 1 := by
  obtain ⟨s, a, b, h1, -, h3, -, h5, h6, -⟩ := grid_eq ncol hn start stop step
  have hs : 0 < s := by norm_num at h1; linarith
  rw [h6, mem_arange _ _ _ hs] at hc
  obtain ⟨k, rfl, hk⟩ := hc
  have : 0 ≤ (k : ℝ) * s := by positivity
  exact ⟨by linarith, by linarith⟩

/-- C111: for a step of at least 0.05 and `0 <= start <= stop`, `start` on the detector, the candidates are exactly `start, start + step, …` below `stop + step`
that lie before the last column. -/
theorem visual_candidates (ncol : ℕ) (hn : 2 ≤ ncol) (start stop step c : ℝ) (hs1 : 0.05 ≤ step) (hs2 : step ≤ (ncol : ℝ) - 1) (h0 : 0 ≤ start)
    (h1 : start ≤ stop) (h2 : start ≤ (ncol : ℝ) - 1) :
    c ∈ grid ncol start stop step ↔ ∃ k : ℕ, c = start + k * step ∧ c < stop + step ∧ c < (ncol : ℝ) - 1 := by
  obtain ⟨s, a, b, -, -, -, -, -, h6, -, h8, h9, h10⟩ := grid_eq ncol hn start stop step
  obtain rfl := h8 hs1 hs2
  obtain rfl := h9 h0 h2
  have hs : 0 < s := by norm_num at hs1; linarith
  rw [h6, mem_arange _ _ _ hs, h10, max_eq_left (by linarith)]
  simp only [lt_min_iff]

/-- C111, refuted at the last column: `start = ncol - 1` is a valid centre, but no candidate is tried and nothing is written. -/
theorem visual_last_column_refuted (ncol : ℕ) (hn : 2 ≤ ncol) (start stop step : ℝ) (h : (ncol : ℝ) - 1 ≤ start) :
    grid ncol start stop step = [] := by
  rw [List.eq_nil_iff_forall_not_mem]
  intro c hc
  have hn' : (2 : ℝ) ≤ ncol := by exact_mod_cast hn
  obtain ⟨s, a, b, h1, -, h3, h4, h5, h6, -⟩ := grid_eq ncol hn start stop step
  have hs : 0 < s := by norm_num at h1; linarith
  have hlt := (visual_candidates_inside ncol hn start stop step c hc).2
  have ha : (clip start 0 ((ncol : ℝ) - 1)) = (ncol : ℝ) - 1 := by
    unfold clip
    rw [max_eq_left (by linarith), min_eq_right h]
  have e : grid ncol start stop step = arange (clip start 0 ((ncol : ℝ) - 1)) (clip (stop + clip step 0.05 ((ncol : ℝ) - 1))
      (clip start 0 ((ncol : ℝ) - 1) + clip step 0.05 ((ncol : ℝ) - 1)) ((ncol : ℝ) - 1)) (clip step 0.05 ((ncol : ℝ) - 1)) := rfl
  have hs' : 0 < clip step 0.05 ((ncol : ℝ) - 1) := by
    refine lt_of_lt_of_le (by norm_num : (0 : ℝ) < 0.05) (le_min (le_max_right _ _) (by norm_num; linarith))
  rw [e, mem_arange _ _ _ hs', ha] at hc
  obtain ⟨k, hk, -⟩ := hc
  have : 0 ≤ (k : ℝ) * clip step 0.05 ((ncol : ℝ) - 1) := by positivity
  linarith

theorem name_ne (x y : ℝ) (h : x + 0.05 ≤ y) : nameOf x < nameOf y := by
  unfold nameOf
  have h1 := abs_le.1 (npRound_abs (100 * x))
  have h2 := abs_le.1 (npRound_abs (100 * y))
  have : ((npRound (100 * x) : ℤ) : ℝ) < ((npRound (100 * y) : ℤ) : ℝ) := by
    norm_num at h
    linarith [h1.2, h2.1]
  exact_mod_cast this

theorem grid_getElem_lt (ncol : ℕ) (hn : 2 ≤ ncol) (start stop step : ℝ) (i j : ℕ) (hij : i < j) (hj : j < (grid ncol start stop step).length) :
    (grid ncol start stop step)[i] + 0.05 ≤ (grid ncol start stop step)[j] := by
  obtain ⟨s, a, b, h1, -, -, -, -, h6, -⟩ := grid_eq ncol hn start stop step
  simp only [h6, arange_get]
  have : ((i + 1 : ℕ) : ℝ) ≤ j := by exact_mod_cast hij
  push_cast at this
  have hs : 0 < s := by norm_num at h1; linarith
  nlinarith

/-- C111: no two candidates are written to the same file: the names increase with the centre. -/
theorem visual_names_distinct (ncol : ℕ) (hn : 2 ≤ ncol) (start stop step : ℝ) (i j : ℕ) (hij : i < j)
    (hj : j < (grid ncol start stop step).length) :
    nameOf (grid ncol start stop step)[i] < nameOf (grid ncol start stop step)[j] :=
  name_ne _ _ (grid_getElem_lt ncol hn start stop step i j hij hj)

/-- C111: the name tells the centre to half a hundredth of a pixel. -/
theorem visual_name_close (c : ℝ) : |(nameOf c : ℝ) / 100 - c| ≤ 0.005 := by
  have h := abs_le.1 (npRound_abs (100 * c))
  unfold nameOf
  rw [abs_le]
  norm_num
  constructor <;> linarith [h.1, h.2]

/-! ### Slices -/

theorem zoomGrid_eq (ncol : ℕ) (hn : 2 ≤ ncol) (start stop step zoom : ℝ) (hz : 0 < zoom) :
    zoomGrid ncol start stop step zoom = (grid ncol start stop step).map fun c => c * zoom := by
  obtain ⟨s, a, b, h1, -, -, -, -, h6, h7, -⟩ := grid_eq ncol hn start stop step
  rw [h6, h7]
  unfold arange
  rw [List.map_map]
  have : (b * zoom - a * zoom) / (s * zoom) = (b - a) / s := by
    rw [← sub_mul, mul_div_mul_right _ _ hz.ne']
  rw [this]
  refine List.map_congr_left fun k _ => ?_
  show a * zoom + (k : ℝ) * (s * zoom) = (a + (k : ℝ) * s) * zoom
  ring

theorem loop_spec (rec : ℝ → Py (Mat ℝ)) (zoom : ℝ) : ∀ cs : List ℝ,
    ((loop rec zoom cs).1.length ≤ cs.length) ∧
    (∀ (i : ℕ) (hi : i < (loop rec zoom cs).1.length) (hi' : i < cs.length),
      (loop rec zoom cs).1[i].1 = nameOf (cs[i] / zoom) ∧ rec cs[i] = .ok (loop rec zoom cs).1[i].2) ∧
    ((loop rec zoom cs).2 = none → (loop rec zoom cs).1.length = cs.length) ∧
    (∀ e, (loop rec zoom cs).2 = some e → ∃ h : (loop rec zoom cs).1.length < cs.length, rec (cs[(loop rec zoom cs).1.length]'h) = .error e) := by
  intro cs
  induction cs with
  | nil => exact ⟨le_rfl, fun i hi => absurd hi (by simp [loop]), fun _ => rfl, fun e h => (nomatch h)⟩
  | cons c cs ih =>
    cases hr : rec c with
    | error e =>
      have e1 : loop rec zoom (c :: cs) = ([], some e) := by
        rw [loop, hr]
      simp only [e1]
      refine ⟨by simp, fun i hi => absurd hi (by simp), fun h => (nomatch h), fun e' he => ⟨by simp, ?_⟩⟩
      cases he
      simpa using hr
    | ok img =>
      have e1 : loop rec zoom (c :: cs) = ((nameOf (c / zoom), img) :: (loop rec zoom cs).1, (loop rec zoom cs).2) := by
        rw [loop, hr]
      simp only [e1]
      obtain ⟨h1, h2, h3, h4⟩ := ih
      refine ⟨by simpa using h1, fun i hi hi' => ?_, fun h => by simp [h3 h], fun e he => ?_⟩
      · cases i with
        | zero => exact ⟨rfl, hr⟩
        | succ i => exact h2 i (by simpa using hi) (by simpa using hi')
      · obtain ⟨h5, h6⟩ := h4 e he
        exact ⟨by simpa using h5, by simpa using h6⟩

/-- C111: the files written.  In the order of the candidates, each is named after its centre in the original sinogram and holds the slice
reconstructed about that centre times the zoom factor; if no reconstruction raises there is one for every candidate, otherwise exactly those
before the first one that raises. -/
theorem visual_slices_spec (rec : Mat ℝ → ℝ → Py (Mat ℝ)) (m zoomed : Mat ℝ) (hn : 2 ≤ m.w) (start stop step zoom : ℝ) (hz : 0 < zoom) :
    let cs := grid m.w start stop step
    let r := visualSlices rec m zoomed start stop step zoom
    let S := if zoom ≠ 1 then zoomed else m
    r.1.length ≤ cs.length ∧
    (∀ (i : ℕ) (hi : i < r.1.length) (hi' : i < cs.length), r.1[i].1 = nameOf cs[i] ∧ rec S (cs[i] * zoom) = .ok r.1[i].2) ∧
    (r.2 = none → r.1.length = cs.length) ∧
    (∀ e, r.2 = some e → ∃ h : r.1.length < cs.length, rec S ((cs[r.1.length]'h) * zoom) = .error e) := by
  dsimp only
  have hr : visualSlices rec m zoomed start stop step zoom =
      loop (rec (if zoom ≠ 1 then zoomed else m)) zoom ((grid m.w start stop step).map fun c => c * zoom) := by
    unfold visualSlices
    by_cases h1 : zoom ≠ 1
    · rw [if_pos h1, if_pos h1, zoomGrid_eq _ hn _ _ _ _ hz]
    · rw [if_neg h1, if_neg h1]
      congr 1
      rw [not_not.1 h1]
      simp
  rw [hr]
  obtain ⟨h1, h2, h3, h4⟩ := loop_spec (rec (if zoom ≠ 1 then zoomed else m)) zoom ((grid m.w start stop step).map fun c => c * zoom)
  rw [List.length_map] at h1 h3
  refine ⟨h1, fun i hi hi' => ?_, h3, fun e he => ?_⟩
  · have := h2 i hi (by simpa using hi')
    rw [List.getElem_map, mul_div_assoc, div_self hz.ne', mul_one] at this
    exact this
  · obtain ⟨h5, h6⟩ := h4 e he
    rw [List.length_map] at h5
    refine ⟨h5, ?_⟩
    rw [List.getElem_map] at h6
    exact h6

/-! ### Zoom -/

/-- C111: with a zoom factor of at least one half the scaled centres lie on the scaled detector. -/
theorem visual_zoom_inside_partial (ncol : ℕ) (hn : 2 ≤ ncol) (start stop step zoom c : ℝ) (hz : 1 / 2 ≤ zoom) (hc : c ∈ grid ncol start stop step) :
    0 ≤ c * zoom ∧ c * zoom < zoomSize ncol zoom := by
  obtain ⟨h0, h1⟩ := visual_candidates_inside ncol hn start stop step c hc
  have hz0 : 0 < zoom := by linarith
  refine ⟨by positivity, ?_⟩
  have hr := abs_le.1 (npRound_abs ((ncol : ℝ) * zoom))
  have hle : ((npRound ((ncol : ℝ) * zoom) : ℤ) : ℝ) ≤ (zoomSize ncol zoom : ℝ) := by
    unfold zoomSize
    exact_mod_cast Int.self_le_toNat _
  have : c * zoom < ((ncol : ℝ) - 1) * zoom := mul_lt_mul_of_pos_right h1 hz0
  linarith [hr.1]

/-- C111, refuted below one half: 7 columns, `zoom=0.2` and the centre 5.5: the scaled detector has one column and the scaled centre 1.1 is
outside; nothing is written. -/
theorem visual_zoom_refuted (rec : Mat ℝ → ℝ → Py (Mat ℝ)) (m zoomed : Mat ℝ) (hm : m.w = 7) (hz : zoomed.w = zoomSize 7 (1 / 5))
    (hd : ∀ c img, rec zoomed c = .ok img → 0 ≤ c ∧ c < zoomed.w) :
    (5.5 : ℝ) ∈ grid m.w 5.5 5.5 1 ∧ (visualSlices rec m zoomed 5.5 5.5 1 (1 / 5)).1 = [] := by
  have hmem : (5.5 : ℝ) ∈ grid m.w 5.5 5.5 1 := by
    rw [hm, visual_candidates 7 (by norm_num) 5.5 5.5 1 5.5 (by norm_num) (by norm_num) (by norm_num) le_rfl (by norm_num)]
    exact ⟨0, by norm_num, by norm_num, by norm_num⟩
  refine ⟨hmem, ?_⟩
  have hsz : zoomSize 7 (1 / 5) = 1 := by
    unfold zoomSize npRound
    have : ⌊((7 : ℕ) : ℝ) * (1 / 5)⌋ = 1 := by
      rw [Int.floor_eq_iff]; norm_num
    rw [this, if_pos (by norm_num)]
    rfl
  have h := visual_slices_spec rec m zoomed (by omega) 5.5 5.5 1 (1 / 5) (by norm_num)
  dsimp only at h
  rw [if_pos (by norm_num)] at h
  obtain ⟨h1, h2, h3, h4⟩ := h
  rw [← List.length_eq_zero_iff]
  by_contra hne
  have hl0 : 0 < (grid m.w 5.5 5.5 1).length := List.length_pos_of_mem hmem
  obtain ⟨-, h6⟩ := h2 0 (Nat.pos_of_ne_zero hne) hl0
  have h7 := (hd _ _ h6).2
  rw [hz, hsz] at h7
  have h8 : (grid m.w 5.5 5.5 1)[0] = 5.5 := by
    obtain ⟨s, a, b, -, -, -, -, -, h6, -, -, h9, -⟩ := grid_eq m.w (by omega) 5.5 5.5 1
    simp only [h6, arange_get]
    rw [h9 (by norm_num) (by rw [hm]; norm_num)]
    norm_num
  rw [h8] at h7
  norm_num at h7

theorem lerp_position (n : ℕ) (x : ℝ) (h0 : 0 ≤ x) (h1 : x ≤ (n : ℝ) - 1) (hn : 1 ≤ n) : lerp n (fun j => (j : ℝ)) x = x := by
  unfold lerp
  dsimp only
  have hc : clip x 0 ((n : ℝ) - 1) = x := by
    unfold clip
    rw [max_eq_left h0, min_eq_left h1]
  rw [hc]
  have hk := Nat.floor_le h0
  have hk' : ⌊x⌋₊ ≤ n - 1 := by
    have : (⌊x⌋₊ : ℝ) ≤ ((n - 1 : ℕ) : ℝ) := by rw [Nat.cast_sub hn]; push_cast; linarith
    exact_mod_cast this
  rcases Nat.lt_or_ge ⌊x⌋₊ (n - 1) with h | h
  · rw [min_eq_left (by omega)]
    push_cast
    ring
  · have e : ⌊x⌋₊ = n - 1 := le_antisymm hk' h
    have ex : x = ⌊x⌋₊ := by
      apply le_antisymm _ hk
      rw [e, Nat.cast_sub hn]; push_cast; exact h1
    rw [← ex]
    simp

/-- C112: pixel `k` of a row zoomed from `n` to `m` samples shows the position `k (n - 1) / (m - 1)` of the original. -/
theorem zoom_position (n m k : ℕ) (hm : 2 ≤ m) (hn : 1 ≤ n) (hk : k < m) :
    zoomLine n m (fun j => (j : ℝ)) k = (k : ℝ) * (((n : ℝ) - 1) / ((m : ℝ) - 1)) := by
  have hm' : (0 : ℝ) < (m : ℝ) - 1 := by
    have : (2 : ℝ) ≤ m := by exact_mod_cast hm
    linarith
  have hn' : (0 : ℝ) ≤ (n : ℝ) - 1 := by
    have : (1 : ℝ) ≤ n := by exact_mod_cast hn
    linarith
  have hk' : (k : ℝ) ≤ (m : ℝ) - 1 := by
    have : ((k + 1 : ℕ) : ℝ) ≤ m := by exact_mod_cast hk
    push_cast at this; linarith
  refine lerp_position n _ (by positivity) ?_ hn
  rw [← mul_div_assoc, div_le_iff₀ hm']
  nlinarith

/-- The position of the original sinogram that a fractional pixel `x` of the zoomed one shows. -/
noncomputable def shown (n m : ℕ) (x : ℝ) : ℝ := x * (((n : ℝ) - 1) / ((m : ℝ) - 1))

/-- C112: the slice for the candidate `c` is reconstructed about pixel `c * zoom` of the zoomed sinogram.  That pixel shows position `c` of the
original exactly if `zoom` is the ratio of the sizes minus one (or `c = 0`). -/
theorem zoom_axis_partial (n m : ℕ) (hm : 2 ≤ m) (hn : 2 ≤ n) (c zoom : ℝ) :
    shown n m (c * zoom) = c ↔ c = 0 ∨ zoom = ((m : ℝ) - 1) / ((n : ℝ) - 1) := by
  have hm' : (0 : ℝ) < (m : ℝ) - 1 := by
    have : (2 : ℝ) ≤ m := by exact_mod_cast hm
    linarith
  have hn' : (0 : ℝ) < (n : ℝ) - 1 := by
    have : (2 : ℝ) ≤ n := by exact_mod_cast hn
    linarith
  unfold shown
  rw [← mul_div_assoc, div_eq_iff hm'.ne', eq_div_iff hn'.ne', mul_assoc]
  constructor
  · intro h
    by_cases hc : c = 0
    · exact Or.inl hc
    · exact Or.inr (mul_left_cancel₀ hc h)
  · rintro (rfl | h)
    · simp
    · rw [h]

/-- C112, refuted with the default zoom 0.5: for 2560 columns the slice labelled with the centre 1280 is reconstructed about position 1280.5 of
the original. -/
theorem zoom_axis_refuted : zoomSize 2560 (1 / 2) = 1280 ∧ shown 2560 (zoomSize 2560 (1 / 2)) (1280 * (1 / 2)) > 1280 + 1 / 2 := by
  have h : zoomSize 2560 (1 / 2) = 1280 := by
    unfold zoomSize
    have : npRound (((2560 : ℕ) : ℝ) * (1 / 2)) = 1280 := by
      rw [show ((2560 : ℕ) : ℝ) * (1 / 2) = ((1280 : ℤ) : ℝ) by norm_num, npRound_int]
    rw [this]
    rfl
  refine ⟨h, ?_⟩
  rw [h]
  unfold shown
  norm_num

/-! ### Sinograms -/

/-- Indices inside the row stay. -/
def Keeps (bnd : ℕ → ℤ → ℕ) : Prop := ∀ (n : ℕ) (k : ℕ), k < n → bnd n (k : ℤ) = k

/-- C112: the upper half of every saved sinogram is the input. -/
theorem full_sinogram_top (bnd : ℕ → ℤ → ℕ) (m : Mat ℝ) (c : ℝ) (i j : ℕ) (hi : i < m.h) :
    (fullSinogram bnd m c).h = 2 * m.h ∧ (fullSinogram bnd m c).w = m.w ∧ (fullSinogram bnd m c).get i j = m.get i j := by
  unfold fullSinogram
  exact ⟨by simp; omega, rfl, if_pos hi⟩

theorem bspline_inside (bnd : ℕ → ℤ → ℕ) (hb : Keeps bnd) (n : ℕ) (f : ℕ → ℝ) (x : ℝ) (k : ℕ) (h0 : ((k + 1 : ℕ) : ℝ) ≤ x)
    (h1 : x < ((k + 1 : ℕ) : ℝ) + 1) (hk : k + 3 < n) :
    bspline bnd n f x = f k * ((1 - (x - (k + 1))) ^ 3 / 6) + f (k + 1) * ((4 - 6 * (x - (k + 1)) ^ 2 + 3 * (x - (k + 1)) ^ 3) / 6) +
      f (k + 2) * ((4 - 6 * (1 - (x - (k + 1))) ^ 2 + 3 * (1 - (x - (k + 1))) ^ 3) / 6) + f (k + 3) * ((x - (k + 1)) ^ 3 / 6) := by
  have hn : ((k + 3 + 1 : ℕ) : ℝ) ≤ n := by exact_mod_cast hk
  push_cast at hn h0 h1
  have hk0 : (0 : ℝ) ≤ k := Nat.cast_nonneg k
  have hc : clip x 0 ((n : ℝ) - 1) = x := by
    unfold clip
    rw [max_eq_left (by linarith), min_eq_left (by linarith)]
  unfold bspline
  dsimp only
  rw [hc]
  have hf : ⌊x⌋ = ((k + 1 : ℕ) : ℤ) := by
    rw [Int.floor_eq_iff]
    push_cast
    exact ⟨h0, h1⟩
  rw [hf, show (((k + 1 : ℕ) : ℤ) - 1) = ((k : ℕ) : ℤ) by push_cast; ring, show (((k + 1 : ℕ) : ℤ) + 1) = ((k + 2 : ℕ) : ℤ) by push_cast; ring,
    show (((k + 1 : ℕ) : ℤ) + 2) = ((k + 3 : ℕ) : ℤ) by push_cast; ring, hb n _ (by omega), hb n _ (by omega), hb n _ (by omega), hb n _ (by omega)]
  push_cast
  ring

/-- C112: the lower half shows the input mirrored about the candidate centre, for every centre (also between pixels), where the input is
linear along the row: entry `j` is the value of the input's line at `2 c - j`, if this position is more than two pixels
from the left and at least one from the right edge. -/
theorem full_sinogram_mirror_partial (bnd : ℕ → ℤ → ℕ) (hb : Keeps bnd) (m : Mat ℝ) (c : ℝ) (i j : ℕ) (p q : ℝ)
    (hrow : ∀ l < m.w, m.get i l = p * l + q) (h0 : 2 < 2 * c - j) (h1 : 2 * c - j ≤ (m.w : ℝ) - 2) :
    (fullSinogram bnd m c).get (m.h + i) j = p * (2 * c - j) + q := by
  unfold fullSinogram
  dsimp only
  rw [if_neg (by omega), Nat.add_sub_cancel_left]
  set x : ℝ := (j : ℝ) - 2 * (c - ((m.w : ℝ) - 1) / 2) with hx
  have hxe : x = (m.w : ℝ) - 1 - (2 * c - j) := by rw [hx]; ring
  have hx0 : (1 : ℝ) ≤ x := by linarith
  obtain ⟨k, hk⟩ : ∃ k : ℕ, ⌊x⌋₊ = k + 1 := ⟨⌊x⌋₊ - 1, by
    have : 1 ≤ ⌊x⌋₊ := Nat.le_floor (by simpa using hx0)
    omega⟩
  have hfl := Nat.floor_le (by linarith : 0 ≤ x)
  have hfl' := Nat.lt_floor_add_one x
  rw [hk] at hfl hfl'
  have hkw : k + 3 < m.w := by
    have : ((k + 1 : ℕ) : ℝ) < (m.w : ℝ) - 3 := by linarith
    have : ((k + 1 + 3 : ℕ) : ℝ) < m.w := by push_cast at this ⊢; linarith
    have : k + 1 + 3 < m.w := by exact_mod_cast this
    omega
  rw [bspline_inside bnd hb m.w _ x k hfl hfl' hkw]
  have hcast : ∀ d : ℕ, d ≤ 3 → ((m.w - 1 - (k + d) : ℕ) : ℝ) = (m.w : ℝ) - 1 - ((k : ℝ) + d) := by
    intro d hd
    rw [Nat.cast_sub (by omega), Nat.cast_sub (by omega)]
    push_cast
    ring
  have c0 := hcast 0 (by omega)
  rw [Nat.add_zero] at c0
  rw [hrow _ (by omega), hrow _ (by omega), hrow _ (by omega), hrow _ (by omega), c0, hcast 1 (by omega), hcast 2 (by omega), hcast 3 (by omega)]
  push_cast
  have e : 2 * c - (j : ℝ) = (m.w : ℝ) - 1 - x := by rw [hxe]; ring
  rw [e]
  ring

/-- C112: for a centre on or halfway between pixels, the mirrored value is the weighted mean of three neighbours: the input is blurred. -/
theorem full_sinogram_blur (bnd : ℕ → ℤ → ℕ) (hb : Keeps bnd) (m : Mat ℝ) (c : ℝ) (i j t : ℕ) (ht : 2 * c - j = t) (h0 : 2 ≤ t) (h1 : t + 2 ≤ m.w) :
    (fullSinogram bnd m c).get (m.h + i) j = (m.get i (t - 1) + 4 * m.get i t + m.get i (t + 1)) / 6 := by
  unfold fullSinogram
  dsimp only
  rw [if_neg (by omega), Nat.add_sub_cancel_left]
  set x : ℝ := (j : ℝ) - 2 * (c - ((m.w : ℝ) - 1) / 2) with hx
  obtain ⟨k, hk⟩ : ∃ k : ℕ, m.w = t + 2 + k := ⟨m.w - (t + 2), by omega⟩
  have hxe : x = ((k + 1 : ℕ) : ℝ) := by
    have : (m.w : ℝ) = t + 2 + k := by rw [hk]; push_cast; ring
    rw [hx, this]
    push_cast
    linarith
  rw [bspline_inside bnd hb m.w _ x k hxe.ge (by rw [hxe]; linarith) (by omega)]
  rw [show m.w - 1 - k = t + 1 by omega, show m.w - 1 - (k + 1) = t by omega, show m.w - 1 - (k + 2) = t - 1 by omega, hxe]
  push_cast
  ring

/-- C112, refuted: a single bright column is not mirrored but spread over three. -/
theorem full_sinogram_mirror_refuted (bnd : ℕ → ℤ → ℕ) (hb : Keeps bnd) :
    ∃ (m : Mat ℝ) (c : ℝ) (j : ℕ), 2 * c - j = 5 ∧ (fullSinogram bnd m c).get m.h j ≠ m.get 0 5 := by
  refine ⟨⟨1, 11, fun _ l => if l = 5 then 1 else 0⟩, 5, 5, by norm_num, ?_⟩
  have := full_sinogram_blur bnd hb ⟨1, 11, fun _ l => if l = 5 then 1 else 0⟩ 5 0 5 5 (by norm_num) (by norm_num) (by norm_num)
  rw [Nat.add_zero] at this
  rw [this]
  norm_num

/-- C111/C112: `find_center_visual_sinograms` writes one image per candidate, in their order: named after the candidate, and made of the input above
its mirror image about that candidate, resized if a zoom is asked for. -/
theorem visual_sinograms_spec (bnd : ℕ → ℤ → ℕ) (resize : ℝ → Mat ℝ → Mat ℝ) (m : Mat ℝ) (start stop step zoom : ℝ) :
    (visualSinograms bnd resize m start stop step zoom).length = (grid m.w start stop step).length ∧
    ∀ k (hk : k < (grid m.w start stop step).length), ∃ (hk' : k < (visualSinograms bnd resize m start stop step zoom).length) (img : Mat ℝ),
      |((visualSinograms bnd resize m start stop step zoom)[k].1 : ℝ) / 100 - (grid m.w start stop step)[k]| ≤ 0.005 ∧
      (visualSinograms bnd resize m start stop step zoom)[k].2 = (if zoom = 1 then img else resize zoom img) ∧
      img.h = 2 * m.h ∧ img.w = m.w ∧ (∀ i < m.h, ∀ j < m.w, img.get i j = m.get i j) ∧
      img = fullSinogram bnd m (grid m.w start stop step)[k] := by
  unfold visualSinograms
  refine ⟨List.length_map _, fun k hk => ⟨by rw [List.length_map]; exact hk, fullSinogram bnd m (grid m.w start stop step)[k], ?_, ?_, ?_, rfl, ?_, rfl⟩⟩
  · rw [List.getElem_map]
    exact visual_name_close _
  · rw [List.getElem_map]
    by_cases hz : zoom = 1
    · simp [hz]
    · simp [hz]
  · show m.h + m.h = 2 * m.h
    omega
  · intro i hi j _
    exact (full_sinogram_top bnd m _ i j hi).2.2

/-- Concrete instance: 11 columns, centres 4 to 5 in steps of one half: three files. -/
example : (4.5 : ℝ) ∈ grid 11 4 5 0.5 ∧ (4.7 : ℝ) ∉ grid 11 4 5 0.5 := by
  constructor
  · rw [visual_candidates 11 (by norm_num) 4 5 0.5 4.5 (by norm_num) (by norm_num) (by norm_num) (by norm_num) (by norm_num)]
    exact ⟨1, by norm_num, by norm_num, by norm_num⟩
  · rw [visual_candidates 11 (by norm_num) 4 5 0.5 4.7 (by norm_num) (by norm_num) (by norm_num) (by norm_num) (by norm_num)]
    rintro ⟨k, hk, -⟩
    have h5 : (k : ℝ) * 10 = 14 := by norm_num at hk ⊢; linarith
    have : k * 10 = 14 := by exact_mod_cast h5
    omega

/-- An index rule that keeps the indices inside. -/
example : Keeps fun n k => min k.toNat (n - 1) := fun n k hk => by
  show min (k : ℤ).toNat (n - 1) = k
  simp
  omega

end Verif.VisualCenter
