import Verif.Model.Center
import Verif.Lemmas.Num
import Verif.Props.ParallelSlices
import Mathlib.Data.Rat.Floor

/-! C21–C25, C64 — centre of rotation, overlap and shift. -/

set_option linter.unusedSectionVars false
set_option linter.unusedSimpArgs false

namespace Verif.Center
open Verif.Sched

variable {K : Type _} [Field K] [LinearOrder K] [IsStrictOrderedRing K] [FloorRing K]

/-! ### C21 -/

/-- The two halves overlap by `v` columns on side `side`: column `x` of the flipped second half shows the same ray as
column `x'` of the first half. -/
def SameRay (n v : Int) (side : Int) (x x' : Int) : Prop :=
  if side = 0 then x' = x - (n - v) else x' = x + (n - v)

/-- A centre is right for this overlap: detector columns `x'` (first half) and `n-1-x` (second half, unflipped) of one ray
are mirror images about it. -/
def CentreRight (n : Nat) (v : Int) (side : Int) (c : K) : Prop :=
  ∀ x x' : Int, SameRay n v side x x' → ((x' + ((n : Int) - 1 - x) : Int) : K) = 2 * c

/-- C21.  `find_center_360` turns every overlap on either side into the mirror axis. -/
theorem find_center_360_right (n : Nat) (v : Int) (side : Int) (hs : side = 0 ∨ side = 1) :
    CentreRight n v side (center360 n (v : K) side) := by
  intro x x' h
  unfold SameRay at h
  unfold center360
  rcases hs with rfl | rfl
  · simp only [if_true] at h ⊢; subst h; push_cast; ring
  · simp only [one_ne_zero, if_false] at h ⊢; subst h; push_cast; ring

/-- C21 is false of `find_center_projection`: for every width and overlap, on either side, its centre is half a pixel too
small. -/
theorem find_center_projection_refuted (n : Nat) (v : Int) (side : Int) (hs : side = 0 ∨ side = 1) :
    centerProjection n (v : K) side = center360 n (v : K) side - 1 / 2 ∧
    ¬ CentreRight n v side (centerProjection n (v : K) side) := by
  have h1 : centerProjection n (v : K) side = center360 n (v : K) side - 1 / 2 := by
    unfold centerProjection center360; split <;> ring
  refine ⟨h1, ?_⟩
  intro hc
  have hr := find_center_360_right (K := K) n v side hs
  obtain ⟨x', hx'⟩ : ∃ x', SameRay n v side 0 x' := by
    unfold SameRay; split <;> exact ⟨_, rfl⟩
  have e1 := hc 0 x' hx'
  have e2 := hr 0 x' hx'
  rw [h1] at e1
  rw [e2] at e1
  linarith

/-- C21 (partial): `find_center_projection` errs by exactly half a pixel, i.e. adding `0.5` gives the mirror axis. -/
theorem find_center_projection_partial (n : Nat) (v : Int) (side : Int) (hs : side = 0 ∨ side = 1) :
    CentreRight n v side (centerProjection n (v : K) side + 1 / 2) := by
  rw [(find_center_projection_refuted (K := K) n v side hs).1, sub_add_cancel]
  exact find_center_360_right n v side hs

/-! ### C22 -/

/-- Full claim: with `side=None` both sides are searched with the options the caller gave, and the sharper minimum wins. -/
def OptionsForwarded (search : Int → Bool → Bool → K × K) (ncol1 : Nat) (hw : K) (denoise norm : Bool) : Prop :=
  findOverlap search ncol1 hw none denoise norm =
    if (search 1 denoise norm).1 > (search 0 denoise norm).1
    then findOverlap search ncol1 hw (some 1) denoise norm
    else findOverlap search ncol1 hw (some 0) denoise norm

/-- C22 is false of the code: with the defaults `denoise=True, norm=False` the automatic side search runs with
`denoise=False, norm=True`. -/
theorem find_overlap_options_refuted :
    ∃ search : Int → Bool → Bool → ℚ × ℚ, ¬ OptionsForwarded search 100 10 true false := by
  refine ⟨fun _ d n => if d = true ∧ n = false then (1, 5) else (1, 7), ?_⟩
  unfold OptionsForwarded findOverlap
  norm_num

/-- C22 (partial): correct whenever `denoise = norm`. -/
theorem find_overlap_options_partial (search : Int → Bool → Bool → K × K) (ncol1 : Nat) (hw : K) (b : Bool) :
    OptionsForwarded search ncol1 hw b b := by
  unfold OptionsForwarded findOverlap
  by_cases h : (search 1 b b).1 > (search 0 b b).1
  · simp [h]
  · simp [h]

/-- C22, exactly what the automatic side search does: it is the search with `denoise` and `norm` *exchanged*, on both sides, and the
side with the larger curvature wins. -/
theorem find_overlap_options_swapped (search : Int → Bool → Bool → K × K) (ncol1 : Nat) (hw : K) (denoise norm : Bool) :
    ((search 0 norm denoise).1 < (search 1 norm denoise).1 →
      findOverlap search ncol1 hw none denoise norm = findOverlap search ncol1 hw (some 1) norm denoise) ∧
    ((search 1 norm denoise).1 ≤ (search 0 norm denoise).1 →
      findOverlap search ncol1 hw none denoise norm = findOverlap search ncol1 hw (some 0) norm denoise) := by
  unfold findOverlap
  constructor
  · intro h
    simp [h]
  · intro h
    simp [not_lt.2 h]

/-! ### C23 -/

/-- `v` is the geometric overlap when the window of `2·o` columns of image 1 centred at `pos` shows the edge
window of image 2 (its first columns for side 1, its last columns for side 0). -/
def GeomOverlap (ncol1 : Nat) (side : Int) (o pos v : Int) : Prop :=
  if side = 1 then v = ncol1 - (pos - o) else v = pos + o

/-- Full claim: whatever the window width accepted and the position of the minimum, the overlap is the
geometric one for the matched window. -/
def OverlapRight (ncol1 ncol2 : Nat) (win : Int) (side : Int) (k : Nat) : Prop :=
  GeomOverlap ncol1 side (searchOffset ncol1 ncol2 (winFind ncol1 ncol2 win))
    ((k : Int) + searchOffset ncol1 ncol2 (winFind ncol1 ncol2 win)) (overlapAt ncol1 ncol2 win side k).1

/-- C23 is false of the code in two ways: (a) at the largest window the two clippings disagree and the overlap is one
pixel too large; (b) a match at the first or last two positions is reported at the clipped position. -/
theorem find_overlap_position_refuted :
    ¬ OverlapRight 32 32 16 1 7 ∧ ¬ OverlapRight 32 32 16 0 7 ∧ ¬ OverlapRight 32 32 10 1 0 := by
  refine ⟨?_, ?_, ?_⟩ <;> (unfold OverlapRight GeomOverlap; decide)

/-- C23 (partial): right for both sides, all widths, all windows below half the smaller width (the
requested window may be larger than the image or smaller than six; then the clipped one counts) and all interior positions. -/
theorem find_overlap_position_partial (ncol1 ncol2 : Nat) (win : Int) (side : Int) (k : Nat)
    (hm : 7 ≤ min ncol1 ncol2 / 2) (hw : win ≤ ((min ncol1 ncol2 / 2 : Nat) : Int) - 1)
    (hk2 : 2 ≤ k) (hk : (k : Int) + 2 < ncol1 - 2 * searchOffset ncol1 ncol2 (winFind ncol1 ncol2 win)) :
    OverlapRight ncol1 ncol2 win side k ∧
    (overlapAt ncol1 ncol2 win side k).2 = (k : Int) + searchOffset ncol1 ncol2 (winFind ncol1 ncol2 win) := by
  unfold OverlapRight GeomOverlap overlapAt
  dsimp only
  have h1 : winFind ncol1 ncol2 win / 2 = searchOffset ncol1 ncol2 (winFind ncol1 ncol2 win) := by
    unfold winFind searchOffset npClip
    omega
  rw [← h1] at hk ⊢
  have h2 : npClip (k : Int) 2 ((ncol1 : Int) - winFind ncol1 ncol2 win / 2 - winFind ncol1 ncol2 win / 2 - 2 - 1) = k := by
    unfold npClip; omega
  rw [h2]
  by_cases hs : side = 1
  · simp only [hs, if_true, and_true]; omega
  · simp only [hs, if_false, and_true]

/-- C23, exactly: with `n` half the smaller width and windows of `2 o` columns, `o` half of the requested window clipped to `[6, n - 1]`, a match at an
interior position is reported at that position, and the overlap is the geometric one, except that it is one too large when `n` is even and the
requested window is `n` or wider. -/
theorem find_overlap_position_exact (ncol1 ncol2 : Nat) (win : Int) (side : Int) (k n : Nat) (o v : Int) (hn : n = min ncol1 ncol2 / 2) (hm : 7 ≤ n)
    (ho : o = max 6 (min win ((n : Int) - 1)) / 2) (hk2 : 2 ≤ k) (hk : (k : Int) + 2 < ncol1 - 2 * o)
    (hv : GeomOverlap ncol1 side o ((k : Int) + o) v) :
    overlapAt ncol1 ncol2 win side k = (v + (if (n : Int) ≤ win ∧ n % 2 = 0 then 1 else 0), (k : Int) + o) := by
  unfold GeomOverlap at hv
  unfold overlapAt
  dsimp only
  have h1 : searchOffset ncol1 ncol2 (winFind ncol1 ncol2 win) = o := by
    unfold winFind searchOffset npClip
    omega
  have h2 : winFind ncol1 ncol2 win / 2 = o + (if (n : Int) ≤ win ∧ n % 2 = 0 then 1 else 0) := by
    unfold winFind npClip
    split <;> omega
  have h3 : npClip (k : Int) 2 ((ncol1 : Int) - o - o - 2 - 1) = k := by
    unfold npClip; omega
  rw [h1, h2, h3]
  by_cases hs : side = 1
  · rw [if_pos hs] at hv ⊢
    rw [hv]
    congr 1
    ring
  · rw [if_neg hs] at hv ⊢
    rw [hv]
    congr 1
    ring

example : overlapAt 32 40 100 1 7 = (25 + 1, 14) :=
  find_overlap_position_exact 32 40 100 1 7 16 7 25 (by decide) (by decide) (by decide) (by decide) (by decide) (by unfold GeomOverlap; decide)

/-- Every window tried by the search lies inside image 1. -/
theorem search_window_in_range (ncol1 ncol2 : Nat) (win : Int) (k : Nat) (hm : 7 ≤ min ncol1 ncol2 / 2)
    (hk : (k : Int) < ncol1 - 2 * searchOffset ncol1 ncol2 win) :
    0 ≤ (k : Int) + searchOffset ncol1 ncol2 win - searchOffset ncol1 ncol2 win ∧
    (k : Int) + searchOffset ncol1 ncol2 win + searchOffset ncol1 ncol2 win ≤ ncol1 ∧
    3 ≤ searchOffset ncol1 ncol2 win ∧ 2 * searchOffset ncol1 ncol2 win ≤ ncol2 := by
  unfold searchOffset npClip at *
  omega

/-- Non-vacuity of C23's hypotheses. -/
example : (7 ≤ min 32 40 / 2) ∧ ((10 : Int) ≤ ((min 32 40 / 2 : Nat) : Int) - 1) ∧ (2 ≤ 7) ∧
    ((7 : Nat) : Int) + 2 < (32 : Nat) - 2 * searchOffset 32 40 (winFind 32 40 10) := by decide

/-! ### C24 -/

theorem parMap_eq {β : Type _} (n ncore : Nat) (f : Nat → β) (sched : List Ev) (l : List β)
    (h : parMap n ncore f sched = some l) : l = (List.range n).map f := by
  unfold parMap at h
  cases hr : (Pool.init β n).run ncore f sched with
  | none => rw [hr] at h; cases h
  | some s =>
    rw [hr] at h
    dsimp only at h
    split at h
    · rename_i hd
      rw [ParSlices.run_done_collect hr hd, ParSlices.filterMap_some_map] at h
      exact (Option.some.inj h).symm
    · cases h

theorem exists_min_list (l : List K) (h : l ≠ []) : ∃ x ∈ l, ∀ y ∈ l, x ≤ y := by
  induction l with
  | nil => exact absurd rfl h
  | cons a l ih =>
    by_cases hl : l = []
    · subst hl; exact ⟨a, by simp, by simp⟩
    · obtain ⟨x, hx, hmin⟩ := ih hl
      rcases le_total a x with hax | hax
      · exact ⟨a, by simp, by
          intro y hy
          rcases List.mem_cons.mp hy with rfl | hy
          · exact le_rfl
          · exact le_trans hax (hmin y hy)⟩
      · exact ⟨x, by simp [hx], by
          intro y hy
          rcases List.mem_cons.mp hy with rfl | hy
          · exact hax
          · exact hmin y hy⟩

theorem argmin_spec (l : List K) (h : l ≠ []) :
    ∃ i, ∃ hi : i < l.length, argmin l = .ok i ∧ (∀ y ∈ l, l[i] ≤ y) ∧ ∀ j (hj : j < i), l[i] < l[j] := by
  unfold argmin
  rw [if_neg h]
  obtain ⟨x, hx, hmin⟩ := exists_min_list l h
  have hlt : (l.findIdx fun x => l.all fun y => decide (x ≤ y)) < l.length := by
    apply List.findIdx_lt_length_of_exists
    exact ⟨x, hx, by simpa using hmin⟩
  refine ⟨_, hlt, rfl, ?_, ?_⟩
  · have := List.findIdx_getElem (w := hlt)
    simpa using this
  · intro j hj
    have h1 := List.not_of_lt_findIdx hj
    have h2 := List.findIdx_getElem (w := hlt)
    simp only [List.all_eq_true, decide_eq_true_eq] at h1 h2
    have hne : ¬ ∀ y ∈ l, l[j] ≤ y := by simpa using h1
    push_neg at hne
    obtain ⟨y, hy, hlt'⟩ := hne
    exact lt_of_le_of_lt (h2 y hy) hlt'

/-- What a user expects from a search over a candidate list: a candidate of minimal metric. -/
def IsBest (metric : K → K) (cors : List K) (c : K) : Prop := c ∈ cors ∧ ∀ c' ∈ cors, metric c ≤ metric c'

/-- C24.  With the pool (`ncore ≠ 1`), for every worker count and every schedule, the search returns the first candidate of
minimal metric; the serial version (`ncore = 1`) returns the first one of minimal *stored* metric. -/
theorem search_best (ncore : Nat) (store metric : K → K) (cors : List K) (sched : List Ev) (hne : cors ≠ [])
    (r : Py K) (h : search ncore store metric cors sched = some r) :
    ∃ c, r = .ok c ∧ IsBest (fun c => if ncore = 1 then store (metric c) else metric c) cors c := by
  have hlist : metricList ncore store metric cors sched = some (cors.map fun c => if ncore = 1 then store (metric c) else metric c) ∨
      metricList ncore store metric cors sched = none := by
    unfold metricList
    by_cases hn : ncore = 1
    · left; simp [hn]
    · simp only [hn, if_false]
      cases hp : parMap cors.length ncore (fun i => metric (cors.getD i 0)) sched with
      | none => exact Or.inr rfl
      | some l =>
        left
        rw [parMap_eq _ _ _ _ _ hp]
        congr 1
        apply List.ext_getElem
        · simp
        · intro i h1 h2
          simp only [List.length_map, List.length_range] at h1
          simp [List.getD_eq_getElem?_getD, List.getElem?_eq_getElem h1]
  unfold search at h
  rcases hlist with hl | hl
  · rw [hl] at h
    simp only [Option.map_some, Option.some.injEq] at h
    obtain ⟨i, hi, ha, hmin, _⟩ := argmin_spec (cors.map fun c => if ncore = 1 then store (metric c) else metric c)
      (by simpa using hne)
    rw [ha] at h
    have hi' : i < cors.length := by simpa using hi
    refine ⟨cors[i], ?_, List.getElem_mem hi', ?_⟩
    · rw [← h]; simp [Except.map, List.getD_eq_getElem?_getD, List.getElem?_eq_getElem hi']
    · intro c' hc'
      have := hmin _ (List.mem_map.mpr ⟨c', hc', rfl⟩)
      simpa using this
  · rw [hl] at h; cases h

/-- C24.  The coarse search looks exactly at the integers of the (clipped) interval: never empty for `start ≤ stop` on a
non-empty detector, and the candidate lies in `[start-1, stop]` cut to the detector. -/
theorem coarse_candidates (ncol : Nat) (start stop : K) (hn : 1 ≤ ncol) (hs : start ≤ stop) :
    coarseList ncol start stop ≠ [] ∧ ∀ c ∈ coarseList ncol start stop,
      (∃ z : Int, c = (z : K) ∧ 0 ≤ z ∧ z ≤ (ncol : Int) - 1) ∧
      (c ≤ max stop 0 ∧ (start ≤ (ncol : K) - 1 → start - 1 < c)) := by
  have hn' : (0 : K) ≤ (ncol : K) - 1 := by
    have : (1 : K) ≤ (ncol : K) := by exact_mod_cast hn
    linarith
  have h0 : ∀ x : K, 0 ≤ min (max x 0) ((ncol : K) - 1) := fun x => le_min (le_max_right _ _) hn'
  have hmono : min (max start 0) ((ncol : K) - 1) ≤ min (max stop 0) ((ncol : K) - 1) :=
    min_le_min (max_le_max hs le_rfl) le_rfl
  unfold coarseList pyTrunc
  simp only [h0, if_true]
  set a := ⌊min (max start 0) ((ncol : K) - 1)⌋ with ha
  set b := ⌊min (max stop 0) ((ncol : K) - 1)⌋ with hb
  have hab : a ≤ b := Int.floor_le_floor hmono
  have ha0 : 0 ≤ a := Int.floor_nonneg.mpr (h0 _)
  have hbn : b ≤ (ncol : Int) - 1 := by
    have h1 : (b : K) ≤ (ncol : K) - 1 := le_trans (Int.floor_le _) (min_le_right _ _)
    have h2 : (b : K) ≤ (((ncol : Int) - 1 : Int) : K) := by push_cast; exact h1
    exact_mod_cast h2
  constructor
  · have : (b + 1 - a).toNat ≠ 0 := by omega
    simp [this]
  · intro c hc
    rw [List.mem_map] at hc
    obtain ⟨k, hk, rfl⟩ := hc
    rw [List.mem_range] at hk
    refine ⟨⟨a + k, rfl, by omega, by omega⟩, ?_, ?_⟩
    · have h1 : ((a + (k : Int) : Int) : K) ≤ (b : K) := by exact_mod_cast (by omega : a + (k : Int) ≤ b)
      exact le_trans h1 (le_trans (Int.floor_le _) (min_le_left _ _))
    · intro hst
      have h1 : (a : K) ≤ ((a + (k : Int) : Int) : K) := by push_cast; have : (0 : K) ≤ (k : K) := by positivity
                                                            linarith
      have h2 := Int.lt_floor_add_one (min (max start 0) ((ncol : K) - 1))
      rw [← ha] at h2
      have h3 : start ≤ min (max start 0) ((ncol : K) - 1) := le_min (le_max_left _ _) hst
      linarith

/-- C24, full claim on the interval of the fine search. -/
def FineInside (ncol : Nat) (start radius step : K) : Prop :=
  ∀ c ∈ fineList ncol start radius step, start - radius ≤ c ∧ c ≤ start + radius

/-- C24 is false of the code: if `step` does not divide the interval the last candidate lies beyond `start + radius`, and it
can be the one returned. -/
theorem fine_search_interval_refuted :
    ¬ FineInside 100 (50 : ℚ) 1 (3 / 4) ∧
    search 1 id (fun c : ℚ => -c) (fineList 100 (50 : ℚ) 1 (3 / 4)) [] = some (.ok (50 + 5 / 4)) := by
  have hl : fineList 100 (50 : ℚ) 1 (3 / 4) = [49, 49 + 3 / 4, 50 + 1 / 2, 50 + 5 / 4] := by
    unfold fineList
    have : ⌈((1 : ℚ) + 3 / 4 - -1) / (3 / 4)⌉ = 4 := by rw [Int.ceil_eq_iff]; norm_num
    rw [this, show Int.toNat 4 = 4 from rfl]
    norm_num [List.range_succ]
  constructor
  · intro h
    have := (h (50 + 5 / 4) (by rw [hl]; simp)).2
    norm_num at this
  · rw [hl]
    simp only [search, metricList, argmin, List.map_cons, List.map_nil, if_true, Option.map_some, id, reduceCtorEq, if_false]
    norm_num [List.findIdx_cons, Except.map]

/-- C24 (partial): if `step > 0` divides `2·radius`, every candidate (hence the result) is in
`[start - radius, start + radius]` and on the detector, the list is not empty, and its end points are both tried. -/
theorem fine_candidates_partial (ncol : Nat) (start step : K) (n : Nat) (hn : 1 ≤ ncol) (hs : 0 < step)
    (h0 : 0 ≤ start) (h1 : start ≤ (ncol : K) - 1) :
    fineList ncol start ((n : K) * step / 2) step ≠ [] ∧ FineInside ncol start ((n : K) * step / 2) step ∧
    (∀ c ∈ fineList ncol start ((n : K) * step / 2) step, 0 ≤ c ∧ c ≤ (ncol : K) - 1) ∧
    (fineList ncol start ((n : K) * step / 2) step).length = n + 1 := by
  have hcount : ⌈((n : K) * step / 2 + step - (-((n : K) * step / 2))) / step⌉ = (n : Int) + 1 := by
    have : ((n : K) * step / 2 + step - (-((n : K) * step / 2))) / step = ((n : K) + 1) := by field_simp; ring
    rw [this]
    have h2 : ((n : K) + 1) = (((n : Int) + 1 : Int) : K) := by push_cast; ring
    rw [h2, Int.ceil_intCast]
  have hlen : (fineList ncol start ((n : K) * step / 2) step).length = n + 1 := by
    unfold fineList; rw [hcount]; simp
  have hbounds : ∀ c ∈ fineList ncol start ((n : K) * step / 2) step,
      (start - (n : K) * step / 2 ≤ c ∧ c ≤ start + (n : K) * step / 2) ∧ 0 ≤ c ∧ c ≤ (ncol : K) - 1 := by
    intro c hc
    unfold fineList at hc
    rw [List.mem_map, hcount] at hc
    obtain ⟨k, hk, rfl⟩ := hc
    rw [List.mem_range] at hk
    have hkn : (k : K) ≤ (n : K) := by exact_mod_cast (by omega : k ≤ n)
    have hk0 : (0 : K) ≤ (k : K) := by positivity
    have hk1 : (k : K) * step ≤ (n : K) * step := mul_le_mul_of_nonneg_right hkn hs.le
    have hk2 : 0 ≤ (k : K) * step := mul_nonneg hk0 hs.le
    have hn0 : (0 : K) ≤ (ncol : K) - 1 := by
      have : (1 : K) ≤ (ncol : K) := by exact_mod_cast hn
      linarith
    refine ⟨⟨?_, ?_⟩, le_min (le_max_right _ _) hn0, min_le_right _ _⟩
    · apply le_min
      · exact le_trans (by linarith) (le_max_left _ _)
      · linarith
    · apply le_trans (min_le_left _ _)
      apply max_le <;> linarith
  refine ⟨?_, fun c hc => (hbounds c hc).1, fun c hc => (hbounds c hc).2, hlen⟩
  intro h; rw [h] at hlen; simp at hlen

/-- Independence of `ncore`, full claim: serial and pooled searches return the same candidate. -/
def NcoreIndependent (store : K → K) : Prop :=
  ∀ (metric : K → K) (cors : List K) (ncore : Nat) (sched : List Ev) (r r' : Py K), cors ≠ [] →
    search ncore store metric cors sched = some r → search 1 store metric cors [] = some r' → r = r'

/-- It fails for a rounding store (the serial path keeps the metrics in a `float32` array): two metrics that
round to one value tie, and the serial search returns the first of them. -/
theorem search_ncore_refuted :
    ∃ store : ℚ → ℚ, (∀ x y, x ≤ y → store x ≤ store y) ∧ ¬ NcoreIndependent store := by
  refine ⟨fun x => (⌊x⌋ : ℚ), fun x y h => by
    show ((⌊x⌋ : Int) : ℚ) ≤ ((⌊y⌋ : Int) : ℚ)
    exact_mod_cast Int.floor_le_floor h, ?_⟩
  intro h
  have h1 := h (fun c => 1 - c / 4) [1, 2] 2 [.start 0, .finish 0, .start 1, .finish 1] (.ok 2) (.ok 1) (by simp)
  have h2 := h1 (by
    have hp : parMap 2 2 (fun i => (1 : ℚ) - ([1, 2] : List ℚ).getD i 0 / 4) [.start 0, .finish 0, .start 1, .finish 1]
        = some [1 - 1 / 4, 1 - 2 / 4] := by
      simp [parMap, Pool.run, Pool.step, Pool.init, Pool.isDone, Pool.collect, List.range_succ]
    unfold search metricList
    rw [if_neg (by decide)]
    show Option.map _ (parMap 2 2 _ _) = _
    rw [hp]
    simp only [argmin, Option.map_some, reduceCtorEq, if_false]
    norm_num [List.findIdx_cons, Except.map])
    (by
      have f1 : ⌊(1 : ℚ) - 1 / 4⌋ = 0 := by rw [Int.floor_eq_iff]; norm_num
      have f2 : ⌊(1 : ℚ) - 2 / 4⌋ = 0 := by rw [Int.floor_eq_iff]; norm_num
      unfold search metricList
      simp only [if_true, List.map_cons, List.map_nil, f1, f2, argmin, Option.map_some, reduceCtorEq, if_false]
      norm_num [List.findIdx_cons, Except.map])
  have := Except.ok.inj h2
  norm_num at this

theorem parMap_getD (cors : List K) (metric : K → K) :
    (List.range cors.length).map (fun i => metric (cors.getD i 0)) = cors.map metric := by
  apply List.ext_getElem
  · simp
  · intro i h1 h2
    simp only [List.length_map, List.length_range] at h1
    simp [List.getD_eq_getElem?_getD, List.getElem?_eq_getElem h1]

/-- C24 (partial): with exact storage the result does not depend on `ncore` or the schedule. -/
theorem search_ncore_partial : NcoreIndependent (K := K) id := by
  intro metric cors ncore sched r r' hne h h'
  unfold search metricList at h h'
  simp only [if_true, id] at h'
  by_cases hn : ncore = 1
  · simp only [hn, if_true, id] at h
    rw [h'] at h; exact (Option.some.inj h).symm
  · simp only [hn, if_false] at h
    cases hp : parMap cors.length ncore (fun i => metric (cors.getD i 0)) sched with
    | none => rw [hp] at h; cases h
    | some l =>
      rw [hp, parMap_eq _ _ _ _ _ hp, parMap_getD] at h
      rw [h'] at h
      exact (Option.some.inj h).symm

/-! ### C64: the mirrored sinogram of the metric -/

/-- C64.  For every integer or half-integer centre on the detector, the array compared with the sinogram is its mirror image
about the centre: column `j` of row `i` is column `2c - j` of the same row where that is on the detector, and the value
from the up-down flipped sinogram elsewhere. -/
theorem center_metric_mirror (sino : Mat K) (c2 : Int) (h0 : 0 ≤ c2) (h1 : c2 ≤ 2 * (sino.w : Int) - 2)
    (i j : Nat) (hj : j < sino.w) :
    (∀ m : Nat, (m : Int) = c2 - j → m < sino.w → (mirrored sino c2).get i j = sino.get i m) ∧
    ((c2 - j < 0 ∨ (sino.w : Int) ≤ c2 - j) → (mirrored sino c2).get i j = sino.get (sino.h - 1 - i) j) := by
  unfold mirrored Mat.fliplr
  dsimp only
  constructor
  · intro m hm hmw
    have hmod : (((j : Int) - (c2 - ((sino.w : Int) - 1))) % (sino.w : Int)) = (j : Int) - (c2 - ((sino.w : Int) - 1)) := by
      apply Int.emod_eq_of_lt <;> omega
    have hidx : sino.w - 1 - ((j : Int) - (c2 - ((sino.w : Int) - 1))).toNat = m := by omega
    rw [hmod, hidx]
    split
    · rw [if_neg (by omega)]
    · rw [if_neg (by omega)]
  · intro hout
    split
    · rw [if_pos (by omega)]
    · rw [if_pos (by omega)]

/-- Non-vacuity: width 4, centre 2.5, column 3 mirrors column 2; column 0 has no mirror. -/
example : (0 : Int) ≤ 5 ∧ (5 : Int) ≤ 2 * (4 : Nat) - 2 ∧ ((2 : Nat) : Int) = 5 - (3 : Nat) ∧
    ((4 : Nat) : Int) ≤ 5 - (0 : Nat) := by decide

/-! ### C25 -/

theorem half_ceil (n : Nat) : ⌈((n : K) - 1) * (1 / 2)⌉ = ((n / 2 : Nat) : Int) := by
  rw [Int.ceil_eq_iff]
  rcases Nat.even_or_odd' n with ⟨m, rfl | rfl⟩
  · rw [show 2 * m / 2 = m by omega]
    push_cast
    constructor <;> linarith
  · rw [show (2 * m + 1) / 2 = m by omega]
    push_cast
    constructor <;> linarith

/-- C25.  For every size and every (integer) peak position the returned shift is congruent to it and of smallest magnitude
among all congruent integers. -/
theorem wrap_shift_smallest (n t : Nat) (ht : t < n) :
    ∃ s : Int, wrapShift n (t : K) = (s : K) ∧ (∃ k : Int, (t : Int) = s + k * n) ∧
      ∀ k : Int, |s| ≤ |s + k * n| := by
  unfold wrapShift
  rw [half_ceil, Int.cast_natCast]
  have hmain : ∀ s : Int, 2 * |s| ≤ n → ∀ k : Int, |s| ≤ |s + k * n| := by
    intro s hs k
    rcases lt_trichotomy k 0 with hk | hk | hk
    · have : k * (n : Int) ≤ -1 * n := Int.mul_le_mul_of_nonneg_right (by omega) (by omega)
      rcases abs_cases s with ⟨h, h'⟩ | ⟨h, h'⟩ <;> rcases abs_cases (s + k * n) with ⟨g, g'⟩ | ⟨g, g'⟩ <;> omega
    · subst hk; simp
    · have : 1 * (n : Int) ≤ k * n := Int.mul_le_mul_of_nonneg_right (by omega) (by omega)
      rcases abs_cases s with ⟨h, h'⟩ | ⟨h, h'⟩ <;> rcases abs_cases (s + k * n) with ⟨g, g'⟩ | ⟨g, g'⟩ <;> omega
  by_cases h : (t : K) > ((n / 2 : Nat) : K)
  · rw [if_pos h]
    have h' : n / 2 < t := by
      exact_mod_cast h
    refine ⟨(t : Int) - n, by push_cast; ring, ⟨1, by ring⟩, hmain _ ?_⟩
    rw [abs_of_nonpos (by omega)]; omega
  · rw [if_neg h]
    have h' : t ≤ n / 2 := by
      by_contra hc
      apply h
      exact_mod_cast (by omega : n / 2 < t)
    refine ⟨t, by simp, ⟨0, by ring⟩, hmain _ ?_⟩
    rw [abs_of_nonneg (by omega)]; omega

/-- C25 with sub-pixel refinement: any refined position in `[-1, n]` is wrapped to a congruent number of
magnitude at most `(n+1)/2`. -/
theorem wrap_shift_subpixel (n : Nat) (t : K) (h0 : -1 ≤ t) (h1 : t ≤ n) (hn : 1 ≤ n) :
    (wrapShift n t = t ∨ wrapShift n t = t - n) ∧ |wrapShift n t| ≤ ((n : K) + 1) / 2 := by
  have hn' : (1 : K) ≤ n := by exact_mod_cast hn
  have hhalf : ((n / 2 : Nat) : K) ≤ (n : K) / 2 := by
    have h2 : ((2 * (n / 2) : Nat) : K) ≤ (n : K) := by exact_mod_cast (by omega : 2 * (n / 2) ≤ n)
    rw [Nat.cast_mul] at h2
    have h3 : ((2 : Nat) : K) = 2 := by norm_num
    rw [h3] at h2; linarith
  have hhalf2 : (n : K) - 1 ≤ 2 * ((n / 2 : Nat) : K) := by
    have h2 : (n : K) ≤ ((2 * (n / 2) + 1 : Nat) : K) := by exact_mod_cast (by omega : n ≤ 2 * (n / 2) + 1)
    rw [Nat.cast_add, Nat.cast_mul] at h2
    have h3 : ((2 : Nat) : K) = 2 := by norm_num
    rw [h3] at h2; simp only [Nat.cast_one] at h2; linarith
  unfold wrapShift
  rw [half_ceil, Int.cast_natCast]
  split
  · rename_i h
    refine ⟨Or.inr (by ring), ?_⟩
    rw [abs_le]; constructor <;> linarith
  · rename_i h
    have h : t ≤ ((n / 2 : Nat) : K) := not_lt.mp h
    refine ⟨Or.inl rfl, ?_⟩
    rw [abs_le]; constructor <;> linarith

/-- The parabola refinement moves an interior maximum by at most half a pixel, towards the larger neighbour. -/
theorem refine_half (t a b c : K) (hab : a ≤ b) (hcb : c ≤ b) :
    |refine t a b c - t| ≤ 1 / 2 ∧ (a < c → t ≤ refine t a b c) ∧ (c < a → refine t a b c ≤ t) := by
  unfold refine
  dsimp only
  split
  · rename_i hne
    have hD : a - 2 * b + c < 0 := by
      apply lt_of_le_of_ne (by linarith)
      intro h; apply hne; rw [h]; simp
    have hfrac : |(a - c) / (2 * (a - 2 * b + c))| ≤ 1 / 2 := by
      rw [abs_div, abs_of_neg (by linarith : 2 * (a - 2 * b + c) < 0), div_le_iff₀ (by linarith)]
      rw [abs_le]; constructor <;> linarith
    have hb := abs_le.mp hfrac
    rw [if_pos ⟨by linarith, by linarith⟩]
    refine ⟨by simpa using hfrac, ?_, ?_⟩
    · intro hac
      have : 0 ≤ (a - c) / (2 * (a - 2 * b + c)) := div_nonneg_of_nonpos (by linarith) (by linarith)
      linarith
    · intro hca
      have : (a - c) / (2 * (a - 2 * b + c)) ≤ 0 := div_nonpos_of_nonneg_of_nonpos (by linarith) (by linarith)
      linarith
  · simp

/-- C25.  If image 1 is the mirror image of image 2 shifted by `s` (`mat1[x] = fliplr(mat2)[x - s]`), detector columns of one
ray are mirror images about the centre that `find_center_based_phase_correlation` computes from `s`. -/
theorem center_phase_mirror (n : Nat) (s x : Int) :
    ((x + ((n : Int) - 1 - (x - s)) : Int) : K) = 2 * centerPhase n (s : K) := by
  unfold centerPhase; push_cast; ring

end Verif.Center
