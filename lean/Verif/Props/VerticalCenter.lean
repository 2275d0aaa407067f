import Verif.Model.VerticalCenter
import Verif.Props.Center
import Mathlib.Data.Rat.Floor
import Mathlib.Data.List.GetD
import Mathlib.Tactic.Linarith
import Mathlib.Tactic.NormNum
import Mathlib.Tactic.FieldSimp

/-! C49 — centre search on vertical slices. -/

set_option linter.unusedSectionVars false
set_option linter.unusedSimpArgs false

namespace Verif.VerticalCenter

variable {K : Type _} [Field K] [LinearOrder K] [IsStrictOrderedRing K] [FloorRing K]

theorem mapM_ok' {α β : Type _} {f : α → Py β} {g : α → β} (l : List α)
    (h : ∀ x ∈ l, f x = .ok (g x)) : l.mapM f = .ok (l.map g) := by
  induction l with
  | nil => rfl
  | cons a l ih =>
    rw [List.mapM_cons, h a (by simp), ih (fun x hx => h x (by simp [hx]))]
    rfl

/-- The candidates: `start, start + step, …`, all smaller than `stop + step`, the last one at least `stop`. -/
theorem mem_centers (start stop step : K) (hs : 0 < step) (c : K) :
    c ∈ centers start stop step ↔ ∃ k : Nat, c = start + (k : K) * step ∧ c < stop + step := by
  unfold centers
  simp only [List.mem_map, List.mem_range]
  constructor
  · rintro ⟨k, hk, rfl⟩
    refine ⟨k, rfl, ?_⟩
    have h1 : ((k : Int)) < ⌈(stop + step - start) / step⌉ := by omega
    have h2 : (k : K) < (stop + step - start) / step := by
      have := Int.lt_ceil.mp h1; exact_mod_cast this
    rw [lt_div_iff₀ hs] at h2
    linarith
  · rintro ⟨k, rfl, h⟩
    refine ⟨k, ?_, rfl⟩
    have h2 : (k : K) < (stop + step - start) / step := by
      rw [lt_div_iff₀ hs]; linarith
    have h1 : ((k : Int)) < ⌈(stop + step - start) / step⌉ := by
      rw [Int.lt_ceil]; exact_mod_cast h2
    omega

theorem listMax_spec : ∀ (l : List K), ∀ x ∈ l, x ≤ listMax l := by
  intro l x hx
  cases l with
  | nil => cases hx
  | cons a l =>
    unfold listMax
    have key : ∀ (l : List K) (a : K), a ≤ l.foldl max a ∧ ∀ y ∈ l, y ≤ l.foldl max a := by
      intro l
      induction l with
      | nil => intro a; exact ⟨le_rfl, by simp⟩
      | cons b l ih =>
        intro a
        obtain ⟨h1, h2⟩ := ih (max a b)
        refine ⟨(le_max_left a b).trans h1, ?_⟩
        intro y hy
        rcases List.mem_cons.mp hy with rfl | hy
        · exact (le_max_right a y).trans h1
        · exact h2 y hy
    rcases List.mem_cons.mp hx with rfl | hx
    · exact (key l x).1
    · exact (key l a).2 x hx

theorem findCenter_aux (isInt invert : Bool) (width : Nat) (metric : K → K) (start stop step : K) (hs : 0 < step)
    (hne : start < stop + step)
    (hin : ∀ c ∈ centers start stop step, 0 ≤ c ∧ c ≤ (width : K) - 1) :
    ∃ c ∈ centers start stop step, findCenter isInt invert width metric start stop step = .ok c ∧
      ∀ c' ∈ centers start stop step,
        (invert = false → storeAs isInt (metric c) ≤ storeAs isInt (metric c')) ∧
        (invert = true → storeAs isInt (metric c') ≤ storeAs isInt (metric c)) := by
  have hmem : start ∈ centers start stop step :=
    (mem_centers start stop step hs start).mpr ⟨0, by simp, hne⟩
  unfold findCenter
  dsimp only
  generalize hcs : centers start stop step = cs at *
  have hne' : cs ≠ [] := List.ne_nil_of_mem hmem
  rw [mapM_ok' (g := fun c => storeAs isInt (metric c)) cs (by
    intro c hc
    have := hin c hc
    rw [if_neg]
    push Not; exact this)]
  simp only [bind, Except.bind]
  generalize hL : listMax (cs.map fun c => storeAs isInt (metric c)) = L
  have hlist : (if invert then (cs.map fun c => storeAs isInt (metric c)).map (fun m => L - m)
      else cs.map fun c => storeAs isInt (metric c))
      = cs.map (fun c => if invert then L - storeAs isInt (metric c) else storeAs isInt (metric c)) := by
    cases invert <;> simp [List.map_map, Function.comp]
  rw [hlist]
  obtain ⟨i, hi, ha, hmin, _⟩ := Center.argmin_spec
    (cs.map (fun c => if invert then L - storeAs isInt (metric c) else storeAs isInt (metric c)))
    (by simpa using hne')
  rw [ha]
  have hi' : i < cs.length := by simpa using hi
  refine ⟨cs[i], List.getElem_mem hi', ?_, ?_⟩
  · simp only [pure, Except.pure]
    rw [List.getD_eq_getElem _ _ hi']
  · intro c' hc'
    have := hmin _ (List.mem_map.mpr ⟨c', hc', rfl⟩)
    rw [List.getElem_map] at this
    constructor
    · intro h; subst h; simpa using this
    · intro h; subst h; simp only [if_true] at this; linarith

/-- C49 (partial): if `start`, `stop` or `step` is a float (as with the default step) and every candidate lies on the
detector, the returned centre is a candidate and minimises the metric over all candidates (maximises it with
`invert_metric`).  Missing: integer `start`, `stop` and `step`. -/
theorem find_center_vertical_partial (invert : Bool) (width : Nat) (metric : K → K) (start stop step : K) (hs : 0 < step)
    (hne : start < stop + step)
    (hin : ∀ c ∈ centers start stop step, 0 ≤ c ∧ c ≤ (width : K) - 1) :
    ∃ c ∈ centers start stop step, findCenter false invert width metric start stop step = .ok c ∧
      ∀ c' ∈ centers start stop step,
        (invert = false → metric c ≤ metric c') ∧ (invert = true → metric c' ≤ metric c) := by
  simpa [storeAs] using findCenter_aux false invert width metric start stop step hs hne hin

/-- C49 is false for integer arguments: metrics in `[0, 1)` are all stored as zero and the first candidate wins. -/
theorem find_center_vertical_refuted :
    ¬ ∀ (width : Nat) (metric : ℚ → ℚ) (start stop step c : ℚ), 0 < step →
      findCenter true false width metric start stop step = .ok c →
      ∀ c' ∈ centers start stop step, metric c ≤ metric c' := by
  intro h
  have hc : centers (1 : ℚ) 2 1 = [1, 2] := by
    unfold centers
    have : ⌈((2 : ℚ) + 1 - 1) / 1⌉.toNat = 2 := by norm_num; rfl
    rw [this]; norm_num [List.range_succ]
  have hm1 : storeAs true (1 / 2 : ℚ) = 0 := by norm_num [storeAs, pyTrunc]
  have hm2 : storeAs true (1 / 4 : ℚ) = 0 := by norm_num [storeAs, pyTrunc]
  have := h 5 (fun c => if c = 1 then 1 / 2 else 1 / 4) 1 2 1 1 (by norm_num) (by
    unfold findCenter
    rw [hc]
    dsimp only
    have e1 : ([1, 2] : List ℚ).mapM (fun c => if c < 0 ∨ c > ((5 : Nat) : ℚ) - 1 then (.error .valueError : Py ℚ)
        else .ok (storeAs true (if c = 1 then 1 / 2 else 1 / 4))) = .ok [0, 0] := by
      rw [mapM_ok' (g := fun _ => 0)]
      · rfl
      · intro x hx
        have : x = 1 ∨ x = 2 := by simpa using hx
        rcases this with rfl | rfl
        · rw [if_neg (by norm_num), if_pos rfl, hm1]
        · rw [if_neg (by norm_num), if_neg (by norm_num), hm2]
    rw [e1]
    rfl) 2 (by rw [hc]; simp)
  norm_num at this

/-- C49 (partial, integer arguments): with non-negative metrics the truncation costs less than one unit: the
returned centre's metric is below every candidate's metric plus one. -/
theorem find_center_vertical_int_partial (width : Nat) (metric : K → K) (hm : ∀ c, 0 ≤ metric c) (start stop step : K)
    (hs : 0 < step) (hne : start < stop + step)
    (hin : ∀ c ∈ centers start stop step, 0 ≤ c ∧ c ≤ (width : K) - 1) :
    ∃ c ∈ centers start stop step, findCenter true false width metric start stop step = .ok c ∧
      ∀ c' ∈ centers start stop step, metric c < metric c' + 1 := by
  obtain ⟨c, h1, h2, h3⟩ := findCenter_aux true false width metric start stop step hs hne hin
  refine ⟨c, h1, h2, ?_⟩
  intro c' hc'
  have := (h3 c' hc').1 rfl
  simp only [storeAs, if_true, pyTrunc, hm c, hm c'] at this
  have a := Int.lt_floor_add_one (metric c)
  have b := Int.floor_le (metric c')
  linarith

/-- C49 (a candidate beyond the detector makes the whole search fail): the candidate list runs past `stop`
whenever `step` does not divide `stop - start`. -/
theorem find_center_vertical_error (isInt invert : Bool) (width : Nat) (metric : K → K) (start stop step : K)
    (hbad : ∃ c ∈ centers start stop step, c < 0 ∨ (width : K) - 1 < c) :
    findCenter isInt invert width metric start stop step = .error .valueError := by
  unfold findCenter
  dsimp only
  generalize centers start stop step = cs at *
  have : cs.mapM (fun c => if c < 0 ∨ c > (width : K) - 1 then (.error .valueError : Py K)
      else .ok (storeAs isInt (metric c))) = .error .valueError := by
    obtain ⟨c, hc, hb⟩ := hbad
    induction cs with
    | nil => cases hc
    | cons a l ih =>
      rw [List.mapM_cons]
      by_cases ha : a < 0 ∨ a > (width : K) - 1
      · rw [if_pos ha]; rfl
      · rw [if_neg ha]
        rcases List.mem_cons.mp hc with rfl | hc
        · exact absurd hb ha
        · rw [ih hc]; rfl
  rw [this]
  rfl

/-- Example: width 5, search `0 .. 4` in steps of 3 tries the centre 6 and raises. -/
example (metric : ℚ → ℚ) : findCenter false false 5 metric 0 4 3 = .error .valueError := by
  apply find_center_vertical_error
  exact ⟨6, (mem_centers 0 4 3 (by norm_num) 6).mpr ⟨2, by norm_num, by norm_num⟩, by norm_num⟩

/-- Non-vacuity: search `1 .. 3` step `1/2` on a 5-pixel detector. -/
example (metric : ℚ → ℚ) : ∃ c ∈ centers (1 : ℚ) 3 (1 / 2), findCenter false false 5 metric 1 3 (1 / 2) = .ok c ∧
      ∀ c' ∈ centers (1 : ℚ) 3 (1 / 2), (false = false → metric c ≤ metric c') ∧ (false = true → metric c' ≤ metric c) := by
  apply find_center_vertical_partial
  · norm_num
  · norm_num
  · intro c hc
    obtain ⟨k, h1, h2⟩ := (mem_centers _ _ _ (by norm_num) c).mp hc
    have : (0 : ℚ) ≤ k := Nat.cast_nonneg k
    constructor
    · rw [h1]; linarith
    · push_cast; linarith

end Verif.VerticalCenter
