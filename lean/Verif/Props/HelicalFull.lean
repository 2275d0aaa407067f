import Verif.Model.HelicalFull
import Verif.Props.Helical

/-! C118 — the full sinogram of a helical scan. -/

set_option linter.unusedSectionVars false
set_option linter.unusedSimpArgs false

namespace Verif.Helical

variable {K : Type _} [Field K] [LinearOrder K] [IsStrictOrderedRing K] [FloorRing K]

/-! ### Specification -/

/-- A physical geometry: at least two projections per 180 degrees, positive pixel size and pitch, and a crop that leaves rows. -/
structure Geometry (p : Params K) (data : Arr3 K) : Prop where
  two_proj : 2 ≤ p.numProj
  pixel_pos : 0 < p.pixel
  pitch_pos : 0 < p.pitch
  crop : p.cropBottom + p.cropTop < data.h

/-- Number of detector rows after cropping. -/
def rowsOf (p : Params K) (data : Arr3 K) : Nat := data.h - p.cropBottom - p.cropTop

/-- The height in the sample of slice `index`. -/
def sliceHeight (p : Params K) (index : Int) : K := ((index : K) - 1) * p.pixel + (p.yStart + span p)

/-- Projection `i` sees the slice at the (fractional) detector row `j`, and that row is on the cropped detector. -/
def Sees (p : Params K) (data : Arr3 K) (index : Int) (i : Nat) (j : K) : Prop :=
  seenHeight p (rowsOf p data) i j = sliceHeight p index ∧ 0 ≤ j ∧ j ≤ (rowsOf p data : K) - 1

/-! ### Lemmas -/

theorem step_pos (p : Params K) (data : Arr3 K) (g : Geometry p data) : 0 < yStep p := by
  unfold yStep
  have : (2 : K) ≤ (p.numProj : K) := by exact_mod_cast g.two_proj
  exact div_pos g.pitch_pos (by linarith)

/-- Detector row at which projection `i` sees the slice. -/
def rowAt (p : Params K) (data : Arr3 K) (index : Int) (i : Int) : K :=
  (p.yStop - span p + p.pixel * (rowsOf p data : K) - (i : K) * yStep p - sliceHeight p index) / p.pixel - 1

theorem sees_iff (p : Params K) (data : Arr3 K) (g : Geometry p data) (index : Int) (i : Nat) (j : K) :
    Sees p data index i j ↔ j = rowAt p data index i ∧ 0 ≤ j ∧ j ≤ (rowsOf p data : K) - 1 := by
  have hp := g.pixel_pos
  have hne := hp.ne'
  unfold Sees
  refine and_congr_left fun _ => ?_
  unfold seenHeight rowAt
  rw [eq_sub_iff_add_eq, eq_div_iff hne]
  push_cast
  constructor
  · intro h; linarith
  · intro h; linarith

/-- `i0` in terms of the first projection that sees the slice. -/
theorem first_eq (p : Params K) (data : Arr3 K) (index : Int) :
    firstFull p index = ⌈(p.yStop - span p - sliceHeight p index) / yStep p⌉ := by
  unfold firstFull sliceHeight
  rw [recHeight_eq]

theorem rowAt_mul (p : Params K) (data : Arr3 K) (g : Geometry p data) (index i : Int) :
    rowAt p data index i * p.pixel = p.yStop - span p - sliceHeight p index - (i : K) * yStep p + p.pixel * (rowsOf p data : K) - p.pixel := by
  have hne := g.pixel_pos.ne'
  unfold rowAt
  field_simp
  ring

/-- The row is at most the last one exactly from `i0` on. -/
theorem rowAt_le (p : Params K) (data : Arr3 K) (g : Geometry p data) (index i : Int) :
    rowAt p data index i ≤ (rowsOf p data : K) - 1 ↔ firstFull p index ≤ i := by
  have hp := g.pixel_pos
  have hs := step_pos p data g
  rw [first_eq p data, Int.ceil_le, div_le_iff₀ hs, ← mul_le_mul_iff_left₀ hp, rowAt_mul p data g]
  constructor <;> intro h <;> nlinarith

/-- A detector row is read correctly. -/
theorem row_ok (p : Params K) (data : Arr3 K) (flat dark : Mat K) (g : Geometry p data) (index : Int) (i : Nat) (hi : i < data.d)
    (h0 : 0 ≤ rowAt p data index i) (h1 : rowAt p data index i ≤ (rowsOf p data : K) - 1) :
    ∃ r, helicalRow p data flat dark (p.yStop - span p) (sliceHeight p index) (rowsOf p data) (i : Int) = .ok r ∧
      ∃ (jd ju : Nat) (a : K), p.cropTop ≤ jd ∧ jd ≤ ju ∧ ju ≤ jd + 1 ∧ ju < data.h - p.cropBottom ∧ 0 ≤ a ∧ a ≤ 1 ∧
        (∀ x, r x = (1 - a) * corrected data flat dark i jd (p.cropLeft + x) + a * corrected data flat dark i ju (p.cropLeft + x)) ∧
        (1 - a) * ((jd : K) - p.cropTop) + a * ((ju : K) - p.cropTop) = rowAt p data index i := by
  have hcrop := g.crop
  have hj : (p.yStop - span p + p.pixel * (rowsOf p data : K) - ((i : Int) : K) * yStep p - sliceHeight p index) / p.pixel - 1 = rowAt p data index i := rfl
  generalize rowAt p data index i = j0 at *
  have hnotbad : ¬ (j0 < 0 ∨ (rowsOf p data : K) ≤ j0) := by push Not; constructor <;> linarith
  have hclip : min (max j0 0) ((rowsOf p data : K) - 1) = j0 := by rw [max_eq_left h0, min_eq_left h1]
  have hfl0 : 0 ≤ ⌊j0⌋ := Int.floor_nonneg.mpr h0
  have hcl1 : ⌈j0⌉ ≤ (rowsOf p data : Int) - 1 := by
    apply Int.ceil_le.mpr; push_cast; exact h1
  have hfc : ⌊j0⌋ ≤ ⌈j0⌉ := Int.floor_le_ceil j0
  have hfc1 : ⌈j0⌉ ≤ ⌊j0⌋ + 1 := Int.ceil_le_floor_add_one j0
  have hH : rowsOf p data = data.h - p.cropBottom - p.cropTop := rfl
  have hcorr : ∀ j : Int, 0 ≤ j → j ≤ (rowsOf p data : Int) - 1 →
      corrRow data flat dark p.cropLeft (i : Int) (j + p.cropTop) = .ok fun x => corrected data flat dark i (j + p.cropTop).toNat (p.cropLeft + x) := by
    intro j hj1 hj2
    unfold corrRow corrected
    rw [if_pos (by omega)]
    have : ((i : Int)).toNat = i := by omega
    simp only [this]
  have hcast : ∀ z : Int, 0 ≤ z → (((z + p.cropTop).toNat : Nat) : K) = (z : K) + p.cropTop := by
    intro z hz
    have : (((z + p.cropTop).toNat : Nat) : Int) = z + p.cropTop := by omega
    have := congrArg (Int.cast : Int → K) this
    push_cast at this; exact this
  by_cases heq : ⌈j0⌉ = ⌊j0⌋
  · refine ⟨_, by
      unfold helicalRow
      dsimp only
      rw [hj, if_neg hnotbad, hclip, hcorr _ hfl0 (by omega), heq]
      simp only [ne_eq, not_true_eq_false, if_false]
      rfl, (⌊j0⌋ + p.cropTop).toNat, (⌊j0⌋ + p.cropTop).toNat, 0, by omega, le_rfl, by omega, by omega, le_rfl, zero_le_one, ?_, ?_⟩
    · intro x; ring
    · have hj : j0 = (⌊j0⌋ : K) := le_antisymm (by rw [← heq]; exact Int.le_ceil j0) (Int.floor_le j0)
      rw [hcast _ hfl0]
      linarith
  · have hce : ⌈j0⌉ = ⌊j0⌋ + 1 := by omega
    have hden : ((⌈j0⌉ : K) - (⌊j0⌋ : K)) = 1 := by rw [hce]; push_cast; ring
    refine ⟨_, by
      unfold helicalRow
      dsimp only
      rw [hj, if_neg hnotbad, hclip, hcorr _ hfl0 (by omega), hcorr _ (by omega) hcl1]
      simp only [ne_eq, heq, not_false_eq_true, if_true]
      rfl, (⌊j0⌋ + p.cropTop).toNat, (⌈j0⌉ + p.cropTop).toNat, j0 - (⌊j0⌋ : K), by omega, by omega, by omega, by omega, ?_, ?_, ?_, ?_⟩
    · have := Int.floor_le j0; linarith
    · have := Int.lt_floor_add_one j0; linarith
    · intro x
      rw [hden]
      have : (⌈j0⌉ : K) = (⌊j0⌋ : K) + 1 := by linarith
      rw [this]; ring
    · rw [hcast _ hfl0, hcast _ (by omega)]
      have : (⌈j0⌉ : K) = (⌊j0⌋ : K) + 1 := by linarith
      rw [this]; ring

/-- Off the detector: `ValueError`. -/
theorem row_bad (p : Params K) (data : Arr3 K) (flat dark : Mat K) (index : Int) (i : Int) (h0 : rowAt p data index i < 0) :
    helicalRow p data flat dark (p.yStop - span p) (sliceHeight p index) (rowsOf p data) i = .error .valueError := by
  unfold helicalRow
  dsimp only
  exact if_pos (.inl h0)

theorem mapM_length {α β : Type _} {f : α → Py β} : ∀ {l : List α} {r : List β}, l.mapM f = .ok r → r.length = l.length := by
  intro l
  induction l with
  | nil => intro r h; cases h; rfl
  | cons x l ih =>
    intro r h
    rw [List.mapM_cons] at h
    cases hx : f x with
    | error e => rw [hx] at h; cases h
    | ok y =>
      rw [hx] at h
      cases hl : l.mapM f with
      | error e => rw [hl] at h; cases h
      | ok ys =>
        rw [hl] at h
        cases h
        simp [ih hl]

theorem mapM_bad {β : Type _} (f : Nat → Py β) (e : PyErr) : ∀ (l : List Nat), (∀ x ∈ l, ∀ e', f x = .error e' → e' = e) →
    (∃ x ∈ l, f x = .error e) → l.mapM f = .error e := by
  intro l
  induction l with
  | nil => rintro _ ⟨x, hx, -⟩; simp at hx
  | cons x l ih =>
    rintro hall ⟨z, hz, he⟩
    rw [List.mapM_cons]
    cases hx : f x with
    | error e' => rw [hall x (by simp) e' hx]; rfl
    | ok y =>
      have hzl : z ∈ l := by
        rcases List.mem_cons.1 hz with rfl | h
        · rw [hx] at he; cases he
        · exact h
      rw [ih (fun x hx => hall x (by simp [hx])) ⟨z, hzl, he⟩]
      rfl

/-- The call in terms of `rowAt`. -/
theorem full_unfold (p : Params K) (index : Int) (data : Arr3 K) (flat dark : Mat K) (angles : List K) :
    helicalFull p index data flat dark angles =
      if firstFull p index < 0 ∨ firstFull p index ≥ data.d then .error .valueError
      else if firstFull p index + numFull p (rowsOf p data) ≥ data.d then .error .valueError
      else if numFull p (rowsOf p data) < 0 then .error .valueError
      else ((List.range (numFull p (rowsOf p data)).toNat).mapM fun k : Nat =>
          helicalRow p data flat dark (p.yStop - span p) (sliceHeight p index) (rowsOf p data) (firstFull p index + (k : Int))).bind fun rows =>
        .ok (rows, pySlice angles (firstFull p index) (firstFull p index + numFull p (rowsOf p data))) := by
  unfold helicalFull
  dsimp only
  rw [recHeight_eq]
  rfl

/-! ### C118 -/

/-- C118: when the call succeeds, and that every failure is a `ValueError`: the projections `i0 .. i0 + num - 1` must be stored (and one more), and the
last of them must still see the slice. -/
theorem helical_full_ok_iff (p : Params K) (index : Int) (data : Arr3 K) (flat dark : Mat K) (angles : List K) (g : Geometry p data) :
    ((∃ r, helicalFull p index data flat dark angles = .ok r) ↔
      0 ≤ firstFull p index ∧ firstFull p index < data.d ∧ 0 ≤ numFull p (rowsOf p data) ∧
      firstFull p index + numFull p (rowsOf p data) < data.d ∧
      (numFull p (rowsOf p data) = 0 ∨ 0 ≤ rowAt p data index (firstFull p index + numFull p (rowsOf p data) - 1))) ∧
    ∀ e, helicalFull p index data flat dark angles = .error e → e = .valueError := by
  have hp := g.pixel_pos
  have hs := step_pos p data g
  rw [full_unfold]
  generalize hi0 : firstFull p index = i0
  generalize hnum : numFull p (rowsOf p data) = num
  by_cases h1 : i0 < 0 ∨ i0 ≥ data.d
  · rw [if_pos h1]
    exact ⟨⟨fun ⟨r, h⟩ => (nomatch h), fun h => by omega⟩, fun e h => by cases h; rfl⟩
  rw [if_neg h1]
  by_cases h2 : i0 + num ≥ data.d
  · rw [if_pos h2]
    exact ⟨⟨fun ⟨r, h⟩ => (nomatch h), fun h => by omega⟩, fun e h => by cases h; rfl⟩
  rw [if_neg h2]
  by_cases h3 : num < 0
  · rw [if_pos h3]
    exact ⟨⟨fun ⟨r, h⟩ => (nomatch h), fun h => by omega⟩, fun e h => by cases h; rfl⟩
  rw [if_neg h3]
  have hrow : ∀ k < num.toNat, 0 ≤ rowAt p data index (i0 + k) → ∃ r,
      helicalRow p data flat dark (p.yStop - span p) (sliceHeight p index) (rowsOf p data) (i0 + (k : Int)) = .ok r := by
    intro k hk h
    have e : i0 + (k : Int) = ((i0.toNat + k : Nat) : Int) := by omega
    rw [e] at h ⊢
    obtain ⟨r, hr, -⟩ := row_ok p data flat dark g index (i0.toNat + k) (by omega) h ((rowAt_le p data g index _).2 (by omega))
    exact ⟨r, hr⟩
  have herr : ∀ k ∈ List.range num.toNat, ∀ e',
      helicalRow p data flat dark (p.yStop - span p) (sliceHeight p index) (rowsOf p data) (i0 + (k : Int)) = .error e' → e' = .valueError := by
    intro k hk e' he
    by_cases h : 0 ≤ rowAt p data index (i0 + k)
    · obtain ⟨r, hr⟩ := hrow k (List.mem_range.1 hk) h
      rw [hr] at he; cases he
    · rw [row_bad p data flat dark index _ (not_le.1 h)] at he
      cases he; rfl
  by_cases h4 : num = 0 ∨ 0 ≤ rowAt p data index (i0 + num - 1)
  · have hall : ∀ k < num.toNat, ∃ r, helicalRow p data flat dark (p.yStop - span p) (sliceHeight p index) (rowsOf p data) (i0 + (k : Int)) = .ok r ∧ True := by
      intro k hk
      obtain ⟨r, hr⟩ := hrow k hk (by
        rcases h4 with h4 | h4
        · omega
        · have hm1 := rowAt_mul p data g index (i0 + num - 1)
          have hm2 := rowAt_mul p data g index (i0 + k)
          have hle : ((i0 + k : Int) : K) ≤ ((i0 + num - 1 : Int) : K) := by exact_mod_cast (by omega : i0 + (k : Int) ≤ i0 + num - 1)
          have hle' := mul_le_mul_of_nonneg_right hle hs.le
          have : 0 ≤ rowAt p data index (i0 + k) * p.pixel := by
            have := mul_nonneg h4 hp.le
            linarith
          exact nonneg_of_mul_nonneg_left this hp)
      exact ⟨r, hr, trivial⟩
    obtain ⟨rows, hm, -⟩ := mapM_range_ok num.toNat _ (fun _ _ => True) hall
    rw [hm]
    exact ⟨⟨fun _ => ⟨by omega, by omega, by omega, by omega, h4⟩, fun _ => ⟨_, rfl⟩⟩, fun e h => (nomatch h)⟩
  · push Not at h4
    rw [mapM_bad _ .valueError _ herr ⟨(num - 1).toNat, List.mem_range.2 (by omega), by
      have e : i0 + (((num - 1).toNat : Nat) : Int) = i0 + num - 1 := by omega
      rw [e]
      exact row_bad p data flat dark index _ h4.2⟩]
    refine ⟨⟨fun ⟨r, h⟩ => (nomatch h), fun h => ?_⟩, fun e h => by cases h; rfl⟩
    rcases h.2.2.2.2 with h' | h'
    · exact absurd h' h4.1
    · exact absurd h' (not_le.2 h4.2)

/-- C118: the result.  Row `k` is projection `i0 + k`, read by linear interpolation exactly at the detector row where that projection sees the slice; the
angles are those of these projections. -/
theorem helical_full_correct (p : Params K) (index : Int) (data : Arr3 K) (flat dark : Mat K) (angles : List K) (g : Geometry p data)
    (ha : angles.length = data.d) (rows : List (Nat → K)) (ang : List K) (h : helicalFull p index data flat dark angles = .ok (rows, ang)) :
    ∃ i0 : Nat, (i0 : Int) = firstFull p index ∧ i0 + rows.length < data.d ∧ ang = (List.range rows.length).map (fun k => angles.getD (i0 + k) 0) ∧
      ∀ k (hk : k < rows.length), ∃ (jd ju : Nat) (a : K),
        p.cropTop ≤ jd ∧ jd ≤ ju ∧ ju ≤ jd + 1 ∧ ju < data.h - p.cropBottom ∧ 0 ≤ a ∧ a ≤ 1 ∧
        (∀ x, rows[k] x = (1 - a) * corrected data flat dark (i0 + k) jd (p.cropLeft + x) + a * corrected data flat dark (i0 + k) ju (p.cropLeft + x)) ∧
        Sees p data index (i0 + k) ((1 - a) * ((jd : K) - p.cropTop) + a * ((ju : K) - p.cropTop)) := by
  have hp := g.pixel_pos
  have hs := step_pos p data g
  obtain ⟨c1, c2, c3, c4, c5⟩ := (helical_full_ok_iff p index data flat dark angles g).1.1 ⟨_, h⟩
  rw [full_unfold, if_neg (by omega), if_neg (by omega), if_neg (by omega)] at h
  generalize hnum : numFull p (rowsOf p data) = num at *
  obtain ⟨i0, hi0⟩ : ∃ i0 : Nat, (i0 : Int) = firstFull p index := ⟨(firstFull p index).toNat, by omega⟩
  have hsee : ∀ k < num.toNat, 0 ≤ rowAt p data index ((i0 + k : Nat) : Int) ∧ rowAt p data index ((i0 + k : Nat) : Int) ≤ (rowsOf p data : K) - 1 := by
    intro k hk
    refine ⟨?_, (rowAt_le p data g index _).2 (by omega)⟩
    rcases c5 with h4 | h4
    · omega
    · have hm1 := rowAt_mul p data g index (firstFull p index + num - 1)
      have hm2 := rowAt_mul p data g index ((i0 + k : Nat) : Int)
      have hle : (((i0 + k : Nat) : Int) : K) ≤ ((firstFull p index + num - 1 : Int) : K) := by
        exact_mod_cast (by omega : ((i0 + k : Nat) : Int) ≤ firstFull p index + num - 1)
      have hle' := mul_le_mul_of_nonneg_right hle hs.le
      have : 0 ≤ rowAt p data index ((i0 + k : Nat) : Int) * p.pixel := by
        have := mul_nonneg h4 hp.le
        linarith
      exact nonneg_of_mul_nonneg_left this hp
  obtain ⟨rows', hm, hl, hP⟩ := mapM_range_ok num.toNat
    (fun k : Nat => helicalRow p data flat dark (p.yStop - span p) (sliceHeight p index) (rowsOf p data) (firstFull p index + (k : Int)))
    (fun k r => ∃ (jd ju : Nat) (a : K), p.cropTop ≤ jd ∧ jd ≤ ju ∧ ju ≤ jd + 1 ∧ ju < data.h - p.cropBottom ∧ 0 ≤ a ∧ a ≤ 1 ∧
        (∀ x, r x = (1 - a) * corrected data flat dark (i0 + k) jd (p.cropLeft + x) + a * corrected data flat dark (i0 + k) ju (p.cropLeft + x)) ∧
        Sees p data index (i0 + k) ((1 - a) * ((jd : K) - p.cropTop) + a * ((ju : K) - p.cropTop))) (by
      intro k hk
      have e : firstFull p index + (k : Int) = ((i0 + k : Nat) : Int) := by omega
      rw [e]
      obtain ⟨r, hr, jd, ju, a, q1, q2, q3, q4, q5, q6, q7, q8⟩ := row_ok p data flat dark g index (i0 + k) (by omega) (hsee k hk).1 (hsee k hk).2
      exact ⟨r, hr, jd, ju, a, q1, q2, q3, q4, q5, q6, q7, (sees_iff p data g index _ _).2 ⟨q8, by rw [q8]; exact (hsee k hk).1, by rw [q8]; exact (hsee k hk).2⟩⟩)
  rw [hm] at h
  cases h
  refine ⟨i0, hi0, by omega, ?_, fun k hk => hP k (by omega)⟩
  rw [hl, ← hi0]
  unfold pySlice pyBound
  rw [if_neg (by omega), if_neg (by omega), ha]
  apply List.ext_getElem
  · simp [ha]; omega
  · intro n h1 h2
    simp only [List.length_map, List.length_range] at h2
    rw [List.getElem_drop, List.getElem_take, List.getElem_map, List.getElem_range, List.getD_eq_getElem?_getD]
    have hlt : i0 + n < angles.length := by rw [ha]; omega
    rw [List.getElem?_eq_getElem hlt, Option.getD_some]
    have hmin : min ((i0 : Int)).toNat data.d = i0 := by omega
    simp only [hmin]

/-- C118, completeness: no projection before the first one used sees the slice, and at most two after the last one used do. -/
theorem helical_full_complete (p : Params K) (index : Int) (data : Arr3 K) (flat dark : Mat K) (angles : List K) (g : Geometry p data)
    (rows : List (Nat → K)) (ang : List K) (h : helicalFull p index data flat dark angles = .ok (rows, ang)) (i : Nat) (j : K) (hsee : Sees p data index i j) :
    firstFull p index ≤ i ∧ (i : Int) ≤ firstFull p index + rows.length + 1 := by
  have hp := g.pixel_pos
  have hs := step_pos p data g
  obtain ⟨hj, h0, h1⟩ := (sees_iff p data g index i j).1 hsee
  obtain ⟨c1, c2, c3, c4, c5⟩ := (helical_full_ok_iff p index data flat dark angles g).1.1 ⟨_, h⟩
  have hlen : (rows.length : Int) = numFull p (rowsOf p data) := by
    rw [full_unfold, if_neg (by omega), if_neg (by omega), if_neg (by omega)] at h
    cases hm : (List.range (numFull p (rowsOf p data)).toNat).mapM (fun k : Nat =>
        helicalRow p data flat dark (p.yStop - span p) (sliceHeight p index) (rowsOf p data) (firstFull p index + (k : Int))) with
    | error e => rw [hm] at h; cases h
    | ok l =>
      rw [hm] at h
      cases h
      have := mapM_length hm
      rw [List.length_range] at this
      omega
  rw [hj] at h0 h1
  have hfirst := (rowAt_le p data g index i).1 h1
  refine ⟨hfirst, ?_⟩
  rw [hlen]
  by_contra hc
  push Not at hc
  have hc' : firstFull p index + numFull p (rowsOf p data) + 2 ≤ i := by omega
  have hcK : ((firstFull p index : Int) : K) + ((numFull p (rowsOf p data) : Int) : K) + 2 ≤ (i : K) := by exact_mod_cast hc'
  have hfl : p.pixel * (rowsOf p data : K) / yStep p < ((numFull p (rowsOf p data) : Int) : K) + 2 := by
    unfold numFull
    push_cast
    linarith [Int.lt_floor_add_one (p.pixel * (rowsOf p data : K) / yStep p)]
  rw [div_lt_iff₀ hs] at hfl
  have hce := Int.le_ceil ((p.yStop - span p - sliceHeight p index) / yStep p)
  rw [← first_eq p data, div_le_iff₀ hs] at hce
  have hm := rowAt_mul p data g index i
  have hge := mul_nonneg h0 hp.le
  rw [hm] at hge
  have hi := mul_le_mul_of_nonneg_right hcK hs.le
  push_cast at hge
  nlinarith

/-- C118: if the stage moves at least one pixel per projection, the call succeeds as soon as the projections are stored. -/
theorem helical_full_coarse (p : Params K) (index : Int) (data : Arr3 K) (flat dark : Mat K) (angles : List K) (g : Geometry p data)
    (hst : p.pixel ≤ yStep p) (h0 : 0 ≤ firstFull p index) (h1 : firstFull p index < data.d) (h2 : 0 ≤ numFull p (rowsOf p data))
    (h3 : firstFull p index + numFull p (rowsOf p data) < data.d) : ∃ r, helicalFull p index data flat dark angles = .ok r := by
  have hp := g.pixel_pos
  have hs := step_pos p data g
  refine (helical_full_ok_iff p index data flat dark angles g).1.2 ⟨h0, h1, h2, h3, .inr ?_⟩
  have hm := rowAt_mul p data g index (firstFull p index + numFull p (rowsOf p data) - 1)
  have hce := Int.ceil_lt_add_one ((p.yStop - span p - sliceHeight p index) / yStep p)
  rw [← first_eq p data] at hce
  have hce' : ((firstFull p index : Int) : K) * yStep p < p.yStop - span p - sliceHeight p index + yStep p := by
    have := mul_lt_mul_of_pos_right hce hs
    rw [add_mul, div_mul_cancel₀ _ hs.ne'] at this
    linarith
  have hfl : ((numFull p (rowsOf p data) : Int) : K) + 1 ≤ p.pixel * (rowsOf p data : K) / yStep p := by
    unfold numFull
    push_cast
    linarith [Int.floor_le (p.pixel * (rowsOf p data : K) / yStep p)]
  rw [le_div_iff₀ hs] at hfl
  refine nonneg_of_mul_nonneg_left (b := p.pixel) ?_ hp
  rw [hm]
  push_cast
  nlinarith

/-- C118, what goes wrong: if the stage moves at most a third of a pixel per projection, every call that should return at least one row raises
`ValueError`: the last projection asked for no longer sees the slice. -/
theorem helical_full_fine_fails (p : Params K) (index : Int) (data : Arr3 K) (flat dark : Mat K) (angles : List K) (g : Geometry p data)
    (hst : 3 * yStep p ≤ p.pixel) (h2 : 1 ≤ numFull p (rowsOf p data)) : helicalFull p index data flat dark angles = .error .valueError := by
  have hp := g.pixel_pos
  have hs := step_pos p data g
  have hiff := helical_full_ok_iff p index data flat dark angles g
  cases hr : helicalFull p index data flat dark angles with
  | error e => rw [hiff.2 e hr]
  | ok r =>
    exfalso
    obtain ⟨-, -, -, -, h⟩ := hiff.1.1 ⟨r, hr⟩
    rcases h with h | h
    · omega
    have hm := rowAt_mul p data g index (firstFull p index + numFull p (rowsOf p data) - 1)
    have hge := mul_nonneg h hp.le
    rw [hm] at hge
    have hfl : p.pixel * (rowsOf p data : K) / yStep p < ((numFull p (rowsOf p data) : Int) : K) + 2 := by
      unfold numFull
      push_cast
      linarith [Int.lt_floor_add_one (p.pixel * (rowsOf p data : K) / yStep p)]
    rw [div_lt_iff₀ hs] at hfl
    have hce := Int.le_ceil ((p.yStop - span p - sliceHeight p index) / yStep p)
    rw [← first_eq p data, div_le_iff₀ hs] at hce
    push_cast at hge
    nlinarith

/-- A scan with pixel size 1, ten rows and a third of a pixel per projection, for the counterexample. -/
def fineScan : Params ℚ := ⟨4, 1, 0, 20, 2, false, 0, 0, 0, 0⟩

/-- C118 refuted ("every slice the short sinogram exists for has a full one"): a consistent scan with enough projections; slice 10 has a short sinogram,
all projections needed for the full one are stored, but the call fails. -/
theorem helical_full_refuted : ∃ (data : Arr3 ℚ) (flat dark : Mat ℚ) (angles : List ℚ), Geometry fineScan data ∧ ScanOk fineScan data angles ∧
    (∃ r, helical fineScan 10 data flat dark angles = .ok r) ∧ 0 ≤ firstFull fineScan 10 ∧
    firstFull fineScan 10 + numFull fineScan (rowsOf fineScan data) < data.d ∧ helicalFull fineScan 10 data flat dark angles = .error .valueError := by
  have hst : yStep fineScan = 1 / 3 := by norm_num [yStep, fineScan]
  have hsp : span fineScan = 1 := by norm_num [span, fineScan]
  have g : Geometry fineScan (⟨61, 10, 1, fun _ _ _ => 1⟩ : Arr3 ℚ) := ⟨by decide, by norm_num [fineScan], by norm_num [fineScan], by decide⟩
  have hok : ScanOk fineScan (⟨61, 10, 1, fun _ _ _ => 1⟩ : Arr3 ℚ) (List.replicate 61 0) := by
    constructor <;> first | decide | (rw [hst, hsp]; norm_num [fineScan]) | (rw [hst]; norm_num [fineScan]) | (rw [hsp]; norm_num [fineScan]) | norm_num [fineScan] | simp
  have hnum : numFull fineScan 10 = 29 := by
    unfold numFull
    rw [hst]
    have : (fineScan.pixel * ((10 : ℕ) : ℚ) / (1 / 3)) = ((30 : ℤ) : ℚ) := by norm_num [fineScan]
    rw [this, Int.floor_intCast]
    norm_num
  have hfirst : firstFull fineScan 10 = 27 := by
    rw [first_eq fineScan ⟨61, 10, 1, fun _ _ _ => 1⟩]
    unfold sliceHeight
    rw [hst, hsp]
    have : (fineScan.yStop - 1 - ((((10 : ℤ) : ℚ) - 1) * fineScan.pixel + (fineScan.yStart + 1))) / (1 / 3) = ((27 : ℤ) : ℚ) := by norm_num [fineScan]
    rw [this, Int.ceil_intCast]
  refine ⟨⟨61, 10, 1, fun _ _ _ => 1⟩, ⟨10, 1, fun _ _ => 1⟩, ⟨10, 1, fun _ _ => 0⟩, List.replicate 61 0, g, hok, ?_, by rw [hfirst]; norm_num, ?_, ?_⟩
  · obtain ⟨rows, i0, -, h, -⟩ := helical_sinogram_correct fineScan 10 _ ⟨10, 1, fun _ _ => 1⟩ ⟨10, 1, fun _ _ => 0⟩ _ hok (by norm_num) (by
      unfold maxIndex
      rw [recHeight_eq, hsp]
      have : (fineScan.yStop - 1 - (fineScan.yStart + 1)) / fineScan.pixel = ((18 : ℤ) : ℚ) := by norm_num [fineScan]
      dsimp only
      rw [this]
      unfold pyTrunc
      rw [if_pos (by norm_num), Int.floor_intCast]
      norm_num)
    exact ⟨_, h⟩
  · have : rowsOf fineScan (⟨61, 10, 1, fun _ _ _ => 1⟩ : Arr3 ℚ) = 10 := rfl
    rw [hfirst, this, hnum]
    norm_num
  · refine helical_full_fine_fails fineScan 10 _ _ _ _ g (by rw [hst]; norm_num [fineScan]) ?_
    have : rowsOf fineScan (⟨61, 10, 1, fun _ _ _ => 1⟩ : Arr3 ℚ) = 10 := rfl
    rw [this, hnum]
    norm_num

/-- The coarse case can be met: pixel size 1, step 2. -/
example : ∃ (p : Params ℚ) (data : Arr3 ℚ), Geometry p data ∧ p.pixel ≤ yStep p ∧ firstFull p 1 = 2 ∧ numFull p (rowsOf p data) = 4 ∧ data.d = 30 := by
  refine ⟨⟨4, 1, 0, 16, 12, false, 0, 0, 0, 0⟩, ⟨30, 10, 1, fun _ _ _ => 1⟩, ⟨by decide, by norm_num, by norm_num, by decide⟩, by norm_num [yStep], ?_, ?_, rfl⟩
  · rw [first_eq _ (⟨30, 10, 1, fun _ _ _ => 1⟩ : Arr3 ℚ), Int.ceil_eq_iff]
    norm_num [sliceHeight, span, yStep]
  · unfold numFull
    have : (1 : ℚ) * ((10 : ℕ) : ℚ) / yStep (⟨4, 1, 0, 16, 12, false, 0, 0, 0, 0⟩ : Params ℚ) = ((5 : ℤ) : ℚ) := by norm_num [yStep]
    have h10 : rowsOf (⟨4, 1, 0, 16, 12, false, 0, 0, 0, 0⟩ : Params ℚ) (⟨30, 10, 1, fun _ _ _ => 1⟩ : Arr3 ℚ) = 10 := rfl
    rw [h10]
    dsimp only
    rw [this, Int.floor_intCast]
    norm_num

end Verif.Helical
