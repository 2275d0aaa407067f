import Verif.Model.Helical
import Verif.Lemmas.Num
import Mathlib.Data.Rat.Floor

/-! C20 — helical scans. -/

set_option linter.unusedSectionVars false
set_option linter.unusedSimpArgs false

namespace Verif.Helical

variable {K : Type _} [Field K] [LinearOrder K] [IsStrictOrderedRing K] [FloorRing K]

/-- Vertical travel of the stage during one used sinogram: half a pitch (180°) or a pitch (360°). -/
def span (p : Params K) : K := if p.is360 then p.pitch else p.pitch / 2

/-- A consistent scan: positive sizes; the reconstructable range is not empty; enough projections for the travel;
the pixel is not larger than the travel of one sinogram; the (cropped) detector sees at least the travel of one
sinogram plus one step. -/
structure ScanOk (p : Params K) (data : Arr3 K) (angles : List K) : Prop where
  pixel_pos : 0 < p.pixel
  pitch_pos : 0 < p.pitch
  two_proj : 2 ≤ p.numProj
  crop : p.cropBottom + p.cropTop < data.h
  range : p.yStart + 2 * span p ≤ p.yStop
  depth : p.yStop - p.yStart + yStep p ≤ (data.d : K) * yStep p
  small : p.pixel ≤ span p
  view : span p + yStep p ≤ (((data.h - p.cropBottom - p.cropTop : Nat) : K) - 1) * p.pixel
  angle : angles.length = data.d

theorem recHeight_eq (p : Params K) :
    recHeight p.yStart p.yStop p.pitch p.is360 = (p.yStart + span p, p.yStop - span p) := by
  unfold recHeight span; split <;> rfl

/-- Flat-field corrected value of the stored projection `i`, detector row `j`, column `x`. -/
def corrected (data : Arr3 K) (flat dark : Mat K) (i j x : Nat) : K :=
  (data.get i j x - dark.get j x) / (flat.get j x - dark.get j x)

/-- Height in the sample seen by row `j` of projection `i`. -/
def seenHeight (p : Params K) (height : Nat) (i : Nat) (j : K) : K :=
  p.yStop - span p + p.pixel * height - (i : K) * yStep p - (j + 1) * p.pixel

theorem yStep_pos (p : Params K) (data : Arr3 K) (angles : List K) (h : ScanOk p data angles) : 0 < yStep p := by
  unfold yStep
  have : (2 : K) ≤ (p.numProj : K) := by exact_mod_cast h.two_proj
  exact div_pos h.pitch_pos (by linarith)

theorem used_step (p : Params K) (data : Arr3 K) (angles : List K) (h : ScanOk p data angles) :
    ((numUsed p : K) - 1) * yStep p = span p := by
  have h2 : (2 : K) ≤ (p.numProj : K) := by exact_mod_cast h.two_proj
  have h3 : (p.numProj : K) - 1 ≠ 0 := by intro h; linarith
  unfold numUsed span yStep
  split
  · have : ((2 * (p.numProj - 1) + 1 : Nat) : K) = 2 * ((p.numProj : K) - 1) + 1 := by
      push_cast [Nat.cast_sub (by have := h.two_proj; omega : 1 ≤ p.numProj)]; ring
    rw [this]; field_simp; ring
  · field_simp

theorem mapM_range_ok {β : Type _} (n : Nat) (f : Nat → Py β) (P : Nat → β → Prop)
    (h : ∀ k < n, ∃ r, f k = .ok r ∧ P k r) :
    ∃ l : List β, (List.range n).mapM f = .ok l ∧ ∃ hl : l.length = n, ∀ k (hk : k < n), P k l[k] := by
  induction n with
  | zero => exact ⟨[], rfl, rfl, by intro k hk; omega⟩
  | succ n ih =>
    obtain ⟨l, h1, hl, h2⟩ := ih (fun k hk => h k (by omega))
    obtain ⟨r, hr, hp⟩ := h n (by omega)
    refine ⟨l ++ [r], ?_, by simp [hl], ?_⟩
    · rw [List.range_succ, List.mapM_append, h1]
      simp only [List.mapM_cons, List.mapM_nil, hr]
      rfl
    · intro k hk
      by_cases hkn : k < n
      · rw [List.getElem_append_left (by omega)]; exact h2 k hkn
      · have : k = n := by omega
        subst this
        rw [List.getElem_append_right (by omega)]
        simpa [hl] using hp

/-- C20.  On a consistent scan every admissible index succeeds; row `k` of the result is, column by column, the linear
interpolation (weights `1-a`, `a` in `[0,1]`) of two neighbouring (or equal) detector rows inside the cropped detector
of stored projection `i0+k`, taken exactly where that projection sees the requested height
`(index-1)·pixel + y_s`; the angles returned are those of the projections used. -/
theorem helical_sinogram_correct (p : Params K) (index : Int) (data : Arr3 K) (flat dark : Mat K) (angles : List K)
    (h : ScanOk p data angles) (hi0 : 0 ≤ index)
    (hi1 : index ≤ maxIndex p.yStart p.yStop p.pitch p.pixel p.is360) :
    ∃ (rows : List (Nat → K)) (i0 : Nat), i0 + numUsed p ≤ data.d ∧
      helical p index data flat dark angles = .ok (rows, (List.range (numUsed p)).map fun k => angles.getD (i0 + k) 0) ∧
      ∃ hl : rows.length = numUsed p, ∀ k (hk : k < numUsed p), ∃ (jd ju : Nat) (a : K),
        p.cropTop ≤ jd ∧ jd ≤ ju ∧ ju ≤ jd + 1 ∧ ju < data.h - p.cropBottom ∧ 0 ≤ a ∧ a ≤ 1 ∧
        (∀ x, rows[k] x = (1 - a) * corrected data flat dark (i0 + k) jd (p.cropLeft + x)
          + a * corrected data flat dark (i0 + k) ju (p.cropLeft + x)) ∧
        seenHeight p (data.h - p.cropBottom - p.cropTop) (i0 + k)
          ((1 - a) * ((jd : K) - p.cropTop) + a * ((ju : K) - p.cropTop))
          = ((index : K) - 1) * p.pixel + (p.yStart + span p) := by
  have hst := yStep_pos p data angles h
  have hus := used_step p data angles h
  have hpx := h.pixel_pos
  have hrange := h.range
  -- the requested height
  have hmx : ((index : K) - 1) * p.pixel ≤ p.yStop - span p - (p.yStart + span p) := by
    have hle : (index : K) ≤ (maxIndex p.yStart p.yStop p.pitch p.pixel p.is360 : K) := by exact_mod_cast hi1
    unfold maxIndex at hle
    rw [recHeight_eq] at hle
    dsimp only at hle
    have hnn : 0 ≤ (p.yStop - span p - (p.yStart + span p)) / p.pixel := div_nonneg (by linarith) hpx.le
    unfold pyTrunc at hle
    rw [if_pos hnn] at hle
    push_cast at hle
    have hfl := Int.floor_le ((p.yStop - span p - (p.yStart + span p)) / p.pixel)
    have : (index : K) - 1 ≤ (p.yStop - span p - (p.yStart + span p)) / p.pixel := by linarith
    calc ((index : K) - 1) * p.pixel ≤ (p.yStop - span p - (p.yStart + span p)) / p.pixel * p.pixel :=
          mul_le_mul_of_nonneg_right this hpx.le
      _ = _ := by field_simp
  set yPos : K := ((index : K) - 1) * p.pixel + (p.yStart + span p) with hyPos
  have hidx : (0 : K) ≤ (index : K) := by exact_mod_cast hi0
  have hypos0 : p.yStart + span p - p.pixel ≤ yPos := by rw [hyPos]; nlinarith
  set d : K := (p.yStop - span p - yPos) / yStep p with hd
  have hdmul : d * yStep p = p.yStop - span p - yPos := by rw [hd]; field_simp
  have hd0 : 0 ≤ d := div_nonneg (by rw [hyPos]; linarith) hst.le
  have hc0 : 0 ≤ ⌈d⌉ := Int.ceil_nonneg hd0
  obtain ⟨i0, hi0eq⟩ : ∃ i0 : Nat, (i0 : Int) = ⌈d⌉ := ⟨⌈d⌉.toNat, by omega⟩
  have hsm := h.small
  have hdep := h.depth
  have hnu1 : 1 ≤ numUsed p := by
    unfold numUsed; have := h.two_proj; split <;> omega
  -- enough projections
  have hfit : i0 + numUsed p ≤ data.d := by
    have h1 : (d + (numUsed p : K)) * yStep p ≤ (data.d : K) * yStep p := by
      have : (d + (numUsed p : K)) * yStep p = d * yStep p + ((numUsed p : K) - 1) * yStep p + yStep p := by ring
      rw [this, hdmul, hus]; linarith
    have h2 : d + (numUsed p : K) ≤ (data.d : K) := le_of_mul_le_mul_right h1 hst
    have h3 : d ≤ (((data.d : Int) - (numUsed p : Int) : Int) : K) := by push_cast; linarith
    have := Int.ceil_le.mpr h3
    omega
  set height := data.h - p.cropBottom - p.cropTop with hheight
  have hview := h.view
  have hcrop := h.crop
  have hcl := Int.le_ceil d
  have hcu := Int.ceil_lt_add_one d
  have hi0K : (i0 : K) = (⌈d⌉ : K) := by rw [← hi0eq]; simp
  have hδ0 : 0 ≤ (i0 : K) * yStep p - (p.yStop - span p - yPos) := by
    rw [← hdmul, hi0K]; nlinarith
  have hδ1 : (i0 : K) * yStep p - (p.yStop - span p - yPos) < yStep p := by
    rw [← hdmul, hi0K]; nlinarith
  have hrow : ∀ k < numUsed p, ∃ r, helicalRow p data flat dark (p.yStop - span p) yPos height ((i0 : Int) + (k : Int)) = .ok r ∧
      ∃ (jd ju : Nat) (a : K),
        p.cropTop ≤ jd ∧ jd ≤ ju ∧ ju ≤ jd + 1 ∧ ju < data.h - p.cropBottom ∧ 0 ≤ a ∧ a ≤ 1 ∧
        (∀ x, r x = (1 - a) * corrected data flat dark (i0 + k) jd (p.cropLeft + x)
          + a * corrected data flat dark (i0 + k) ju (p.cropLeft + x)) ∧
        seenHeight p height (i0 + k) ((1 - a) * ((jd : K) - p.cropTop) + a * ((ju : K) - p.cropTop)) = yPos := by
    intro k hk
    have hkK : (k : K) ≤ (numUsed p : K) - 1 := by
      have : ((k + 1 : Nat) : K) ≤ (numUsed p : K) := by exact_mod_cast hk
      push_cast at this; linarith
    have hks : (k : K) * yStep p ≤ span p := by rw [← hus]; exact mul_le_mul_of_nonneg_right hkK hst.le
    have hk0 : 0 ≤ (k : K) * yStep p := by positivity
    set j0 : K := (p.yStop - span p + p.pixel * (height : K) - (((i0 : Int) + (k : Int) : Int) : K) * yStep p - yPos) / p.pixel - 1
      with hj0
    have hj0mul : j0 * p.pixel = ((height : K) - 1) * p.pixel
        - ((i0 : K) * yStep p - (p.yStop - span p - yPos) + (k : K) * yStep p) := by
      rw [hj0]; push_cast; field_simp; ring
    have hj0nn : 0 ≤ j0 := by
      by_contra hneg
      have : j0 * p.pixel < 0 := mul_neg_of_neg_of_pos (not_le.mp hneg) hpx
      linarith
    have hj0le : j0 ≤ (height : K) - 1 := by
      have : j0 * p.pixel ≤ ((height : K) - 1) * p.pixel := by linarith
      exact le_of_mul_le_mul_right this hpx
    have hnotbad : ¬ (j0 < 0 ∨ (height : K) ≤ j0) := by
      push_neg; constructor <;> linarith
    have hclip : min (max j0 0) ((height : K) - 1) = j0 := by
      rw [max_eq_left hj0nn, min_eq_left hj0le]
    have hfl0 : 0 ≤ ⌊j0⌋ := Int.floor_nonneg.mpr hj0nn
    have hcl1 : ⌈j0⌉ ≤ (height : Int) - 1 := by
      apply Int.ceil_le.mpr; push_cast; exact hj0le
    have hfc : ⌊j0⌋ ≤ ⌈j0⌉ := Int.floor_le_ceil j0
    have hfc1 : ⌈j0⌉ ≤ ⌊j0⌋ + 1 := Int.ceil_le_floor_add_one j0
    have hcorr : ∀ j : Int, 0 ≤ j → j ≤ (height : Int) - 1 →
        corrRow data flat dark p.cropLeft ((i0 : Int) + (k : Int)) (j + p.cropTop)
          = .ok fun x => corrected data flat dark (i0 + k) (j + p.cropTop).toNat (p.cropLeft + x) := by
      intro j hj1 hj2
      unfold corrRow corrected
      rw [if_pos (by omega)]
      have : ((i0 : Int) + (k : Int)).toNat = i0 + k := by omega
      simp only [this]
    -- physical position of j0
    have hphys : seenHeight p height (i0 + k) j0 = yPos := by
      unfold seenHeight
      push_cast
      have : (j0 + 1) * p.pixel = j0 * p.pixel + p.pixel := by ring
      rw [this, hj0mul]; ring
    by_cases heq : ⌈j0⌉ = ⌊j0⌋
    · refine ⟨_, by
        unfold helicalRow
        dsimp only
        rw [if_neg hnotbad, hclip, hcorr _ hfl0 (by omega), heq]
        simp only [ne_eq, not_true_eq_false, if_false]
        rfl, (⌊j0⌋ + p.cropTop).toNat, (⌊j0⌋ + p.cropTop).toNat, 0, by omega, le_rfl, by omega, by omega, le_rfl, zero_le_one, ?_, ?_⟩
      · intro x; ring
      · have hj : j0 = (⌊j0⌋ : K) := le_antisymm (by rw [← heq]; exact Int.le_ceil j0) (Int.floor_le j0)
        have hc : (((⌊j0⌋ + p.cropTop).toNat : Nat) : K) = (⌊j0⌋ : K) + p.cropTop := by
          have : (((⌊j0⌋ + p.cropTop).toNat : Nat) : Int) = ⌊j0⌋ + p.cropTop := by omega
          have := congrArg (Int.cast : Int → K) this
          push_cast at this; exact this
        rw [hc, ← hphys]
        congr 1
        rw [hj]; simp
    · have hce : ⌈j0⌉ = ⌊j0⌋ + 1 := by omega
      have hden : ((⌈j0⌉ : K) - (⌊j0⌋ : K)) = 1 := by rw [hce]; push_cast; ring
      refine ⟨_, by
        unfold helicalRow
        dsimp only
        rw [if_neg hnotbad, hclip, hcorr _ hfl0 (by omega), hcorr _ (by omega) hcl1]
        simp only [ne_eq, heq, not_false_eq_true, if_true]
        rfl, (⌊j0⌋ + p.cropTop).toNat, (⌈j0⌉ + p.cropTop).toNat, j0 - (⌊j0⌋ : K), by omega, by omega, by omega, by omega, ?_, ?_, ?_, ?_⟩
      · have := Int.floor_le j0; linarith
      · have := Int.lt_floor_add_one j0; linarith
      · intro x
        rw [hden]
        have : (⌈j0⌉ : K) = (⌊j0⌋ : K) + 1 := by linarith
        rw [this]; ring
      · have hc1 : (((⌊j0⌋ + p.cropTop).toNat : Nat) : K) = (⌊j0⌋ : K) + p.cropTop := by
          have : (((⌊j0⌋ + p.cropTop).toNat : Nat) : Int) = ⌊j0⌋ + p.cropTop := by omega
          have := congrArg (Int.cast : Int → K) this
          push_cast at this; exact this
        have hc2 : (((⌈j0⌉ + p.cropTop).toNat : Nat) : K) = (⌊j0⌋ : K) + 1 + p.cropTop := by
          have : (((⌈j0⌉ + p.cropTop).toNat : Nat) : Int) = ⌊j0⌋ + 1 + p.cropTop := by omega
          have := congrArg (Int.cast : Int → K) this
          push_cast at this; exact this
        rw [hc1, hc2, ← hphys]
        congr 1
        ring
  obtain ⟨rows, hm, hl, hP⟩ := mapM_range_ok (numUsed p) _ _ hrow
  refine ⟨rows, i0, hfit, ?_, hl, hP⟩
  unfold helical
  dsimp only
  rw [if_neg (by omega), recHeight_eq]
  dsimp only
  rw [← hyPos, ← hd, ← hi0eq, if_neg (by omega)]
  rw [← hheight, hm]
  simp only [bind, Except.bind, pure, Except.pure, Except.ok.injEq, Prod.mk.injEq, true_and]
  unfold pySlice pyBound
  rw [if_neg (by omega), if_neg (by omega), h.angle]
  apply List.ext_getElem
  · simp [h.angle]; omega
  · intro n h1 h2
    simp only [List.length_map, List.length_range] at h2
    rw [List.getElem_drop, List.getElem_take, List.getElem_map, List.getElem_range, List.getD_eq_getElem?_getD]
    have hlt : i0 + n < angles.length := by rw [h.angle]; omega
    rw [List.getElem?_eq_getElem hlt, Option.getD_some]
    congr 1
    omega

/-- Whatever the geometry and index, a detector row outside the stored rows is never read: if enough
projections are stored after the first one used, the call ends normally or with the `ValueError` the code raises on
purpose, never with an out-of-range access. -/
theorem helical_no_index_error (p : Params K) (index : Int) (data : Arr3 K) (flat dark : Mat K) (angles : List K)
    (hcrop : p.cropBottom + p.cropTop ≤ data.h)
    (hfit : ⌈((recHeight p.yStart p.yStop p.pitch p.is360).2 - (((index : K) - 1) * p.pixel
      + (recHeight p.yStart p.yStop p.pitch p.is360).1)) / yStep p⌉ + numUsed p ≤ data.d) :
    helical p index data flat dark angles ≠ .error .indexError := by
  unfold helical
  dsimp only
  split
  · simp
  · split
    · simp
    · rename_i hneg
      push_neg at hneg
      set i0 := ⌈((recHeight p.yStart p.yStop p.pitch p.is360).2 - (((index : K) - 1) * p.pixel
        + (recHeight p.yStart p.yStop p.pitch p.is360).1)) / yStep p⌉
      have hrow : ∀ (i : Int) (ye yPos : K), 0 ≤ i → i < data.d →
          helicalRow p data flat dark ye yPos (data.h - p.cropBottom - p.cropTop) i ≠ .error .indexError := by
        intro i ye yPos hi0 hi1
        unfold helicalRow
        dsimp only
        split
        · simp
        · rename_i hb
          push_neg at hb
          set H := data.h - p.cropBottom - p.cropTop with hH
          set j0 := (ye + p.pixel * (H : K) - (i : K) * yStep p - yPos) / p.pixel - 1
          have hH1 : 1 ≤ H := by
            by_contra hc
            have : H = 0 := by omega
            rw [this] at hb
            have h1 := hb.1; have h2 := hb.2
            push_cast at h2
            linarith
          have hHK : (1 : K) ≤ (H : K) := by exact_mod_cast hH1
          have hc0 : 0 ≤ min (max j0 0) ((H : K) - 1) := le_min (le_max_right _ _) (by linarith)
          have hc1 : min (max j0 0) ((H : K) - 1) ≤ (H : K) - 1 := min_le_right _ _
          generalize min (max j0 0) ((H : K) - 1) = c at hc0 hc1
          have hf0 : 0 ≤ ⌊c⌋ := Int.floor_nonneg.mpr hc0
          have hcl : ⌈c⌉ ≤ (H : Int) - 1 := by apply Int.ceil_le.mpr; push_cast; exact hc1
          have hfc := Int.floor_le_ceil c
          have hr : ∀ j : Int, 0 ≤ j → j ≤ (H : Int) - 1 → ∃ r, corrRow data flat dark p.cropLeft i (j + p.cropTop) = .ok r := by
            intro j h1 h2
            unfold corrRow
            rw [if_pos (by omega)]; exact ⟨_, rfl⟩
          obtain ⟨r1, h1⟩ := hr ⌊c⌋ hf0 (by omega)
          obtain ⟨r2, h2⟩ := hr ⌈c⌉ (by omega) hcl
          rw [h1, h2]
          simp only [bind, Except.bind]
          split <;> simp [pure, Except.pure]
      have hmap : ∀ (l : List Nat), (∀ k ∈ l, k < numUsed p) →
          (l.mapM fun k : Nat => helicalRow p data flat dark (recHeight p.yStart p.yStop p.pitch p.is360).2
            (((index : K) - 1) * p.pixel + (recHeight p.yStart p.yStop p.pitch p.is360).1)
            (data.h - p.cropBottom - p.cropTop) (i0 + (k : Int))) ≠ .error .indexError := by
        intro l
        induction l with
        | nil => intro _; simp [pure, Except.pure]
        | cons k l ih =>
          intro hk
          rw [List.mapM_cons]
          have h1 := hrow (i0 + (k : Int)) (recHeight p.yStart p.yStop p.pitch p.is360).2
            (((index : K) - 1) * p.pixel + (recHeight p.yStart p.yStop p.pitch p.is360).1)
            (by omega) (by have := hk k (by simp); omega)
          have h2 := ih (fun k hk' => hk k (by simp [hk']))
          revert h1 h2
          generalize helicalRow p data flat dark (recHeight p.yStart p.yStop p.pitch p.is360).2
            (((index : K) - 1) * p.pixel + (recHeight p.yStart p.yStop p.pitch p.is360).1)
            (data.h - p.cropBottom - p.cropTop) (i0 + (k : Int)) = a
          generalize List.mapM (m := Except PyErr) _ l = b
          intro h1 h2
          cases a with
          | error e => simpa [bind, Except.bind] using h1
          | ok v =>
            cases b with
            | error e => simpa [bind, Except.bind] using h2
            | ok w => simp [bind, Except.bind, pure, Except.pure]
      have := hmap (List.range (numUsed p)) (by simp)
      revert this
      generalize List.mapM (m := Except PyErr) _ (List.range (numUsed p)) = b
      intro h
      cases b with
      | error e => simpa [bind, Except.bind] using h
      | ok w => simp [bind, Except.bind, pure, Except.pure]

/-- Non-vacuity: 5 projections per half turn, pitch 8, pixel 1, travel 24, 25 projections, 7 detector rows. -/
example : ScanOk (K := ℚ) ⟨5, 1, 0, 24, 8, false, 1, 0, 0, 0⟩ ⟨25, 7, 3, fun _ _ _ => 1⟩ (List.replicate 25 0) := by
  constructor <;> norm_num [span, yStep]

end Verif.Helical
