import Verif.Props.Shift

/-!
C71: find_shift_based_correlation_map recovers an integer translation.
-/

set_option linter.unusedSectionVars false
set_option linter.unusedSimpArgs false

namespace Verif.Correlation

/-! ### Specification -/

/-- The second image, without a border of `my` rows and `mx` columns, is the reference translated by `(dy, dx)` with
brightness/contrast `a, b`: what is at `(j, k)` in the second image is at `(j + dy, k + dx)` in the reference. -/
def Translated (ref mat : Arr3 ℝ) (my mx : ℕ) (dy dx : ℤ) (a b : ℝ) : Prop :=
  ∀ i < mat.d, ∀ j k : ℕ, my ≤ j → j + my < mat.h → mx ≤ k → k + mx < mat.w →
    mat.get i j k = a * ref.get i (j + dy).toNat (k + dx).toNat + b

/-- The second image is not constant inside that border. -/
def Textured (mat : Arr3 ℝ) (my mx : ℕ) : Prop :=
  ∃ i < mat.d, ∃ i' < mat.d, ∃ j k j' k' : ℕ, (my ≤ j ∧ j + my < mat.h ∧ mx ≤ k ∧ k + mx < mat.w) ∧
    (my ≤ j' ∧ j' + my < mat.h ∧ mx ≤ k' ∧ k' + mx < mat.w) ∧ mat.get i j k ≠ mat.get i' j' k'

/-- `(dy, dx)` is the only translation within the search range that explains the second image. -/
def OnlyTranslation (ref mat : Arr3 ℝ) (my mx : ℕ) (dy dx : ℤ) : Prop :=
  ∀ ey ex : ℤ, |ey| ≤ my → |ex| ≤ mx → (∃ a b : ℝ, 0 < a ∧ Translated ref mat my mx ey ex a b) → ey = dy ∧ ex = dx

/-- The cropped second image. -/
def inner (mat : Arr3 ℝ) (my mx : ℕ) : Arr3 ℝ :=
  ⟨mat.d, mat.h - 2 * my, mat.w - 2 * mx, fun i j k => mat.get i (my + j) (mx + k)⟩

theorem translated_affine {ref mat : Arr3 ℝ} {my mx : ℕ} {dy dx : ℤ} {a b : ℝ} (hy : |dy| ≤ my) (hx : |dx| ≤ mx)
    (hh : 2 * my < mat.h) (hw : 2 * mx < mat.w) :
    Translated ref mat my mx dy dx a b ↔
      AffineCopy mat.d (mat.h - 2 * my) (mat.w - 2 * mx) (inner mat my mx).get
        (patch ref ((my : ℤ) + dy).toNat ((mx : ℤ) + dx).toNat) a b := by
  rw [abs_le] at hy hx
  constructor
  · intro h i hi j hj k hk
    have := h i hi (my + j) (mx + k) (by omega) (by omega) (by omega) (by omega)
    show mat.get i (my + j) (mx + k) = a * ref.get i (((my : ℤ) + dy).toNat + j) (((mx : ℤ) + dx).toNat + k) + b
    rw [this]
    congr 3 <;> (push_cast; omega)
  · intro h i hi j k h1 h2 h3 h4
    have := h i hi (j - my) (by omega) (k - mx) (by omega)
    change mat.get i (my + (j - my)) (mx + (k - mx))
      = a * ref.get i (((my : ℤ) + dy).toNat + (j - my)) (((mx : ℤ) + dx).toNat + (k - mx)) + b at this
    rw [show my + (j - my) = j by omega, show mx + (k - mx) = k by omega] at this
    rw [this]
    congr 3 <;> omega

/-- The correlation map of the cropped image peaks exactly at the translation. -/
theorem map_peak {ref mat : Arr3 ℝ} {my mx : ℕ} {dy dx : ℤ} {a b : ℝ} (hd : ref.d = mat.d) (hrh : ref.h = mat.h)
    (hrw : ref.w = mat.w) (hh : 2 * my < mat.h) (hw : 2 * mx < mat.w) (hy : |dy| ≤ my) (hx : |dx| ≤ mx) (ha : 0 < a)
    (ht : Translated ref mat my mx dy dx a b) (htex : Textured mat my mx) (hu : OnlyTranslation ref mat my mx dy dx) :
    ∃ m, correlationMap ref (inner mat my mx) = .ok m ∧ m.h = 2 * my + 1 ∧ m.w = 2 * mx + 1 ∧
      FirstMax2 m ((my : ℤ) + dy).toNat ((mx : ℤ) + dx).toNat := by
  obtain ⟨m, hm, eh, ew, hspec⟩ := (correlation_map_spec ref (inner mat my mx)).1
    ⟨by show mat.h - 2 * my ≤ ref.h; omega, by show mat.w - 2 * mx ≤ ref.w; omega, hd⟩
  change m.h + (mat.h - 2 * my) = ref.h + 1 at eh
  change m.w + (mat.w - 2 * mx) = ref.w + 1 at ew
  have eh : m.h = 2 * my + 1 := by omega
  have ew : m.w = 2 * mx + 1 := by omega
  have hy' := abs_le.1 hy
  have hx' := abs_le.1 hx
  have hY : ((my : ℤ) + dy).toNat < m.h := by omega
  have hX : ((mx : ℤ) + dx).toNat < m.w := by omega
  have haff := (translated_affine hy hx hh hw).1 ht
  have hone : m.get ((my : ℤ) + dy).toNat ((mx : ℤ) + dx).toNat = 1 := by
    refine (hspec _ hY _ hX).2.2.2 ⟨?_, a, b, ha, haff⟩
    obtain ⟨i, hi, i', hi', j, k, j', k', h1, h2, hne⟩ := htex
    refine ⟨i, hi, j - my, (by show j - my < mat.h - 2 * my; omega), k - mx, (by show k - mx < mat.w - 2 * mx; omega),
      i', hi', j' - my, (by show j' - my < mat.h - 2 * my; omega), k' - mx,
      (by show k' - mx < mat.w - 2 * mx; omega), ?_⟩
    intro he
    apply hne
    have e1 := haff i hi (j - my) (by omega) (k - mx) (by omega)
    have e2 := haff i' hi' (j' - my) (by omega) (k' - mx) (by omega)
    change mat.get i (my + (j - my)) (mx + (k - mx)) = _ at e1
    change mat.get i' (my + (j' - my)) (mx + (k' - mx)) = _ at e2
    rw [show my + (j - my) = j by omega, show mx + (k - mx) = k by omega] at e1
    rw [show my + (j' - my) = j' by omega, show mx + (k' - mx) = k' by omega] at e2
    rw [e1, e2]
    have he' : patch ref ((my : ℤ) + dy).toNat ((mx : ℤ) + dx).toNat i (j - my) (k - mx)
        = patch ref ((my : ℤ) + dy).toNat ((mx : ℤ) + dx).toNat i' (j' - my) (k' - mx) := he
    rw [he']
  have hlt : ∀ i < m.h, ∀ j < m.w, (i, j) ≠ (((my : ℤ) + dy).toNat, ((mx : ℤ) + dx).toNat) → m.get i j < 1 := by
    intro i hi j hj hne
    refine lt_of_le_of_ne (hspec i hi j hj).2.1 fun h1 => hne ?_
    obtain ⟨-, a', b', ha', hc⟩ := (hspec i hi j hj).2.2.1 h1
    have := hu ((i : ℤ) - my) ((j : ℤ) - mx) (by rw [abs_le]; omega) (by rw [abs_le]; omega)
      ⟨a', b', ha', (translated_affine (by rw [abs_le]; omega) (by rw [abs_le]; omega) hh hw).2 (by
        rw [show ((my : ℤ) + ((i : ℤ) - my)).toNat = i by omega, show ((mx : ℤ) + ((j : ℤ) - mx)).toNat = j by omega]
        exact hc)⟩
    rw [Prod.mk.injEq]; omega
  refine ⟨m, hm, eh, ew, hY, hX, ?_, ?_⟩
  · intro i hi j hj
    rw [hone]; exact (hspec i hi j hj).2.1
  · intro i hi j hj hlex
    rw [hone]
    exact hlt i hi j hj (by intro he; rw [Prod.mk.injEq] at he; omega)

theorem cropAxis_eq {n m : ℕ} (hm : 1 ≤ m) (h : 2 * m < n) : cropAxis n m = (m, n - 2 * m) := by
  unfold cropAxis pyBound
  rw [if_neg (by omega), if_pos (by omega)]
  refine Prod.ext ?_ ?_ <;> (dsimp only; omega)

/-- The accuracy promised for a returned pair `(x, y)` when the true translation is `(dy, dx)`. -/
def Recovered (subPixel : Bool) (method : Method ℝ) (dim : Int) (dy dx : ℤ) (r : ℝ × ℝ) : Prop :=
  (subPixel = false → r = ((dx : ℝ), (dy : ℝ))) ∧
  (method = .diff → |r.1 - dx| < 1 ∧ |r.2 - dy| < 1) ∧
  (method = .diff → dim = 1 → |r.1 - dx| ≤ 1 / 2 ∧ |r.2 - dy| ≤ 1 / 2)

/-- **C71.** If two images of the same size are related by an integer translation within the margin (and only by that
one), `find_shift_based_correlation_map` returns it: exactly without sub-pixel search, within half a pixel
(`dim=1`) or less than one pixel (`dim=2`) with it. -/
theorem find_shift_recovers_partial {ref mat : Arr3 ℝ} {m : ℕ} {dy dx : ℤ} {a b : ℝ} (hd : ref.d = mat.d)
    (hrh : ref.h = mat.h) (hrw : ref.w = mat.w) (hm : 1 ≤ m) (hh : 2 * m + 3 < mat.h) (hw : 2 * m + 3 < mat.w)
    (hy : |dy| ≤ m) (hx : |dx| ≤ m) (ha : 0 < a) (ht : Translated ref mat m m dy dx a b) (htex : Textured mat m m)
    (hu : OnlyTranslation ref mat m m dy dx) (subPixel : Bool) (method : Method ℝ) (dim size : Int) :
    ∃ r, findShift ref mat m none subPixel method dim size = .ok r ∧ Recovered subPixel method dim dy dx r := by
  obtain ⟨M, hM, eh, ew, hp⟩ := map_peak hd hrh hrw (by omega) (by omega) hy hx ha ht htex hu
  have htem : template ref mat m none = (inner mat m m, true) := by
    unfold template
    rw [if_pos ⟨hrh, hrw⟩, cropAxis_eq hm (by omega), cropAxis_eq hm (by omega)]
    simp only [reduceCtorEq, if_false]
    rw [if_pos ⟨by omega, by omega⟩]
    rfl
  obtain ⟨r, hr, hok⟩ := locatePeak_of_argmax (mat := M) (maxPeak := true) (by unfold flipPeak; simp) hp subPixel method
    dim size
  have hy' := abs_le.1 hy
  have hx' := abs_le.1 hx
  refine ⟨(r.1 - m, r.2 - m), ?_, ?_, ?_, ?_⟩
  · unfold findShift
    rw [htem]
    dsimp only
    have e1 : ¬ ((ref.h : ℤ) - 2 * m < ((inner mat m m).h : ℤ)) := by
      show ¬ ((ref.h : ℤ) - 2 * m < ((mat.h - 2 * m : ℕ) : ℤ)); omega
    rw [decide_eq_false e1]
    simp only [reduceCtorEq, if_true, if_false, Bool.false_and, Bool.not_false, bind, Except.bind, hM, hr]
    rw [eh, ew, show (2 * m + 1) / 2 = m by omega]
  · intro hs
    have := hok.2.2.2.2.1 hs
    rw [this]
    refine Prod.ext ?_ ?_
    · show (((((m : ℤ) + dx).toNat : ℕ)) : ℝ) - m = dx
      rw [← Int.cast_natCast (R := ℝ), Int.toNat_of_nonneg (by omega)]; push_cast; ring
    · show (((((m : ℤ) + dy).toNat : ℕ)) : ℝ) - m = dy
      rw [← Int.cast_natCast (R := ℝ), Int.toNat_of_nonneg (by omega)]; push_cast; ring
  · intro hd
    obtain ⟨h1, h2⟩ := hok.2.2.2.2.2.1 hd
    rw [← Int.cast_natCast (R := ℝ), Int.toNat_of_nonneg (by omega)] at h1 h2
    push_cast at h1 h2
    refine ⟨?_, ?_⟩
    · show |r.1 - m - dx| < 1
      rwa [sub_sub]
    · show |r.2 - m - dy| < 1
      rwa [sub_sub]
  · intro hd hd1
    obtain ⟨h1, h2⟩ := hok.2.2.2.2.2.2 hd hd1
    rw [← Int.cast_natCast (R := ℝ), Int.toNat_of_nonneg (by omega)] at h1 h2
    push_cast at h1 h2
    refine ⟨?_, ?_⟩
    · show |r.1 - m - dx| ≤ 1 / 2
      rwa [sub_sub]
    · show |r.2 - m - dy| ≤ 1 / 2
      rwa [sub_sub]

/-- **C71.** Sliding along one axis only (`axis=1`: columns). -/
theorem find_shift_axis1_partial {ref mat : Arr3 ℝ} {m : ℕ} {dx : ℤ} {a b : ℝ} (hd : ref.d = mat.d)
    (hrh : ref.h = mat.h) (hrw : ref.w = mat.w) (hm : 1 ≤ m) (hw : 2 * m + 3 < mat.w) (hh : 0 < mat.h)
    (hx : |dx| ≤ m) (ha : 0 < a) (ht : Translated ref mat 0 m 0 dx a b) (htex : Textured mat 0 m)
    (hu : OnlyTranslation ref mat 0 m 0 dx) (subPixel : Bool) (method : Method ℝ) (dim size : Int) :
    ∃ r, findShift ref mat m (some 1) subPixel method dim size = .ok r ∧ r.2 = 0 ∧
      (subPixel = false → r.1 = dx) ∧ (method = .diff → |r.1 - dx| ≤ 1 / 2) := by
  obtain ⟨M, hM, eh, ew, hp⟩ := map_peak hd hrh hrw (by omega) (by omega) (dy := 0) (by simp) hx ha ht htex hu
  have htem : template ref mat m (some 1) = (inner mat 0 m, true) := by
    unfold template
    rw [if_pos ⟨hrh, hrw⟩, cropAxis_eq (n := mat.w) hm (by omega)]
    simp only [Option.some.injEq, one_ne_zero, if_false, if_true]
    rw [if_pos (by omega)]
    simp [inner]
  obtain ⟨r, hr, hok⟩ := locatePeak_of_argmax (mat := M) (maxPeak := true) (by unfold flipPeak; simp) hp subPixel method
    1 size
  have hx' := abs_le.1 hx
  refine ⟨(r.1 - m, 0), ?_, rfl, ?_, ?_⟩
  · unfold findShift
    rw [htem]
    dsimp only
    have e1 : ¬ ((ref.w : ℤ) - 2 * m < ((inner mat 0 m).w : ℤ)) := by
      show ¬ ((ref.w : ℤ) - 2 * m < ((mat.w - 2 * m : ℕ) : ℤ)); omega
    rw [decide_eq_false e1]
    simp only [reduceCtorEq, Option.some.injEq, one_ne_zero, if_true, if_false, Bool.not_false, bind, Except.bind, hM, hr]
    rw [eh, ew, show (2 * m + 1) / 2 = m by omega]
    simp
  · intro hs
    have := hok.2.2.2.2.1 hs
    show r.1 - m = dx
    rw [this]
    show (((((m : ℤ) + dx).toNat : ℕ)) : ℝ) - m = dx
    rw [← Int.cast_natCast (R := ℝ), Int.toNat_of_nonneg (by omega)]; push_cast; ring
  · intro hd
    obtain ⟨h1, -⟩ := hok.2.2.2.2.2.2 hd rfl
    rw [← Int.cast_natCast (R := ℝ), Int.toNat_of_nonneg (by omega)] at h1
    push_cast at h1
    show |r.1 - m - dx| ≤ 1 / 2
    rwa [sub_sub]

/-- **C71.** Sliding along rows only (`axis=0`). -/
theorem find_shift_axis0_partial {ref mat : Arr3 ℝ} {m : ℕ} {dy : ℤ} {a b : ℝ} (hd : ref.d = mat.d)
    (hrh : ref.h = mat.h) (hrw : ref.w = mat.w) (hm : 1 ≤ m) (hh : 2 * m + 3 < mat.h) (hw : 0 < mat.w)
    (hy : |dy| ≤ m) (ha : 0 < a) (ht : Translated ref mat m 0 dy 0 a b) (htex : Textured mat m 0)
    (hu : OnlyTranslation ref mat m 0 dy 0) (subPixel : Bool) (method : Method ℝ) (dim size : Int) :
    ∃ r, findShift ref mat m (some 0) subPixel method dim size = .ok r ∧ r.1 = 0 ∧
      (subPixel = false → r.2 = dy) ∧ (method = .diff → |r.2 - dy| ≤ 1 / 2) := by
  obtain ⟨M, hM, eh, ew, hp⟩ := map_peak hd hrh hrw (by omega) (by omega) hy (dx := 0) (by simp) ha ht htex hu
  have htem : template ref mat m (some 0) = (inner mat m 0, true) := by
    unfold template
    rw [if_pos ⟨hrh, hrw⟩, cropAxis_eq hm (by omega)]
    simp only [if_true]
    rw [if_pos (by omega)]
    simp [inner]
  obtain ⟨r, hr, hok⟩ := locatePeak_of_argmax (mat := M) (maxPeak := true) (by unfold flipPeak; simp) hp subPixel method
    1 size
  have hy' := abs_le.1 hy
  refine ⟨(0, r.2 - m), ?_, rfl, ?_, ?_⟩
  · unfold findShift
    rw [htem]
    dsimp only
    have e1 : ¬ ((ref.h : ℤ) - 2 * m < ((inner mat m 0).h : ℤ)) := by
      show ¬ ((ref.h : ℤ) - 2 * m < ((mat.h - 2 * m : ℕ) : ℤ)); omega
    rw [decide_eq_false e1]
    simp only [reduceCtorEq, Option.some.injEq, zero_ne_one, if_true, if_false, Bool.not_false, bind, Except.bind, hM, hr]
    rw [eh, ew, show (2 * m + 1) / 2 = m by omega]
    simp
  · intro hs
    have := hok.2.2.2.2.1 hs
    show r.2 - m = dy
    rw [this]
    show (((((m : ℤ) + dy).toNat : ℕ)) : ℝ) - m = dy
    rw [← Int.cast_natCast (R := ℝ), Int.toNat_of_nonneg (by omega)]; push_cast; ring
  · intro hd
    obtain ⟨-, h1⟩ := hok.2.2.2.2.2.2 hd rfl
    rw [← Int.cast_natCast (R := ℝ), Int.toNat_of_nonneg (by omega)] at h1
    push_cast at h1
    show |r.2 - m - dy| ≤ 1 / 2
    rwa [sub_sub]

/-- **C71 refuted for small images.** For same-size images smaller than `2*margin + 4` in some direction the size check is
skipped and the answer is `(0, 0)` whatever the images contain: no error and no search. -/
theorem find_shift_small_refuted (ref mat : Arr3 ℝ) (m : ℕ) (hd : ref.d = mat.d) (hrh : ref.h = mat.h)
    (hrw : ref.w = mat.w) (hsmall : mat.h ≤ 2 * m + 3 ∨ mat.w ≤ 2 * m + 3) (subPixel : Bool) (method : Method ℝ)
    (dim size : Int) : findShift ref mat m none subPixel method dim size = .ok (0, 0) := by
  obtain ⟨M, hM, eh, ew, -⟩ := (correlation_map_spec ref mat).1 ⟨by omega, by omega, hd⟩
  have eh : M.h = 1 := by omega
  have ew : M.w = 1 := by omega
  have htem : template ref mat m none = (mat, false) := by
    unfold template
    rw [if_pos ⟨hrh, hrw⟩]
    simp only [reduceCtorEq, if_false]
    rw [if_neg (by omega)]
  obtain ⟨y, x, hp, r, hr, hok⟩ := locate_peak_max (m := M) (by omega) (by omega) subPixel method dim size
  have b := hok.1
  have b1 := hok.2.1
  have b2 := hok.2.2.1
  have b3 := hok.2.2.2.1
  rw [ew] at b1
  rw [eh] at b3
  norm_num at b1 b3
  have e1 : r.1 = 0 := le_antisymm b1 b
  have e2 : r.2 = 0 := le_antisymm b3 b2
  unfold findShift
  rw [htem]
  simp only [reduceCtorEq, if_true, if_false, Bool.false_eq_true, bind, Except.bind, hM, hr]
  rw [eh, ew, e1, e2]
  norm_num

/-! ### Non-vacuity: a single bright pixel moved by (1, -1) in 9x9 images with margin 2 -/

def exShiftRef : Arr3 ℝ := ⟨1, 9, 9, fun _ i j => if i = 5 ∧ j = 3 then 1 else 0⟩
def exShiftMat : Arr3 ℝ := ⟨1, 9, 9, fun _ i j => if i = 4 ∧ j = 4 then 3 else 2⟩

theorem exShift_hyp : Translated exShiftRef exShiftMat 2 2 1 (-1) 1 2 ∧ Textured exShiftMat 2 2 ∧
    OnlyTranslation exShiftRef exShiftMat 2 2 1 (-1) := by
  refine ⟨?_, ?_, ?_⟩
  · intro i hi j k h1 h2 h3 h4
    have h2 : j + 2 < 9 := h2
    have h4 : k + 2 < 9 := h4
    show (if j = 4 ∧ k = 4 then (3 : ℝ) else 2) = 1 * (if ((j : ℤ) + 1).toNat = 5 ∧ ((k : ℤ) + -1).toNat = 3 then 1 else 0) + 2
    by_cases hc : j = 4 ∧ k = 4
    · rw [if_pos hc, if_pos (by omega)]; norm_num
    · rw [if_neg hc, if_neg (by omega)]; norm_num
  · exact ⟨0, by norm_num [exShiftMat], 0, by norm_num [exShiftMat], 4, 4, 3, 3, by norm_num [exShiftMat],
      by norm_num [exShiftMat], by norm_num [exShiftMat]⟩
  · rintro ey ex hy hx ⟨a, b, ha, ht⟩
    rw [abs_le] at hy hx
    push_cast at hy hx
    have e1 := ht 0 (by norm_num [exShiftMat]) 4 4 (by norm_num) (by norm_num [exShiftMat]) (by norm_num)
      (by norm_num [exShiftMat])
    have e2 := ht 0 (by norm_num [exShiftMat]) 3 3 (by norm_num) (by norm_num [exShiftMat]) (by norm_num)
      (by norm_num [exShiftMat])
    change (3 : ℝ) = a * (if (((4 : ℕ) : ℤ) + ey).toNat = 5 ∧ (((4 : ℕ) : ℤ) + ex).toNat = 3 then 1 else 0) + b at e1
    change (2 : ℝ) = a * (if (((3 : ℕ) : ℤ) + ey).toNat = 5 ∧ (((3 : ℕ) : ℤ) + ex).toNat = 3 then 1 else 0) + b at e2
    by_contra hne
    rw [if_neg (by omega)] at e1
    split_ifs at e2 <;> linarith

example : ∃ r, findShift exShiftRef exShiftMat 2 none false .diff 2 3 = .ok r ∧ r = (-1, 1) := by
  obtain ⟨r, hr, h, -⟩ := find_shift_recovers_partial (ref := exShiftRef) (mat := exShiftMat) (m := 2) (dy := 1) (dx := -1)
    (a := 1) (b := 2) rfl rfl rfl (by norm_num) (by norm_num [exShiftMat]) (by norm_num [exShiftMat]) (by norm_num)
    (by norm_num) one_pos exShift_hyp.1 exShift_hyp.2.1 exShift_hyp.2.2 false .diff 2 3
  exact ⟨r, hr, by rw [h rfl]; norm_num⟩

end Verif.Correlation
