import Verif.Props.Dfi2

/-! C109 — `dfi_reconstruction` as a whole. -/

set_option linter.unusedSectionVars false
set_option linter.unusedSimpArgs false

namespace Verif.Dfi
open Verif.Fourier Verif.Simulation Verif.Recon Verif.BackProj Verif.Calibration

theorem truncInt_neg_iff (x : ℝ) : truncInt x < 0 ↔ x ≤ -1 := by
  unfold truncInt
  split
  · rename_i h
    have := Int.floor_nonneg.2 h
    constructor
    · intro; omega
    · intro; linarith
  · constructor
    · intro h
      have h1 : ⌈x⌉ ≤ -1 := by omega
      have := Int.ceil_le.1 h1
      push_cast at this
      exact this
    · intro h
      have : ⌈x⌉ ≤ -1 := Int.ceil_le.2 (by push_cast; exact h)
      omega

theorem oddWidth_shape (m : Mat ℝ) : (oddWidth m).h = m.h ∧ (oddWidth m).w = 2 * (m.w / 2) + 1 := by
  unfold oddWidth
  split
  · exact ⟨rfl, by show m.w + 1 = _; omega⟩
  · exact ⟨rfl, by omega⟩

/-- What a call needs apart from the centre. -/
def DArgs.Fits (a : DArgs) (nrow ncol : ℕ) : Prop :=
  (∀ l, a.angles = some l → l.length = nrow) ∧ -1 < a.padRate * ((2 * (ncol / 2) + 1 : ℕ) : ℝ)

theorem handleAngles_ok (I : Spline) (m : Mat ℝ) (l : List ℝ) (h : l.length = m.h) : ∃ o, handleAngles I m l = .ok o := by
  unfold handleAngles
  rw [if_neg (not_not.2 h)]
  dsimp only
  split <;> exact ⟨_, rfl⟩

theorem handleAngles_error (I : Spline) (m : Mat ℝ) (l : List ℝ) (h : l.length ≠ m.h) : handleAngles I m l = .error .valueError := by
  unfold handleAngles
  rw [if_pos h]

theorem handle_cases (I : Spline) (a : DArgs) (m : Mat ℝ) :
    (a.Fits m.h m.w ∧ ∃ o, handleSinogram I a m = .ok o) ∨ (¬ a.Fits m.h m.w ∧ handleSinogram I a m = .error .valueError) := by
  have hw := oddWidth_shape m
  have hpad : truncInt (a.padRate * ((oddWidth m).w : ℝ)) < 0 ↔ ¬ -1 < a.padRate * ((2 * (m.w / 2) + 1 : ℕ) : ℝ) := by
    rw [truncInt_neg_iff, hw.2, not_lt]
  unfold handleSinogram DArgs.Fits
  dsimp only
  cases ha : a.angles with
  | none =>
    dsimp only
    by_cases hp : truncInt (a.padRate * ((oddWidth m).w : ℝ)) < 0
    · rw [if_pos hp]
      exact .inr ⟨fun h => hpad.1 hp h.2, rfl⟩
    · rw [if_neg hp]
      exact .inl ⟨⟨fun l hl => (nomatch hl), not_not.1 (mt hpad.2 hp)⟩, _, rfl⟩
  | some l =>
    dsimp only
    by_cases hl : l.length = m.h
    · obtain ⟨o, ho⟩ := handleAngles_ok I (centerShift I a.center (oddWidth m)) l (hl.trans hw.1.symm)
      rw [ho]
      dsimp only
      by_cases hp : truncInt (a.padRate * ((oddWidth m).w : ℝ)) < 0
      · rw [if_pos hp]
        exact .inr ⟨fun h => hpad.1 hp h.2, rfl⟩
      · rw [if_neg hp]
        exact .inl ⟨⟨fun l' hl' => by cases hl'; exact hl, not_not.1 (mt hpad.2 hp)⟩, _, rfl⟩
    · rw [handleAngles_error I (centerShift I a.center (oddWidth m)) l (fun h => hl (h.trans hw.1))]
      exact .inr ⟨fun h => hl (h.1 l rfl), rfl⟩

theorem dfiSlice_cases (I : Spline) (a : DArgs) (ncol : ℕ) (m : Mat ℝ) :
    (a.Fits m.h m.w ∧ ∃ o, dfiSlice I a ncol m = .ok o ∧ o.h = ncol ∧ o.w = ncol) ∨ (¬ a.Fits m.h m.w ∧ dfiSlice I a ncol m = .error .valueError) := by
  unfold dfiSlice
  rcases handle_cases I a m with ⟨h, o, ho⟩ | ⟨h, ho⟩
  · rw [ho]
    exact .inl ⟨h, _, rfl, rfl, rfl⟩
  · rw [ho]
    exact .inr ⟨h, rfl⟩

theorem slice_proper (x : Arr) (h1 : 2 ≤ x.nrow) (h2 : 2 ≤ x.ncol) (h3 : 1 ≤ x.num) : squeeze x = .ok ((List.range x.num).map x.slice) := by
  cases x with
  | one m =>
    have h1 : 2 ≤ m.h := h1
    have h2 : 2 ≤ m.w := h2
    show (if m.h = 1 ∨ m.w = 1 then _ else _) = _
    rw [if_neg (by omega)]
    rfl
  | chunk s =>
    have h1 : 2 ≤ s.d := h1
    have h2 : 2 ≤ s.w := h2
    unfold squeeze
    dsimp only
    by_cases hs : s.h = 1
    · rw [if_pos hs, if_neg (by omega), show (Arr.chunk s).num = 1 from hs]
      rfl
    · rw [if_neg hs, if_neg (by omega), if_neg (by omega)]
      rfl

theorem mapM_error {α β : Type _} (f : α → Py β) (e : PyErr) (l : List α) (hl : l ≠ []) (h : ∀ x ∈ l, f x = .error e) : l.mapM f = .error e := by
  cases l with
  | nil => exact absurd rfl hl
  | cons a l =>
    rw [List.mapM_cons, h a (by simp)]
    rfl

/-- C109: for sinograms of at least two rows and columns, when the call succeeds (otherwise `ValueError`): the centre lies in `[0, ncol)`, there is one angle
per row, and the padding rate is not negative enough to give a negative pad. -/
theorem dfi_error_iff (I : Spline) (a : DArgs) (x : Arr) (h1 : 2 ≤ x.nrow) (h2 : 2 ≤ x.ncol) (h3 : 1 ≤ x.num) :
    ((∃ out, dfi I a x = .ok out) ↔ (0 ≤ a.center ∧ a.center < x.ncol ∧ (∀ l, a.angles = some l → l.length = x.nrow) ∧
      -1 < a.padRate * ((2 * (x.ncol / 2) + 1 : ℕ) : ℝ))) ∧
    ((∃ e, dfi I a x = .error e) → dfi I a x = .error .valueError) := by
  classical
  unfold dfi
  dsimp only
  by_cases hb : a.center < 0 ∨ (x.ncol : ℝ) ≤ a.center
  · rw [if_pos hb]
    refine ⟨⟨fun ⟨o, ho⟩ => (nomatch ho), fun hc => ?_⟩, fun _ => rfl⟩
    rcases hb with h | h <;> linarith [hc.1, hc.2.1]
  · rw [if_neg hb, slice_proper x h1 h2 h3, Stacks.ok_bind]
    push Not at hb
    have hfit : ∀ j, a.Fits (x.slice j).h (x.slice j).w ↔ a.Fits x.nrow x.ncol := fun j => by rw [(slice_shape x j).1, (slice_shape x j).2]
    by_cases hf : a.Fits x.nrow x.ncol
    · have hex : ∀ m ∈ (List.range x.num).map x.slice, ∃ o, dfiSlice I a x.ncol m = .ok o := by
        intro m hm
        obtain ⟨j, _, rfl⟩ := List.mem_map.1 hm
        rcases dfiSlice_cases I a x.ncol (x.slice j) with ⟨_, o, ho, _⟩ | ⟨h, _⟩
        · exact ⟨o, ho⟩
        · exact absurd ((hfit j).2 hf) h
      haveI : Nonempty (Mat ℝ) := ⟨⟨0, 0, fun _ _ => 0⟩⟩
      choose! g hg using hex
      rw [BackProj.mapM_ok _ hg, Stacks.ok_bind]
      cases x <;> exact ⟨⟨fun _ => ⟨hb.1, hb.2, hf.1, hf.2⟩, fun _ => ⟨_, rfl⟩⟩, fun ⟨e, he⟩ => (nomatch he)⟩
    · rw [mapM_error _ .valueError _ (by simp; omega) fun m hm => by
        obtain ⟨j, _, rfl⟩ := List.mem_map.1 hm
        rcases dfiSlice_cases I a x.ncol (x.slice j) with ⟨h, _⟩ | ⟨_, h⟩
        · exact absurd ((hfit j).1 h) hf
        · exact h]
      exact ⟨⟨fun ⟨o, ho⟩ => (nomatch ho), fun hc => absurd ⟨hc.2.2.1, hc.2.2.2⟩ hf⟩, fun _ => rfl⟩

/-- C109: a sinogram gives an image, a chunk as many images, in the same places; every image is the one of the single-slice computation. -/
theorem dfi_spec (I : Spline) (a : DArgs) (x out : Arr) (h1 : 2 ≤ x.nrow) (h2 : 2 ≤ x.ncol) (h3 : 1 ≤ x.num) (h : dfi I a x = .ok out) :
    out.nrow = x.ncol ∧ out.ncol = x.ncol ∧ out.num = x.num ∧ ((∃ m, x = .one m) ↔ ∃ m, out = .one m) ∧
    ∀ j < x.num, ∃ m, dfiSlice I a x.ncol (x.slice j) = .ok m ∧ ∀ y k, (out.slice j).get y k = m.get y k := by
  classical
  have hok := (dfi_error_iff I a x h1 h2 h3).1.1 ⟨out, h⟩
  unfold dfi at h
  dsimp only at h
  rw [if_neg (by rintro (h | h) <;> linarith [hok.1, hok.2.1]), slice_proper x h1 h2 h3, Stacks.ok_bind] at h
  have hf : a.Fits x.nrow x.ncol := ⟨hok.2.2.1, hok.2.2.2⟩
  have hex : ∀ m ∈ (List.range x.num).map x.slice, ∃ o, dfiSlice I a x.ncol m = .ok o ∧ o.h = x.ncol ∧ o.w = x.ncol := by
    intro m hm
    obtain ⟨j, _, rfl⟩ := List.mem_map.1 hm
    rcases dfiSlice_cases I a x.ncol (x.slice j) with ⟨_, o, ho⟩ | ⟨h, _⟩
    · exact ⟨o, ho⟩
    · exact absurd (by rw [(slice_shape x j).1, (slice_shape x j).2]; exact hf) h
  haveI : Nonempty (Mat ℝ) := ⟨⟨0, 0, fun _ _ => 0⟩⟩
  choose! g hg using hex
  rw [BackProj.mapM_ok (g := g) _ fun m hm => (hg m hm).1, Stacks.ok_bind, List.map_map] at h
  cases x with
  | one m =>
    cases h
    have hm := hg m (by show m ∈ [m]; simp)
    refine ⟨hm.2.1, hm.2.2, rfl, by simp, fun j hj => ⟨g m, hm.1, fun y k => rfl⟩⟩
  | chunk s =>
    cases h
    refine ⟨rfl, rfl, by simp [Arr.num, stack], by simp, fun j hj => ?_⟩
    have hj : j < s.h := hj
    refine ⟨g (chunkSino s j), (hg _ (List.mem_map.2 ⟨j, List.mem_range.2 hj, rfl⟩)).1, fun y k => ?_⟩
    exact stack_slice s.w (g ∘ (Arr.chunk s).slice) s.h j hj y k

/-- C109: a chunk is reconstructed slice by slice: slice `j` of the result is the result of the call with sinogram `j` alone. -/
theorem dfi_chunk_eq_slices (I : Spline) (a : DArgs) (s : Arr3 ℝ) (out : Arr) (h1 : 2 ≤ s.d) (h2 : 2 ≤ s.w) (h : dfi I a (.chunk s) = .ok out)
    (j : ℕ) (hj : j < s.h) : ∃ m, dfi I a (.one (sinogramOf s j)) = .ok (.one m) ∧ m.Eqv (out.slice j) := by
  rw [show sinogramOf s j = chunkSino s j from rfl]
  have h3 : 1 ≤ (Arr.chunk s).num := by show 1 ≤ s.h; omega
  have hs := dfi_spec I a (.chunk s) out h1 h2 h3 h
  have hok := (dfi_error_iff I a (.chunk s) h1 h2 h3).1.1 ⟨out, h⟩
  obtain ⟨o, ho⟩ := (dfi_error_iff I a (.one (chunkSino s j)) h1 h2 le_rfl).1.2 hok
  have hs1 := dfi_spec I a (.one (chunkSino s j)) o h1 h2 le_rfl ho
  obtain ⟨m, rfl⟩ := hs1.2.2.2.1.1 ⟨_, rfl⟩
  obtain ⟨p, hp, hpo⟩ := hs.2.2.2.2 j hj
  obtain ⟨p', hp', hpo'⟩ := hs1.2.2.2.2 0 Nat.one_pos
  have e : (Except.ok p : Py (Mat ℝ)) = .ok p' := hp.symm.trans hp'
  cases e
  refine ⟨m, ho, ?_, ?_, fun y _ x _ => ?_⟩
  · exact hs1.1.trans (hs.1.symm.trans (slice_shape out j).1.symm)
  · exact hs1.2.1.trans (hs.2.1.symm.trans (slice_shape out j).2.symm)
  · rw [hpo y x]
    exact hpo' y x

/-- C109, refuted for a chunk of one row: the axis of length one is removed and the slices are taken for the rows of a single sinogram, so one image comes
out instead of `s.h`. -/
theorem dfi_one_row_refuted (I : Spline) (a : DArgs) (s : Arr3 ℝ) (h1 : s.d = 1) (h2 : 2 ≤ s.w) (h3 : 2 ≤ s.h) (hc : 0 ≤ a.center ∧ a.center < s.w)
    (ha : a.angles = none) (hp : 0 ≤ a.padRate) : ∃ out, dfi I a (.chunk s) = .ok out ∧ out.num = 1 ∧ out.num ≠ s.h := by
  classical
  unfold dfi
  dsimp only
  rw [if_neg (by rintro (h | h); · linarith [hc.1]
                 · exact absurd hc.2 (not_lt.2 h))]
  have hsq : squeeze (.chunk s) = .ok [⟨s.h, s.w, fun i j => s.get 0 i j⟩] := by
    unfold squeeze
    dsimp only
    rw [if_neg (by omega), if_pos h1, if_neg (by omega)]
  rw [hsq, Stacks.ok_bind]
  rcases dfiSlice_cases I a s.w ⟨s.h, s.w, fun i j => s.get 0 i j⟩ with ⟨_, o, ho, _⟩ | ⟨h, _⟩
  · have hm : [(⟨s.h, s.w, fun i j => s.get 0 i j⟩ : Mat ℝ)].mapM (dfiSlice I a s.w) = .ok [o] := by
      rw [List.mapM_cons, ho]
      rfl
    refine ⟨.chunk (stack s.w [o]), ?_, rfl, by show 1 ≠ s.h; omega⟩
    exact congrArg (fun r => r >>= fun imgs => pure (Arr.chunk (stack s.w imgs))) hm
  · refine absurd ⟨fun l hl => by rw [ha] at hl; exact (nomatch hl), ?_⟩ h
    have : (0 : ℝ) ≤ a.padRate * ((2 * (s.w / 2) + 1 : ℕ) : ℝ) := mul_nonneg hp (Nat.cast_nonneg _)
    exact lt_of_lt_of_le (by norm_num) this

/-- C109: outside the circle the reconstruction is zero (`ratio` not None and not 0). -/
theorem dfi_outside_zero (I : Spline) (a : DArgs) (x out : Arr) (h1 : 2 ≤ x.nrow) (h2 : 2 ≤ x.ncol) (h3 : 1 ≤ x.num) (h : dfi I a x = .ok out)
    (r : ℝ) (hr : a.ratio = some r) (hr0 : r ≠ 0) (j y k : ℕ) (hj : j < x.num)
    (hout : (r * ((x.ncol / 2 : ℕ) : ℝ)) ^ 2 < (dist2 x.ncol y k : ℝ)) : (out.slice j).get y k = 0 := by
  obtain ⟨m, hm, he⟩ := (dfi_spec I a x out h1 h2 h3 h).2.2.2.2 j hj
  rw [he y k]
  unfold dfiSlice at hm
  rcases handle_cases I a (x.slice j) with ⟨_, o, ho⟩ | ⟨_, ho⟩
  · rw [ho] at hm
    cases hm
    unfold DArgs.maskAt
    rw [hr]
    dsimp only
    rw [if_neg hr0, (circle_mask_spec _ r y k).2.2, if_neg (not_le.2 hout), mul_zero]
  · rw [ho] at hm
    exact (nomatch hm)

/-! ### Projections of the returned image -/

/-- C109: the returned image, without padding, mask, filter and logarithm, for an odd number of columns and an integer centre: its sum over the rows at
column `x` is the last row of the caller's sinogram, mirrored about the given centre (columns beyond the detector repeat its edge). -/
theorem dfi_projection (I : Spline) (hI : I.Exact) (a : DArgs) (m : Mat ℝ) (out : Arr) (c : ℕ) (h1 : 2 ≤ m.h) (h2 : 2 ≤ m.w) (hw : m.w % 2 = 1)
    (hc : a.center = c) (ha : a.angles = none) (hr : a.ratio = none) (hf : a.filter = .other) (hp : a.padRate = 0)
    (hpi : ∀ j < m.w, a.padIdx m.w 0 j = j) (hl : a.applyLog = false) (h : dfi I a (.one m) = .ok out) (x : ℕ) (hx : x < m.w) :
    ∑ y ∈ Finset.range m.w, (out.slice 0).get y x = m.get (m.h - 1) (min (c + m.w / 2 - x) (m.w - 1)) := by
  have hok := (dfi_error_iff I a (.one m) h1 h2 le_rfl).1.1 ⟨out, h⟩
  have hcw : c < m.w := by
    have := hok.2.1
    rw [hc] at this
    exact_mod_cast this
  obtain ⟨p, hm, he⟩ := (dfi_spec I a (.one m) out h1 h2 le_rfl h).2.2.2.2 0 Nat.one_pos
  rw [Finset.sum_congr rfl fun y _ => he y x]
  have hodd : oddWidth m = m := by
    unfold oddWidth
    rw [if_neg (by omega)]
  have hh : handleSinogram I a m = .ok (padCols a.padIdx 0 (centerShift I a.center m), 0) := by
    unfold handleSinogram
    dsimp only
    rw [hodd, hp, ha, zero_mul]
    have : truncInt 0 = 0 := by simp [truncInt]
    rw [this]
    rfl
  have hm : dfiSlice I a m.w m = .ok p := hm
  unfold dfiSlice at hm
  rw [hh] at hm
  cases hm
  dsimp only
  unfold DArgs.maskAt logMat
  rw [hr, hl, hf]
  simp only [Nat.zero_add, mul_one, Bool.false_eq_true, if_false]
  have hcol := dfi_column_sums_unfiltered I hI (padCols a.padIdx 0 (centerShift I a.center m)) hw (by show 1 ≤ m.h; omega) x hx
  refine hcol.trans ?_
  show (centerShift I a.center m).get (m.h - 1) (a.padIdx m.w 0 (m.w - 1 - x)) = _
  rw [hpi _ (by omega)]
  unfold centerShift
  dsimp only
  have hwr : (m.w : ℝ) = 2 * ((m.w / 2 : ℕ) : ℝ) + 1 := by exact_mod_cast (by omega : m.w = 2 * (m.w / 2) + 1)
  have hpos : clip (((m.w - 1 - x : ℕ) : ℝ) - (((m.w : ℝ) - 1) / 2 - a.center)) 0 ((m.w : ℝ) - 1) = ((min (c + m.w / 2 - x) (m.w - 1) : ℕ) : ℝ) := by
    rw [hc, Nat.cast_sub (by omega), Nat.cast_sub (by omega)]
    unfold clip
    push_cast
    rw [Nat.cast_sub (by omega : 1 ≤ m.w)]
    push_cast
    congr 1
    rw [hwr]
    rcases le_total x (c + m.w / 2) with hle | hle
    · rw [Nat.cast_sub hle]
      push_cast
      have : (x : ℝ) ≤ (c : ℝ) + ((m.w / 2 : ℕ) : ℝ) := by exact_mod_cast hle
      rw [max_eq_left (by linarith)]
      ring
    · rw [Nat.sub_eq_zero_of_le hle]
      have : (c : ℝ) + ((m.w / 2 : ℕ) : ℝ) ≤ (x : ℝ) := by exact_mod_cast hle
      rw [max_eq_right (by linarith)]
      simp
  rw [hpos]
  exact hI.line m.w _ _ (by omega)

/-! ### Linearity -/

theorem oddWidth_lin (α β : ℝ) (m n : Mat ℝ) (hw : n.w = m.w) : oddWidth (lin α β m n) = lin α β (oddWidth m) (oddWidth n) := by
  unfold oddWidth
  rw [hw]
  by_cases h : m.w % 2 = 0
  · rw [if_pos h, if_pos h, if_pos (show (lin α β m n).w % 2 = 0 from h)]
    rfl
  · rw [if_neg h, if_neg h, if_neg (show ¬ (lin α β m n).w % 2 = 0 from h)]

theorem centerShift_lin (I : Spline) (hI : I.Linear) (c α β : ℝ) (m n : Mat ℝ) (hw : n.w = m.w) :
    centerShift I c (lin α β m n) = lin α β (centerShift I c m) (centerShift I c n) := by
  unfold centerShift
  rw [hw]
  unfold lin
  dsimp only
  congr 1
  funext i j
  exact hI.line _ _ _ _ _ _

theorem handleAngles_lin (I : Spline) (hI : I.Linear) (α β : ℝ) (m n o p : Mat ℝ) (l : List ℝ) (hh : n.h = m.h) (hw : n.w = m.w)
    (h1 : handleAngles I m l = .ok o) (h2 : handleAngles I n l = .ok p) :
    handleAngles I (lin α β m n) l = .ok (lin α β o p) ∧ p.h = o.h ∧ p.w = o.w := by
  classical
  have hl : l.length = m.h := by
    by_contra h
    rw [handleAngles_error I m l h] at h1
    exact (nomatch h1)
  unfold handleAngles at h1 h2 ⊢
  rw [if_neg (not_not.2 hl)] at h1
  rw [if_neg (not_not.2 (hl.trans hh.symm)), hh, hw] at h2
  rw [if_neg (show ¬ l.length ≠ (lin α β m n).h from not_not.2 hl), show (lin α β m n).h = m.h from rfl, show (lin α β m n).w = m.w from rfl]
  dsimp only at h1 h2 ⊢
  have hite : ∀ (P : Prop) [Decidable P] (a b a' b' : ℝ), (if P then α * a + β * b else α * a' + β * b') = α * (if P then a else a') + β * (if P then b else b') := by
    intro P _ a b a' b'
    split <;> rfl
  by_cases hf : |((diff (l.map fun a => a * 180 / Real.pi)).map fun d => |d|).sum - 360| < 10
  · simp only [hf, if_true] at h1 h2 ⊢
    have hs : ∀ i c i' c', ((lin α β m n).get i c + (lin α β m n).get i' c') / 2 =
        α * ((m.get i c + m.get i' c') / 2) + β * ((n.get i c + n.get i' c') / 2) := by
      intro i c i' c'
      unfold lin
      dsimp only
      ring
    simp only [hs, hite, hI.line]
    split at h1
    · rename_i hc
      rw [if_pos hc] at h2 ⊢
      cases h1
      cases h2
      exact ⟨rfl, rfl, rfl⟩
    · rename_i hc
      rw [if_neg hc] at h2 ⊢
      cases h1
      cases h2
      exact ⟨rfl, rfl, rfl⟩
  · simp only [hf, if_false] at h1 h2 ⊢
    have hs : ∀ i c, (lin α β m n).get i c = α * m.get i c + β * n.get i c := fun _ _ => rfl
    simp only [hs, hite, hI.line]
    split at h1
    · rename_i hc
      rw [if_pos hc] at h2 ⊢
      cases h1
      cases h2
      exact ⟨rfl, rfl, rfl⟩
    · rename_i hc
      rw [if_neg hc] at h2 ⊢
      cases h1
      cases h2
      exact ⟨rfl, rfl, rfl⟩

theorem handleSinogram_lin (I : Spline) (hI : I.Linear) (a : DArgs) (α β : ℝ) (m n o p : Mat ℝ) (q r : ℕ) (hh : n.h = m.h) (hw : n.w = m.w)
    (h1 : handleSinogram I a m = .ok (o, q)) (h2 : handleSinogram I a n = .ok (p, r)) :
    handleSinogram I a (lin α β m n) = .ok (lin α β o p, q) ∧ p.h = o.h ∧ p.w = o.w ∧ r = q := by
  have e1 := oddWidth_shape m
  have e2 := oddWidth_shape n
  have ew : (oddWidth n).w = (oddWidth m).w := by rw [e1.2, e2.2, hw]
  have eh : (oddWidth n).h = (oddWidth m).h := by rw [e1.1, e2.1, hh]
  unfold handleSinogram at h1 h2 ⊢
  dsimp only at h1 h2 ⊢
  rw [oddWidth_lin α β m n hw, centerShift_lin I hI _ α β _ _ ew, show (lin α β (oddWidth m) (oddWidth n)).w = (oddWidth m).w from rfl]
  rw [ew] at h2
  have hp : ¬ truncInt (a.padRate * ((oddWidth m).w : ℝ)) < 0 := by
    intro hc
    cases ha : a.angles with
    | none =>
      rw [ha] at h1
      dsimp only at h1
      rw [if_pos hc] at h1
      exact (nomatch h1)
    | some l =>
      rw [ha] at h1
      dsimp only at h1
      cases hA : handleAngles I (centerShift I a.center (oddWidth m)) l with
      | error e => rw [hA] at h1; exact (nomatch h1)
      | ok v =>
        rw [hA] at h1
        dsimp only at h1
        rw [if_pos hc] at h1
        exact (nomatch h1)
  cases ha : a.angles with
  | none =>
    rw [ha] at h1 h2
    dsimp only at h1 h2 ⊢
    rw [if_neg hp] at h1 h2 ⊢
    cases h1
    cases h2
    refine ⟨?_, eh, ?_, rfl⟩
    · unfold padCols lin centerShift
      dsimp only
      rw [ew]
    · show (oddWidth n).w + _ = (oddWidth m).w + _
      rw [ew]
  | some l =>
    rw [ha] at h1 h2
    dsimp only at h1 h2 ⊢
    cases hA : handleAngles I (centerShift I a.center (oddWidth m)) l with
    | error e => rw [hA] at h1; exact (nomatch h1)
    | ok v =>
      cases hB : handleAngles I (centerShift I a.center (oddWidth n)) l with
      | error e => rw [hB] at h2; exact (nomatch h2)
      | ok u =>
        have hAB := handleAngles_lin I hI α β (centerShift I a.center (oddWidth m)) (centerShift I a.center (oddWidth n)) _ _ l eh ew hA hB
        rw [hA] at h1
        rw [hB] at h2
        rw [hAB.1]
        dsimp only at h1 h2 ⊢
        rw [if_neg hp] at h1 h2 ⊢
        cases h1
        cases h2
        refine ⟨?_, hAB.2.1, ?_, rfl⟩
        · unfold padCols lin
          dsimp only
          rw [hAB.2.2]
        · show u.w + _ = v.w + _
          rw [hAB.2.2]

theorem singleSlice_lin (I : Spline) (hI : I.Linear) (f : Filter) (α β : ℝ) (m n : Mat ℝ) (hh : n.h = m.h) (hw : n.w = m.w) (i j : ℕ) :
    (singleSlice I (lin α β m n) f).get i j = α * (singleSlice I m f).get i j + β * (singleSlice I n f).get i j := by
  have hF : spectrum (lin α β m n) f = ⟨m.h, m.w, fun i l => (α : ℂ) * (spectrum m f).get i l + (β : ℂ) * (spectrum n f).get i l⟩ := by
    unfold spectrum lin
    dsimp only
    rw [hw]
    congr 1
    funext i l
    simp only [Complex.ofReal_add, Complex.ofReal_mul]
    rw [dft_add, dft_smul, dft_smul]
    ring
  have hR : ∀ i j, regrid I (spectrum (lin α β m n) f) i j = (α : ℂ) * regrid I (spectrum m f) i j + (β : ℂ) * regrid I (spectrum n f) i j := by
    intro i j
    unfold regrid
    dsimp only
    rw [hF]
    have e := hI.plane (spectrum m f) (spectrum n f) α β (mapCoord m.w m.h m.w m.w i j).2 (mapCoord m.w m.h m.w m.w i j).1 hh hw
    have e' : I.plane ⟨m.h, m.w, fun i l => (α : ℂ) * (spectrum m f).get i l + (β : ℂ) * (spectrum n f).get i l⟩
      (mapCoord m.w m.h m.w m.w i j).2 (mapCoord m.w m.h m.w m.w i j).1 = _ := e
    dsimp only
    rw [e']
    rw [show (spectrum n f).w = m.w from hw, show (spectrum n f).h = m.h from hh, show (spectrum m f).w = m.w from rfl, show (spectrum m f).h = m.h from rfl]
    ring
  unfold singleSlice
  dsimp only
  rw [show (lin α β m n).w = m.w from rfl, hw]
  simp only [hR]
  rw [idft2_add, idft2_smul, idft2_smul, Complex.add_re, Complex.re_ofReal_mul, Complex.re_ofReal_mul]

/-- C109: without logarithm the reconstruction is linear in the sinogram. -/
theorem dfi_linear (I : Spline) (hI : I.Linear) (a : DArgs) (α β : ℝ) (m n m' n' : Mat ℝ) (h2h : 2 ≤ m.h) (h2w : 2 ≤ m.w) (hh : n.h = m.h)
    (hw : n.w = m.w) (hlog : a.applyLog = false) (h1 : dfi I a (.one m) = .ok (.one m')) (h2 : dfi I a (.one n) = .ok (.one n')) :
    ∃ o, dfi I a (.one (lin α β m n)) = .ok (.one o) ∧ o.Eqv (lin α β m' n') := by
  have c1 := (dfi_error_iff I a (.one m) h2h h2w le_rfl).1.1 ⟨_, h1⟩
  obtain ⟨out, ho⟩ := (dfi_error_iff I a (.one (lin α β m n)) h2h h2w le_rfl).1.2 c1
  have s1 := dfi_spec I a (.one m) _ h2h h2w le_rfl h1
  have s2 := dfi_spec I a (.one n) _ (by show 2 ≤ n.h; omega) (by show 2 ≤ n.w; omega) le_rfl h2
  have s3 := dfi_spec I a (.one (lin α β m n)) out h2h h2w le_rfl ho
  obtain ⟨o, rfl⟩ := s3.2.2.2.1.1 ⟨_, rfl⟩
  refine ⟨o, ho, s3.1.trans s1.1.symm, s3.2.1.trans s1.2.1.symm, fun y hy x hx => ?_⟩
  obtain ⟨p1, q1, e1⟩ := s1.2.2.2.2 0 Nat.one_pos
  obtain ⟨p2, q2, e2⟩ := s2.2.2.2.2 0 Nat.one_pos
  obtain ⟨p3, q3, e3⟩ := s3.2.2.2.2 0 Nat.one_pos
  have e1 : m'.get y x = p1.get y x := e1 y x
  have e2 : n'.get y x = p2.get y x := e2 y x
  have e3 : o.get y x = p3.get y x := e3 y x
  show o.get y x = α * m'.get y x + β * n'.get y x
  rw [e1, e2, e3]
  have q1 : dfiSlice I a m.w m = .ok p1 := q1
  have q2 : dfiSlice I a n.w n = .ok p2 := q2
  have q3 : dfiSlice I a m.w (lin α β m n) = .ok p3 := q3
  rw [hw] at q2
  unfold dfiSlice at q1 q2 q3
  cases hA : handleSinogram I a m with
  | error e => rw [hA] at q1; exact (nomatch q1)
  | ok u =>
    cases hB : handleSinogram I a n with
    | error e => rw [hB] at q2; exact (nomatch q2)
    | ok v =>
      obtain ⟨u, k⟩ := u
      obtain ⟨v, k'⟩ := v
      obtain ⟨hC, vh, vw, rfl⟩ := handleSinogram_lin I hI a α β m n u v k k' hh hw hA hB
      rw [hA] at q1
      rw [hB] at q2
      rw [hC] at q3
      cases q1
      cases q2
      cases q3
      dsimp only
      unfold logMat
      rw [hlog]
      simp only [Bool.false_eq_true, if_false]
      rw [singleSlice_lin I hI a.filter α β u v vh vw]
      ring

/-- Concrete instance of the hypotheses: a 2 × 3 sinogram, centre 1, left-sample interpolation. -/
example : ∃ out, dfi leftSample ⟨1, none, none, .other, 0, edgeIdx, false⟩ (.one ⟨2, 3, fun i j => (i + j : ℝ)⟩) = .ok out ∧
    ∑ y ∈ Finset.range 3, (out.slice 0).get y 0 = 3 := by
  obtain ⟨out, ho⟩ := (dfi_error_iff leftSample ⟨1, none, none, .other, 0, edgeIdx, false⟩ (.one ⟨2, 3, fun i j => (i + j : ℝ)⟩)
    (by show 2 ≤ 2; omega) (by show 2 ≤ 3; omega) le_rfl).1.2 ⟨by norm_num, by show (1 : ℝ) < ((3 : ℕ) : ℝ); norm_num, fun l hl => (nomatch hl), by norm_num⟩
  refine ⟨out, ho, ?_⟩
  have := dfi_projection leftSample leftSample_exact ⟨1, none, none, .other, 0, edgeIdx, false⟩ ⟨2, 3, fun i j => (i + j : ℝ)⟩ out 1 (by norm_num) (by norm_num)
    (by norm_num) (by norm_num) rfl rfl rfl rfl (fun j hj => by simp only [edgeIdx]; dsimp only at hj; omega) rfl ho 0 (by norm_num)
  refine this.trans ?_
  norm_num

end Verif.Dfi
