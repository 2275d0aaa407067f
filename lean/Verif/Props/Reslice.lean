import Verif.Props.Post

/-! Reslicing and cleaning up (postprocessing.py:594-957). -/

set_option linter.unusedSectionVars false
set_option linter.unusedSimpArgs false

namespace Verif.Post
open Verif.Io

/-! ### the chunk loop -/

section
variable {α β : Type _}

theorem mapM_ok {γ δ : Type _} (f : γ → Py δ) (g : γ → δ) : ∀ l : List γ, (∀ x ∈ l, f x = .ok (g x)) → l.mapM f = .ok (l.map g) := by
  intro l
  induction l with
  | nil => intro _; rfl
  | cons a l ih =>
    intro h
    rw [List.mapM_cons, h a (by simp), ih (fun x hx => h x (by simp [hx]))]
    rfl

/-- Reading `n` consecutive images at `a` from a long enough list. -/
theorem takeN_slice (data : List α) (a n : Nat) (h : a + n ≤ data.length) (x y : Int) (hx : x = (a : Int)) (hy : y = ((a + n : Nat) : Int)) :
    ∃ l, takeN (pySlice data x y) n = .ok l ∧ l.length = n ∧ ∀ j < n, l[j]? = data[a + j]? := by
  subst hx hy
  have hlen : (pySlice data (a : Int) ((a + n : Nat) : Int)).length = n := by
    unfold pySlice pyBound
    rw [List.length_drop, List.length_take, if_neg (by omega), if_neg (by omega), Int.toNat_natCast, Int.toNat_natCast]
    omega
  have hget : ∀ j < n, (pySlice data (a : Int) ((a + n : Nat) : Int))[j]? = data[a + j]? := by
    intro j hj
    unfold pySlice pyBound
    rw [if_neg (by omega), if_neg (by omega), Int.toNat_natCast, Int.toNat_natCast, min_eq_left (by omega), min_eq_left (by omega), List.getElem?_drop,
      List.getElem?_take_of_lt (by omega)]
  generalize pySlice data (a : Int) ((a + n : Nat) : Int) = s at hlen hget
  refine ⟨s, ?_, hlen, hget⟩
  unfold takeN
  cases n with
  | zero => rw [List.length_eq_zero_iff] at hlen; rw [hlen]; rfl
  | succ n =>
    have h0 : 0 < s.length := by omega
    rw [mapM_ok _ (fun j => s.getD j (s[0]'h0))]
    · congr 1
      apply List.ext_getElem
      · simp [hlen]
      · intro i h1 h2
        simp [List.getElem?_eq_getElem h2]
    · intro j hj
      rw [List.mem_range] at hj
      rw [List.getElem?_eq_getElem (by omega : j < s.length), List.getD_eq_getElem _ _ (by omega : j < s.length)]

/-- What the loop is meant to have written after the first `n` slices. -/
def written (data : List α) (d1 n : Nat) (f : α → β) : Nat → Option β := fun k => if k < n then (data[d1 + k]?).map f else none

theorem writeSlab_written (data : List α) (d1 a n : Nat) (f : α → β) (l : List α) (hl : l.length = n) (hg : ∀ j < n, l[j]? = data[d1 + a + j]?) :
    writeSlab (written data d1 a f) a (l.map f) = written data d1 (a + n) f := by
  funext k
  unfold writeSlab written
  rw [List.length_map, hl]
  by_cases h1 : a ≤ k ∧ k < a + n
  · rw [if_pos h1, if_pos h1.2, List.getElem?_map, hg _ (by omega), show d1 + a + (k - a) = d1 + k by omega]
  · rw [if_neg h1]
    by_cases h2 : k < a
    · rw [if_pos h2, if_pos (by omega)]
    · rw [if_neg h2, if_neg (by omega)]

/-- For every chunk size the loop writes exactly the wanted slices. -/
theorem chunkLoop_eq (data : List α) (d1 depth1 : Nat) (chunk : Int) (f : α → β) (h2 : 2 ≤ depth1) (hlen : d1 + depth1 ≤ data.length) :
    chunkLoop data d1 depth1 chunk f = .ok (written data d1 depth1 f) := by
  unfold chunkLoop
  obtain ⟨ch, hch⟩ : ∃ ch : Nat, npClip chunk 1 ((depth1 : Int) - 1) = (ch : Int) := ⟨(npClip chunk 1 ((depth1 : Int) - 1)).toNat, by unfold npClip; omega⟩
  have hc0 : 0 < ch := by unfold npClip at hch; omega
  dsimp only
  rw [hch, if_neg (by omega), Int.toNat_natCast]
  have hdm := Nat.div_add_mod depth1 ch
  have hml := Nat.mod_lt depth1 hc0
  set q := depth1 / ch with hq
  have hlast : depth1 - (depth1 - ch * q) = ch * q := by omega
  rw [hlast, pyRange_eq _ _ _ hc0]
  have hcnt : (((ch * q : Nat) : Int) - 0).toNat = ch * q := by omega
  rw [hcnt, Nat.mul_add_div hc0, Nat.div_eq_of_lt (by omega : ch - 1 < ch), Nat.add_zero]
  have hloop : ∀ m, m ≤ q → ((List.range m).map fun k : Nat => (0 : Int) + (k * ch : Nat)).foldlM (m := Except PyErr) (fun st i => do
      let mats ← takeN (pySlice data (i + d1) (i + ch + d1)) ch
      .ok (writeSlab st i.toNat (mats.map f))) (fun _ => none) = .ok (written data d1 (m * ch) f) := by
    intro m
    induction m with
    | zero =>
      intro _
      simp only [List.range_zero, List.map_nil, List.foldlM_nil]
      show Except.ok _ = _
      congr 1
      funext k
      simp [written]
    | succ m ih =>
      intro hm
      rw [List.range_succ, List.map_append, List.foldlM_append, ih (by omega)]
      have hle : (m + 1) * ch ≤ q * ch := Nat.mul_le_mul_right _ hm
      have e1 : (m + 1) * ch = m * ch + ch := by ring
      have e2 : q * ch = ch * q := by ring
      obtain ⟨l, hl1, hl2, hl3⟩ := takeN_slice data (d1 + m * ch) ch (by omega) ((0 : Int) + (m * ch : Nat) + d1) ((0 : Int) + (m * ch : Nat) + ch + d1)
        (by push_cast; ring) (by push_cast; ring)
      simp only [List.map_cons, List.map_nil, List.foldlM_cons, List.foldlM_nil, bind, Except.bind, pure, Except.pure, hl1]
      rw [show ((0 : Int) + (m * ch : Nat)).toNat = m * ch by omega, writeSlab_written data d1 (m * ch) ch f l hl2 hl3, e1]
  have h := hloop q le_rfl
  rw [h]
  simp only [bind, Except.bind]
  by_cases hz : depth1 - ch * q = 0
  · rw [if_neg (by simp [hz])]
    congr 2
    rw [Nat.mul_comm]; omega
  · rw [if_pos hz]
    obtain ⟨l, hl1, hl2, hl3⟩ := takeN_slice data (d1 + ch * q) (depth1 - ch * q) (by omega) ((ch * q + d1 : Nat) : Int) ((depth1 + d1 : Nat) : Int)
      (by push_cast; ring) (by omega)
    rw [hl1]
    dsimp only
    rw [Nat.mul_comm q ch, writeSlab_written data d1 (ch * q) _ f l hl2 hl3]
    congr 2
    omega

/-! ### C43 -/

/-- The value that output slice `i`, row `k`, column `j` must have: image `off + k`, rotated and cropped. -/
def wanted (rot : Mat α → Mat α) (post : α → β) (data : List (Mat α)) (crop : Crop) (axis off i k j : Nat) : Option β :=
  (data[off + k]?).map fun m => post (if axis = 2 then (rot m).get (crop.h1 + j) (crop.w1 + i) else (rot m).get (crop.h1 + i) (crop.w1 + j))

/-- `out` holds the resliced data: `n` slices of shape `(depth, width)` with the wanted values, and no others. -/
def IsResliced (rot : Mat α → Mat α) (post : α → β) (h w : Nat) (data : List (Mat α)) (crop : Crop) (axis off : Nat)
    (out : Nat → Option (Mat (Option β))) : Prop :=
  let H := h - crop.h2 - crop.h1
  let W := w - crop.w2 - crop.w1
  ∀ i, (i < (if axis = 2 then W else H) → ∃ img, out i = some img ∧ img.h = data.length - crop.d2 - crop.d1 ∧ img.w = (if axis = 2 then H else W) ∧
      ∀ k < img.h, ∀ j < img.w, img.get k j = wanted rot post data crop axis off i k j ∧ (img.get k j).isSome) ∧
    ((if axis = 2 then W else H) ≤ i → out i = none)

theorem reslice_eq (isTif : Bool) (rot : Mat α → Mat α) (post : α → β) (h w : Nat) (data : List (Mat α)) (axis : Nat) (haxis : axis = 1 ∨ axis = 2)
    (chunk : Int) (crop : Crop) (hd : crop.d1 + crop.d2 + 2 ≤ data.length) (hh : crop.h1 + crop.h2 < h) (hw : crop.w1 + crop.w2 < w)
    (h1 : axis = 1 → crop.h1 + crop.h2 + 2 ≤ h) (h2 : axis = 2 → crop.w1 + crop.w2 + 2 ≤ w) :
    ∃ out, reslice isTif rot post h w data axis chunk crop = .ok out ∧ IsResliced rot post h w data crop axis (if isTif then crop.d1 else 0) out := by
  unfold reslice
  rw [if_neg (by omega), croppedShape_ok _ _ _ _ (by omega) hh hw]
  simp only [bind, Except.bind, saveIntermediate]
  rw [chunkLoop_eq _ _ _ _ _ (by omega) (by cases isTif <;> simp <;> omega)]
  dsimp only
  rw [if_neg (by unfold npClip; split <;> omega), chunkLoop_eq _ _ _ _ _ (by split <;> omega) (by simp)]
  refine ⟨_, rfl, ?_⟩
  unfold IsResliced
  dsimp only
  intro i
  constructor
  · intro hi
    refine ⟨_, by
      unfold written
      rw [if_pos hi, Nat.zero_add, List.getElem?_map, List.getElem?_range hi]
      rfl, rfl, rfl, ?_⟩
    intro k hk j hj
    have hk : k < data.length - crop.d2 - crop.d1 := hk
    simp only [tmpRow, written, id, hk, if_true]
    have hlt : (if isTif = true then crop.d1 else 0) + k < data.length := by split <;> omega
    rw [List.getElem?_eq_getElem hlt]
    simp only [Option.map_some, wanted, List.getElem?_eq_getElem hlt, cropMat, Option.isSome_some, and_true]
    rcases haxis with rfl | rfl <;> simp [Mat.T]
  · intro hi
    unfold written
    rw [if_neg (by simpa using hi)]

/-- Full C43: for every valid crop the output holds the resliced data, whatever the chunk size and input type. -/
def ResliceSpec (isTif : Bool) (rot : Mat α → Mat α) (post : α → β) (h w : Nat) (data : List (Mat α)) (axis : Nat) (chunk : Int) (crop : Crop) : Prop :=
  ∃ out, reslice isTif rot post h w data axis chunk crop = .ok out ∧ IsResliced rot post h w data crop axis crop.d1 out

/-- C43 (partial: at least two images and two output slices; hdf input only without cropping at the front of axis 0). -/
theorem reslice_partial (isTif : Bool) (rot : Mat α → Mat α) (post : α → β) (h w : Nat) (data : List (Mat α)) (axis : Nat) (haxis : axis = 1 ∨ axis = 2)
    (chunk : Int) (crop : Crop) (hd : crop.d1 + crop.d2 + 2 ≤ data.length) (hh : crop.h1 + crop.h2 < h) (hw : crop.w1 + crop.w2 < w)
    (h1 : axis = 1 → crop.h1 + crop.h2 + 2 ≤ h) (h2 : axis = 2 → crop.w1 + crop.w2 + 2 ≤ w) (hin : isTif = true ∨ crop.d1 = 0) :
    ResliceSpec isTif rot post h w data axis chunk crop := by
  obtain ⟨out, ho, hr⟩ := reslice_eq isTif rot post h w data axis haxis chunk crop hd hh hw h1 h2
  refine ⟨out, ho, ?_⟩
  have : (if isTif = true then crop.d1 else 0) = crop.d1 := by
    rcases hin with h | h
    · rw [if_pos h]
    · rw [h]; split <;> rfl
  rwa [this] at hr

/-- A non-trivial instance: seven 4 × 5 tif images, crop of one image at the front, chunk 3. -/
example (data : List (Mat ℚ)) (hl : data.length = 7) : ResliceSpec true id id 4 5 data 2 3 ⟨1, 0, 0, 1, 1, 1⟩ :=
  reslice_partial true id id 4 5 data 2 (Or.inr rfl) 3 ⟨1, 0, 0, 1, 1, 1⟩ (by simp [hl]) (by decide) (by decide) (by decide) (by decide) (Or.inl rfl)

/-- C43 is false of the code for hdf input: the images `0, 1, …` are used instead of `d1, d1 + 1, …`. -/
theorem reslice_hdf_crop_refuted :
    ¬ ∀ (data : List (Mat ℚ)) (chunk : Int) (crop : Crop), crop.d1 + crop.d2 + 2 ≤ data.length → crop.h1 + crop.h2 + 2 ≤ 3 → crop.w1 + crop.w2 + 2 ≤ 3 →
      ResliceSpec false id id 3 3 data 1 chunk crop := by
  intro hall
  let data : List (Mat ℚ) := (List.range 4).map fun k : Nat => ⟨3, 3, fun _ _ => (k : ℚ)⟩
  let crop : Crop := ⟨1, 0, 0, 0, 0, 0⟩
  obtain ⟨out, h1, h2⟩ := hall data 16 crop (by decide) (by decide) (by decide)
  obtain ⟨out', h1', h2'⟩ := reslice_eq false id id 3 3 data 1 (Or.inl rfl) 16 crop (by decide) (by decide) (by decide) (by decide) (by decide)
  rw [h1] at h1'
  injection h1' with h1'
  subst h1'
  obtain ⟨img, e1, e2, e3, e4⟩ := (h2 0).1 (by decide)
  obtain ⟨img', e1', _, _, e4'⟩ := (h2' 0).1 (by decide)
  rw [e1] at e1'
  injection e1' with e1'
  subst e1'
  have a := (e4 0 (by rw [e2]; decide) 0 (by rw [e3]; decide)).1
  have b := (e4' 0 (by rw [e2]; decide) 0 (by rw [e3]; decide)).1
  rw [a] at b
  simp [wanted, data, crop] at b

/-- C43 is false of the code for one image, or one output slice: the clipped chunk size is 0 and the call fails, for every input. -/
theorem reslice_single_refuted (isTif : Bool) (rot : Mat α → Mat α) (post : α → β) (h w : Nat) (data : List (Mat α)) (axis : Nat) (chunk : Int) (crop : Crop)
    (hone : crop.d1 + crop.d2 + 1 = data.length ∨ (axis = 1 ∧ crop.h1 + crop.h2 + 1 = h) ∨ (axis = 2 ∧ crop.w1 + crop.w2 + 1 = w)) :
    ¬ ResliceSpec isTif rot post h w data axis chunk crop := by
  rintro ⟨out, ho, _⟩
  unfold reslice at ho
  by_cases ha : axis ≠ 1 ∧ axis ≠ 2
  · rw [if_pos ha] at ho; cases ho
  · rw [if_neg ha] at ho
    by_cases hc : (data.length : Int) - crop.d2 - crop.d1 ≤ 0 ∨ (h : Int) - crop.h2 - crop.h1 ≤ 0 ∨ (w : Int) - crop.w2 - crop.w1 ≤ 0
    · unfold croppedShape at ho
      rw [if_pos hc] at ho
      cases ho
    · rw [croppedShape_ok _ _ _ _ (by omega) (by omega) (by omega)] at ho
      simp only [bind, Except.bind] at ho
      by_cases h1 : crop.d1 + crop.d2 + 1 = data.length
      · simp only [saveIntermediate, chunkLoop, bind, Except.bind] at ho
        rw [if_pos (by unfold npClip; omega)] at ho
        cases ho
      · split at ho
        · cases ho
        · rw [if_pos (by unfold npClip; rcases hone with hx | ⟨hx, hy⟩ | ⟨hx, hy⟩ <;> [exact absurd hx h1; (rw [if_neg (by omega)]; omega); (rw [if_pos hx]; omega)])] at ho
          cases ho

/-- The tif names of output slices are those of `save_image_multiple`; different slices below 100000 get different names. -/
theorem resliceName_distinct (output : Name) (i j : Nat) (h : resliceName output i = resliceName output j) : i % 100000 = j % 100000 := by
  have e : ∀ i, resliceName output i = multiName output i := by
    intro i
    unfold resliceName multiName lastChars
    have hl : 0 < (pyStr i).length := by
      rcases Nat.eq_zero_or_pos (pyStr i).length with h0 | h0
      · have := (length_pyStr i 0)
        rw [List.length_eq_zero_iff] at h0
        unfold pyStr decDigits at h0
        split at h0
        · simp at h0
        · rename_i hne
          simp [Nat.digits_eq_nil_iff_eq_zero] at h0
          exact absurd h0 hne
      · exact h0
    have e2 : "00000".toList ++ pyStr i = '0' :: ("0000".toList ++ pyStr i) := rfl
    congr 2
    rw [e2, List.length_cons, show ("0000".toList ++ pyStr i).length + 1 - 5 = (("0000".toList ++ pyStr i).length - 5) + 1 by simp; omega, List.drop_succ_cons]
  rw [e, e] at h
  exact save_image_multiple_names_partial output i j h

end

/-! ### C44 -/

/-- Full C44: whatever existed before still exists. -/
def DeletesNothing (fs : Fs) (base output : Path) (isHdf : Bool) (names : List Name) : Prop := ∀ p ∈ fs, p ∈ resliceFs fs base output isHdf names

theorem mem_touch (fs : Fs) (p q : Path) (h : q ∈ fs) : q ∈ touch fs p := by
  unfold touch; split
  · exact h
  · exact List.mem_cons_of_mem _ h

theorem mem_mkdirs (fs : Fs) (p q : Path) (h : q ∈ fs) : q ∈ mkdirs fs p := List.mem_append_right _ h

theorem mem_touches (names : List Name) (output : Path) (q : Path) : ∀ fs : Fs, q ∈ fs → q ∈ names.foldl (fun fs n => touch fs (output ++ [n])) fs := by
  induction names with
  | nil => exact fun _ h => h
  | cons n l ih => intro fs h; exact ih _ (mem_touch _ _ _ h)

theorem mem_rmtree (fs : Fs) (p q : Path) : q ∈ rmtree fs p ↔ q ∈ fs ∧ ¬ p <+: q := by
  unfold rmtree
  rw [List.mem_filter, Bool.not_eq_true', ← Bool.not_eq_true, List.isPrefixOf_iff_prefix]

/-- C44 (partial: nothing existed at or below `splitext(output)[0]` for hdf output, or below `splitext(output)[0]/tmp_` for tif output). -/
theorem reslice_deletes_nothing_partial (fs : Fs) (base output : Path) (isHdf : Bool) (names : List Name)
    (hfree : ∀ p ∈ fs, ¬ (if isHdf then base else base ++ ["tmp_".toList]) <+: p) : DeletesNothing fs base output isHdf names := by
  intro p hp
  have h0 := mem_touch _ ((base ++ ["tmp_".toList]) ++ ["file_tmp.hdf".toList]) _ (mem_mkdirs fs (base ++ ["tmp_".toList]) p hp)
  have hf := hfree p hp
  unfold resliceFs
  cases isHdf with
  | true =>
    simp only [if_true] at hf ⊢
    rw [mem_rmtree, mem_rmtree]
    refine ⟨⟨mem_touch _ _ _ (mem_mkdirs _ _ _ h0), ?_⟩, hf⟩
    exact fun h => hf ((List.prefix_append _ _).trans h)
  | false =>
    simp only [Bool.false_eq_true, if_false] at hf ⊢
    rw [mem_rmtree]
    exact ⟨mem_touches _ _ _ _ (mem_mkdirs _ _ _ h0), hf⟩

/-- C44 is false of the code: with hdf output `dir/name.hdf`, everything below a folder `dir/name` that existed before is deleted. -/
theorem reslice_deletes_refuted (fs : Fs) (base output : Path) (names : List Name) (p : Path) (hp : p ∈ fs) (hb : base <+: p) :
    p ∉ resliceFs fs base output true names ∧ ¬ DeletesNothing fs base output true names := by
  have : p ∉ resliceFs fs base output true names := by
    unfold resliceFs
    simp only [if_true]
    rw [mem_rmtree]
    exact fun h => h.2 hb
  exact ⟨this, fun h => this (h p hp)⟩

/-- A concrete instance: writing `data/scan.hdf` removes the file `data/scan/raw.tif`. -/
example : let fs : Fs := [["data".toList], ["data".toList, "scan".toList], ["data".toList, "scan".toList, "raw.tif".toList]]
    ["data".toList, "scan".toList, "raw.tif".toList] ∉ resliceFs fs ["data".toList, "scan".toList] ["data".toList, "scan.hdf".toList] true [] :=
  (reslice_deletes_refuted _ _ _ _ ["data".toList, "scan".toList, "raw.tif".toList] (by simp) (by decide)).1

/-- Nothing temporary is left for hdf output. -/
theorem reslice_cleans_up (fs : Fs) (base output : Path) (isHdf : Bool) (names : List Name) (p : Path) (hp : p ∈ resliceFs fs base output isHdf names) :
    ¬ (base ++ ["tmp_".toList]) <+: p := by
  unfold resliceFs at hp
  cases isHdf with
  | true =>
    simp only [if_true] at hp
    rw [mem_rmtree, mem_rmtree] at hp
    exact hp.1.2
  | false =>
    simp only [Bool.false_eq_true, if_false] at hp
    rw [mem_rmtree] at hp
    exact hp.2

end Verif.Post
