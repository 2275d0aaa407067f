import Verif.Model.Convert
import Verif.Props.Io

set_option linter.unusedSectionVars false
set_option linter.unusedSimpArgs false

/-!
**C127.** Conversion of tif folders to hdf and back (algotom/io/converter.py:39-146).
-/

namespace Verif.Convert
open Verif.Io

variable {K : Type} [Field K] [LinearOrder K]

/-! ### pattern matching -/

/-- No wildcard. -/
def Literal (p : Name) : Prop := ∀ c ∈ p, c ≠ '*' ∧ c ≠ '?'

theorem fnmatch_nil (s : Name) : fnmatch [] s = true ↔ s = [] := by
  cases s with
  | nil => simp [fnmatch]
  | cons c s => simp [fnmatch]

theorem fnmatch_star (p s : Name) : fnmatch ('*' :: p) s = true ↔ ∃ a b, s = a ++ b ∧ fnmatch p b = true := by
  induction s with
  | nil =>
    rw [fnmatch, if_pos rfl]
    constructor
    · intro h; exact ⟨[], [], rfl, h⟩
    · rintro ⟨a, b, h, hb⟩
      obtain ⟨-, rfl⟩ := List.append_eq_nil_iff.1 h.symm
      exact hb
  | cons c s ih =>
    rw [fnmatch, if_pos rfl, Bool.or_eq_true, ih]
    constructor
    · rintro (h | ⟨a, b, rfl, h⟩)
      · exact ⟨[], _, rfl, h⟩
      · exact ⟨c :: a, b, rfl, h⟩
    · rintro ⟨a, b, h, hb⟩
      cases a with
      | nil => left; rw [h]; exact hb
      | cons x a =>
        rw [List.cons_append, List.cons.injEq] at h
        exact Or.inr ⟨a, b, h.2, hb⟩

theorem fnmatch_lit (l p s : Name) (hl : Literal l) : fnmatch (l ++ p) s = true ↔ ∃ t, s = l ++ t ∧ fnmatch p t = true := by
  induction l generalizing s with
  | nil => simp
  | cons c l ih =>
    have hc := hl c (by simp)
    have hl' : Literal l := fun d hd => hl d (by simp [hd])
    cases s with
    | nil =>
      rw [List.cons_append, fnmatch, if_neg hc.1]
      simp
    | cons d s =>
      rw [List.cons_append, fnmatch, if_neg hc.1, if_neg hc.2]
      by_cases h : c = d
      · rw [if_pos h, ih s hl', h]
        simp
      · rw [if_neg h]
        constructor
        · intro h; exact nomatch h
        · rintro ⟨t, ht, -⟩
          rw [List.cons_append, List.cons.injEq] at ht
          exact absurd ht.1.symm h

/-- **C127.** A question mark stands for exactly one character. -/
theorem fnmatch_any (p s : Name) : fnmatch ('?' :: p) s = true ↔ ∃ c t, s = c :: t ∧ fnmatch p t = true := by
  cases s with
  | nil => rw [fnmatch, if_neg (by decide)]; simp
  | cons d s =>
    rw [fnmatch, if_neg (by decide), if_pos rfl]
    constructor
    · intro h; exact ⟨d, s, rfl, h⟩
    · rintro ⟨c, t, h, ht⟩
      cases h
      exact ht

theorem literal_tif : Literal ".tif".toList := by unfold Literal; decide

/-- **C127.** Without a pattern the files are those with ".tif" somewhere in the name; with a (literal) pattern those with the pattern followed, somewhere, by
".tif". -/
theorem pattern_meaning (p name : Name) (hp : Literal p) :
    (fnmatch (tifPattern none) name = true ↔ ∃ a c, name = a ++ ".tif".toList ++ c) ∧
    (fnmatch (tifPattern (some p)) name = true ↔ ∃ a b c, name = a ++ p ++ b ++ ".tif".toList ++ c) := by
  have key : ∀ s, fnmatch "*.tif*".toList s = true ↔ ∃ a c, s = a ++ ".tif".toList ++ c := by
    intro s
    show fnmatch ('*' :: (".tif".toList ++ ['*'])) s = true ↔ _
    rw [fnmatch_star]
    constructor
    · rintro ⟨a, b, rfl, h⟩
      obtain ⟨t, rfl, -⟩ := (fnmatch_lit _ _ _ literal_tif).1 h
      exact ⟨a, t, by simp⟩
    · rintro ⟨a, c, rfl⟩
      refine ⟨a, ".tif".toList ++ c, by simp, (fnmatch_lit _ _ _ literal_tif).2 ⟨c, rfl, ?_⟩⟩
      rw [fnmatch_star]
      exact ⟨c, [], by simp, by simp [fnmatch]⟩
  refine ⟨key name, ?_⟩
  show fnmatch ('*' :: (p ++ "*.tif*".toList)) name = true ↔ _
  rw [fnmatch_star]
  constructor
  · rintro ⟨a, b, rfl, h⟩
    obtain ⟨t, rfl, h'⟩ := (fnmatch_lit _ _ _ hp).1 h
    obtain ⟨b, c, rfl⟩ := (key t).1 h'
    exact ⟨a, b, c, by simp⟩
  · rintro ⟨a, b, c, rfl⟩
    refine ⟨a, p ++ (b ++ ".tif".toList ++ c), by simp, (fnmatch_lit _ _ _ hp).2 ⟨_, rfl, (key _).2 ⟨b, c, rfl⟩⟩⟩

/-! ### specification: the matching entries in alphabetical order -/

/-- `l` lists the matching entries of the folder in the order of their names. -/
def InOrder (folder : Dir (NdArr K)) (pattern : Option Name) (l : List (Name × NdArr K)) : Prop :=
  l.Perm (folder.filter fun e => fnmatch (tifPattern pattern) e.1) ∧ l.Pairwise fun a b => a.1 ≤ b.1

theorem exists_inOrder (folder : Dir (NdArr K)) (pattern : Option Name) : ∃ l, InOrder folder pattern l := by
  refine ⟨(folder.filter fun e => fnmatch (tifPattern pattern) e.1).mergeSort fun a b => decide (a.1 ≤ b.1), List.mergeSort_perm _ _, ?_⟩
  have := List.pairwise_mergeSort (le := fun (a b : Name × NdArr K) => decide (a.1 ≤ b.1))
    (fun a b c h1 h2 => by simp only [decide_eq_true_eq] at *; exact List.le_trans h1 h2)
    (fun a b => by simp only [Bool.or_eq_true, decide_eq_true_eq]; exact List.le_total _ _)
    (folder.filter fun e => fnmatch (tifPattern pattern) e.1)
  simpa using this

theorem findFile_eq (names : List Name) (pat : Name) (l : List Name) (h0 : l ≠ []) (hp : l.Perm (names.filter (fnmatch pat)))
    (hs : l.Pairwise (· ≤ ·)) : findFile names pat = .ok l := by
  have hne : names.filter (fnmatch pat) ≠ [] := fun h => h0 (by rw [h] at hp; exact List.Perm.eq_nil hp)
  unfold findFile
  cases h : names.filter (fnmatch pat) with
  | nil => exact absurd h hne
  | cons a t =>
    show Except.ok _ = _
    congr 1
    rw [h] at hp
    refine List.Perm.eq_of_pairwise (le := (· ≤ ·)) (fun a b _ _ => List.le_antisymm) ?_ hs ((List.perm_insertionSort _ _).trans hp.symm)
    exact List.pairwise_insertionSort (· ≤ ·) (a :: t)

/-- **C127.** `find_file` fails exactly if no name matches; otherwise it returns the matching names in alphabetical order, whatever the order of the directory. -/
theorem find_file_spec (names : List Name) (pat : Name) :
    ((∀ n ∈ names, fnmatch pat n = false) → findFile names pat = .error .fileNotFound) ∧
    ((∃ n ∈ names, fnmatch pat n = true) → ∃ l, findFile names pat = .ok l ∧ l.Pairwise (· ≤ ·) ∧ l.Perm (names.filter (fnmatch pat))) ∧
    ∀ names', names.Perm names' → findFile names pat = findFile names' pat := by
  have ne : (∃ n ∈ names, fnmatch pat n = true) → ∃ l : List Name, l ≠ [] ∧ l.Pairwise (· ≤ ·) ∧ l.Perm (names.filter (fnmatch pat)) := by
    rintro ⟨n, hn, hm⟩
    refine ⟨(names.filter (fnmatch pat)).mergeSort fun a b => decide (a ≤ b), ?_, ?_, List.mergeSort_perm _ _⟩
    · intro h
      have : n ∈ (names.filter (fnmatch pat)).mergeSort fun a b => decide (a ≤ b) :=
        (List.mergeSort_perm _ _).mem_iff.2 (List.mem_filter.2 ⟨hn, hm⟩)
      rw [h] at this
      exact nomatch this
    · have := List.pairwise_mergeSort (le := fun (a b : Name) => decide (a ≤ b))
        (fun a b c h1 h2 => by simp only [decide_eq_true_eq] at *; exact List.le_trans h1 h2)
        (fun a b => by simp only [Bool.or_eq_true, decide_eq_true_eq]; exact List.le_total _ _) (names.filter (fnmatch pat))
      simpa using this
  have none : ∀ names : List Name, (∀ n ∈ names, fnmatch pat n = false) → findFile names pat = .error .fileNotFound := by
    intro names h
    unfold findFile
    rw [show names.filter (fnmatch pat) = [] from List.filter_eq_nil_iff.2 fun n hn => by rw [h n hn]; decide]
  refine ⟨none names, fun h => ?_, fun names' hp => ?_⟩
  · obtain ⟨l, h0, hs, hp⟩ := ne h
    exact ⟨l, findFile_eq names pat l h0 hp hs, hs, hp⟩
  · by_cases h : ∃ n ∈ names, fnmatch pat n = true
    · obtain ⟨l, h0, hs, hl⟩ := ne h
      rw [findFile_eq names pat l h0 hl hs, findFile_eq names' pat l h0 (hl.trans (hp.filter _)) hs]
    · have h' : ∀ n ∈ names, fnmatch pat n = false := fun n hn => by
        rw [← Bool.not_eq_true]; exact fun hm => h ⟨n, hn, hm⟩
      rw [none names h', none names' fun n hn => h' n (hp.mem_iff.2 hn)]

theorem find_mem (d : Dir (NdArr K)) (hd : (d.map (·.1)).Nodup) (e : Name × NdArr K) (he : e ∈ d) : d.find e.1 = some e.2 := by
  unfold Dir.find
  induction d with
  | nil => exact nomatch he
  | cons x d ih =>
    rw [List.map_cons, List.nodup_cons] at hd
    rw [List.find?_cons]
    by_cases hx : x.1 = e.1
    · have : (x.1 == e.1) = true := by simpa using hx
      rw [this]
      rcases List.mem_cons.1 he with rfl | h
      · rfl
      · exact absurd (List.mem_map.2 ⟨e, h, rfl⟩) (hx ▸ hd.1)
    · have : (x.1 == e.1) = false := by simpa using hx
      rw [this]
      rcases List.mem_cons.1 he with rfl | h
      · exact absurd rfl hx
      · exact ih hd.2 h

/-- The conversion works on the images in alphabetical order. -/
theorem convert_eq (folder : Dir (NdArr K)) (hd : (folder.map (·.1)).Nodup) (pattern : Option Name) (crop : Crop) (e0 : Name × NdArr K)
    (l : List (Name × NdArr K)) (hl : InOrder folder pattern (e0 :: l)) :
    convertTif folder pattern crop = convertImages ((e0 :: l).map fun e => loadImage e.2) (loadImage e0.2) crop := by
  have hf : findFile (folder.map (·.1)) (tifPattern pattern) = .ok ((e0 :: l).map (·.1)) := by
    refine findFile_eq _ _ _ (by simp) ?_ ?_
    · rw [List.filter_map]
      exact hl.1.map _
    · rw [List.pairwise_map]
      exact hl.2
  unfold convertTif
  rw [hf]
  show (match ((e0 :: l).map (·.1)).filterMap (fun n => (folder.find n).map loadImage) with
    | [] => Except.error PyErr.fileNotFound
    | m0 :: rest => convertImages (m0 :: rest) m0 crop) = _
  have : ((e0 :: l).map (·.1)).filterMap (fun n => (folder.find n).map loadImage) = (e0 :: l).map fun e => loadImage e.2 := by
    rw [List.filterMap_map, ← List.filterMap_eq_map]
    refine List.filterMap_congr fun e he => ?_
    have he' : e ∈ folder := (List.mem_filter.1 (hl.1.mem_iff.1 he)).1
    show (folder.find e.1).map loadImage = _
    rw [find_mem folder hd e he']
    rfl
  rw [this]
  rfl

theorem mapM_slices (f : Mat K → Py (Mat K)) (g : Mat K → Mat K) (l : List (Mat K)) (h : ∀ m ∈ l, f m = .ok (g m)) : l.mapM f = .ok (l.map g) := by
  induction l with
  | nil => rfl
  | cons m l ih =>
    rw [List.mapM_cons, h m (by simp), ih fun x hx => h x (by simp [hx])]
    rfl

/-- **C127.** The dataset has one slice per matching file, in alphabetical order of the names: slice `k` is the requested window of the `k`-th image.  The
size is taken from the first image; all images must reach to the end of the window (longer ones are cut). -/
theorem convert_spec (folder : Dir (NdArr K)) (hd : (folder.map (·.1)).Nodup) (pattern : Option Name) (crop : Crop) (e0 : Name × NdArr K)
    (l : List (Name × NdArr K)) (hl : InOrder folder pattern (e0 :: l)) (hh : crop.top + crop.bottom < (loadImage e0.2).h)
    (hw : crop.left + crop.right < (loadImage e0.2).w)
    (hs : ∀ e ∈ l, (loadImage e0.2).h - crop.bottom ≤ (loadImage e.2).h ∧ (loadImage e0.2).w - crop.right ≤ (loadImage e.2).w) :
    ∃ a, convertTif folder pattern crop = .ok a ∧ a.d = l.length + 1 ∧ a.h = (loadImage e0.2).h - crop.top - crop.bottom ∧
      a.w = (loadImage e0.2).w - crop.left - crop.right ∧
      ∀ (k : Nat) (e : Name × NdArr K), (e0 :: l)[k]? = some e → ∀ i < a.h, ∀ j < a.w, a.get k i j = (loadImage e.2).get (crop.top + i) (crop.left + j) := by
  rw [convert_eq folder hd pattern crop e0 l hl]
  unfold convertImages
  dsimp only
  rw [if_neg (by omega)]
  obtain ⟨H, hH⟩ : ∃ H, (loadImage e0.2).h - crop.top - crop.bottom = H := ⟨_, rfl⟩
  obtain ⟨W, hW⟩ : ∃ W, (loadImage e0.2).w - crop.left - crop.right = W := ⟨_, rfl⟩
  rw [show (((loadImage e0.2).h : Int) - crop.top - crop.bottom).toNat = H by omega,
    show (((loadImage e0.2).w : Int) - crop.left - crop.right).toNat = W by omega]
  rw [mapM_slices _ (fun m => ⟨H, W, fun i j => m.get (crop.top + i) (crop.left + j)⟩) _ fun m hm => by
    obtain ⟨e, he, rfl⟩ := List.mem_map.1 hm
    have hsz : (loadImage e0.2).h - crop.bottom ≤ (loadImage e.2).h ∧ (loadImage e0.2).w - crop.right ≤ (loadImage e.2).w := by
      rcases List.mem_cons.1 he with rfl | he
      · exact ⟨by omega, by omega⟩
      · exact hs e he
    unfold writeSlice cut
    dsimp only
    have h1 : min (H + crop.top) (loadImage e.2).h - crop.top = H := by omega
    have h2 : min (W + crop.left) (loadImage e.2).w - crop.left = W := by omega
    rw [h1, h2, if_pos ⟨Or.inl rfl, Or.inl rfl⟩]
    simp only [if_true]]
  refine ⟨_, rfl, by simp, hH.symm, hW.symm, fun k e hk i hi j hj => ?_⟩
  dsimp only
  rw [List.map_map, List.getElem?_map, hk]
  rfl

/-- **C127.** Refused: folders without a matching file (FileNotFoundError), crops that leave nothing of the first image (ValueError), and later images that
do not reach the end of the window, unless one row or column is left of them (TypeError). -/
theorem convert_error (folder : Dir (NdArr K)) (hd : (folder.map (·.1)).Nodup) (pattern : Option Name) (crop : Crop) :
    (InOrder folder pattern [] → convertTif folder pattern crop = .error .fileNotFound) ∧
    ∀ (e0 : Name × NdArr K) (l : List (Name × NdArr K)), InOrder folder pattern (e0 :: l) →
      ((loadImage e0.2).h ≤ crop.top + crop.bottom ∨ (loadImage e0.2).w ≤ crop.left + crop.right →
        convertTif folder pattern crop = .error .valueError) ∧
      (crop.top + crop.bottom < (loadImage e0.2).h → crop.left + crop.right < (loadImage e0.2).w →
        (∃ e ∈ l, ((loadImage e.2).h < (loadImage e0.2).h - crop.bottom ∧ (loadImage e.2).h ≠ crop.top + 1) ∨
          ((loadImage e.2).w < (loadImage e0.2).w - crop.right ∧ (loadImage e.2).w ≠ crop.left + 1)) →
        convertTif folder pattern crop = .error .typeError) := by
  constructor
  · intro h
    unfold convertTif
    rw [(find_file_spec _ _).1 fun n hn => by
      obtain ⟨e, he, rfl⟩ := List.mem_map.1 hn
      rw [← Bool.not_eq_true]
      intro hm
      have := h.1.mem_iff.2 (List.mem_filter.2 ⟨he, hm⟩)
      exact nomatch this]
    rfl
  · intro e0 l hl
    rw [convert_eq folder hd pattern crop e0 l hl]
    constructor
    · intro h
      unfold convertImages
      dsimp only
      rw [if_pos (by omega)]
    · rintro h1 h2 ⟨e, he, h3⟩
      unfold convertImages
      dsimp only
      rw [if_neg (by omega)]
      generalize hH : (((loadImage e0.2).h : Int) - crop.top - crop.bottom).toNat = H
      generalize hW : (((loadImage e0.2).w : Int) - crop.left - crop.right).toNat = W
      have key : ∀ (L : List (Mat K)), loadImage e.2 ∈ L → L.mapM (fun m => writeSlice H W (cut m crop.top (H + crop.top) crop.left (W + crop.left))) = .error .typeError := by
        have err : ∀ m : Mat K, (∃ r, writeSlice H W (cut m crop.top (H + crop.top) crop.left (W + crop.left)) = .ok r) ∨
            writeSlice H W (cut m crop.top (H + crop.top) crop.left (W + crop.left)) = .error .typeError := by
          intro m
          unfold writeSlice
          by_cases hc : ((cut m crop.top (H + crop.top) crop.left (W + crop.left)).h = H ∨ (cut m crop.top (H + crop.top) crop.left (W + crop.left)).h = 1) ∧
            ((cut m crop.top (H + crop.top) crop.left (W + crop.left)).w = W ∨ (cut m crop.top (H + crop.top) crop.left (W + crop.left)).w = 1)
          · rw [if_pos hc]; exact Or.inl ⟨_, rfl⟩
          · rw [if_neg hc]; exact Or.inr rfl
        intro L
        induction L with
        | nil => intro h; exact nomatch h
        | cons m L ih =>
          intro hm
          rw [List.mapM_cons]
          rcases err m with ⟨r, hr⟩ | hr
          · rw [hr]
            rcases List.mem_cons.1 hm with h | h
            · exfalso
              rw [← h] at hr
              unfold writeSlice at hr
              have e1 : (cut (loadImage e.2) crop.top (H + crop.top) crop.left (W + crop.left)).h = min (H + crop.top) (loadImage e.2).h - crop.top := rfl
              have e2 : (cut (loadImage e.2) crop.top (H + crop.top) crop.left (W + crop.left)).w = min (W + crop.left) (loadImage e.2).w - crop.left := rfl
              rw [if_neg (by rw [e1, e2]; omega)] at hr
              exact nomatch hr
            · show Except.bind (L.mapM fun m => writeSlice H W (cut m crop.top (H + crop.top) crop.left (W + crop.left))) _ = _
              rw [ih h]
              rfl
          · rw [hr]; rfl
      rw [key _ (List.mem_map.2 ⟨e, List.mem_cons_of_mem _ he, rfl⟩)]
      rfl

/-- A folder with an image of 3 x 2 pixels and one of a single row. -/
def exThin : Dir (NdArr ℚ) := [("a.tif".toList, .two ⟨3, 2, fun i j => i + j⟩), ("b.tif".toList, .two ⟨1, 2, fun _ j => j⟩)]

/-- **C127** is false of the code here: a later image of a single row is not refused although it is too small; its row is repeated. -/
theorem convert_thin_refuted : ∃ a, convertTif exThin none ⟨0, 0, 0, 0⟩ = .ok a ∧ (a.d, a.h, a.w) = (2, 3, 2) ∧
    ∀ i < 3, ∀ j < 2, a.get 1 i j = (j : ℚ) := by
  have hl : InOrder exThin none exThin := by
    refine ⟨?_, ?_⟩
    · refine List.Perm.of_eq (List.filter_eq_self.2 fun e he => ?_).symm
      have he : e.1 = "a.tif".toList ∨ e.1 = "b.tif".toList := by
        unfold exThin at he
        rcases List.mem_cons.1 he with h | h
        · exact Or.inl (by rw [h])
        · exact Or.inr (by rw [List.mem_singleton.1 h])
      rcases he with h | h <;> (rw [h]; decide +kernel)
    · unfold exThin
      refine List.Pairwise.cons (fun e he => ?_) (List.pairwise_singleton _ _)
      rw [List.mem_singleton.1 he]
      show "a.tif".toList ≤ "b.tif".toList
      decide +kernel
  obtain ⟨a, ha⟩ : ∃ a, convertTif exThin none ⟨0, 0, 0, 0⟩ = .ok a := by
    unfold exThin at hl ⊢
    rw [convert_eq _ (by decide +kernel) none ⟨0, 0, 0, 0⟩ _ _ hl]
    exact ⟨_, rfl⟩
  refine ⟨a, ha, ?_⟩
  unfold exThin at hl ha
  rw [convert_eq _ (by decide +kernel) none ⟨0, 0, 0, 0⟩ _ _ hl] at ha
  have := Except.ok.inj ha
  subst this
  refine ⟨rfl, fun i hi j hj => ?_⟩
  interval_cases i <;> interval_cases j <;> rfl

/-- **C127.** The dataset does not depend on the order in which the directory lists its entries. -/
theorem convert_perm (folder folder' : Dir (NdArr K)) (hd : (folder.map (·.1)).Nodup) (hp : folder.Perm folder') (pattern : Option Name) (crop : Crop) :
    convertTif folder pattern crop = convertTif folder' pattern crop := by
  have hd' : (folder'.map (·.1)).Nodup := (hp.map _).nodup_iff.1 hd
  obtain ⟨l, hl⟩ := exists_inOrder folder pattern
  have hl' : InOrder folder' pattern l := ⟨hl.1.trans (hp.filter _), hl.2⟩
  cases l with
  | nil => rw [(convert_error folder hd pattern crop).1 hl, (convert_error folder' hd' pattern crop).1 hl']
  | cons e0 l => rw [convert_eq folder hd pattern crop e0 l hl, convert_eq folder' hd' pattern crop e0 l hl']

/-! ### extraction -/

theorem sliceName_extract (pre : Name) (i : Nat) : extractName [] pre i = '/' :: sliceName pre i := by
  simp [extractName, sliceName]

theorem sliceName_inj (pre : Name) (i j : Nat) (h : sliceName pre i = sliceName pre j) : i = j :=
  extract_names_injective [] pre i j (by rw [sliceName_extract, sliceName_extract, h])

theorem sliceName_lt (pre : Name) (i j : Nat) (hij : i < j) (hj : j < 100000) : sliceName pre i < sliceName pre j := by
  have := extract_names_sorted_partial [] pre i j hij hj
  rw [sliceName_extract, sliceName_extract, List.cons_lt_cons_iff] at this
  rcases this with h | ⟨-, h⟩
  · exact absurd h (by decide)
  · exact h

theorem sliceName_match (pre : Name) (i : Nat) : fnmatch (tifPattern none) (sliceName pre i) = true :=
  (pattern_meaning [] _ (by unfold Literal; simp)).1.2 ⟨pre ++ '_' :: fmt0 5 i, [], by simp [sliceName]⟩

/-- The span of a crop that leaves something. -/
theorem span_eq (len lo hi : Nat) (h : lo + hi ≤ len) : span len lo hi = (lo, len - lo - hi) := by
  unfold span pyBound
  rw [if_neg (by omega), if_neg (by omega)]
  congr 1 <;> omega

theorem pyRange_succ (n : Nat) : ∀ k a, pyRangeAux ((a : Int) + n) 1 (n + k) a = (List.range n).map fun (q : Nat) => a + q := by
  induction n with
  | zero =>
    intro k a
    cases k with
    | zero => rfl
    | succ k => rw [Nat.zero_add, pyRangeAux, if_neg (by omega)]; rfl
  | succ n ih =>
    intro k a
    rw [show n + 1 + k = (n + k) + 1 by omega, pyRangeAux, if_pos (by omega)]
    rw [show (a : Int) + ((n + 1 : Nat) : Int) = (a + ((1 : Nat) : Int)) + n by push_cast; ring, ih k (a + ((1 : Nat) : Int)), List.range_succ_eq_map, List.map_cons, List.map_map]
    congr 1
    · simp
    · refine List.map_congr_left fun q _ => ?_
      show a + ((1 : Nat) : Int) + (q : Int) = a + ((q + 1 : Nat) : Int)
      push_cast
      ring

theorem extractIndices_all (len : Nat) (h : 0 < len) : extractIndices len (.tuple 0 (-1) 1) = (List.range len).map fun (q : Nat) => (q : Int) := by
  unfold extractIndices
  dsimp only
  rw [if_pos (by omega)]
  unfold npClip pyRange
  rw [show min (max (0 : Int) 0) ((len : Int) - 1) = 0 by omega, show ((len : Int) - 0).toNat = len by omega]
  have := pyRange_succ len 0 0
  rw [zero_add, Nat.add_zero] at this
  rw [this]
  refine List.map_congr_left fun q _ => ?_
  rw [zero_add]

/-- The folder after the extraction of all slices: the old entries except overwritten ones, and the slices. -/
theorem extract_all (a : Arr3 K) (axis : Nat) (crop : Crop) (pre : Name) (folder : Dir (NdArr K)) (hd : (folder.map (·.1)).Nodup)
    (hlen : 0 < axisLen a axis) (hsl : ∀ k, 0 < (sliceOf a axis crop k).h ∧ 0 < (sliceOf a axis crop k).w)
    (hf : ∀ e ∈ folder, fnmatch (tifPattern none) e.1 = false) :
    ∃ d, extractTif a axis (.tuple 0 (-1) 1) crop pre folder = .ok d ∧ (d.map (·.1)).Nodup ∧
      d.Perm ((List.range (axisLen a axis)).map (fun k => (sliceName pre k, NdArr.two (sliceOf a axis crop k))) ++ folder) := by
  unfold extractTif
  rw [extractIndices_all _ hlen, List.foldlM_map]
  have key : ∀ n ≤ axisLen a axis, ∃ d, (List.range n).foldlM (fun (d : Dir (NdArr K)) (q : Nat) => (do
      let k ← pyIndex (axisLen a axis) (q : Int)
      let m := sliceOf a axis crop k
      if m.h = 0 ∨ m.w = 0 then .error .valueError
      else .ok (d.write (sliceName pre k) (.two m)) : Py (Dir (NdArr K)))) folder = .ok d ∧ (d.map (·.1)).Nodup ∧
      d.Perm ((List.range n).map (fun k => (sliceName pre k, NdArr.two (sliceOf a axis crop k))) ++ folder) := by
    intro n
    induction n with
    | zero => intro _; exact ⟨folder, rfl, hd, List.Perm.refl _⟩
    | succ n ih =>
      intro hn
      obtain ⟨d, h1, h2, h3⟩ := ih (by omega)
      rw [List.range_succ, List.foldlM_append, h1]
      have hp : pyIndex (axisLen a axis) (n : Int) = .ok n := by
        unfold pyIndex
        rw [if_pos (by omega), Int.toNat_natCast]
      have hni : ∀ e ∈ d, e.1 ≠ sliceName pre n := by
        intro e he
        rcases List.mem_append.1 (h3.mem_iff.1 he) with h | h
        · obtain ⟨k, hk, rfl⟩ := List.mem_map.1 h
          intro hc
          have := sliceName_inj pre _ _ hc
          rw [List.mem_range] at hk
          omega
        · intro hc
          have := hf e h
          rw [hc, sliceName_match] at this
          exact nomatch this
      have hfil : d.filter (fun e => e.1 != sliceName pre n) = d := by
        rw [List.filter_eq_self]
        intro e he
        simpa using hni e he
      refine ⟨d.write (sliceName pre n) (.two (sliceOf a axis crop n)), ?_, ?_, ?_⟩
      · show Except.bind (Except.bind (pyIndex (axisLen a axis) (n : Int)) _) _ = _
        rw [hp]
        show Except.bind (if (sliceOf a axis crop n).h = 0 ∨ (sliceOf a axis crop n).w = 0 then _ else _) _ = _
        rw [if_neg (by have := hsl n; omega)]
        rfl
      · unfold Dir.write
        rw [hfil, List.map_cons, List.nodup_cons]
        refine ⟨fun h => ?_, h2⟩
        obtain ⟨e, he, h⟩ := List.mem_map.1 h
        exact hni e he h
      · unfold Dir.write
        rw [hfil, List.map_append, List.append_assoc]
        refine (h3.cons _).trans ?_
        exact List.perm_middle.symm
  obtain ⟨d, h1, h2, h3⟩ := key _ (le_refl _)
  exact ⟨d, h1, h2, h3⟩

/-- Round trip along an axis: the slices extracted into a folder and converted back are the slices, in order. -/
def RoundTrip (a : Arr3 K) (axis : Nat) (crop : Crop) (pre : Name) (folder : Dir (NdArr K)) : Prop :=
  ∃ d b, extractTif a axis (.tuple 0 (-1) 1) crop pre folder = .ok d ∧ convertTif d none ⟨0, 0, 0, 0⟩ = .ok b ∧ b.d = axisLen a axis ∧
    b.h = (sliceOf a axis crop 0).h ∧ b.w = (sliceOf a axis crop 0).w ∧
    ∀ k < b.d, ∀ i < b.h, ∀ j < b.w, b.get k i j = (sliceOf a axis crop k).get i j

theorem sliceOf_shape (a : Arr3 K) (axis : Nat) (crop : Crop) (k k' : Nat) :
    (sliceOf a axis crop k).h = (sliceOf a axis crop k').h ∧ (sliceOf a axis crop k).w = (sliceOf a axis crop k').w := by
  unfold sliceOf
  by_cases h1 : axis = 1
  · rw [if_pos h1, if_pos h1]; exact ⟨rfl, rfl⟩
  · rw [if_neg h1, if_neg h1]
    by_cases h2 : axis = 2
    · rw [if_pos h2, if_pos h2]; exact ⟨rfl, rfl⟩
    · rw [if_neg h2, if_neg h2]; exact ⟨rfl, rfl⟩

theorem extracted_inOrder (a : Arr3 K) (axis : Nat) (crop : Crop) (pre : Name) (folder d : Dir (NdArr K))
    (hf : ∀ e ∈ folder, fnmatch (tifPattern none) e.1 = false)
    (hp : d.Perm ((List.range (axisLen a axis)).map (fun k => (sliceName pre k, NdArr.two (sliceOf a axis crop k))) ++ folder)) :
    (d.filter fun e => fnmatch (tifPattern none) e.1).Perm
      ((List.range (axisLen a axis)).map (fun k => (sliceName pre k, NdArr.two (sliceOf a axis crop k)))) := by
  refine (hp.filter _).trans ?_
  rw [List.filter_append]
  have h1 : folder.filter (fun e => fnmatch (tifPattern none) e.1) = [] :=
    List.filter_eq_nil_iff.2 fun e he => by rw [hf e he]; decide
  rw [h1, List.append_nil]
  rw [List.filter_eq_self.2]
  intro e he
  obtain ⟨k, -, rfl⟩ := List.mem_map.1 he
  exact sliceName_match pre k

/-- **C127.** Round trip for up to 100000 slices, along every axis, into a folder without tif files. -/
theorem round_trip_partial (a : Arr3 K) (axis : Nat) (crop : Crop) (pre : Name) (folder : Dir (NdArr K)) (hd : (folder.map (·.1)).Nodup)
    (hf : ∀ e ∈ folder, fnmatch (tifPattern none) e.1 = false) (hlen : 0 < axisLen a axis) (hmax : axisLen a axis ≤ 100000)
    (hsl : 0 < (sliceOf a axis crop 0).h ∧ 0 < (sliceOf a axis crop 0).w) : RoundTrip a axis crop pre folder := by
  have hsl' : ∀ k, 0 < (sliceOf a axis crop k).h ∧ 0 < (sliceOf a axis crop k).w := by
    intro k
    have := sliceOf_shape a axis crop k 0
    rw [this.1, this.2]
    exact hsl
  obtain ⟨d, h1, h2, h3⟩ := extract_all a axis crop pre folder hd hlen hsl' hf
  have hio : InOrder d none ((List.range (axisLen a axis)).map (fun k => (sliceName pre k, NdArr.two (sliceOf a axis crop k)))) := by
    refine ⟨(extracted_inOrder a axis crop pre folder d hf h3).symm, ?_⟩
    rw [List.pairwise_map]
    have : (List.range (axisLen a axis)).Pairwise (· < ·) := List.pairwise_lt_range
    refine this.imp_of_mem fun {i j} hi hj hij => ?_
    rw [List.mem_range] at hj
    exact List.le_of_lt (sliceName_lt pre i j hij (by omega))
  obtain ⟨n, hn⟩ : ∃ n, axisLen a axis = n + 1 := ⟨axisLen a axis - 1, by omega⟩
  have hcons : (List.range (axisLen a axis)).map (fun k => (sliceName pre k, NdArr.two (sliceOf a axis crop k))) =
      (sliceName pre 0, NdArr.two (sliceOf a axis crop 0)) :: (List.range n).map fun k => (sliceName pre (k + 1), NdArr.two (sliceOf a axis crop (k + 1))) := by
    rw [hn, List.range_succ_eq_map, List.map_cons, List.map_map]
    rfl
  rw [hcons] at hio
  obtain ⟨b, hb, b1, b2, b3, b4⟩ := convert_spec d h2 none ⟨0, 0, 0, 0⟩ _ _ hio hsl.1 hsl.2 fun e he => by
    obtain ⟨k, -, rfl⟩ := List.mem_map.1 he
    have := sliceOf_shape a axis crop 0 (k + 1)
    exact ⟨le_of_eq this.1, le_of_eq this.2⟩
  refine ⟨d, b, h1, hb, ?_, b2, b3, fun k hk i hi j hj => ?_⟩
  · rw [b1, hn, List.length_map, List.length_range]
  · rw [b4 k (sliceName pre k, NdArr.two (sliceOf a axis crop k)) ?_ i hi j hj]
    · show (sliceOf a axis crop k).get (0 + i) (0 + j) = _
      rw [zero_add, zero_add]
    · rw [← hcons, List.getElem?_map]
      rw [b1, List.length_map, List.length_range, ← hn] at hk
      rw [List.getElem?_range hk]
      rfl

/-- **C127** is false of the code for more than 100000 slices: the names no longer sort in the order of the slices. -/
theorem round_trip_refuted : ¬ ∀ a : Arr3 ℚ, 0 < a.d → 0 < a.h → 0 < a.w → RoundTrip a 0 ⟨0, 0, 0, 0⟩ "img".toList [] := by
  intro H
  obtain ⟨d, b, h1, h2, b1, b2, b3, b4⟩ := H ⟨100001, 1, 1, fun k _ _ => (k : ℚ)⟩ (by norm_num) Nat.zero_lt_one Nat.zero_lt_one
  generalize hA : (⟨100001, 1, 1, fun k _ _ => (k : ℚ)⟩ : Arr3 ℚ) = A at *
  have hlen : axisLen A 0 = 100001 := by rw [← hA]; rfl
  have hsh : ∀ k, (sliceOf A 0 ⟨0, 0, 0, 0⟩ k).h = 1 ∧ (sliceOf A 0 ⟨0, 0, 0, 0⟩ k).w = 1 := by
    intro k; rw [← hA]; exact ⟨rfl, rfl⟩
  have hval : ∀ k, (sliceOf A 0 ⟨0, 0, 0, 0⟩ k).get 0 0 = (k : ℚ) := by
    intro k; rw [← hA]; rfl
  obtain ⟨d', e1, e2, e3⟩ := extract_all A 0 ⟨0, 0, 0, 0⟩ "img".toList [] (by simp) (by omega)
    (fun k => by rw [(hsh k).1, (hsh k).2]; exact ⟨Nat.zero_lt_one, Nat.zero_lt_one⟩) (fun e he => nomatch he)
  obtain rfl : d = d' := by rw [h1] at e1; exact Except.ok.inj e1
  obtain ⟨l, hl⟩ := exists_inOrder d none
  have hlp := hl.1.trans (extracted_inOrder A 0 ⟨0, 0, 0, 0⟩ "img".toList [] d (fun e he => nomatch he) e3)
  rw [hlen] at hlp b1
  cases l with
  | nil =>
    have := hlp.length_eq
    rw [List.length_map, List.length_range] at this
    exact absurd this (by simp)
  | cons e0 l =>
    have hmem : ∀ e ∈ e0 :: l, ∃ k, e = (sliceName "img".toList k, NdArr.two (sliceOf A 0 ⟨0, 0, 0, 0⟩ k)) := by
      intro e he
      obtain ⟨k, -, rfl⟩ := List.mem_map.1 (hlp.mem_iff.1 he)
      exact ⟨k, rfl⟩
    have hone : ∀ e ∈ e0 :: l, (loadImage e.2).h = 1 ∧ (loadImage e.2).w = 1 := by
      intro e he
      obtain ⟨k, rfl⟩ := hmem e he
      exact hsh k
    have h0 := hone e0 (by simp)
    obtain ⟨b', g1, g2, g3, g4, g5⟩ := convert_spec d e2 none ⟨0, 0, 0, 0⟩ e0 l hl (by rw [h0.1]; exact Nat.zero_lt_one)
      (by rw [h0.2]; exact Nat.zero_lt_one) fun e he => by
        have := hone e (by simp [he])
        rw [h0.1, h0.2, this.1, this.2]
        exact ⟨le_refl _, le_refl _⟩
    obtain rfl : b = b' := by rw [h2] at g1; exact Except.ok.inj g1
    have hL : (e0 :: l).length = 100001 := by
      rw [hlp.length_eq, List.length_map, List.length_range]
    have hname : ∀ k < 100001, ∃ e, (e0 :: l)[k]? = some e ∧ e.1 = sliceName "img".toList k := by
      intro k hk
      have hk' : k < (e0 :: l).length := by omega
      refine ⟨(e0 :: l)[k], List.getElem?_eq_getElem hk', ?_⟩
      obtain ⟨m, hm⟩ := hmem _ (List.getElem_mem hk')
      have v1 := g5 k _ (List.getElem?_eq_getElem hk') 0 (by rw [g3, h0.1]; exact Nat.zero_lt_one) 0 (by rw [g4, h0.2]; exact Nat.zero_lt_one)
      have v2 := b4 k (by omega) 0 (by rw [b2, (hsh 0).1]; exact Nat.zero_lt_one) 0 (by rw [b3, (hsh 0).2]; exact Nat.zero_lt_one)
      rw [hval] at v2
      rw [v2, hm] at v1
      have v3 : (loadImage (NdArr.two (sliceOf A 0 ⟨0, 0, 0, 0⟩ m))).get (0 + 0) (0 + 0) = (m : ℚ) := hval m
      rw [show (loadImage (sliceName "img".toList m, NdArr.two (sliceOf A 0 ⟨0, 0, 0, 0⟩ m)).2).get (0 + 0) (0 + 0) = (m : ℚ) from v3] at v1
      have : k = m := by exact_mod_cast v1
      rw [hm, this]
    obtain ⟨x, hx, hx'⟩ := hname 99999 (by norm_num)
    obtain ⟨y, hy, hy'⟩ := hname 100000 (by norm_num)
    have hxl : 99999 < (e0 :: l).length := by omega
    have hyl : 100000 < (e0 :: l).length := by omega
    have hle := List.pairwise_iff_getElem.1 hl.2 99999 100000 hxl hyl (by norm_num)
    rw [List.getElem?_eq_getElem hxl, Option.some.injEq] at hx
    rw [List.getElem?_eq_getElem hyl, Option.some.injEq] at hy
    rw [hx, hy, hx', hy'] at hle
    have hlt := extract_names_sorted_refuted
    rw [sliceName_extract, sliceName_extract, List.cons_lt_cons_iff] at hlt
    rcases hlt with h | ⟨-, h⟩
    · exact absurd h (by decide)
    · exact absurd hle (List.not_le.2 h)

/-! ### the crop of the extraction -/

/-- Number of rows that a crop should leave. -/
def CropRemoves : Prop := ∀ (a : Arr3 ℚ) (crop : Crop) (k : Nat), (sliceOf a 0 crop k).h = a.h - crop.top - crop.bottom

/-- **C127** (partial): a crop that is not larger than the image removes the given numbers of pixels on each side. -/
theorem extract_crop_partial (a : Arr3 K) (crop : Crop) (k : Nat) (h1 : crop.top + crop.bottom ≤ a.h) (h2 : crop.left + crop.right ≤ a.w) :
    (sliceOf a 0 crop k).h = a.h - crop.top - crop.bottom ∧ (sliceOf a 0 crop k).w = a.w - crop.left - crop.right ∧
    ∀ i j, (sliceOf a 0 crop k).get i j = a.get k (crop.top + i) (crop.left + j) := by
  unfold sliceOf
  rw [if_neg (by decide), if_neg (by decide), span_eq _ _ _ h1, span_eq _ _ _ h2]
  exact ⟨rfl, rfl, fun _ _ => rfl⟩

/-- **C127** (partial): the same along the other axes.  There are as many slices as the axis is long; slices along axis 1 show the axes 0 and 2,
slices along axis 2 the axes 0 and 1. -/
theorem extract_axes_partial (a : Arr3 K) (crop : Crop) (k : Nat) (h0 : crop.top + crop.bottom ≤ a.d) :
    (axisLen a 0 = a.d ∧ axisLen a 1 = a.h ∧ axisLen a 2 = a.w) ∧
    (crop.left + crop.right ≤ a.w → (sliceOf a 1 crop k).Eqv
      ⟨a.d - crop.top - crop.bottom, a.w - crop.left - crop.right, fun i j => a.get (crop.top + i) k (crop.left + j)⟩) ∧
    (crop.left + crop.right ≤ a.h → (sliceOf a 2 crop k).Eqv
      ⟨a.d - crop.top - crop.bottom, a.h - crop.left - crop.right, fun i j => a.get (crop.top + i) (crop.left + j) k⟩) := by
  refine ⟨⟨rfl, rfl, rfl⟩, fun h1 => ?_, fun h1 => ?_⟩
  · unfold sliceOf
    rw [if_pos rfl, span_eq _ _ _ h0, span_eq _ _ _ h1]
    exact ⟨rfl, rfl, fun _ _ _ _ => rfl⟩
  · unfold sliceOf
    rw [if_neg (by decide), if_pos rfl, span_eq _ _ _ h0, span_eq _ _ _ h1]
    exact ⟨rfl, rfl, fun _ _ _ _ => rfl⟩

example : (3 : Nat) + 2 ≤ (⟨6, 4, 5, fun _ _ _ => (0 : ℚ)⟩ : Arr3 ℚ).d := by decide

/-- **C127** is false of the code for larger crops: cutting 12 rows from the bottom of an image of 10 rows leaves 8. -/
theorem extract_crop_refuted : ¬ CropRemoves := by
  intro h
  have := h ⟨1, 10, 10, fun _ _ _ => 0⟩ ⟨0, 12, 0, 0⟩ 0
  revert this
  decide

/-- Concrete instance: three slices of 2 × 2 pixels into a folder with a text file. -/
example : RoundTrip (⟨3, 2, 2, fun k i j => k + 10 * i + j⟩ : Arr3 ℚ) 0 ⟨0, 0, 0, 0⟩ "a".toList [("x.txt".toList, .two ⟨0, 0, fun _ _ => 0⟩)] :=
  round_trip_partial _ _ _ _ _ (by simp) (by
    intro e he
    rw [List.mem_singleton] at he
    rw [he]
    decide +kernel) (by decide) (by decide) (by decide)

end Verif.Convert
