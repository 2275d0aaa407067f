import Verif.Model.InputTypes
import Verif.Props.Convert
import Verif.Props.Center

/-! C135 — what the post-processing functions accept as input and output.  C136 — `load_image_multiple`. -/

set_option linter.unusedSectionVars false
set_option linter.unusedSimpArgs false

namespace Verif.InputTypes
open Verif.Io Verif.Convert Verif.Sched

variable {K : Type} [Field K] [LinearOrder K]

/-! ### file extensions -/

theorem takeWhile_all (p : Char → Bool) (l : Name) (h : ∀ x ∈ l, p x = true) : l.takeWhile p = l := by
  have := List.takeWhile_append_of_pos (p := p) (l₂ := []) h
  simpa using this

theorem lastName_spec (dir name : Name) (h : '/' ∉ name) (hd : dir = [] ∨ ∃ d, dir = d ++ ['/']) : lastName (dir ++ name) = name := by
  unfold lastName
  rw [List.reverse_append]
  have hn : ∀ x ∈ name.reverse, (x != '/') = true := by
    intro x hx
    rw [bne_iff_ne]
    intro e
    exact h (e ▸ List.mem_reverse.1 hx)
  rcases hd with rfl | ⟨d, rfl⟩
  · rw [List.reverse_nil, List.append_nil, takeWhile_all _ _ hn, List.reverse_reverse]
  · rw [List.reverse_append, List.reverse_cons, List.reverse_nil, List.nil_append, List.singleton_append,
      List.takeWhile_append_of_pos hn, List.takeWhile_cons_of_neg (by decide), List.append_nil, List.reverse_reverse]

/-- **C135.** The extension of a path is what stands after the last dot of its last name, dot included; none if there is no dot or only dots before it. -/
theorem ext_spec (dir base e : Name) (h : '/' ∉ base) (he : '/' ∉ e ∧ '.' ∉ e) (hd : dir = [] ∨ ∃ d, dir = d ++ ['/']) :
    ((∃ c ∈ base, c ≠ '.') → extOf (dir ++ (base ++ '.' :: e)) = '.' :: e) ∧
    ((∀ c ∈ base, c = '.') → extOf (dir ++ (base ++ '.' :: e)) = []) ∧
    ('.' ∉ base → extOf (dir ++ base) = []) := by
  have tw : ∀ l : Name, '.' ∉ l → ∀ x ∈ l.reverse, (x != '.') = true := by
    intro l hl x hx
    rw [bne_iff_ne]
    intro e
    exact hl (e ▸ List.mem_reverse.1 hx)
  have key : ∀ r : Name, lastName (dir ++ (base ++ '.' :: e)) = base ++ '.' :: e := by
    intro _
    refine lastName_spec _ _ ?_ hd
    simp only [List.mem_append, List.mem_cons, not_or]
    exact ⟨h, by decide, he.1⟩
  have hr : (base ++ '.' :: e).reverse = e.reverse ++ '.' :: base.reverse := by simp
  have ht : (e.reverse ++ '.' :: base.reverse).takeWhile (· != '.') = e.reverse := by
    rw [List.takeWhile_append_of_pos (tw e he.2), List.takeWhile_cons_of_neg (by decide), List.append_nil]
  have hdr : (e.reverse ++ '.' :: base.reverse).drop e.reverse.length = '.' :: base.reverse := List.drop_left
  refine ⟨fun hb => ?_, fun hb => ?_, fun hb => ?_⟩
  · unfold extOf
    dsimp only
    rw [key [], hr, ht, hdr, List.reverse_reverse]
    dsimp only
    rw [if_pos]
    obtain ⟨c, hc, hne⟩ := hb
    exact List.any_eq_true.2 ⟨c, List.mem_reverse.2 hc, by rw [bne_iff_ne]; exact hne⟩
  · unfold extOf
    dsimp only
    rw [key [], hr, ht, hdr]
    dsimp only
    rw [if_neg]
    intro ha
    obtain ⟨c, hc, hne⟩ := List.any_eq_true.1 ha
    rw [bne_iff_ne] at hne
    exact hne (hb c (List.mem_reverse.1 hc))
  · unfold extOf
    dsimp only
    rw [lastName_spec dir base h hd, takeWhile_all _ _ (tw base hb), List.drop_length]

/-! ### the same data in three forms -/

/-- The folder `p` holds the slices of `a` as images, in the order of the names, and no other tif. -/
def HoldsSlices (fs : Files K) (p : Name) (a : Arr3 K) : Prop :=
  ((fs.folder p).map (·.1)).Nodup ∧
  ∃ names : List Name, names.length = a.d ∧ names.Pairwise (· ≤ ·) ∧ names.Perm (((fs.folder p).map (·.1)).filter (fnmatch "*.tif*".toList)) ∧
    ∀ k (hk : k < names.length), ∃ m, (names[k], NdArr.two m) ∈ fs.folder p ∧ m.Eqv ⟨a.h, a.w, a.get k⟩

/-- The file `p` holds the dataset `a` under the key `k`. -/
def HoldsDataset (fs : Files K) (p k : Name) (a : Arr3 K) : Prop :=
  ∃ l, fs.file p = some l ∧ Dir.find l k = some (.three a)

/-- **C135** (partial): a 3D array, a folder of tif files (its name without a dot) and a hdf file (extension `.hdf`, `.h5` or `.nxs`) with the same data are
reported with the same depth, height and width. -/
theorem shape_forms_partial (fs : Files K) (a : Arr3 K) (folder file key : Name) (hd : 0 < a.d) (hf : HoldsSlices fs folder a)
    (hh : HoldsDataset fs file key a) (he : extOf folder = []) (hx : isHdfExt (extOf file) = true) :
    getShape fs (.array (.three a)) none = .ok (a.d, a.h, a.w) ∧ getShape fs (.path folder) none = .ok (a.d, a.h, a.w) ∧
    getShape fs (.path file) (some key) = .ok (a.d, a.h, a.w) := by
  refine ⟨rfl, ?_, ?_⟩
  · obtain ⟨hnd, names, h1, h2, h3, h4⟩ := hf
    have hne : names ≠ [] := by
      rintro rfl
      simp at h1
      omega
    have ht : fs.tifs folder = .ok names := findFile_eq _ _ _ hne h3 h2
    unfold getShape
    simp only [inputType, he, if_true, ht]
    show Except.bind (fs.tifs folder) _ = _
    rw [ht]
    show (match names with
      | [] => Except.error PyErr.indexError
      | f :: _ => match (fs.folder folder).find f with
        | none => Except.error PyErr.fileNotFound
        | some im => Except.ok (names.length, (loadImage im).h, (loadImage im).w)) = _
    cases names with
    | nil => exact absurd rfl hne
    | cons f rest =>
      obtain ⟨m, hm, hq⟩ := h4 0 (by simp)
      have := find_mem (fs.folder folder) hnd _ hm
      dsimp only [List.getElem_cons_zero] at this ⊢
      rw [this]
      dsimp only
      rw [h1, show (loadImage (NdArr.two m)).h = a.h from hq.1, show (loadImage (NdArr.two m)).w = a.w from hq.2.1]
  · obtain ⟨l, hl, hk⟩ := hh
    have hne : extOf file ≠ [] := by
      intro h
      rw [h] at hx
      exact absurd hx (by decide)
    unfold getShape
    simp only [inputType, if_neg hne, hx, if_true]
    show (match fs.file file with
      | none => Except.error PyErr.fileNotFound
      | some l => match Dir.find l key with
        | none => Except.error PyErr.valueError
        | some d => shape3 d) = _
    rw [hl]
    dsimp only
    rw [hk]
    rfl

/-- What a user expects: the name of a folder with tif files does not matter. -/
def AnyFolderName : Prop := ∀ (fs : Files ℚ) (p : Name) (a : Arr3 ℚ), 0 < a.d → HoldsSlices fs p a → ∃ s, getShape fs (.path p) none = .ok s

/-- **C135** is false of the code for folders with a dot in the name: "scan_0.5" is taken for a file with the extension ".5" and refused. -/
theorem folder_name_refuted : ¬ AnyFolderName := by
  intro h
  have hx : extOf "scan_0.5".toList = ".5".toList := by decide
  obtain ⟨s, hs⟩ := h ⟨fun _ => [("a.tif".toList, .two ⟨1, 1, fun _ _ => 0⟩)], fun _ => none⟩ "scan_0.5".toList ⟨1, 1, 1, fun _ _ _ => 0⟩ (by decide)
    ⟨by simp, ["a.tif".toList], rfl, by simp, by
      have : List.filter (fnmatch "*.tif*".toList) ["a.tif".toList] = ["a.tif".toList] := by decide +kernel
      show ["a.tif".toList].Perm (List.filter (fnmatch "*.tif*".toList) ["a.tif".toList])
      rw [this], fun k hk => by
      have : k = 0 := by simpa using hk
      subst this
      exact ⟨⟨1, 1, fun _ _ => 0⟩, by simp, rfl, rfl, fun _ _ _ _ => rfl⟩⟩
  unfold getShape at hs
  simp only [inputType, hx] at hs
  cases hs

/-- **C135.** Output: a path whose last name has no extension means a folder of tif files, the extensions `.hdf`, `.h5`, `.nxs` mean a hdf file; everything else,
for instance `.hdf5` or `.tif`, is refused. -/
theorem output_spec (p : Name) :
    (outputType p = .ok false ↔ extOf p = []) ∧
    (outputType p = .ok true ↔ extOf p = ".hdf".toList ∨ extOf p = ".h5".toList ∨ extOf p = ".nxs".toList) ∧
    (outputType p = .error .valueError ↔ extOf p ≠ [] ∧ extOf p ≠ ".hdf".toList ∧ extOf p ≠ ".h5".toList ∧ extOf p ≠ ".nxs".toList) := by
  unfold outputType
  have hb : ∀ e : Name, isHdfExt e = true ↔ e = ".hdf".toList ∨ e = ".h5".toList ∨ e = ".nxs".toList := by
    intro e
    unfold isHdfExt
    rw [Bool.or_eq_true, Bool.or_eq_true, beq_iff_eq, beq_iff_eq, beq_iff_eq, or_assoc]
  by_cases h0 : extOf p = []
  · rw [if_pos h0, h0]
    refine ⟨by simp, ?_, ?_⟩
    · constructor
      · intro h; cases h
      · intro h; revert h; decide
    · constructor
      · intro h; cases h
      · intro h; exact absurd rfl h.1
  · rw [if_neg h0]
    by_cases h1 : isHdfExt (extOf p) = true
    · rw [if_pos h1]
      have h2 := (hb _).1 h1
      refine ⟨?_, ?_, ?_⟩
      · constructor
        · intro h; cases h
        · intro h; exact absurd h h0
      · exact ⟨fun _ => h2, fun _ => rfl⟩
      · constructor
        · intro h; cases h
        · rintro ⟨_, a, b, c⟩
          rcases h2 with h | h | h
          · exact absurd h a
          · exact absurd h b
          · exact absurd h c
    · rw [if_neg h1]
      rw [hb] at h1
      push Not at h1
      refine ⟨?_, ?_, ?_⟩
      · constructor
        · intro h; cases h
        · intro h; exact absurd h h0
      · constructor
        · intro h; cases h
        · rintro (h | h | h)
          · exact absurd h h1.1
          · exact absurd h h1.2.1
          · exact absurd h h1.2.2
      · exact ⟨fun _ => ⟨h0, h1.1, h1.2.1, h1.2.2⟩, fun _ => rfl⟩

/-- **C135.** Refused inputs: 2D arrays, objects that are neither array nor string, folders without tif files, hdf files without key or with a wrong one, and files
with another extension. -/
theorem shape_refused (fs : Files K) (key : Option Name) :
    (∀ m : Mat K, getShape fs (.array (.two m)) key = .error .valueError) ∧
    (getShape fs (.other : Input K) key = .error .valueError) ∧
    (∀ p, extOf p = [] → (∀ e ∈ fs.folder p, fnmatch "*.tif*".toList e.1 = false) → getShape fs (.path p) key = .error .fileNotFound) ∧
    (∀ p, isHdfExt (extOf p) = true → getShape fs (.path p) none = .error .valueError) ∧
    (∀ p k l, isHdfExt (extOf p) = true → fs.file p = some l → Dir.find l k = none → getShape fs (.path p) (some k) = .error .valueError) ∧
    (∀ p, extOf p ≠ [] → isHdfExt (extOf p) = false → getShape fs (.path p) key = .error .valueError) := by
  have hne : ∀ p : Name, isHdfExt (extOf p) = true → extOf p ≠ [] := by
    intro p hx h
    rw [h] at hx
    exact absurd hx (by decide)
  refine ⟨fun m => rfl, rfl, fun p h0 h => ?_, fun p hx => ?_, fun p k l hx hl hk => ?_, fun p h0 hx => ?_⟩
  · have : fs.tifs p = .error .fileNotFound := (find_file_spec _ _).1 fun n hn => by
      obtain ⟨e, he, rfl⟩ := List.mem_map.1 hn
      exact h e he
    unfold getShape
    simp only [inputType, h0, if_true, this]
    rfl
  · unfold getShape
    simp only [inputType, if_neg (hne p hx), hx, if_true]
    rfl
  · unfold getShape
    simp only [inputType, if_neg (hne p hx), hx, if_true]
    show (match fs.file p with
      | none => Except.error PyErr.fileNotFound
      | some l => match Dir.find l k with
        | none => Except.error PyErr.valueError
        | some d => shape3 d) = _
    rw [hl]
    dsimp only
    rw [hk]
  · unfold getShape
    simp only [inputType, if_neg h0, hx]
    rfl

/-! ### load_image_multiple -/

theorem mapM_id_map {α β : Type} (l : List α) (f : α → Py β) : (l.map f).mapM id = l.mapM f := by
  induction l with
  | nil => rfl
  | cons a l ih => rw [List.map_cons, List.mapM_cons, List.mapM_cons, ih]; rfl

theorem mapM_ok_get {α β : Type} (l : List α) (f : α → Py β) (r : List β) (h : l.mapM f = .ok r) :
    r.length = l.length ∧ ∀ k (h1 : k < l.length) (h2 : k < r.length), f l[k] = .ok r[k] := by
  induction l generalizing r with
  | nil =>
    cases h
    exact ⟨rfl, fun k h1 => absurd h1 (by simp)⟩
  | cons a l ih =>
    rw [List.mapM_cons] at h
    cases ha : f a with
    | error e => rw [ha] at h; cases h
    | ok b =>
      rw [ha] at h
      change Except.bind (l.mapM f) _ = _ at h
      cases hl : l.mapM f with
      | error e => rw [hl] at h; cases h
      | ok bs =>
        rw [hl] at h
        cases h
        obtain ⟨i1, i2⟩ := ih bs hl
        refine ⟨by simp [i1], fun k h1 h2 => ?_⟩
        cases k with
        | zero => exact ha
        | succ k => exact i2 k (by simpa using h1) (by simpa using h2)

/-- The result, serial or parallel. -/
theorem loadMany_eq (load : Name → Py (Mat K)) (cores : Nat) (paths : List Name) (ncore : Option Int) (sched : List Ev) (r : Py (List (Mat K)))
    (h : loadMany load cores paths ncore sched = some r) : r = (paths.mapM load).bind fun imgs =>
      match imgs with
      | [] => (.ok [] : Py (List (Mat K)))
      | m :: _ => if imgs.all (fun x => x.h == m.h && x.w == m.w) then .ok imgs else .error .valueError := by
  unfold loadMany at h
  dsimp only at h
  generalize npClip (ncore.getD (cores : Int)) 1 (paths.length : Int) = nc at h
  by_cases hc : 1 < nc
  · rw [if_pos hc] at h
    cases hp : parMap paths.length nc.toNat (fun i => load (paths.getD i [])) sched with
    | none => rw [hp] at h; cases h
    | some l =>
      rw [hp] at h
      have hl := Center.parMap_eq _ _ _ _ _ hp
      have : l = paths.map load := by
        rw [hl]
        apply List.ext_getElem
        · simp
        · intro i h1 h2
          simp only [List.length_map, List.length_range] at h1
          simp [List.getD_eq_getElem?_getD, List.getElem?_eq_getElem h1]
      rw [Option.map_some, this, mapM_id_map] at h
      exact (Option.some.inj h).symm
  · rw [if_neg hc] at h
    exact (Option.some.inj h).symm

/-- **C136.** The images are those of the paths, in their order, whatever the number of workers and the order in which they finish. -/
theorem load_multiple_spec (load : Name → Py (Mat K)) (cores : Nat) (paths : List Name) (ncore : Option Int) (sched : List Ev) (imgs : List (Mat K))
    (h : loadMany load cores paths ncore sched = some (.ok imgs)) :
    imgs.length = paths.length ∧ (∀ k (h1 : k < paths.length) (h2 : k < imgs.length), load paths[k] = .ok imgs[k]) ∧
      ∀ m ∈ imgs, ∀ m' ∈ imgs, m.h = m'.h ∧ m.w = m'.w := by
  have hr := loadMany_eq load cores paths ncore sched _ h
  cases hm : paths.mapM load with
  | error e => rw [hm] at hr; cases hr
  | ok l =>
    rw [hm] at hr
    obtain ⟨h1, h2⟩ := mapM_ok_get paths load l hm
    have : imgs = l ∧ ∀ m ∈ l, ∀ m' ∈ l, m.h = m'.h ∧ m.w = m'.w := by
      cases l with
      | nil => cases hr; exact ⟨rfl, fun m hm => absurd hm (by simp)⟩
      | cons m l =>
        change Except.ok imgs = (if (m :: l).all (fun x => x.h == m.h && x.w == m.w) then Except.ok (m :: l) else Except.error PyErr.valueError) at hr
        by_cases hc : (m :: l).all (fun x => x.h == m.h && x.w == m.w) = true
        · rw [if_pos hc] at hr
          cases hr
          refine ⟨rfl, fun x hx y hy => ?_⟩
          have a1 := List.all_eq_true.1 hc x hx
          have a2 := List.all_eq_true.1 hc y hy
          simp only [Bool.and_eq_true, beq_iff_eq] at a1 a2
          exact ⟨a1.1.trans a2.1.symm, a1.2.trans a2.2.symm⟩
        · rw [if_neg hc] at hr
          cases hr
    obtain ⟨rfl, h3⟩ := this
    exact ⟨h1, h2, h3⟩

/-- **C136.** Number of workers and order of completion do not matter, neither for the images nor for the error. -/
theorem load_multiple_indep (load : Name → Py (Mat K)) (cores cores' : Nat) (paths : List Name) (ncore ncore' : Option Int) (sched sched' : List Ev)
    (r r' : Py (List (Mat K))) (h : loadMany load cores paths ncore sched = some r) (h' : loadMany load cores' paths ncore' sched' = some r') : r = r' := by
  rw [loadMany_eq _ _ _ _ _ _ h, loadMany_eq _ _ _ _ _ _ h']

/-- **C136.** Images are returned exactly when every file can be read and all have the same size; nothing is left out silently. -/
theorem load_multiple_ok_iff (load : Name → Py (Mat K)) (cores : Nat) (paths : List Name) (ncore : Option Int) (sched : List Ev) (r : Py (List (Mat K)))
    (h : loadMany load cores paths ncore sched = some r) :
    (∃ imgs, r = .ok imgs) ↔ (∀ p ∈ paths, ∃ m, load p = .ok m) ∧
      ∀ p ∈ paths, ∀ p' ∈ paths, ∀ m m', load p = .ok m → load p' = .ok m' → m.h = m'.h ∧ m.w = m'.w := by
  constructor
  · rintro ⟨imgs, rfl⟩
    obtain ⟨h1, h2, h3⟩ := load_multiple_spec load cores paths ncore sched imgs h
    have idx : ∀ p ∈ paths, ∃ m ∈ imgs, load p = .ok m := by
      intro p hp
      obtain ⟨k, hk, rfl⟩ := List.getElem_of_mem hp
      exact ⟨imgs[k]'(by omega), List.getElem_mem _, h2 k hk (by omega)⟩
    refine ⟨fun p hp => let ⟨m, _, hm⟩ := idx p hp; ⟨m, hm⟩, fun p hp p' hp' m m' hm hm' => ?_⟩
    obtain ⟨x, hx, hxm⟩ := idx p hp
    obtain ⟨y, hy, hym⟩ := idx p' hp'
    rw [hm] at hxm
    rw [hm'] at hym
    cases hxm
    cases hym
    exact h3 _ hx _ hy
  · rintro ⟨h1, h2⟩
    rw [loadMany_eq _ _ _ _ _ _ h]
    have hex : ∀ l : List Name, (∀ p ∈ l, ∃ m, load p = .ok m) → ∃ imgs, l.mapM load = .ok imgs := by
      intro l
      induction l with
      | nil => intro _; exact ⟨[], rfl⟩
      | cons a l ih =>
        intro hl
        obtain ⟨m, hm⟩ := hl a (by simp)
        obtain ⟨ms, hms⟩ := ih fun p hp => hl p (by simp [hp])
        exact ⟨m :: ms, by rw [List.mapM_cons, hm, hms]; rfl⟩
    obtain ⟨imgs, hi⟩ := hex paths h1
    obtain ⟨g1, g2⟩ := mapM_ok_get paths load imgs hi
    rw [hi]
    cases imgs with
    | nil => exact ⟨[], rfl⟩
    | cons m l =>
      refine ⟨m :: l, ?_⟩
      show (if (m :: l).all (fun x => x.h == m.h && x.w == m.w) then Except.ok (m :: l) else Except.error PyErr.valueError) = _
      rw [if_pos]
      refine List.all_eq_true.2 fun x hx => ?_
      obtain ⟨k, hk, rfl⟩ := List.getElem_of_mem hx
      have a0 := g2 0 (by rw [← g1]; simp) (by simp)
      have ak := g2 k (by rw [← g1]; exact hk) hk
      have := h2 _ (List.getElem_mem _) _ (List.getElem_mem _) _ _ ak a0
      simp only [Bool.and_eq_true, beq_iff_eq]
      exact this

/-- Non-vacuity: two files, one worker or two. -/
example : (∃ r, loadMany (K := ℚ) (fun _ => .ok ⟨1, 1, fun _ _ => 0⟩) 4 ["a".toList, "b".toList] (some 1) [] = some r) ∧
    (match loadMany (K := ℚ) (fun p => .ok ⟨1, 1, fun _ _ => p.length⟩) 4 ["a".toList, "bb".toList] (some 2) [.start 0, .start 1, .finish 1, .finish 0] with
      | some (.ok [m, m']) => decide (m.get 0 0 = 1 ∧ m'.get 0 0 = 2)
      | _ => false) = true := by
  refine ⟨⟨_, rfl⟩, by decide +kernel⟩

/-- Non-vacuity: paths with the extensions named. -/
example : extOf "/data/scan".toList = [] ∧ isHdfExt (extOf "/da.ta/scan.h5".toList) = true ∧ extOf "/data/scan.hdf5".toList = ".hdf5".toList ∧ extOf "/d/.hdf".toList = [] := by
  decide

end Verif.InputTypes
