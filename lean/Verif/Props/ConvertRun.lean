import Verif.Model.ConvertRun
import Verif.Props.ResliceRun
import Verif.Props.Convert

/-!
C153, C154 — the converters between tif folders and hdf files, with crashes.
-/

set_option linter.unusedSectionVars false
set_option linter.unusedSimpArgs false

namespace Verif.ConvertRun
open Verif.Io Verif.Convert Verif.Writer Verif.ResliceRun

variable {K : Type} [Field K] [LinearOrder K]

/-! ### specification -/

/-- A file as the decoded array it holds. -/
def toNd : File K → NdArr K
  | .image m => .two m
  | .data sh d => .three ⟨sh.1, sh.2.1, sh.2.2, fun k i j => match d k with
      | some m => m.get i j
      | none => 0⟩

/-- The files of a folder, decoded. -/
def contents (s : Disk (File K)) (p : Name) : Dir (NdArr K) := ((s p).getD []).map fun e => (e.1, toNd e.2)

/-- The output file is not one of the input files, also if it lies in the input folder. -/
def ConvArgs.Apart (A : ConvArgs) : Prop := A.input ≠ A.dir ∨ fnmatch (tifPattern A.pattern) A.name = false

/-- The files that match the pattern are images. -/
def ConvArgs.Images (A : ConvArgs) (s : Disk (File K)) : Prop :=
  ∀ n, fnmatch (tifPattern A.pattern) n = true → ∀ x, s.file A.input n = some x → ∃ m, x = .image m

/-! ### convert_tif_to_hdf -/

theorem contents_names (s : Disk (File K)) (p : Name) : (contents s p).map (·.1) = ((s p).getD []).map (·.1) := by
  unfold contents
  rw [List.map_map]
  rfl

theorem contents_find (s : Disk (File K)) (p n : Name) : (contents s p).find n = (s.file p n).map toNd := by
  unfold contents Disk.file Dir.find
  rw [List.find?_map, Option.map_map, Option.map_map]
  rfl

theorem imageOf_eq (s : Disk (File K)) (p n : Name) (m : Mat K) (h : s.file p n = some (.image m)) : imageOf s p n = .ok m := by
  unfold Disk.file at h
  unfold imageOf
  rw [h]

theorem dataOf_eq (s : Disk (File K)) (p n : Name) (sh : Nat × Nat × Nat) (d : Nat → Option (Mat K)) (h : s.file p n = some (.data sh d)) :
    dataOf s p n = .ok (sh, d) := by
  unfold Disk.file at h
  unfold dataOf
  rw [h]

theorem loadHdf_eq (s : Disk (File K)) (p n : Name) (sh : Nat × Nat × Nat) (d : Nat → Option (Mat K)) (h : s.file p n = some (.data sh d)) :
    loadHdf s p n = .ok ⟨sh.1, sh.2.1, sh.2.2, fun k i j => match d k with
      | some m => m.get i j
      | none => 0⟩ := by
  unfold Disk.file at h
  unfold loadHdf
  rw [h]
  rfl

theorem loadHdf_congr (s t : Disk (File K)) (p n : Name) (h : s.file p n = t.file p n) : loadHdf s p n = loadHdf t p n := by
  unfold Disk.file at h
  unfold loadHdf
  rw [h]

theorem slab_cons {α : Type} (d : Nat → Option α) (i : Nat) (r : α) (rs : List α) :
    Post.writeSlab (Post.writeSlab d i [r]) (i + 1) rs = Post.writeSlab d i (r :: rs) := by
  funext k
  unfold Post.writeSlab
  simp only [List.length_cons, List.length_nil]
  by_cases h1 : i + 1 ≤ k ∧ k < i + 1 + rs.length
  · rw [if_pos h1, if_pos (by omega), show k - i = (k - (i + 1)) + 1 by omega, List.getElem?_cons_succ]
  · rw [if_neg h1]
    by_cases h2 : k = i
    · subst h2
      rw [if_pos (by omega), if_pos (by omega)]
      simp
    · rw [if_neg (by omega), if_neg (by omega)]

/-- The window of an image that is written. -/
def window (A : ConvArgs) (h w : Nat) (m : Mat K) : Py (Mat K) := writeSlice h w (cut m A.crop.top (h + A.crop.top) A.crop.left (w + A.crop.left))

/-- The loop of `convert_tif_to_hdf`. -/
theorem conv_loop (A : ConvArgs) (h w : Nat) (img : Name → Mat K) (L : List Name) (hL : ∀ f ∈ L, ¬ (A.input = A.dir ∧ f = A.name)) (i : Nat) (s : Disk (File K))
    (himg : ∀ f ∈ L, s.file A.input f = some (.image (img f))) (sh : Nat × Nat × Nat) (d : Nat → Option (Mat K))
    (hd : s.file A.dir A.name = some (.data sh d)) :
    (∀ rs, L.mapM (fun f => window A h w (img f)) = .ok rs →
      ∃ t, runOps s (L.mapIdx fun j f => .save A.dir [(A.name, convStep A h w (i + j) f)]) = .ok t ∧ t.file A.dir A.name = some (.data sh (Post.writeSlab d i rs))) ∧
    ∀ e, L.mapM (fun f => window A h w (img f)) = .error e →
      runOps s (L.mapIdx fun j f => .save A.dir [(A.name, convStep A h w (i + j) f)]) = .error e := by
  induction L generalizing i s d with
  | nil =>
    refine ⟨fun rs hr => ⟨s, rfl, ?_⟩, fun e he => (by cases he)⟩
    cases hr
    rw [hd]
    congr 2
    funext k
    unfold Post.writeSlab
    rw [if_neg (by simp)]
  | cons f L ih =>
    rw [List.mapM_cons, List.mapIdx_cons, runOps_cons]
    have hstep : ∀ r, window A h w (img f) = .ok r → convStep A h w i f s = .ok (.data sh (Post.writeSlab d i [r])) := by
      intro r hr
      unfold convStep
      rw [imageOf_eq s _ _ _ (himg f (by simp)), dataOf_eq s _ _ _ _ hd]
      change (window A h w (img f)).bind _ = _
      rw [hr]
      rfl
    have hstepE : ∀ e, window A h w (img f) = .error e → convStep A h w i f s = .error e := by
      intro e hr
      unfold convStep
      rw [imageOf_eq s _ _ _ (himg f (by simp)), dataOf_eq s _ _ _ _ hd]
      change (window A h w (img f)).bind _ = _
      rw [hr]
      rfl
    cases hw : window A h w (img f) with
    | error e =>
      refine ⟨fun rs hr => (by cases hr), fun e' he => ?_⟩
      cases he
      have : (Op.save A.dir [(A.name, convStep A h w (i + 0) f)]).act s = .error e := by
        change Except.map _ (List.mapM _ [(A.name, convStep A h w i f)]) = _
        rw [List.mapM_cons]
        dsimp only
        rw [hstepE e hw]
        rfl
      rw [this]
      rfl
    | ok r =>
      rw [Nat.add_zero, save_one s A.dir A.name _ _ (hstep r hw)]
      have hs1 : (s.save A.dir A.name (.data sh (Post.writeSlab d i [r]))).file A.dir A.name = some (.data sh (Post.writeSlab d i [r])) := by
        rw [save_file, if_pos ⟨rfl, rfl⟩]
      have hidx : (L.mapIdx fun j f => Op.save A.dir [(A.name, convStep A h w (i + (j + 1)) f)]) =
          (L.mapIdx fun j f => Op.save A.dir [(A.name, convStep (K := K) A h w (i + 1 + j) f)]) := by
        congr 1
        funext j f
        rw [show i + (j + 1) = i + 1 + j by omega]
      obtain ⟨a, b⟩ := ih (fun g hg => hL g (List.mem_cons_of_mem _ hg)) (i + 1) _ (fun g hg => by
        rw [save_file, if_neg (hL g (List.mem_cons_of_mem _ hg))]
        exact himg g (List.mem_cons_of_mem _ hg)) _ hs1
      rw [hidx]
      constructor
      · intro rs hr
        cases hm : L.mapM (fun f => window A h w (img f)) with
        | error e => rw [hm] at hr; cases hr
        | ok rs' =>
          rw [hm] at hr
          cases hr
          obtain ⟨t, h1, h2⟩ := a rs' hm
          refine ⟨t, h1, ?_⟩
          rw [h2, slab_cons]
      · intro e he
        cases hm : L.mapM (fun f => window A h w (img f)) with
        | error e' =>
          rw [hm] at he
          cases he
          exact b e hm
        | ok rs' => rw [hm] at he; cases he

/-- The files found are in the folder and match. -/
theorem found_mem (names : List Name) (pat : Name) (l : List Name) (h : findFile names pat = .ok l) :
    l ≠ [] ∧ ∀ n, n ∈ l ↔ n ∈ names ∧ fnmatch pat n = true := by
  by_cases hx : ∃ n ∈ names, fnmatch pat n = true
  · obtain ⟨l', h1, -, h3⟩ := (find_file_spec names pat).2.1 hx
    rw [h] at h1
    cases h1
    refine ⟨?_, fun n => by rw [h3.mem_iff, List.mem_filter]⟩
    rintro rfl
    obtain ⟨n, hn, hm⟩ := hx
    have := h3.mem_iff.2 (List.mem_filter.2 ⟨hn, hm⟩)
    cases this
  · rw [(find_file_spec names pat).1 fun n hn => by
      rw [← Bool.not_eq_true]; exact fun hm => hx ⟨n, hn, hm⟩] at h
    cases h

/-- **C153.** The conversion with all its steps on the disk leaves the dataset of C127 in the output file, or raises what C127 says. -/
theorem convert_dataset (A : ConvArgs) (s : Disk (File K)) (hA : A.Apart) (hi : A.Images s) :
    (convRun A s).bind (fun sF => loadHdf sF A.dir A.name) = convertTif (contents s A.input) A.pattern A.crop := by
  unfold convRun convPlan convertTif
  rw [contents_names]
  cases hf : findFile (((s A.input).getD []).map (·.1)) (tifPattern A.pattern) with
  | error e => rfl
  | ok files =>
    obtain ⟨hne, hmem⟩ := found_mem _ _ _ hf
    have hex : ∀ f ∈ files, ∃ m, s.file A.input f = some (.image m) := by
      intro f hf
      obtain ⟨h1, h2⟩ := (hmem f).1 hf
      have h3 := (mem_names _ _).1 h1
      obtain ⟨x, hx⟩ := Option.isSome_iff_exists.1 h3
      obtain ⟨m, rfl⟩ := hi f h2 x hx
      exact ⟨m, hx⟩
    have hoff : ∀ f ∈ files, ¬ (A.input = A.dir ∧ f = A.name) := by
      rintro f hf ⟨h1, rfl⟩
      rcases hA with hA | hA
      · exact hA h1
      · rw [((hmem _).1 hf).2] at hA
        cases hA
    obtain ⟨img, himg⟩ : ∃ img : Name → Mat K, ∀ f ∈ files, s.file A.input f = some (.image (img f)) := by
      classical
      refine ⟨fun f => if h : f ∈ files then (hex f h).choose else ⟨0, 0, fun _ _ => 0⟩, fun f hf => ?_⟩
      dsimp only
      rw [dif_pos hf]
      exact (hex f hf).choose_spec
    cases files with
    | nil => exact absurd rfl hne
    | cons f0 fs =>
      have himgs : (f0 :: fs).filterMap (fun n => ((contents s A.input).find n).map loadImage) = (f0 :: fs).map img := by
        rw [← List.filterMap_eq_map]
        refine List.filterMap_congr fun f hf => ?_
        rw [contents_find, himg f hf]
        rfl
      change Except.bind (Except.bind (Except.bind (imageOf s A.input f0) fun m0 =>
          if ((m0.h : Int) - A.crop.top - A.crop.bottom) < 1 ∨ ((m0.w : Int) - A.crop.left - A.crop.right) < 1 then Except.error PyErr.valueError
          else Except.ok (convOps A (f0 :: fs) ((m0.h : Int) - A.crop.top - A.crop.bottom).toNat ((m0.w : Int) - A.crop.left - A.crop.right).toNat))
          (fun ops => runOps s ops)) _ = (match (f0 :: fs).filterMap (fun n => ((contents s A.input).find n).map loadImage) with
        | [] => Except.error PyErr.fileNotFound
        | m0 :: rest => convertImages (m0 :: rest) m0 A.crop)
      rw [himgs, imageOf_eq s _ _ _ (himg f0 (by simp))]
      change (Except.bind (if (((img f0).h : Int) - A.crop.top - A.crop.bottom) < 1 ∨ (((img f0).w : Int) - A.crop.left - A.crop.right) < 1 then
          Except.error PyErr.valueError
        else Except.ok (convOps A (f0 :: fs) (((img f0).h : Int) - A.crop.top - A.crop.bottom).toNat (((img f0).w : Int) - A.crop.left - A.crop.right).toNat))
          (fun ops => runOps s ops)).bind _ = convertImages ((f0 :: fs).map img) (img f0) A.crop
      unfold convertImages
      dsimp only
      generalize (((img f0).h : Int) - A.crop.top - A.crop.bottom) = crH
      generalize (((img f0).w : Int) - A.crop.left - A.crop.right) = crW
      by_cases hc : crH < 1 ∨ crW < 1
      · rw [if_pos hc, if_pos hc]
        rfl
      · rw [if_neg hc, if_neg hc]
        change (runOps s (convOps A (f0 :: fs) crH.toNat crW.toNat)).bind _ = _
        unfold convOps
        rw [runOps_append, runOps_cons]
        change ((runOps (s.mkdir A.dir) _).bind _).bind _ = _
        rw [runOps_cons, save_one _ _ _ _ _ rfl]
        change (runOps _ _).bind _ = _
        have hs0 : ((s.mkdir A.dir).save A.dir A.name (.data ((f0 :: fs).length, crH.toNat, crW.toNat) fun _ => none)).file A.dir A.name =
            some (.data ((f0 :: fs).length, crH.toNat, crW.toNat) fun _ => none) := by rw [save_file, if_pos ⟨rfl, rfl⟩]
        obtain ⟨a, b⟩ := conv_loop A crH.toNat crW.toNat img (f0 :: fs) hoff 0 _ (fun f hf => by
          rw [save_file, if_neg (hoff f hf), mkdir_file]
          exact himg f hf) _ _ hs0
        simp only [Nat.zero_add] at a b
        rw [List.mapM_map]
        change _ = ((f0 :: fs).mapM fun f => window A crH.toNat crW.toNat (img f)).bind _
        cases hm : (f0 :: fs).mapM fun f => window A crH.toNat crW.toNat (img f) with
        | error e =>
          rw [b e hm]
          rfl
        | ok rs =>
          obtain ⟨t, h1, h2⟩ := a rs hm
          rw [h1]
          change loadHdf t A.dir A.name = _
          rw [loadHdf_eq t _ _ _ _ h2]
          change Except.ok _ = Except.ok _
          congr 2
          · simp
          · funext k i j
            unfold Post.writeSlab
            rw [Nat.zero_add, Nat.sub_zero]
            by_cases hk : 0 ≤ k ∧ k < rs.length
            · rw [if_pos hk]
              rfl
            · rw [if_neg hk, List.getElem?_eq_none (by omega)]

/-! ### convert_tif_to_hdf: stops and restarts -/

theorem plan_convOps (A : ConvArgs) (s : Disk (File K)) (ops : List (Op K)) (h : convPlan A s = .ok ops) :
    ∃ files h w, findFile (((s A.input).getD []).map (·.1)) (tifPattern A.pattern) = .ok files ∧ ops = convOps A files h w := by
  unfold convPlan at h
  cases hf : findFile (((s A.input).getD []).map (·.1)) (tifPattern A.pattern) with
  | error e => rw [hf] at h; cases h
  | ok files =>
    rw [hf] at h
    change (imageOf s A.input (files.headD [])).bind _ = _ at h
    cases hm : imageOf s A.input (files.headD []) with
    | error e => rw [hm] at h; cases h
    | ok m0 =>
      rw [hm] at h
      change (if _ then _ else _) = _ at h
      split at h
      · cases h
      · cases h
        exact ⟨files, _, _, rfl, rfl⟩

theorem convOps_cases (A : ConvArgs) (files : List Name) (h w : Nat) (Q : Op K → Prop) (h1 : Q (.mkdir A.dir)) (h2 : ∀ f, Q (.save A.dir [(A.name, f)])) :
    ∀ op ∈ convOps A files h w, Q op := by
  intro op hop
  unfold convOps at hop
  rw [List.mem_append] at hop
  rcases hop with hop | hop
  · simp only [List.mem_cons, List.not_mem_nil, or_false] at hop
    rcases hop with rfl | rfl
    exacts [h1, h2 _]
  · rw [List.mem_mapIdx] at hop
    obtain ⟨i, hi, rfl⟩ := hop
    exact h2 _

theorem conv_regions (A : ConvArgs) (files : List Name) (h w : Nat) : ∀ op ∈ (convOps A files h w : List (Op K)), ∀ q n, op.region q n → q = A.dir ∧ n = A.name := by
  refine convOps_cases A files h w _ (fun q n h => h.elim) fun f q n hr => ⟨hr.1, by simpa using hr.2⟩

theorem conv_makes (A : ConvArgs) (files : List Name) (h w : Nat) : ∀ op ∈ (convOps A files h w : List (Op K)), ∀ q, op.makes q → q = A.dir := by
  refine convOps_cases A files h w _ (fun q h => h) fun f q hr => hr.1

theorem conv_reads (A : ConvArgs) (files : List Name) (h w : Nat) (G : Name → Name → Prop) (hG : ∀ f ∈ files, G A.input f) :
    ReadsAll G (convOps A files h w : List (Op K)) := by
  unfold convOps
  refine readsAll_append _ _ _ ⟨True.intro, fun e he s t _ => ?_, True.intro⟩ (readsAll_of _ _ fun op hop => ?_)
  · rw [List.mem_singleton.1 he]
  · rw [List.mem_mapIdx] at hop
    obtain ⟨i, hi, rfl⟩ := hop
    intro e he s t hst
    rw [List.mem_singleton.1 he]
    dsimp only
    unfold convStep
    rw [imageOf_congr s t _ _ (hst _ _ (Or.inl (hG _ (List.getElem_mem hi)))),
      dataOf_congr s t _ _ (hst _ _ (Or.inr ⟨_, List.mem_cons_of_mem _ List.mem_cons_self, rfl, by simp⟩))]

/-- The plan is determined by the matching files. -/
theorem convPlan_congr (A : ConvArgs) (s t : Disk (File K)) (hs : s.Proper A.input) (ht : t.Proper A.input)
    (h : ∀ n, fnmatch (tifPattern A.pattern) n = true → s.file A.input n = t.file A.input n) : convPlan A s = convPlan A t := by
  have hff : findFile (((s A.input).getD []).map (·.1)) (tifPattern A.pattern) = findFile (((t A.input).getD []).map (·.1)) (tifPattern A.pattern) := by
    have key : ∀ names : List Name, findFile names (tifPattern A.pattern) = findFile (names.filter (fnmatch (tifPattern A.pattern))) (tifPattern A.pattern) := by
      intro names
      unfold findFile
      rw [List.filter_filter]
      simp only [Bool.and_self]
    rw [key, key (((t A.input).getD []).map (·.1))]
    refine (find_file_spec _ _).2.2 _ ((List.perm_ext_iff_of_nodup (hs.filter _) (ht.filter _)).2 fun n => ?_)
    rw [List.mem_filter, List.mem_filter, mem_names, mem_names]
    refine and_congr_left fun hn => ?_
    have := h n hn
    unfold Disk.file at this
    rw [this]
  unfold convPlan
  rw [hff]
  cases hf : findFile (((t A.input).getD []).map (·.1)) (tifPattern A.pattern) with
  | error e => rfl
  | ok files =>
    obtain ⟨hne, hmem⟩ := found_mem _ _ _ hf
    have : imageOf s A.input (files.headD []) = imageOf t A.input (files.headD []) := by
      refine imageOf_congr s t _ _ (h _ ?_)
      cases files with
      | nil => exact absurd rfl hne
      | cons f r => exact ((hmem f).1 (by simp)).2
    show (imageOf s A.input (files.headD [])).bind _ = (imageOf t A.input (files.headD [])).bind _
    rw [this]

/-- The states in which a conversion can be stopped. -/
def ConvArgs.StopsAt (A : ConvArgs) (s s' : Disk (File K)) : Prop := ∃ ops, convPlan A s = .ok ops ∧ StopsOps s ops s'

/-- **C153.** A conversion, stopped anywhere or complete, changes nothing but its output file. -/
theorem convert_frame (A : ConvArgs) (s s' : Disk (File K)) (h : A.StopsAt s s' ∨ convRun A s = .ok s') :
    (∀ q n, ¬ (q = A.dir ∧ n = A.name) → s'.file q n = s.file q n) ∧ ∀ q, q ≠ A.dir → s' q = s q := by
  have key : ∀ ops, convPlan A s = .ok ops → (∀ q n, ¬ (q = A.dir ∧ n = A.name) → ∀ op ∈ ops, ¬ op.region q n) ∧ ∀ q, q ≠ A.dir → ∀ op ∈ ops, ¬ op.makes q := by
    intro ops hp
    obtain ⟨files, h, w, -, rfl⟩ := plan_convOps A s ops hp
    exact ⟨fun q n hq op ho hr => hq (conv_regions A files h w op ho q n hr), fun q hq op ho hr => hq (conv_makes A files h w op ho q hr)⟩
  rcases h with ⟨ops, hp, hst⟩ | hr
  · obtain ⟨k1, k2⟩ := key ops hp
    obtain ⟨f1, f2⟩ := stops_frame ops s s' hst
    exact ⟨fun q n hq => f1 q n (k1 q n hq), fun q hq => f2 q (k2 q hq)⟩
  · unfold convRun at hr
    cases hp : convPlan A s with
    | error e => rw [hp] at hr; cases hr
    | ok ops =>
      rw [hp] at hr
      obtain ⟨k1, k2⟩ := key ops hp
      obtain ⟨f1, f2⟩ := run_frame ops s s' hr
      exact ⟨fun q n hq => f1 q n (k1 q n hq), fun q hq => f2 q (k2 q hq)⟩

/-- **C153.** A stopped conversion can be started again: it ends as the uninterrupted one would have, or raises what that would have raised. -/
theorem convert_restart (A : ConvArgs) (hA : A.Apart) (s s' : Disk (File K)) (hp : s.Proper A.input) (hp' : s'.Proper A.input) (h : A.StopsAt s s') :
    (∀ sF, convRun A s = .ok sF → ∃ sF', convRun A s' = .ok sF' ∧ sF.Same sF') ∧ ∀ e, convRun A s = .error e → convRun A s' = .error e := by
  have hfr := (convert_frame A s s' (Or.inl h)).1
  obtain ⟨ops, hpl, hst⟩ := h
  have hpl' : convPlan A s' = .ok ops := by
    rw [← hpl]
    refine convPlan_congr A s' s hp' hp fun n hn => hfr _ _ ?_
    rintro ⟨h1, rfl⟩
    rcases hA with hA | hA
    · exact hA h1
    · rw [hn] at hA; cases hA
  unfold convRun
  rw [hpl, hpl']
  obtain ⟨files, h, w, hf, rfl⟩ := plan_convOps A s ops hpl
  refine rerun_ops _ (conv_reads A files h w _ fun f hf' op ho hr => ?_) s s' hst
  obtain ⟨h1, rfl⟩ := conv_regions A files h w op ho _ _ hr
  rcases hA with hA | hA
  · exact hA h1
  · rw [(((found_mem _ _ _ hf).2 _).1 hf').2] at hA; cases hA

/-! ### extract_tif_from_hdf -/

/-- The output files are not the input file, also if they lie in the same folder. -/
def ExtArgs.Apart (A : ExtArgs) : Prop := A.dir ≠ A.out ∨ ∀ k, A.name ≠ sliceName A.pre k

theorem contents_save (s : Disk (File K)) (p n : Name) (m : Mat K) : contents (s.save p n (.image m)) p = (contents s p).write n (.two m) := by
  have : (s.save p n (.image m)) p = some (Dir.write ((s p).getD []) n (.image m)) := if_pos rfl
  unfold contents
  rw [this]
  show (Dir.write ((s p).getD []) n (.image m)).map _ = _
  unfold Dir.write
  rw [List.map_cons, List.filter_map]
  rfl

theorem ext_loop (A : ExtArgs) (hA : A.Apart) (a : Arr3 K) (L : List Int) (s : Disk (File K)) (ha : loadHdf s A.dir A.name = .ok a) :
    (runOps s (L.map (extOp A (axisLen a A.axis)))).map (fun sF => contents sF A.out) = L.foldlM (fun d i => do
      let k ← pyIndex (axisLen a A.axis) i
      let m := sliceOf a A.axis A.crop k
      if m.h = 0 ∨ m.w = 0 then .error .valueError
      else .ok (d.write (sliceName A.pre k) (.two m))) (contents s A.out) := by
  induction L generalizing s with
  | nil => rfl
  | cons i L ih =>
    rw [List.map_cons, runOps_cons, List.foldlM_cons]
    cases hk : pyIndex (axisLen a A.axis) i with
    | error e =>
      unfold extOp
      rw [hk]
      rfl
    | ok k =>
      have hop : extOp (K := K) A (axisLen a A.axis) i = Op.save A.out [(sliceName A.pre k, extStep A k)] := by
        unfold extOp
        rw [hk]
      have hst : extStep A k s = if (sliceOf a A.axis A.crop k).h = 0 ∨ (sliceOf a A.axis A.crop k).w = 0 then .error .valueError
          else .ok (.image (sliceOf a A.axis A.crop k)) := by
        unfold extStep
        rw [ha]
        rfl
      rw [hop]
      change _ = Except.bind (if (sliceOf a A.axis A.crop k).h = 0 ∨ (sliceOf a A.axis A.crop k).w = 0 then Except.error PyErr.valueError
        else Except.ok ((contents s A.out).write (sliceName A.pre k) (.two (sliceOf a A.axis A.crop k)))) _
      by_cases h0 : (sliceOf a A.axis A.crop k).h = 0 ∨ (sliceOf a A.axis A.crop k).w = 0
      · rw [if_pos h0] at hst ⊢
        have : (Op.save A.out [(sliceName A.pre k, extStep A k)]).act s = .error .valueError := by
          change Except.map _ (List.mapM _ [(sliceName A.pre k, extStep A k)]) = _
          rw [List.mapM_cons]
          dsimp only
          rw [hst]
          rfl
        rw [this]
        rfl
      · rw [if_neg h0] at hst ⊢
        rw [save_one s A.out _ _ _ hst]
        change (runOps (s.save A.out (sliceName A.pre k) _) _).map _ = _
        rw [ih _ (by
          rw [← ha]
          refine loadHdf_congr _ _ _ _ ?_
          rw [save_file, if_neg]
          rintro ⟨h1, h2⟩
          rcases hA with hA | hA
          · exact hA h1
          · exact hA k h2), contents_save]
        rfl

/-- **C154.** The extraction with all its steps on the disk leaves the folder of C127, or raises what C127 says. -/
theorem extract_folder (A : ExtArgs) (hA : A.Apart) (s : Disk (File K)) (a : Arr3 K) (ha : loadHdf s A.dir A.name = .ok a) :
    (extRun A s).map (fun sF => contents sF A.out) = extractTif a A.axis A.index A.crop A.pre (contents s A.out) := by
  unfold extRun extPlan
  rw [ha]
  exact ext_loop A hA a _ s ha

/-- A file that is not a dataset is refused before anything is written. -/
theorem extract_error (A : ExtArgs) (s : Disk (File K)) (e : PyErr) (ha : loadHdf s A.dir A.name = .error e) : extRun A s = .error e := by
  unfold extRun extPlan
  rw [ha]
  rfl

theorem ext_plan (A : ExtArgs) (s : Disk (File K)) (ops : List (Op K)) (h : extPlan A s = .ok ops) :
    ∃ a, loadHdf s A.dir A.name = .ok a ∧ ops = (extractIndices (axisLen a A.axis) A.index).map (extOp A (axisLen a A.axis)) := by
  unfold extPlan at h
  cases ha : loadHdf s A.dir A.name with
  | error e => rw [ha] at h; cases h
  | ok a =>
    rw [ha] at h
    cases h
    exact ⟨a, rfl, rfl⟩

theorem extOp_cases (A : ExtArgs) (len : Nat) (i : Int) : (∃ k, extOp A len i = (Op.save A.out [(sliceName A.pre k, extStep A k)] : Op K)) ∨
    ∃ e, extOp A len i = (Op.fail e : Op K) := by
  unfold extOp
  cases pyIndex len i with
  | error e => exact Or.inr ⟨e, rfl⟩
  | ok k => exact Or.inl ⟨k, rfl⟩

theorem ext_regions (A : ExtArgs) (len : Nat) (L : List Int) : ∀ op ∈ (L.map (extOp A len) : List (Op K)), (∀ q n, op.region q n → q = A.out ∧ ∃ k, n = sliceName A.pre k) ∧
    ∀ q, op.makes q → q = A.out := by
  intro op hop
  obtain ⟨i, -, rfl⟩ := List.mem_map.1 hop
  rcases extOp_cases (K := K) A len i with ⟨k, hk⟩ | ⟨e, hk⟩
  · rw [hk]
    exact ⟨fun q n hr => ⟨hr.1, k, by simpa using hr.2⟩, fun q hr => hr.1⟩
  · rw [hk]
    exact ⟨fun q n hr => hr.elim, fun q hr => hr.elim⟩

theorem ext_reads (A : ExtArgs) (len : Nat) (L : List Int) (G : Name → Name → Prop) (hG : G A.dir A.name) : ReadsAll G (L.map (extOp A len) : List (Op K)) := by
  refine readsAll_of _ _ fun op hop => ?_
  obtain ⟨i, -, rfl⟩ := List.mem_map.1 hop
  rcases extOp_cases (K := K) A len i with ⟨k, hk⟩ | ⟨e, hk⟩
  · rw [hk]
    intro x hx s t hst
    rw [List.mem_singleton.1 hx]
    dsimp only
    unfold extStep
    rw [loadHdf_congr s t _ _ (hst _ _ hG)]
  · rw [hk]
    exact True.intro

/-- The states in which an extraction can be stopped. -/
def ExtArgs.StopsAt (A : ExtArgs) (s s' : Disk (File K)) : Prop := ∃ ops, extPlan A s = .ok ops ∧ StopsOps s ops s'

/-- **C154.** An extraction, stopped anywhere or complete, changes nothing but files of its output folder named by the prefix and a slice number. -/
theorem extract_frame (A : ExtArgs) (s s' : Disk (File K)) (h : A.StopsAt s s' ∨ extRun A s = .ok s') :
    (∀ q n, ¬ (q = A.out ∧ ∃ k, n = sliceName A.pre k) → s'.file q n = s.file q n) ∧ ∀ q, q ≠ A.out → s' q = s q := by
  rcases h with ⟨ops, hp, hst⟩ | hr
  · obtain ⟨a, -, rfl⟩ := ext_plan A s ops hp
    obtain ⟨f1, f2⟩ := stops_frame _ s s' hst
    exact ⟨fun q n hq => f1 q n fun op ho hr => hq ((ext_regions A _ _ op ho).1 q n hr), fun q hq => f2 q fun op ho hr => hq ((ext_regions A _ _ op ho).2 q hr)⟩
  · unfold extRun at hr
    cases hp : extPlan A s with
    | error e => rw [hp] at hr; cases hr
    | ok ops =>
      rw [hp] at hr
      obtain ⟨a, -, rfl⟩ := ext_plan A s ops hp
      obtain ⟨f1, f2⟩ := run_frame _ s s' hr
      exact ⟨fun q n hq => f1 q n fun op ho hr => hq ((ext_regions A _ _ op ho).1 q n hr), fun q hq => f2 q fun op ho hr => hq ((ext_regions A _ _ op ho).2 q hr)⟩

/-- **C154.** A stopped extraction can be started again. -/
theorem extract_restart (A : ExtArgs) (hA : A.Apart) (s s' : Disk (File K)) (h : A.StopsAt s s') :
    (∀ sF, extRun A s = .ok sF → ∃ sF', extRun A s' = .ok sF' ∧ sF.Same sF') ∧ ∀ e, extRun A s = .error e → extRun A s' = .error e := by
  have hfr := (extract_frame A s s' (Or.inl h)).1
  obtain ⟨ops, hpl, hst⟩ := h
  have hin : ¬ (A.dir = A.out ∧ ∃ k, A.name = sliceName A.pre k) := by
    rintro ⟨h1, k, h2⟩
    rcases hA with hA | hA
    · exact hA h1
    · exact hA k h2
  have hpl' : extPlan A s' = .ok ops := by
    rw [← hpl]
    unfold extPlan
    rw [loadHdf_congr s' s _ _ (hfr _ _ hin)]
  unfold extRun
  rw [hpl, hpl']
  obtain ⟨a, -, rfl⟩ := ext_plan A s ops hpl
  exact rerun_ops _ (ext_reads A _ _ _ fun op ho hr => hin ((ext_regions A _ _ op ho).1 _ _ hr)) s s' hst

/-! ### there and back -/

/-- **C154.** All slices of a dataset (up to 100000) extracted into a folder without tif files, and the folder converted to an hdf file elsewhere: that file holds the
slices, in order. -/
theorem disk_round_trip (E : ExtArgs) (A : ConvArgs) (hE : E.Apart) (hA : A.Apart) (s : Disk (File K)) (a : Arr3 K) (ha : loadHdf s E.dir E.name = .ok a)
    (hidx : E.index = .tuple 0 (-1) 1) (hin : A.input = E.out) (hpat : A.pattern = none) (hcrop : A.crop = ⟨0, 0, 0, 0⟩) (hp : s.Proper E.out)
    (hf : ∀ n, fnmatch "*.tif*".toList n = true → s.file E.out n = none) (hlen : 0 < axisLen a E.axis) (hmax : axisLen a E.axis ≤ 100000)
    (hsl : 0 < (sliceOf a E.axis E.crop 0).h ∧ 0 < (sliceOf a E.axis E.crop 0).w) :
    ∃ s1 s2 b, extRun E s = .ok s1 ∧ convRun A s1 = .ok s2 ∧ loadHdf s2 A.dir A.name = .ok b ∧ b.d = axisLen a E.axis ∧
      b.h = (sliceOf a E.axis E.crop 0).h ∧ b.w = (sliceOf a E.axis E.crop 0).w ∧
      ∀ k < b.d, ∀ i < b.h, ∀ j < b.w, b.get k i j = (sliceOf a E.axis E.crop k).get i j := by
  have hnd : ((contents s E.out).map (·.1)).Nodup := by rw [contents_names]; exact hp
  have hno : ∀ e ∈ contents s E.out, fnmatch (tifPattern none) e.1 = false := by
    intro e he
    rw [← Bool.not_eq_true]
    intro hm
    have h1 : e.1 ∈ ((s E.out).getD []).map (·.1) := by
      rw [← contents_names]
      exact List.mem_map_of_mem he
    have h2 := (mem_names _ _).1 h1
    have h3 := hf e.1 hm
    unfold Disk.file at h3
    rw [h3] at h2
    cases h2
  obtain ⟨d, b, h1, h2, h3⟩ := round_trip_partial a E.axis E.crop E.pre (contents s E.out) hnd hno hlen hmax hsl
  have hsl' : ∀ k, 0 < (sliceOf a E.axis E.crop k).h ∧ 0 < (sliceOf a E.axis E.crop k).w := by
    intro k
    have := sliceOf_shape a E.axis E.crop k 0
    rw [this.1, this.2]
    exact hsl
  obtain ⟨d', h1', hd2, hd3⟩ := extract_all a E.axis E.crop E.pre (contents s E.out) hnd hlen hsl' hno
  rw [h1] at h1'
  cases h1'
  have hext := extract_folder E hE s a ha
  rw [hidx, h1] at hext
  cases hr : extRun E s with
  | error e => rw [hr] at hext; cases hext
  | ok s1 =>
    rw [hr] at hext
    have hcon : contents s1 E.out = d := Except.ok.inj hext
    have himg : A.Images s1 := by
      intro n hn x hx
      rw [hin] at hx
      rw [hpat] at hn
      have hmem : (n, toNd x) ∈ d := by
        have hx' : Dir.find ((s1 E.out).getD []) n = some x := hx
        unfold Dir.find at hx'
        obtain ⟨e, he, rfl⟩ := Option.map_eq_some_iff.1 hx'
        have h5 := List.mem_of_find?_eq_some he
        have h6 := List.find?_some he
        rw [← hcon]
        unfold contents
        refine List.mem_map.2 ⟨e, h5, ?_⟩
        have : e.1 = n := by simpa using h6
        rw [this]
      rcases List.mem_append.1 (hd3.mem_iff.1 hmem) with hm | hm
      · obtain ⟨k, -, hk⟩ := List.mem_map.1 hm
        cases x with
        | image m => exact ⟨m, rfl⟩
        | data sh dd => cases (Prod.mk.inj hk).2
      · rw [hno _ hm] at hn
        cases hn
    have hconv := convert_dataset A s1 hA himg
    rw [hin, hcon, hpat, hcrop, h2] at hconv
    cases hr2 : convRun A s1 with
    | error e => rw [hr2] at hconv; cases hconv
    | ok s2 =>
      rw [hr2] at hconv
      exact ⟨s1, s2, b, rfl, hr2, hconv, h3⟩

/-! ### concrete cases -/

/-- The folder of two images into `out/all.hdf`. -/
def conv1 : ConvArgs := ⟨"scan".toList, "out".toList, "all.hdf".toList, none, ⟨0, 0, 0, 1⟩⟩

/-- Into the folder of the images, under a name that looks like that of an image. -/
def convIn : ConvArgs := ⟨"scan".toList, "scan".toList, "all.tif.hdf".toList, none, ⟨0, 0, 0, 0⟩⟩

/-- Back from the hdf file, along the second axis. -/
def ext1 : ExtArgs := ⟨"out".toList, "all.hdf".toList, "back".toList, 1, .tuple 0 (-1) 1, ⟨0, 0, 0, 0⟩, "img".toList⟩

theorem images_scan2 (A : ConvArgs) : A.Images scan2 := by
  intro n _ x hx
  unfold Disk.file scan2 at hx
  by_cases hp : A.input = "scan".toList
  · rw [if_pos hp] at hx
    change Dir.find [(sliceFile 0, _), (sliceFile 1, _)] n = some x at hx
    unfold Dir.find at hx
    rw [List.find?_cons] at hx
    split at hx
    · cases hx; exact ⟨_, rfl⟩
    · rw [List.find?_cons] at hx
      split at hx
      · cases hx; exact ⟨_, rfl⟩
      · cases hx
  · rw [if_neg hp] at hx
    cases hx

/-- Pixel `(k, i, j)` of a dataset. -/
def voxel (s : Disk (File ℚ)) (p n : Name) (k i j : Nat) : Option (ℚ × Nat × Nat × Nat) :=
  match loadHdf s p n with
  | .ok a => some (a.get k i j, a.d, a.h, a.w)
  | .error _ => none

/-- A non-trivial instance of `convert_dataset`: two images, the last column cropped. -/
example : conv1.Apart ∧ conv1.Images scan2 ∧
    voxel (okOr (convRun conv1 scan2) scan2) conv1.dir conv1.name 1 1 0 = some (7, 2, 2, 1) :=
  ⟨Or.inl (by decide), images_scan2 _, by decide +kernel⟩

/-- A non-trivial instance of `convert_restart`: stopped after the first image.  The file then has its final shape and reads as 0 where the second image belongs. -/
example : ∃ s' sF', conv1.StopsAt scan2 s' ∧ voxel s' conv1.dir conv1.name 1 1 0 = some (0, 2, 2, 1) ∧ convRun conv1 s' = .ok sF' ∧
    voxel sF' conv1.dir conv1.name 1 1 0 = some (7, 2, 2, 1) := by
  have h1 := ok_of (convPlan conv1 scan2) [] (by decide +kernel)
  have h2 := ok_of (runOps scan2 ((okOr (convPlan conv1 scan2) []).take 3)) scan2 (by decide +kernel)
  refine ⟨okOr (runOps scan2 ((okOr (convPlan conv1 scan2) []).take 3)) scan2, okOr (convRun conv1 (okOr (runOps scan2 ((okOr (convPlan conv1 scan2) []).take 3)) scan2)) scan2,
    ⟨_, h1, 3, _, h2, Or.inl rfl⟩, by decide +kernel, ok_of _ _ (by decide +kernel), by decide +kernel⟩

/-- **C153** is false of an output file in the input folder whose name matches the pattern: the conversion succeeds, but stopped and started again it takes its own
output for an image and raises ValueError. -/
theorem convert_in_place_refuted : ¬ ∀ (A : ConvArgs) (s s' sF : Disk (File ℚ)), A.Images s → s.Proper A.input → s'.Proper A.input → A.StopsAt s s' →
    convRun A s = .ok sF → ∃ sF', convRun A s' = .ok sF' := by
  intro h
  have h1 := ok_of (convPlan convIn scan2) [] (by decide +kernel)
  have h2 := ok_of (runOps scan2 ((okOr (convPlan convIn scan2) []).take 3)) scan2 (by decide +kernel)
  obtain ⟨sF', h3⟩ := h convIn scan2 _ _ (images_scan2 _) (by unfold Disk.Proper; decide +kernel)
    (by show ((((okOr (runOps scan2 ((okOr (convPlan convIn scan2) []).take 3)) scan2) "scan".toList).getD []).map (·.1)).Nodup; decide +kernel)
    ⟨_, h1, 3, _, h2, Or.inl rfl⟩ (ok_of (convRun convIn scan2) scan2 (by decide +kernel))
  have h4 : isOk (convRun convIn (okOr (runOps scan2 ((okOr (convPlan convIn scan2) []).take 3)) scan2)) = false := by decide +kernel
  rw [h3] at h4
  cases h4

/-- A non-trivial instance of `extract_folder` and `extract_restart`: the slices of the file of `conv1`, stopped after the first. -/
example : ∃ s s' sF', ext1.Apart ∧ convRun conv1 scan2 = .ok s ∧ ext1.StopsAt s s' ∧ pixel s' "back".toList (sliceName "img".toList 1) = none ∧
    extRun ext1 s' = .ok sF' ∧ pixel sF' "back".toList (sliceName "img".toList 1) = some 3 := by
  have h0 := ok_of (convRun conv1 scan2) scan2 (by decide +kernel)
  have h1 := ok_of (extPlan ext1 (okOr (convRun conv1 scan2) scan2)) [] (by decide +kernel)
  have h2 := ok_of (runOps (okOr (convRun conv1 scan2) scan2) ((okOr (extPlan ext1 (okOr (convRun conv1 scan2) scan2)) []).take 1)) scan2 (by decide +kernel)
  refine ⟨_, _, okOr (extRun ext1 (okOr (runOps (okOr (convRun conv1 scan2) scan2) ((okOr (extPlan ext1 (okOr (convRun conv1 scan2) scan2)) []).take 1)) scan2)) scan2,
    Or.inl (by decide), h0, ⟨_, h1, 1, _, h2, Or.inl rfl⟩, by decide +kernel, ok_of _ _ (by decide +kernel), by decide +kernel⟩

/-- A disk with a dataset of two slices. -/
def disk1 : Disk (File ℚ) := fun q => if q = "raw".toList then some [("a.hdf".toList, .data (2, 1, 1) fun k => some ⟨1, 1, fun _ _ => k + 3⟩)] else none

/-- A non-trivial instance of `disk_round_trip`. -/
example : ∃ s1 s2 b, extRun ⟨"raw".toList, "a.hdf".toList, "mid".toList, 0, .tuple 0 (-1) 1, ⟨0, 0, 0, 0⟩, "img".toList⟩ disk1 = .ok s1 ∧
    convRun ⟨"mid".toList, "out".toList, "b.hdf".toList, none, ⟨0, 0, 0, 0⟩⟩ s1 = .ok s2 ∧ loadHdf s2 "out".toList "b.hdf".toList = .ok b ∧ b.d = 2 ∧ b.get 1 0 0 = 4 := by
  obtain ⟨s1, s2, b, h1, h2, h3, h4, h5, h6, h7⟩ := disk_round_trip (K := ℚ) ⟨"raw".toList, "a.hdf".toList, "mid".toList, 0, .tuple 0 (-1) 1, ⟨0, 0, 0, 0⟩, "img".toList⟩
    ⟨"mid".toList, "out".toList, "b.hdf".toList, none, ⟨0, 0, 0, 0⟩⟩ (Or.inl (by decide)) (Or.inl (by decide)) disk1 _ rfl rfl rfl rfl rfl
    (by unfold Disk.Proper; decide +kernel) (fun n _ => rfl) (by decide +kernel) (by decide +kernel) (by decide +kernel)
  have e4 : b.d = 2 := h4
  have e5 : b.h = 1 := h5
  have e6 : b.w = 1 := h6
  refine ⟨s1, s2, b, h1, h2, h3, h4, ?_⟩
  rw [h7 1 (by omega) 0 (by omega) 0 (by omega)]
  decide +kernel

end Verif.ConvertRun
