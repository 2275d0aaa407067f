import Verif.Model.ResliceRun
import Verif.Props.Writer

/-!
Properties of `reslice_dataset` as a program with intermediate states: what an interrupted call leaves behind, what a second call then does, and what a
complete call writes and cleans up.
-/

set_option linter.unusedSectionVars false
set_option linter.unusedSimpArgs false

namespace Verif.ResliceRun
open Verif.Io Verif.Convert Verif.Writer

variable {K : Type}

/-! ### effects -/

theorem writeAll_file (p : Name) (l : List (Name × File K)) (s : Disk (File K)) (n : Name) :
    (writeAll s p l).file p n = (Dir.find l.reverse n).or (s.file p n) := saveAll_file p l s n

theorem writeAll_other (p : Name) (l : List (Name × File K)) (s : Disk (File K)) (q : Name) (h : q ≠ p) : writeAll s p l q = s q :=
  saveAll_other p l s q h

theorem writeAll_self (p : Name) (l : List (Name × File K)) (s : Disk (File K)) :
    (writeAll s p l p).isSome = true ↔ (s p).isSome = true ∨ l ≠ [] := saveAll_self p l s

theorem find_none (l : List (Name × File K)) (n : Name) (h : n ∉ l.map (·.1)) : Dir.find l.reverse n = none := by
  unfold Dir.find
  rw [Option.map_eq_none_iff, List.find?_eq_none]
  intro e he hen
  exact h (List.mem_map.2 ⟨e, List.mem_reverse.1 he, beq_iff_eq.1 hen⟩)

theorem find_some (l : List (Name × File K)) (n : Name) (h : n ∈ l.map (·.1)) : (Dir.find l.reverse n).isSome = true := by
  rw [← mem_names, List.map_reverse]
  exact List.mem_reverse.2 h

theorem mapM_names (s : Disk (File K)) (l : List (Name × (Disk (File K) → Py (File K)))) (r : List (Name × File K))
    (h : (l.mapM fun (e : Name × (Disk (File K) → Py (File K))) => (e.2 s).map fun c => (e.1, c)) = .ok r) : r.map (·.1) = l.map (·.1) := by
  induction l generalizing r with
  | nil => cases h; rfl
  | cons e l ih =>
    rw [List.mapM_cons] at h
    cases h1 : e.2 s with
    | error x => rw [h1] at h; cases h
    | ok c =>
      rw [h1] at h
      cases h2 : (l.mapM fun (e : Name × (Disk (File K) → Py (File K))) => (e.2 s).map fun c => (e.1, c)) with
      | error x => rw [h2] at h; cases h
      | ok r' =>
        rw [h2] at h
        cases h
        rw [List.map_cons, List.map_cons, ih r' h2]

/-- Folders that an effect creates or removes. -/
def Op.makes : Op K → Name → Prop
  | .mkdir p, q => q = p
  | .save p l, q => q = p ∧ l ≠ []
  | .remove P, q => P q = true
  | .fail _, _ => False

/-- An effect changes only the files of its region, and creates or removes only the folders it names. -/
theorem act_frame (op : Op K) (s t : Disk (File K)) (h : op.act s = .ok t) :
    (∀ q n, ¬ op.region q n → t.file q n = s.file q n) ∧ ∀ q, ¬ op.makes q → t q = s q := by
  cases op with
  | mkdir p =>
    cases h
    refine ⟨fun q n _ => mkdir_file _ _ _ _, fun q hq => mkdir_other _ _ _ fun e => hq e⟩
  | save p l =>
    change (Except.map (fun r => writeAll s p r) (l.mapM fun (e : Name × (Disk (File K) → Py (File K))) => (e.2 s).map fun c => (e.1, c))) = .ok t at h
    cases hm : (l.mapM fun (e : Name × (Disk (File K) → Py (File K))) => (e.2 s).map fun c => (e.1, c)) with
    | error e => rw [hm] at h; cases h
    | ok r =>
      rw [hm] at h
      cases h
      have hn := mapM_names s l r hm
      refine ⟨fun q n hq => ?_, fun q hq => ?_⟩
      · by_cases hp : q = p
        · subst hp
          rw [writeAll_file, find_none r n fun hx => hq ⟨rfl, by rw [← hn]; exact hx⟩]
          rfl
        · unfold Disk.file
          dsimp only
          rw [writeAll_other _ _ _ _ hp]
      · by_cases hp : q = p
        · subst hp
          have hl : l = [] := by
            by_contra hl
            exact hq ⟨rfl, hl⟩
          rw [hl] at hn
          have hr : r = [] := by simpa using hn
          rw [hr]
          rfl
        · exact writeAll_other _ _ _ _ hp
  | remove P =>
    cases h
    refine ⟨fun q n hq => ?_, fun q hq => ?_⟩
    · have hq : ¬ (P q = true) := hq
      unfold Disk.file
      dsimp only
      rw [if_neg hq]
    · have hq : ¬ (P q = true) := hq
      dsimp only
      rw [if_neg hq]
  | fail e => cases h

theorem runOps_cons (s : Disk (File K)) (op : Op K) (ops : List (Op K)) : runOps s (op :: ops) = (op.act s).bind fun t => runOps t ops := rfl

theorem run_frame (ops : List (Op K)) (s t : Disk (File K)) (h : runOps s ops = .ok t) :
    (∀ q n, (∀ op ∈ ops, ¬ op.region q n) → t.file q n = s.file q n) ∧ ∀ q, (∀ op ∈ ops, ¬ op.makes q) → t q = s q := by
  induction ops generalizing s with
  | nil => cases h; exact ⟨fun _ _ _ => rfl, fun _ _ => rfl⟩
  | cons op ops ih =>
    rw [runOps_cons] at h
    cases h1 : op.act s with
    | error e => rw [h1] at h; cases h
    | ok s1 =>
      rw [h1] at h
      obtain ⟨a1, a2⟩ := act_frame op s s1 h1
      obtain ⟨b1, b2⟩ := ih s1 h
      refine ⟨fun q n hq => ?_, fun q hq => ?_⟩
      · rw [b1 q n fun o ho => hq o (List.mem_cons_of_mem _ ho), a1 q n (hq op (by simp))]
      · rw [b2 q fun o ho => hq o (List.mem_cons_of_mem _ ho), a2 q (hq op (by simp))]

/-- The region of an effect lies in folders that it creates or removes. -/
theorem region_makes (op : Op K) (q n : Name) (h : op.region q n) : op.makes q := by
  cases op with
  | mkdir p => exact absurd h (by simp [Op.region])
  | save p l =>
    refine ⟨h.1, ?_⟩
    rintro rfl
    exact absurd h.2 (by simp)
  | remove P => exact h
  | fail e => exact absurd h (by simp [Op.region])

theorem stops_frame (ops : List (Op K)) (s s' : Disk (File K)) (h : StopsOps s ops s') :
    (∀ q n, (∀ op ∈ ops, ¬ op.region q n) → s'.file q n = s.file q n) ∧ ∀ q, (∀ op ∈ ops, ¬ op.makes q) → s' q = s q := by
  obtain ⟨k, s1, hrun, hs⟩ := h
  obtain ⟨a1, a2⟩ := run_frame _ s s1 hrun
  have a1' : ∀ q n, (∀ op ∈ ops, ¬ op.region q n) → s1.file q n = s.file q n := fun q n hq => a1 q n fun o ho => hq o (List.mem_of_mem_take ho)
  have a2' : ∀ q, (∀ op ∈ ops, ¬ op.makes q) → s1 q = s q := fun q hq => a2 q fun o ho => hq o (List.mem_of_mem_take ho)
  rcases hs with rfl | ⟨op, hop, b1, b2⟩
  · exact ⟨a1', a2'⟩
  · have hmem := List.mem_of_getElem? hop
    refine ⟨fun q n hq => ?_, fun q hq => ?_⟩
    · have := b2 q n (hq op hmem)
      exact this.trans (a1' q n hq)
    · rw [b1 q fun n hn => hq op hmem (region_makes op q n hn), a2' q hq]

/-! ### two runs from disks that differ only where the call writes -/

/-- The two disks agree on the files `G` and on the existence of the folders `E`. -/
def Rel (G : Name → Name → Prop) (E : Name → Prop) (s t : Disk (File K)) : Prop :=
  (∀ q n, G q n → s.file q n = t.file q n) ∧ ∀ q, E q → ((s q).isSome = true ↔ (t q).isSome = true)

/-- What an effect computes is determined by the files `G`. -/
def Op.Reads (G : Name → Name → Prop) : Op K → Prop
  | .save _ l => ∀ e ∈ l, ∀ s t : Disk (File K), (∀ q n, G q n → s.file q n = t.file q n) → e.2 s = e.2 t
  | _ => True

theorem Op.Reads.mono {G G' : Name → Name → Prop} (op : Op K) (h : op.Reads G) (hG : ∀ q n, G q n → G' q n) : op.Reads G' := by
  cases op with
  | save p l => exact fun e he s t hst => h e he s t fun q n hq => hst q n (hG q n hq)
  | _ => trivial

theorem mapM_congr_mem {α β : Type} (l : List α) (f g : α → Py β) (h : ∀ a ∈ l, f a = g a) : l.mapM f = l.mapM g := by
  induction l with
  | nil => rfl
  | cons a l ih => rw [List.mapM_cons, List.mapM_cons, h a (by simp), ih fun b hb => h b (by simp [hb])]

theorem act_sim (G : Name → Name → Prop) (E : Name → Prop) (op : Op K) (hr : op.Reads G) (s t : Disk (File K)) (h : Rel G E s t) :
    (∀ s1, op.act s = .ok s1 → ∃ t1, op.act t = .ok t1 ∧ Rel (fun q n => G q n ∨ op.region q n) (fun q => E q ∨ op.makes q) s1 t1) ∧
    ∀ e, op.act s = .error e → op.act t = .error e := by
  cases op with
  | mkdir p =>
    refine ⟨fun s1 h1 => ⟨_, rfl, ?_⟩, fun e h1 => (by cases h1)⟩
    cases h1
    refine ⟨fun q n hq => ?_, fun q hq => ?_⟩
    · rw [mkdir_file, mkdir_file]
      rcases hq with hq | hq
      · exact h.1 q n hq
      · exact absurd hq (by simp [Op.region])
    · by_cases hp : q = p
      · subst hp
        unfold Disk.mkdir
        rw [if_pos rfl, if_pos rfl]
        simp
      · rw [mkdir_other _ _ _ hp, mkdir_other _ _ _ hp]
        rcases hq with hq | hq
        · exact h.2 q hq
        · exact absurd hq hp
  | save p l =>
    have hf : (l.mapM fun (e : Name × (Disk (File K) → Py (File K))) => (e.2 s).map fun c => (e.1, c)) =
        l.mapM fun (e : Name × (Disk (File K) → Py (File K))) => (e.2 t).map fun c => (e.1, c) :=
      mapM_congr_mem l _ _ fun e he => by rw [hr e he s t h.1]
    have hs : (Op.save p l).act s = Except.map (fun r => writeAll s p r)
        (l.mapM fun (e : Name × (Disk (File K) → Py (File K))) => (e.2 s).map fun c => (e.1, c)) := rfl
    have ht : (Op.save p l).act t = Except.map (fun r => writeAll t p r)
        (l.mapM fun (e : Name × (Disk (File K) → Py (File K))) => (e.2 t).map fun c => (e.1, c)) := rfl
    rw [hs, ht, ← hf]
    cases hm : (l.mapM fun (e : Name × (Disk (File K) → Py (File K))) => (e.2 s).map fun c => (e.1, c)) with
    | error e => exact ⟨fun s1 h1 => (by cases h1), fun e' h1 => (by cases h1; rfl)⟩
    | ok r =>
      refine ⟨fun s1 h1 => ⟨_, rfl, ?_⟩, fun e h1 => (by cases h1)⟩
      cases h1
      have hn := mapM_names s l r hm
      refine ⟨fun q n hq => ?_, fun q hq => ?_⟩
      · dsimp only
        by_cases hp : q = p
        · subst hp
          rw [writeAll_file, writeAll_file]
          cases hx : Dir.find r.reverse n with
          | some c => rfl
          | none =>
            rcases hq with hq | hq
            · exact h.1 q n hq
            · have := find_some r n (by rw [hn]; exact hq.2)
              rw [hx] at this
              cases this
        · rcases hq with hq | hq
          · have := h.1 q n hq
            unfold Disk.file at this ⊢
            rw [writeAll_other _ _ _ _ hp, writeAll_other _ _ _ _ hp]
            exact this
          · exact absurd hq.1 hp
      · dsimp only
        by_cases hp : q = p
        · subst hp
          rw [writeAll_self, writeAll_self]
          by_cases hl : l = []
          · rcases hq with hq | hq
            · rw [h.2 q hq]
            · exact absurd hl hq.2
          · have hrne : r ≠ [] := by
              rintro rfl
              exact hl (by simpa using hn.symm)
            simp [hrne]
        · rw [writeAll_other _ _ _ _ hp, writeAll_other _ _ _ _ hp]
          rcases hq with hq | hq
          · exact h.2 q hq
          · exact absurd hq.1 hp
  | remove P =>
    refine ⟨fun s1 h1 => ⟨_, rfl, ?_⟩, fun e h1 => (by cases h1)⟩
    cases h1
    refine ⟨fun q n hq => ?_, fun q hq => ?_⟩
    · unfold Disk.file
      dsimp only
      by_cases hp : P q = true
      · rw [if_pos hp, if_pos hp]
      · rw [if_neg hp, if_neg hp]
        rcases hq with hq | hq
        · exact h.1 q n hq
        · exact absurd hq hp
    · by_cases hp : P q = true
      · dsimp only; rw [if_pos hp, if_pos hp]
      · dsimp only
        rw [if_neg hp, if_neg hp]
        rcases hq with hq | hq
        · exact h.2 q hq
        · exact absurd hq hp
  | fail e => exact ⟨fun s1 h1 => (by cases h1), fun e' h1 => (by cases h1; rfl)⟩

/-- Every effect reads only files `G` or files written by effects before it. -/
def ReadsAll : (Name → Name → Prop) → List (Op K) → Prop
  | _, [] => True
  | G, op :: ops => op.Reads G ∧ ReadsAll (fun q n => G q n ∨ op.region q n) ops

theorem readsAll_mono (ops : List (Op K)) (G G' : Name → Name → Prop) (h : ReadsAll G ops) (hG : ∀ q n, G q n → G' q n) : ReadsAll G' ops := by
  induction ops generalizing G G' with
  | nil => trivial
  | cons op ops ih => exact ⟨h.1.mono op hG, ih _ _ h.2 fun q n hq => hq.imp (hG q n) id⟩

theorem readsAll_of (ops : List (Op K)) (G : Name → Name → Prop) (h : ∀ op ∈ ops, op.Reads G) : ReadsAll G ops := by
  induction ops generalizing G with
  | nil => trivial
  | cons op ops ih =>
    exact ⟨h op (by simp), readsAll_mono ops G _ (ih G fun o ho => h o (List.mem_cons_of_mem _ ho)) fun q n hq => Or.inl hq⟩

theorem ops_sim (ops : List (Op K)) (G : Name → Name → Prop) (E : Name → Prop) (hr : ReadsAll G ops) (s t : Disk (File K)) (h : Rel G E s t) :
    (∀ s1, runOps s ops = .ok s1 → ∃ t1, runOps t ops = .ok t1 ∧
      Rel (fun q n => G q n ∨ ∃ op ∈ ops, op.region q n) (fun q => E q ∨ ∃ op ∈ ops, op.makes q) s1 t1) ∧
    ∀ e, runOps s ops = .error e → runOps t ops = .error e := by
  induction ops generalizing s t G E with
  | nil =>
    refine ⟨fun s1 h1 => ⟨t, rfl, ?_⟩, fun e h1 => (by cases h1)⟩
    cases h1
    refine ⟨fun q n hq => ?_, fun q hq => ?_⟩
    · rcases hq with hq | ⟨_, ho, _⟩
      · exact h.1 q n hq
      · exact nomatch ho
    · rcases hq with hq | ⟨_, ho, _⟩
      · exact h.2 q hq
      · exact nomatch ho
  | cons op ops ih =>
    obtain ⟨a1, a2⟩ := act_sim G E op hr.1 s t h
    rw [runOps_cons, runOps_cons]
    cases hx : op.act s with
    | error e =>
      rw [a2 e hx]
      exact ⟨fun s1 h1 => (by cases h1), fun e' h1 => (by cases h1; rfl)⟩
    | ok s1 =>
      obtain ⟨t1, ht, hrel⟩ := a1 s1 hx
      rw [ht]
      obtain ⟨b1, b2⟩ := ih _ _ hr.2 s1 t1 hrel
      refine ⟨fun s2 h2 => ?_, fun e he => b2 e he⟩
      obtain ⟨t2, ht2, hrel2⟩ := b1 s2 h2
      refine ⟨t2, ht2, fun q n hq => hrel2.1 q n ?_, fun q hq => hrel2.2 q ?_⟩
      · rcases hq with hq | ⟨o, ho, hq⟩
        · exact Or.inl (Or.inl hq)
        · rcases List.mem_cons.1 ho with rfl | ho
          · exact Or.inl (Or.inr hq)
          · exact Or.inr ⟨o, ho, hq⟩
      · rcases hq with hq | ⟨o, ho, hq⟩
        · exact Or.inl (Or.inl hq)
        · rcases List.mem_cons.1 ho with rfl | ho
          · exact Or.inl (Or.inr hq)
          · exact Or.inr ⟨o, ho, hq⟩

/-- Doing all effects again after a stop gives what the uninterrupted sequence gives. -/
theorem rerun_ops (ops : List (Op K)) (hr : ReadsAll (fun q n => ∀ op ∈ ops, ¬ op.region q n) ops) (s s' : Disk (File K)) (h : StopsOps s ops s') :
    (∀ sF, runOps s ops = .ok sF → ∃ sF', runOps s' ops = .ok sF' ∧ sF.Same sF') ∧ ∀ e, runOps s ops = .error e → runOps s' ops = .error e := by
  obtain ⟨f1, f2⟩ := stops_frame ops s s' h
  obtain ⟨a1, a2⟩ := ops_sim ops (fun q n => ∀ op ∈ ops, ¬ op.region q n) (fun q => ∀ op ∈ ops, ¬ op.makes q) hr s s'
    ⟨fun q n hq => (f1 q n hq).symm, fun q hq => by rw [f2 q hq]⟩
  refine ⟨fun sF hF => ?_, a2⟩
  obtain ⟨t1, ht, hrel⟩ := a1 sF hF
  refine ⟨t1, ht, fun q => ⟨hrel.2 q ?_, fun n => hrel.1 q n ?_⟩⟩
  · by_cases hx : ∃ op ∈ ops, op.makes q
    · exact Or.inr hx
    · exact Or.inl fun op ho hm => hx ⟨op, ho, hm⟩
  · by_cases hx : ∃ op ∈ ops, op.region q n
    · exact Or.inr hx
    · exact Or.inl fun op ho hm => hx ⟨op, ho, hm⟩

/-! ### paths -/

/-- Input and output of a call: a tif output is a folder, an hdf output `dir/stem.ext` has `base = dir/stem`; the input folder is neither the output folder nor
in a folder that the call removes at the end. -/
structure Separate (P : Paths) : Prop where
  tif : P.file = none → P.dir = P.base
  hdf : P.file ≠ none → ∃ stem, P.base = P.dir ++ '/' :: stem
  input_dir : P.input ≠ P.dir
  input_tmp : below P.tmp P.input = false
  input_base : P.file ≠ none → below P.base P.input = false

/-- The folder itself and everything inside. -/
theorem below_iff (p q : Name) : below p q = true ↔ q = p ∨ ∃ r, q = p ++ '/' :: r := by
  unfold below
  rw [Bool.or_eq_true, beq_iff_eq, List.isPrefixOf_iff_prefix]
  refine or_congr_right ⟨fun ⟨r, h⟩ => ⟨r, by rw [← h, List.append_assoc]; rfl⟩, fun ⟨r, h⟩ => ⟨r, by rw [h, List.append_assoc]; rfl⟩⟩

theorem below_false_of_short (p q : Name) (h : q.length < p.length) : below p q = false := by
  unfold below
  rw [Bool.or_eq_false_iff]
  constructor
  · rw [beq_eq_false_iff_ne]
    rintro rfl
    exact lt_irrefl _ h
  · rw [← Bool.not_eq_true, List.isPrefixOf_iff_prefix]
    intro hx
    have := hx.length_le
    simp at this
    omega

theorem tmp_length (P : Paths) : P.base.length < P.tmp.length := by
  unfold Paths.tmp
  rw [List.length_append]
  exact Nat.lt_add_of_pos_right (by decide)

theorem below_self (p : Name) : below p p = true := by unfold below; simp

theorem below_trans_tmp (P : Paths) (q : Name) (h : below P.tmp q = true) : below P.base q = true := by
  unfold below at h ⊢
  rw [Bool.or_eq_true, beq_iff_eq, List.isPrefixOf_iff_prefix] at h
  rw [Bool.or_eq_true, beq_iff_eq, List.isPrefixOf_iff_prefix]
  right
  have h0 : P.base ++ ['/'] <+: P.tmp := ⟨"tmp_".toList, by unfold Paths.tmp; rw [List.append_assoc]; rfl⟩
  rcases h with rfl | h
  · exact h0
  · exact h0.trans ((List.prefix_append _ _).trans h)

theorem dir_length (P : Paths) (h1 : P.file = none → P.dir = P.base) (h2 : P.file ≠ none → ∃ stem, P.base = P.dir ++ '/' :: stem) :
    P.dir.length ≤ P.base.length ∧ (P.file ≠ none → P.dir.length < P.base.length) := by
  by_cases hf : P.file = none
  · exact ⟨by rw [h1 hf], fun h => absurd hf h⟩
  · obtain ⟨stem, hs⟩ := h2 hf
    rw [hs, List.length_append, List.length_cons]
    exact ⟨by omega, fun _ => by omega⟩

/-! ### what a call touches -/

/-- The files that a call may write: the slices or the hdf file, and what it removes at the end. -/
def Touches (P : Paths) (q n : Name) : Prop :=
  (q = P.dir ∧ (P.file = none → ∃ i, n = sliceFile i) ∧ ∀ m, P.file = some m → n = m) ∨ below P.tmp q = true ∨ (P.file ≠ none ∧ below P.base q = true)

theorem mem_ite {α : Type _} {p : Prop} [Decidable p] {a x : α} {l : List α} (h : a ∈ if p then [x] else l) : a = x ∨ a ∈ l := by
  split at h
  · exact Or.inl (List.mem_singleton.1 h)
  · exact Or.inr h

variable [Zero K]

/-- All effects of a call, one by one. -/
theorem resliceOps_cases (P : Paths) (W : Work K) (files : List Name) (c : Post.Crop) (Q : Op K → Prop)
    (h1 : Q (.mkdir P.base)) (h2 : Q (.mkdir P.tmp)) (h3 : ∀ sh, Q (.save P.tmp [(tmpFile, fun _ => .ok (.data sh fun _ => none))]))
    (h4 : ∀ iv, Q (.save P.tmp [(tmpFile, loadChunk P W files c iv)])) (h5 : ∀ e, Q (.fail e))
    (h6 : P.file = none → ∀ d w iv, Q (saveChunk P W d w iv))
    (h7 : ∀ name, P.file = some name → (∀ sh, Q (.save P.dir [(name, fun _ => .ok (.data sh fun _ => none))])) ∧ ∀ d w iv, Q (writeChunk P W name d w iv))
    (h8 : Q (.remove (below P.tmp))) (h9 : P.file ≠ none → Q (.remove (below P.base))) : ∀ op ∈ resliceOps P W files c, Q op := by
  intro op hop
  unfold resliceOps at hop
  dsimp only at hop
  rw [List.mem_append, List.mem_append] at hop
  rcases hop with (hop | hop) | hop
  · simp only [List.mem_cons, List.not_mem_nil, or_false] at hop
    rcases hop with rfl | rfl | rfl
    exacts [h1, h2, h3 _]
  · rcases mem_ite hop with rfl | hop
    · exact h5 _
    · obtain ⟨iv, -, rfl⟩ := List.mem_map.1 hop
      exact h4 iv
  · cases hf : P.file with
    | none =>
      rw [hf] at hop
      dsimp only at hop
      rw [List.mem_append] at hop
      rcases hop with hop | hop
      · rcases mem_ite hop with rfl | hop
        · exact h5 _
        · obtain ⟨iv, -, rfl⟩ := List.mem_map.1 hop
          exact h6 hf _ _ iv
      · rw [List.mem_singleton.1 hop]; exact h8
    | some name =>
      rw [hf] at hop
      dsimp only at hop
      obtain ⟨a, b⟩ := h7 name hf
      rw [List.mem_append, List.mem_append] at hop
      rcases hop with (hop | hop) | hop
      · rw [List.mem_singleton.1 hop]; exact a _
      · rcases mem_ite hop with rfl | hop
        · exact h5 _
        · obtain ⟨iv, -, rfl⟩ := List.mem_map.1 hop
          exact b _ _ iv
      · simp only [List.mem_cons, List.not_mem_nil, or_false] at hop
        rcases hop with rfl | rfl
        · exact h8
        · exact h9 (by rw [hf]; simp)

theorem regions (P : Paths) (W : Work K) (files : List Name) (c : Post.Crop) :
    ∀ op ∈ resliceOps P W files c, ∀ q n, op.region q n → Touches P q n := by
  refine resliceOps_cases P W files c _ ?_ ?_ ?_ ?_ ?_ ?_ ?_ ?_ ?_
  · exact fun q n h => h.elim
  · exact fun q n h => h.elim
  · rintro sh q n ⟨rfl, -⟩; exact Or.inr (Or.inl (below_self _))
  · rintro iv q n ⟨rfl, -⟩; exact Or.inr (Or.inl (below_self _))
  · exact fun e q n h => h.elim
  · rintro hf d w iv q n ⟨rfl, hn⟩
    refine Or.inl ⟨rfl, fun _ => ?_, fun m hm => ?_⟩
    · rw [List.map_map] at hn
      obtain ⟨j, -, rfl⟩ := List.mem_map.1 hn
      exact ⟨_, rfl⟩
    · rw [hf] at hm; cases hm
  · intro name hf
    constructor
    · rintro sh q n ⟨rfl, hn⟩
      refine Or.inl ⟨rfl, fun h => ?_, fun m hm => ?_⟩
      · rw [hf] at h; cases h
      · rw [hf] at hm; cases hm; simpa using hn
    · rintro d w iv q n ⟨rfl, hn⟩
      refine Or.inl ⟨rfl, fun h => ?_, fun m hm => ?_⟩
      · rw [hf] at h; cases h
      · rw [hf] at hm; cases hm; simpa using hn
  · exact fun q n h => Or.inr (Or.inl h)
  · exact fun hf q n h => Or.inr (Or.inr ⟨hf, h⟩)

theorem makes_folders (P : Paths) (W : Work K) (files : List Name) (c : Post.Crop) :
    ∀ op ∈ resliceOps P W files c, ∀ q, op.makes q → q = P.dir ∨ q = P.base ∨ below P.tmp q = true ∨ (P.file ≠ none ∧ below P.base q = true) := by
  refine resliceOps_cases P W files c _ ?_ ?_ ?_ ?_ ?_ ?_ ?_ ?_ ?_
  · rintro q rfl; exact Or.inr (Or.inl rfl)
  · rintro q rfl; exact Or.inr (Or.inr (Or.inl (below_self _)))
  · rintro sh q ⟨rfl, -⟩; exact Or.inr (Or.inr (Or.inl (below_self _)))
  · rintro iv q ⟨rfl, -⟩; exact Or.inr (Or.inr (Or.inl (below_self _)))
  · exact fun e q h => h.elim
  · rintro hf d w iv q ⟨rfl, -⟩; exact Or.inl rfl
  · intro name hf
    exact ⟨by rintro sh q ⟨rfl, -⟩; exact Or.inl rfl, by rintro d w iv q ⟨rfl, -⟩; exact Or.inl rfl⟩
  · exact fun q h => Or.inr (Or.inr (Or.inl h))
  · exact fun hf q h => Or.inr (Or.inr (Or.inr ⟨hf, h⟩))

theorem input_untouched (P : Paths) (h : Separate P) (n : Name) : ¬ Touches P P.input n := by
  rintro (⟨h1, -⟩ | h1 | ⟨h1, h2⟩)
  · exact h.input_dir h1
  · rw [h.input_tmp] at h1; cases h1
  · rw [h.input_base h1] at h2; cases h2

theorem input_not_base (P : Paths) (h : Separate P) : P.input ≠ P.base := by
  intro e
  by_cases hf : P.file = none
  · exact h.input_dir (by rw [e, h.tif hf])
  · have := h.input_base hf
    rw [e, below_self] at this
    cases this

/-! ### every effect reads only the input and what was written before -/

theorem dataOf_congr (s t : Disk (File K)) (p n : Name) (h : s.file p n = t.file p n) : dataOf s p n = dataOf t p n := by
  unfold Disk.file at h
  unfold dataOf
  rw [h]

theorem imageOf_congr (s t : Disk (File K)) (p n : Name) (h : s.file p n = t.file p n) : imageOf s p n = imageOf t p n := by
  unfold Disk.file at h
  unfold imageOf
  rw [h]

theorem readsAll_append (A B : List (Op K)) (G : Name → Name → Prop) (hA : ReadsAll G A) (hB : ReadsAll (fun q n => G q n ∨ ∃ op ∈ A, op.region q n) B) :
    ReadsAll G (A ++ B) := by
  induction A generalizing G with
  | nil => exact readsAll_mono B _ _ hB fun q n h => h.elim id fun ⟨_, h, _⟩ => nomatch h
  | cons a A ih =>
    refine ⟨hA.1, ih _ hA.2 (readsAll_mono B _ _ hB ?_)⟩
    rintro q n (h | ⟨op, ho, h⟩)
    · exact Or.inl (Or.inl h)
    · rcases List.mem_cons.1 ho with rfl | ho
      · exact Or.inl (Or.inr h)
      · exact Or.inr ⟨op, ho, h⟩

theorem loadChunk_congr (P : Paths) (W : Work K) (files : List Name) (c : Post.Crop) (iv : Nat × Nat) (s t : Disk (File K))
    (hi : ∀ n, s.file P.input n = t.file P.input n) (ht : s.file P.tmp tmpFile = t.file P.tmp tmpFile) :
    loadChunk P W files c iv s = loadChunk P W files c iv t := by
  unfold loadChunk
  rw [mapM_congr_mem _ (imageOf s P.input) (imageOf t P.input) fun n _ => imageOf_congr s t _ _ (hi n), dataOf_congr s t _ _ ht]

theorem reads_ops (P : Paths) (W : Work K) (files : List Name) (c : Post.Crop) (G : Name → Name → Prop) (hG : ∀ n, G P.input n) :
    ReadsAll G (resliceOps P W files c) := by
  have hload : ∀ (G : Name → Name → Prop) iv, (∀ n, G P.input n) → G P.tmp tmpFile →
      (Op.save P.tmp [(tmpFile, loadChunk P W files c iv)]).Reads G := by
    intro G iv h1 h2 e he s t hst
    rw [List.mem_singleton.1 he]
    exact loadChunk_congr P W files c iv s t (fun n => hst _ _ (h1 n)) (hst _ _ h2)
  unfold resliceOps
  dsimp only
  refine readsAll_append _ _ _ (readsAll_append _ _ _ ⟨trivial, trivial, fun e he s t _ => ?_, trivial⟩ ?_) ?_
  · rw [List.mem_singleton.1 he]
  · refine readsAll_of _ _ fun op hop => ?_
    rcases mem_ite hop with rfl | hop
    · exact True.intro
    · obtain ⟨iv, -, rfl⟩ := List.mem_map.1 hop
      refine hload _ iv (fun n => Or.inl (hG n)) (Or.inr ⟨_, List.mem_cons_of_mem _ (List.mem_cons_of_mem _ List.mem_cons_self), rfl, by simp⟩)
  · have htmp : ∀ sh (X : List (Op K)), ∃ op ∈ ([.mkdir P.base, .mkdir P.tmp, .save P.tmp [(tmpFile, fun _ => .ok (.data sh fun _ => none))]] ++ X),
        op.region P.tmp tmpFile := fun sh X => ⟨.save P.tmp [(tmpFile, fun _ => .ok (.data sh fun _ => none))], by simp, rfl, by simp⟩
    cases hf : P.file with
    | none =>
      refine readsAll_of _ _ fun op hop => ?_
      dsimp only at hop
      rw [List.mem_append] at hop
      rcases hop with hop | hop
      · rcases mem_ite hop with rfl | hop
        · exact True.intro
        · obtain ⟨iv, -, rfl⟩ := List.mem_map.1 hop
          intro e he s t hst
          obtain ⟨j, -, rfl⟩ := List.mem_map.1 he
          dsimp only
          rw [dataOf_congr s t _ _ (hst _ _ (Or.inr (htmp _ _)))]
      · rw [List.mem_singleton.1 hop]; exact True.intro
    | some name =>
      dsimp only
      rw [List.append_assoc]
      refine readsAll_append _ _ _ ⟨fun e he s t _ => ?_, trivial⟩ (readsAll_of _ _ fun op hop => ?_)
      · rw [List.mem_singleton.1 he]
      · rw [List.mem_append] at hop
        rcases hop with hop | hop
        · rcases mem_ite hop with rfl | hop
          · exact True.intro
          · obtain ⟨iv, -, rfl⟩ := List.mem_map.1 hop
            intro e he s t hst
            rw [List.mem_singleton.1 he]
            dsimp only
            rw [dataOf_congr s t _ _ (hst _ _ (Or.inl (Or.inr (htmp _ _)))),
              dataOf_congr s t P.dir name (hst _ _ (Or.inr ⟨_, List.mem_singleton.2 rfl, rfl, by simp⟩))]
        · simp only [List.mem_cons, List.not_mem_nil, or_false] at hop
          rcases hop with rfl | rfl <;> exact True.intro

/-! ### C147: stops and restarts -/

/-- Whether the output exists already: the folder, or the hdf file. -/
def OutputExists (s : Disk (File K)) (P : Paths) : Prop :=
  (P.file = none ∧ (s P.base).isSome = true) ∨ ∃ n, P.file = some n ∧ (s.file P.dir n).isSome = true

theorem check_iff (s : Disk (File K)) (P : Paths) (ow : Bool) :
    (OutputExists s P ∧ ow = false → checkOut s P ow = .error .valueError) ∧ (¬ (OutputExists s P ∧ ow = false) → checkOut s P ow = .ok ()) := by
  unfold checkOut OutputExists Disk.file
  cases hf : P.file with
  | none =>
    dsimp only
    constructor
    · rintro ⟨h | ⟨n, h, -⟩, ho⟩
      · rw [if_pos ⟨ho, h.2⟩]
      · cases h
    · intro h
      rw [if_neg fun hx => h ⟨Or.inl ⟨rfl, hx.2⟩, hx.1⟩]
  | some m =>
    dsimp only
    constructor
    · rintro ⟨⟨h, -⟩ | ⟨n, h, h2⟩, ho⟩
      · cases h
      · cases h
        rw [if_pos ⟨ho, h2⟩]
    · intro h
      rw [if_neg fun hx => h ⟨Or.inr ⟨m, rfl, hx.2⟩, hx.1⟩]

/-- The plan of a call without its check of the output. -/
def planOf (P : Paths) (W : Work K) (s : Disk (File K)) : Py (List (Op K)) := do
  let files ← s.tifs P.input
  match files with
  | [] => .error .indexError
  | f :: _ => do
    let m0 ← imageOf s P.input f
    let c ← Post.croppedShape files.length m0.h m0.w W.crop
    .ok (resliceOps P W files c)

theorem call_eq (P : Paths) (W : Work K) (s : Disk (File K)) (ow : Bool) :
    resliceCall P W s ow = if W.axis ≠ 1 ∧ W.axis ≠ 2 then .error .valueError else (checkOut s P ow).bind fun _ => planOf P W s := rfl

theorem plan_congr (P : Paths) (W : Work K) (s t : Disk (File K)) (h : s P.input = t P.input) : planOf P W s = planOf P W t := by
  unfold planOf Disk.tifs imageOf
  rw [h]

theorem plan_ops (P : Paths) (W : Work K) (s : Disk (File K)) (ops : List (Op K)) (h : planOf P W s = .ok ops) :
    ∃ files c, ops = resliceOps P W files c := by
  unfold planOf at h
  cases h1 : s.tifs P.input with
  | error e => rw [h1] at h; cases h
  | ok files =>
    rw [h1] at h
    cases files with
    | nil => cases h
    | cons f r =>
      change (imageOf s P.input f).bind _ = _ at h
      cases h2 : imageOf s P.input f with
      | error e => rw [h2] at h; cases h
      | ok m0 =>
        rw [h2] at h
        change (Post.croppedShape (f :: r).length m0.h m0.w W.crop).bind _ = _ at h
        cases h3 : Post.croppedShape (f :: r).length m0.h m0.w W.crop with
        | error e => rw [h3] at h; cases h
        | ok c =>
          rw [h3] at h
          cases h
          exact ⟨_, _, rfl⟩

/-- The disk `s'` is one on which a call on `s` may stop. -/
def StopsAt (P : Paths) (W : Work K) (s : Disk (File K)) (ow : Bool) (s' : Disk (File K)) : Prop :=
  ∃ ops, resliceCall P W s ow = .ok ops ∧ StopsOps s ops s'

theorem call_ok (P : Paths) (W : Work K) (s : Disk (File K)) (ow : Bool) (ops : List (Op K)) (h : resliceCall P W s ow = .ok ops) :
    ¬ (W.axis ≠ 1 ∧ W.axis ≠ 2) ∧ planOf P W s = .ok ops ∧ ¬ (OutputExists s P ∧ ow = false) := by
  rw [call_eq] at h
  split at h
  · cases h
  · refine ⟨‹_›, ?_⟩
    by_cases hx : OutputExists s P ∧ ow = false
    · rw [(check_iff s P ow).1 hx] at h; cases h
    · rw [(check_iff s P ow).2 hx] at h
      exact ⟨h, hx⟩

/-- **C147.** Wherever a call stops, every file that is not part of its output, of its temporary folder or (hdf output) of the folder named like the output is as
before; so are all other folders. -/
theorem stop_frame (P : Paths) (W : Work K) (s s' : Disk (File K)) (ow : Bool) (h : StopsAt P W s ow s') :
    (∀ q n, ¬ Touches P q n → s'.file q n = s.file q n) ∧
    ∀ q, q ≠ P.dir → q ≠ P.base → below P.tmp q = false → (P.file ≠ none → below P.base q = false) → s' q = s q := by
  obtain ⟨ops, hc, hs⟩ := h
  obtain ⟨-, hp, -⟩ := call_ok P W s ow ops hc
  obtain ⟨files, c, rfl⟩ := plan_ops P W s ops hp
  obtain ⟨a, b⟩ := stops_frame _ s s' hs
  refine ⟨fun q n hq => a q n fun op ho hr => hq (regions P W files c op ho q n hr), fun q h1 h2 h3 h4 => b q fun op ho hm => ?_⟩
  rcases makes_folders P W files c op ho q hm with h | h | h | ⟨hf, h⟩
  · exact h1 h
  · exact h2 h
  · rw [h3] at h; cases h
  · rw [h4 hf] at h; cases h

/-- **C147.** After a stop anywhere, the same call with `overwrite=True` leaves the disk as the uninterrupted call would have, and raises what that would have
raised; with `overwrite=False` it is refused if the output exists, and else does the same. -/
theorem restart (P : Paths) (W : Work K) (hP : Separate P) (s s' : Disk (File K)) (ow : Bool) (h : StopsAt P W s ow s') :
    (∀ sF, resliceRun P W s ow = .ok sF → ∃ sF', resliceRun P W s' true = .ok sF' ∧ sF.Same sF') ∧
    (∀ e, resliceRun P W s ow = .error e → resliceRun P W s' true = .error e) ∧
    (OutputExists s' P → resliceRun P W s' false = .error .valueError) ∧
    (¬ OutputExists s' P → resliceRun P W s' false = resliceRun P W s' true) := by
  have hin : s' P.input = s P.input := by
    refine (stop_frame P W s s' ow h).2 P.input hP.input_dir (input_not_base P hP) hP.input_tmp hP.input_base
  obtain ⟨ops, hc, hs⟩ := h
  obtain ⟨hax, hp, -⟩ := call_ok P W s ow ops hc
  have hp' : planOf P W s' = .ok ops := by rw [plan_congr P W s' s hin, hp]
  have hc' : ∀ o, resliceCall P W s' o = (checkOut s' P o).bind fun _ => .ok ops := by
    intro o
    rw [call_eq, if_neg hax, hp']
  have hc1 : resliceCall P W s' true = .ok ops := by
    rw [hc', (check_iff s' P true).2 fun hx => absurd hx.2 (by decide)]
    rfl
  obtain ⟨files, c, rfl⟩ := plan_ops P W s ops hp
  obtain ⟨r1, r2⟩ := rerun_ops (resliceOps P W files c) (reads_ops P W files c _ fun n op ho hr => input_untouched P hP n (regions P W files c op ho _ _ hr))
    s s' hs
  unfold resliceRun
  rw [hc, hc1]
  refine ⟨r1, r2, fun hx => ?_, fun hx => ?_⟩
  · rw [hc', (check_iff s' P false).1 ⟨hx, rfl⟩]
    rfl
  · rw [hc', (check_iff s' P false).2 fun h => hx h.1]
    rfl

/-! ### C148: a complete call -/

/-- The chunks follow each other from `a` to `b`. -/
def Consec : Nat → List (Nat × Nat) → Nat → Prop
  | a, [], b => a = b
  | a, e :: l, b => e.1 = a ∧ Consec (a + e.2) l b

theorem consec_append (A B : List (Nat × Nat)) (a b c : Nat) (h1 : Consec a A b) (h2 : Consec b B c) : Consec a (A ++ B) c := by
  induction A generalizing a with
  | nil => cases h1; exact h2
  | cons e A ih => exact ⟨h1.1, ih _ h1.2⟩

theorem chunks_consec (n ch : Nat) (hch : 0 < ch) : Consec 0 (chunks n ch) n := by
  unfold chunks
  have hr : ((ch * (n / ch) : Nat) : Int) - 0 = ((ch * (n / ch) : Nat) : Int) := sub_zero _
  rw [Post.pyRange_eq _ _ _ hch, hr, Int.toNat_natCast, Nat.mul_add_div hch, Nat.div_eq_of_lt (by omega : ch - 1 < ch), Nat.add_zero, List.map_map]
  have hle : ch * (n / ch) ≤ n := Nat.mul_div_le n ch
  have h0 : ∀ m, Consec 0 ((List.range m).map ((fun i : Int => (i.toNat, ch)) ∘ fun k : Nat => (0 : Int) + (k * ch : Nat))) (ch * m) := by
    intro m
    induction m with
    | zero => rfl
    | succ m ih =>
      rw [List.range_succ, List.map_append]
      refine consec_append _ _ _ _ _ ih ⟨?_, ?_⟩
      · simp only [Function.comp]
        rw [zero_add, Int.toNat_natCast, Nat.mul_comm]
      · show ch * m + ch = ch * (m + 1)
        ring
  refine consec_append _ _ _ _ _ (h0 _) ?_
  split
  · exact ⟨rfl, by show ch * (n / ch) + (n - ch * (n / ch)) = n; omega⟩
  · show ch * (n / ch) = n
    omega

theorem save_one (s : Disk (File K)) (p n : Name) (f : Disk (File K) → Py (File K)) (x : File K) (h : f s = .ok x) :
    (Op.save p [(n, f)]).act s = .ok (s.save p n x) := by
  have : (Op.save p [(n, f)]).act s = Except.map (fun r => writeAll s p r)
      ([(n, f)].mapM fun (e : Name × (Disk (File K) → Py (File K))) => (e.2 s).map fun c => (e.1, c)) := rfl
  rw [this, List.mapM_cons]
  dsimp only
  rw [h]
  rfl

/-- The work on one image of the input. -/
def prep (W : Work K) (c : Post.Crop) (m : Mat K) : Mat K :=
  let m := Post.cropMat (W.rot m) c
  if W.axis == 2 then m.T else m

theorem slice_map {α β : Type _} (f : α → β) (l : List α) (a b : Int) : (pySlice l a b).map f = pySlice (l.map f) a b := by
  unfold pySlice
  rw [List.map_drop, List.map_take, List.length_map]

/-- The first loop, from a disk whose temporary file holds the first `a` images. -/
theorem load_phase (P : Paths) (W : Work K) (files : List Name) (c : Post.Crop) (img : Name → Mat K) (hne : P.input ≠ P.tmp) (L : List (Nat × Nat)) (a b : Nat)
    (hL : Consec a L b) (hlen : c.d1 + b ≤ files.length) (s : Disk (File K)) (himg : ∀ f ∈ files, s.file P.input f = some (.image (img f)))
    (sh : Nat × Nat × Nat) (ht : s.file P.tmp tmpFile = some (.data sh (Post.written (files.map img) c.d1 a (prep W c)))) :
    ∃ t, runOps s (L.map fun iv => .save P.tmp [(tmpFile, loadChunk P W files c iv)]) = .ok t ∧
      t.file P.tmp tmpFile = some (.data sh (Post.written (files.map img) c.d1 b (prep W c))) := by
  induction L generalizing a s with
  | nil => cases hL; exact ⟨s, rfl, ht⟩
  | cons e L ih =>
    obtain ⟨i, l⟩ := e
    obtain ⟨hi, hL⟩ := hL
    have hi : i = a := hi
    have hL : Consec (a + l) L b := hL
    subst hi
    have hle : ∀ (L : List (Nat × Nat)) (a b : Nat), Consec a L b → a ≤ b := by
      intro L
      induction L with
      | nil => rintro a b rfl; exact le_rfl
      | cons e L ih => rintro a b ⟨-, h⟩; exact le_trans (Nat.le_add_right _ _) (ih _ _ h)
    have hib := hle L _ _ hL
    obtain ⟨mats, hm1, hm2, hm3⟩ := Post.takeN_slice (files.map img) (c.d1 + i) l (by rw [List.length_map]; omega) ((i + c.d1 : Nat) : Int)
      ((i + l + c.d1 : Nat) : Int) (by rw [Nat.add_comm]) (by congr 1; omega)
    have hread : (pySlice files ((i + c.d1 : Nat) : Int) ((i + l + c.d1 : Nat) : Int)).mapM (imageOf s P.input) =
        .ok (pySlice (files.map img) ((i + c.d1 : Nat) : Int) ((i + l + c.d1 : Nat) : Int)) := by
      rw [← slice_map]
      refine Post.mapM_ok _ img _ fun f hf => ?_
      have hf : f ∈ files := by
        unfold pySlice at hf
        exact List.mem_of_mem_take (List.mem_of_mem_drop hf)
      have := himg f hf
      unfold Disk.file at this
      unfold imageOf
      rw [this]
    have hdata : dataOf s P.tmp tmpFile = .ok (sh, Post.written (files.map img) c.d1 i (prep W c)) := by
      unfold Disk.file at ht
      unfold dataOf
      rw [ht]
    have hval : loadChunk P W files c (i, l) s = .ok (.data sh (Post.written (files.map img) c.d1 (i + l) (prep W c))) := by
      unfold loadChunk
      dsimp only
      rw [hread]
      change (Post.takeN (pySlice (files.map img) _ _) l).bind _ = _
      rw [hm1]
      change (dataOf s P.tmp tmpFile).bind _ = _
      rw [hdata]
      change Except.ok (File.data sh (Post.writeSlab _ i (mats.map (prep W c)))) = _
      rw [Post.writeSlab_written (files.map img) c.d1 i l (prep W c) mats hm2 hm3]
    rw [List.map_cons, runOps_cons, save_one s P.tmp tmpFile _ _ hval]
    refine ih (i + l) hL (s.save P.tmp tmpFile _) (fun f hf => ?_) ?_
    · rw [save_file, if_neg fun h => hne h.1]
      exact himg f hf
    · rw [save_file, if_pos ⟨rfl, rfl⟩]

/-- The second loop for tif output. -/
theorem save_phase (P : Paths) (W : Work K) (d : Nat → Option (Mat K)) (depth width : Nat) (hne : P.dir ≠ P.tmp) (L : List (Nat × Nat)) (a b : Nat)
    (hL : Consec a L b) (hb : b ≤ 100000) (s : Disk (File K)) (sh : Nat × Nat × Nat) (ht : s.file P.tmp tmpFile = some (.data sh d)) :
    ∃ t, runOps s (L.map (saveChunk P W depth width)) = .ok t ∧
      (∀ i, a ≤ i → i < b → t.file P.dir (sliceFile i) = some (.image (sliceImage W d depth width i))) ∧
      (∀ q n, ¬ (q = P.dir ∧ ∃ i, a ≤ i ∧ i < b ∧ n = sliceFile i) → t.file q n = s.file q n) ∧ ∀ q, q ≠ P.dir → t q = s q := by
  induction L generalizing a s with
  | nil =>
    cases hL
    exact ⟨s, rfl, fun i h1 h2 => absurd h1 (by omega), fun q n _ => rfl, fun q _ => rfl⟩
  | cons e L ih =>
    obtain ⟨i, l⟩ := e
    obtain ⟨hi, hL⟩ := hL
    have hi : i = a := hi
    have hL : Consec (a + l) L b := hL
    subst hi
    have hle : ∀ (L : List (Nat × Nat)) (a b : Nat), Consec a L b → a ≤ b := by
      intro L
      induction L with
      | nil => rintro a b rfl; exact le_rfl
      | cons e L ih => rintro a b ⟨-, h⟩; exact le_trans (Nat.le_add_right _ _) (ih _ _ h)
    have hib := hle L _ _ hL
    have hdata : dataOf s P.tmp tmpFile = .ok (sh, d) := by
      unfold Disk.file at ht
      unfold dataOf
      rw [ht]
    have hact : (saveChunk P W depth width (i, l)).act s = .ok (writeAll s P.dir ((List.range l).map fun j =>
        (sliceFile (i + j), File.image (sliceImage W d depth width (i + j))))) := by
      have : (saveChunk P W depth width (i, l)).act s = Except.map (fun r => writeAll s P.dir r)
        (((List.range l).map fun j => (sliceFile (i + j), fun s => (dataOf s P.tmp tmpFile).map fun d =>
          File.image (sliceImage W d.2 depth width (i + j)))).mapM
          fun (e : Name × (Disk (File K) → Py (File K))) => (e.2 s).map fun c => (e.1, c)) := rfl
      rw [this, List.mapM_map, Post.mapM_ok _ (fun j => (sliceFile (i + j), File.image (sliceImage W d depth width (i + j))))]
      · rfl
      · intro j _
        show Except.map _ (Except.map _ (dataOf s P.tmp tmpFile)) = _
        rw [hdata]
        rfl
    rw [List.map_cons, runOps_cons, hact]
    have hfind : ∀ n, Dir.find ((List.range l).map fun j => (sliceFile (i + j), File.image (sliceImage W d depth width (i + j)))).reverse n =
        if ∃ j, j < l ∧ n = sliceFile (i + j) then Dir.find ((List.range l).map fun j =>
          (sliceFile (i + j), File.image (sliceImage W d depth width (i + j)))).reverse n else none := by
      intro n
      by_cases hx : ∃ j, j < l ∧ n = sliceFile (i + j)
      · rw [if_pos hx]
      · rw [if_neg hx, find_none]
        intro hm
        rw [List.map_map] at hm
        obtain ⟨j, hj, hjn⟩ := List.mem_map.1 hm
        exact hx ⟨j, List.mem_range.1 hj, hjn.symm⟩
    have hfs : ∀ j < l, Dir.find ((List.range l).map fun j => (sliceFile (i + j), File.image (sliceImage W d depth width (i + j)))).reverse (sliceFile (i + j)) =
        some (File.image (sliceImage W d depth width (i + j))) := by
      intro j hj
      have hs := find_some ((List.range l).map fun j => (sliceFile (i + j), File.image (sliceImage W d depth width (i + j)))) (sliceFile (i + j))
        (by rw [List.map_map]; exact List.mem_map.2 ⟨j, List.mem_range.2 hj, rfl⟩)
      obtain ⟨x, hx⟩ := Option.isSome_iff_exists.1 hs
      rw [hx]
      unfold Dir.find at hx
      rw [Option.map_eq_some_iff] at hx
      obtain ⟨e, he, rfl⟩ := hx
      have hm := List.mem_of_find?_eq_some he
      have hn := List.find?_some he
      rw [List.mem_reverse] at hm
      obtain ⟨k, hk, rfl⟩ := List.mem_map.1 hm
      have := sliceFile_inj (i + k) (i + j) (by have := List.mem_range.1 hk; omega) (by omega) (beq_iff_eq.1 hn)
      rw [this]
    set s1 := writeAll s P.dir ((List.range l).map fun j => (sliceFile (i + j), File.image (sliceImage W d depth width (i + j)))) with hs1
    have hother : ∀ q, q ≠ P.dir → s1 q = s q := fun q hq => writeAll_other _ _ _ _ hq
    have hfile : ∀ q n, ¬ (q = P.dir ∧ ∃ j, j < l ∧ n = sliceFile (i + j)) → s1.file q n = s.file q n := by
      intro q n hq
      by_cases hp : q = P.dir
      · subst hp
        rw [hs1, writeAll_file, hfind, if_neg fun h => hq ⟨rfl, h⟩]
        rfl
      · unfold Disk.file
        rw [hother q hp]
    obtain ⟨t, h1, h2, h3, h4⟩ := ih (i + l) hL s1 (by rw [hfile _ _ fun h => hne h.1.symm]; exact ht)
    refine ⟨t, h1, fun k hk1 hk2 => ?_, fun q n hq => ?_, fun q hq => by rw [h4 q hq, hother q hq]⟩
    · by_cases hk : i + l ≤ k
      · exact h2 k hk hk2
      · rw [h3 _ _ ?_]
        · obtain ⟨j, rfl⟩ := Nat.exists_eq_add_of_le hk1
          rw [hs1, writeAll_file, hfs j (by omega)]
          rfl
        · rintro ⟨-, k', hk1', hk2', he⟩
          have := sliceFile_inj k k' (by omega) (by omega) he
          omega
    · rw [h3 q n ?_, hfile q n ?_]
      · rintro ⟨rfl, j, hj, rfl⟩
        exact hq ⟨rfl, i + j, by omega, by omega, rfl⟩
      · rintro ⟨rfl, j, hj1, hj2, rfl⟩
        exact hq ⟨rfl, j, by omega, hj2, rfl⟩

/-- The second loop for hdf output. -/
theorem write_phase (P : Paths) (W : Work K) (name : Name) (d : Nat → Option (Mat K)) (depth width N : Nat) (hne : P.dir ≠ P.tmp) (L : List (Nat × Nat))
    (a b : Nat) (hL : Consec a L b) (hb : b ≤ N) (s : Disk (File K)) (sh so : Nat × Nat × Nat) (ht : s.file P.tmp tmpFile = some (.data sh d))
    (ho : s.file P.dir name = some (.data so (Post.written ((List.range N).map fun i => sliceImage W d depth width i) 0 a id))) :
    ∃ t, runOps s (L.map (writeChunk P W name depth width)) = .ok t ∧
      t.file P.dir name = some (.data so (Post.written ((List.range N).map fun i => sliceImage W d depth width i) 0 b id)) := by
  induction L generalizing a s with
  | nil => cases hL; exact ⟨s, rfl, ho⟩
  | cons e L ih =>
    obtain ⟨i, l⟩ := e
    obtain ⟨hi, hL⟩ := hL
    have hi : i = a := hi
    have hL : Consec (a + l) L b := hL
    subst hi
    have hle : ∀ (L : List (Nat × Nat)) (a b : Nat), Consec a L b → a ≤ b := by
      intro L
      induction L with
      | nil => rintro a b rfl; exact le_rfl
      | cons e L ih => rintro a b ⟨-, h⟩; exact le_trans (Nat.le_add_right _ _) (ih _ _ h)
    have hib := hle L _ _ hL
    have hdata : dataOf s P.tmp tmpFile = .ok (sh, d) := by
      unfold Disk.file at ht
      unfold dataOf
      rw [ht]
    have hout : dataOf s P.dir name = .ok (so, Post.written ((List.range N).map fun i => sliceImage W d depth width i) 0 i id) := by
      unfold Disk.file at ho
      unfold dataOf
      rw [ho]
    have hw := Post.writeSlab_written ((List.range N).map fun i => sliceImage W d depth width i) 0 i l id
      ((List.range l).map fun j => sliceImage W d depth width (i + j)) (by simp) (fun j hj => by
        rw [List.getElem?_map, List.getElem?_map, List.getElem?_range hj, List.getElem?_range (by omega), Nat.zero_add]
        rfl)
    rw [List.map_id] at hw
    rw [List.map_cons, runOps_cons]
    unfold writeChunk at ih ⊢
    rw [save_one s P.dir name _ (.data so (Post.written ((List.range N).map fun i => sliceImage W d depth width i) 0 (i + l) id)) (by
      change (dataOf s P.tmp tmpFile).bind _ = _
      rw [hdata]
      change (dataOf s P.dir name).bind _ = _
      rw [hout]
      change Except.ok (File.data so (Post.writeSlab _ i _)) = _
      rw [hw])]
    refine ih (i + l) hL _ ?_ ?_
    · rw [save_file, if_neg fun h => hne h.1.symm]
      exact ht
    · rw [save_file, if_pos ⟨rfl, rfl⟩]

theorem runOps_append (s : Disk (File K)) (A B : List (Op K)) : runOps s (A ++ B) = (runOps s A).bind fun t => runOps t B := by
  unfold runOps
  rw [List.foldlM_append]
  rfl

/-- The input of a call: the names and images, at least two images and two output slices left by the cropping, no more slices than the names can count. -/
structure Good (P : Paths) (W : Work K) (s : Disk (File K)) (files : List Name) (img : Name → Mat K) (h w : Nat) : Prop where
  names : s.tifs P.input = .ok files
  images : ∀ f ∈ files, s.file P.input f = some (.image (img f))
  size : ∀ f ∈ files, (img f).h = h ∧ (img f).w = w
  axis : W.axis = 1 ∨ W.axis = 2
  depth : W.crop.d1 + W.crop.d2 + 2 ≤ files.length
  rows : W.crop.h1 + W.crop.h2 + (if W.axis = 1 then 2 else 1) ≤ h
  cols : W.crop.w1 + W.crop.w2 + (if W.axis = 2 then 2 else 1) ≤ w

/-- Number of output slices, and their number of columns. -/
def outSlices (W : Work K) (h w : Nat) : Nat := if W.axis = 2 then w - W.crop.w2 - W.crop.w1 else h - W.crop.h2 - W.crop.h1
def outWidth (W : Work K) (h w : Nat) : Nat := if W.axis = 2 then h - W.crop.h2 - W.crop.h1 else w - W.crop.w2 - W.crop.w1

/-- `M` is output slice `i` of the images `data` of size `h × w`. -/
def IsSlice (W : Work K) (data : List (Mat K)) (h w i : Nat) (M : Mat K) : Prop :=
  M.h = data.length - W.crop.d2 - W.crop.d1 ∧ M.w = outWidth W h w ∧
    ∀ k < M.h, ∀ j < M.w, some (M.get k j) = Post.wanted W.rot W.post data W.crop W.axis W.crop.d1 i k j

theorem slice_ok (W : Work K) (files : List Name) (img : Name → Mat K) (h w i : Nat) (hdep : W.crop.d1 + W.crop.d2 + 2 ≤ files.length) (hax : W.axis = 1 ∨ W.axis = 2) :
    IsSlice W (files.map img) h w i (sliceImage W (Post.written (files.map img) W.crop.d1 (files.length - W.crop.d2 - W.crop.d1)
      (prep W ⟨W.crop.d1, files.length - W.crop.d2, W.crop.h1, h - W.crop.h2, W.crop.w1, w - W.crop.w2⟩)) (files.length - W.crop.d2 - W.crop.d1)
      (outWidth W h w) i) := by
  refine ⟨by rw [List.length_map]; rfl, rfl, fun k hk j hj => ?_⟩
  have hk : k < files.length - W.crop.d2 - W.crop.d1 := hk
  have hlt : W.crop.d1 + k < (files.map img).length := by rw [List.length_map]; omega
  unfold sliceImage Post.written Post.wanted
  dsimp only
  rw [if_pos hk, List.getElem?_eq_getElem hlt]
  simp only [Option.map_some, prep, Post.cropMat]
  rcases hax with hax | hax <;> rw [hax] <;> rfl

/-- The effects of such a call. -/
theorem plan_good (P : Paths) (W : Work K) (s : Disk (File K)) (ow : Bool) (files : List Name) (img : Name → Mat K) (h w : Nat) (hg : Good P W s files img h w)
    (how : ow = true ∨ ¬ OutputExists s P) : resliceCall P W s ow = .ok (resliceOps P W files
      ⟨W.crop.d1, files.length - W.crop.d2, W.crop.h1, h - W.crop.h2, W.crop.w1, w - W.crop.w2⟩) := by
  have hdep := hg.depth
  have hrows := hg.rows
  have hcols := hg.cols
  have hh : W.crop.h1 + W.crop.h2 < h := by split at hrows <;> omega
  have hw : W.crop.w1 + W.crop.w2 < w := by split at hcols <;> omega
  rw [call_eq, if_neg (by have := hg.axis; omega), (check_iff s P ow).2 (fun hx => by
    rcases how with rfl | hne
    · exact absurd hx.2 (by decide)
    · exact hne hx.1)]
  show planOf P W s = _
  unfold planOf
  rw [hg.names]
  cases hfs : files with
  | nil => rw [hfs] at hdep; simp at hdep
  | cons f r =>
    have hf : f ∈ files := by rw [hfs]; simp
    have hm := hg.images f hf
    obtain ⟨hs1, hs2⟩ := hg.size f hf
    have himg : imageOf s P.input f = .ok (img f) := by
      unfold Disk.file at hm
      unfold imageOf
      rw [hm]
    change (imageOf s P.input f).bind _ = _
    rw [himg]
    change (Post.croppedShape (f :: r).length (img f).h (img f).w W.crop).bind _ = _
    rw [← hfs, hs1, hs2, Post.croppedShape_ok _ _ _ _ (by omega) hh hw]
    rfl

/-- The first part of a complete call: the temporary file holds all images, nothing else has been written. -/
theorem first_part (P : Paths) (W : Work K) (s : Disk (File K)) (ow : Bool) (files : List Name) (img : Name → Mat K) (h w : Nat) (hg : Good P W s files img h w)
    (how : ow = true ∨ ¬ OutputExists s P) (hin : P.input ≠ P.tmp) :
    let depth := files.length - W.crop.d2 - W.crop.d1
    let c : Post.Crop := ⟨W.crop.d1, files.length - W.crop.d2, W.crop.h1, h - W.crop.h2, W.crop.w1, w - W.crop.w2⟩
    let d := Post.written (files.map img) W.crop.d1 depth (prep W c)
    ∃ t, t.file P.tmp tmpFile = some (.data (depth, outSlices W h w, outWidth W h w) d) ∧ (∀ q n, q ≠ P.tmp → t.file q n = s.file q n) ∧
      (∀ q, q ≠ P.base → q ≠ P.tmp → t q = s q) ∧ (t P.base).isSome = true ∧
      resliceRun P W s ow = runOps t (match P.file with
        | none => (chunks (outSlices W h w) (npClip W.chunk 1 ((outSlices W h w : Nat) - 1)).toNat).map (saveChunk P W depth (outWidth W h w)) ++
            [.remove (below P.tmp)]
        | some name => [.save P.dir [(name, fun _ => .ok (.data (outSlices W h w, depth, outWidth W h w) fun _ => none))]] ++
            (chunks (outSlices W h w) (npClip W.chunk 1 ((outSlices W h w : Nat) - 1)).toNat).map (writeChunk P W name depth (outWidth W h w)) ++
            [.remove (below P.tmp), .remove (below P.base)]) := by
  intro depth c d
  have hdep := hg.depth
  have hrows := hg.rows
  have hcols := hg.cols
  have hh : W.crop.h1 + W.crop.h2 < h := by split at hrows <;> omega
  have hw : W.crop.w1 + W.crop.w2 < w := by split at hcols <;> omega
  -- the plan
  have hplan : resliceCall P W s ow = .ok (resliceOps P W files c) := plan_good P W s ow files img h w hg how
  -- the chunk sizes
  have hN : 2 ≤ outSlices W h w := by
    unfold outSlices
    rcases hg.axis with hax | hax
    · rw [if_neg (by omega)]
      rw [if_pos hax] at hrows
      omega
    · rw [if_pos hax]
      rw [if_pos hax] at hcols
      omega
  have hch1 : (npClip W.chunk 1 ((depth : Int) - 1)).toNat ≠ 0 := by
    have : 2 ≤ depth := by show 2 ≤ files.length - W.crop.d2 - W.crop.d1; omega
    unfold npClip
    omega
  have hch2 : (npClip W.chunk 1 (((outSlices W h w : Nat) : Int) - 1)).toNat ≠ 0 := by
    unfold npClip
    omega
  -- the three first effects
  have htb : P.tmp ≠ P.base := by
    intro e
    have := tmp_length P
    rw [e] at this
    exact lt_irrefl _ this
  set s3 : Disk (File K) := ((s.mkdir P.base).mkdir P.tmp).save P.tmp tmpFile (.data (depth, outSlices W h w, outWidth W h w) fun _ => none) with hs3
  have hrun3 : runOps s [.mkdir P.base, .mkdir P.tmp, .save P.tmp [(tmpFile, fun _ => .ok (.data (depth, outSlices W h w, outWidth W h w) fun _ => none))]] = .ok s3 := by
    rw [runOps_cons]
    change runOps (s.mkdir P.base) _ = _
    rw [runOps_cons]
    change runOps ((s.mkdir P.base).mkdir P.tmp) _ = _
    rw [runOps_cons, save_one _ _ _ _ _ rfl]
    rfl
  have hf3 : ∀ q n, q ≠ P.tmp → s3.file q n = s.file q n := by
    intro q n hq
    rw [hs3, save_file, if_neg fun hx => hq hx.1, mkdir_file, mkdir_file]
  have hz : Post.written (files.map img) W.crop.d1 0 (prep W c) = fun _ => none := by
    funext k
    unfold Post.written
    rw [if_neg (by omega)]
  obtain ⟨t, ht1, ht2⟩ := load_phase P W files c img hin (chunks depth (npClip W.chunk 1 ((depth : Int) - 1)).toNat) 0 depth
    (chunks_consec _ _ (Nat.pos_of_ne_zero hch1)) (by show W.crop.d1 + (files.length - W.crop.d2 - W.crop.d1) ≤ _; omega) s3
    (fun f hf => by rw [hf3 _ _ hin]; exact hg.images f hf) _ (by rw [hs3, save_file, if_pos ⟨rfl, rfl⟩, hz])
  obtain ⟨fr1, fr2⟩ := run_frame _ _ _ ht1
  refine ⟨t, ht2, fun q n hq => ?_, fun q h1 h2 => ?_, ?_, ?_⟩
  · rw [fr1 q n ?_, hf3 q n hq]
    intro op ho hr
    obtain ⟨iv, -, rfl⟩ := List.mem_map.1 ho
    exact hq hr.1
  · rw [fr2 q ?_, hs3, save_other _ _ _ _ _ h2, mkdir_other _ _ _ h2, mkdir_other _ _ _ h1]
    intro op ho hr
    obtain ⟨iv, -, rfl⟩ := List.mem_map.1 ho
    exact h2 hr.1
  · rw [fr2 P.base ?_, hs3, save_other _ _ _ _ _ htb.symm, mkdir_other _ _ _ htb.symm]
    · unfold Disk.mkdir
      rw [if_pos rfl]
      rfl
    · intro op ho hr
      obtain ⟨iv, -, rfl⟩ := List.mem_map.1 ho
      exact htb hr.1.symm
  · unfold resliceRun
    rw [hplan]
    change runOps s (resliceOps P W files c) = _
    unfold resliceOps
    dsimp only
    have e1 : c.d2 - c.d1 = depth := rfl
    have e2 : (if W.axis = 2 then c.w2 - c.w1 else c.h2 - c.h1) = outSlices W h w := rfl
    have e3 : (if W.axis = 2 then c.h2 - c.h1 else c.w2 - c.w1) = outWidth W h w := rfl
    rw [e1, e2, e3, if_neg hch1, if_neg hch2, runOps_append, runOps_append, hrun3]
    change (runOps s3 _).bind _ = _
    rw [ht1]
    change runOps t _ = _
    cases hfile : P.file with
    | none => rfl
    | some name => dsimp only; rw [if_neg hch2]

/-- **C148.** A complete call with tif output, also into the input folder itself: every slice file holds its slice, the temporary folder is gone and every
other file is as before. -/
theorem reslice_tif (P : Paths) (W : Work K) (s : Disk (File K)) (ow : Bool) (files : List Name) (img : Name → Mat K) (h w : Nat)
    (hg : Good P W s files img h w) (how : ow = true ∨ ¬ OutputExists s P) (hf : P.file = none) (hd : P.dir = P.base) (hin : P.input ≠ P.tmp)
    (hN : outSlices W h w ≤ 100000) :
    ∃ sF, resliceRun P W s ow = .ok sF ∧
      (∀ i < outSlices W h w, ∃ M, sF.file P.base (sliceFile i) = some (.image M) ∧ IsSlice W (files.map img) h w i M) ∧
      (∀ q, below P.tmp q = true → sF q = none) ∧
      ∀ q n, below P.tmp q = false → ¬ (q = P.base ∧ ∃ i < outSlices W h w, n = sliceFile i) → sF.file q n = s.file q n := by
  obtain ⟨t, h1, h2, h3, h4, h5⟩ := first_part P W s ow files img h w hg how hin
  have hbt : below P.tmp P.base = false := below_false_of_short _ _ (tmp_length P)
  have hbne : P.base ≠ P.tmp := by
    intro e
    rw [e, below_self] at hbt
    cases hbt
  rw [hf] at h5
  dsimp only at h5
  have hN2 : (npClip W.chunk 1 (((outSlices W h w : Nat) : Int) - 1)).toNat ≠ 0 := by
    have hrows := hg.rows
    have hcols := hg.cols
    have : 2 ≤ outSlices W h w := by
      unfold outSlices
      rcases hg.axis with hax | hax
      · rw [if_neg (by omega)]
        rw [if_pos hax] at hrows
        omega
      · rw [if_pos hax]
        rw [if_pos hax] at hcols
        omega
    unfold npClip
    omega
  obtain ⟨u, u1, u2, u3, u4⟩ := save_phase P W _ (files.length - W.crop.d2 - W.crop.d1) (outWidth W h w) (by rw [hd]; exact hbne)
    (chunks (outSlices W h w) (npClip W.chunk 1 (((outSlices W h w : Nat) : Int) - 1)).toNat) 0 (outSlices W h w)
    (chunks_consec _ _ (Nat.pos_of_ne_zero hN2)) hN t _ h1
  refine ⟨fun q => if below P.tmp q then none else u q, ?_, fun i hi => ?_, fun q hq => ?_, fun q n hq hn => ?_⟩
  · rw [h5, runOps_append, u1]
    rfl
  · refine ⟨_, ?_, slice_ok W files img h w i hg.depth hg.axis⟩
    unfold Disk.file
    dsimp only
    rw [if_neg (by rw [hbt]; decide)]
    have := u2 i (Nat.zero_le _) hi
    rw [hd] at this
    exact this
  · dsimp only
    rw [if_pos hq]
  · have : Disk.file (fun q => if below P.tmp q then none else u q) q n = u.file q n := by
      unfold Disk.file
      dsimp only
      rw [if_neg (by rw [hq]; decide)]
    rw [this, u3 q n ?_, h2 q n ?_]
    · rintro rfl
      rw [below_self] at hq
      cases hq
    · rintro ⟨rfl, i, -, hi, rfl⟩
      exact hn ⟨hd, i, hi, rfl⟩

/-- **C148.** A complete call with hdf output: the file holds exactly the slices, the temporary folder and the folder named like the output are gone and every
other file is as before. -/
theorem reslice_hdf (P : Paths) (W : Work K) (s : Disk (File K)) (ow : Bool) (files : List Name) (img : Name → Mat K) (h w : Nat)
    (hg : Good P W s files img h w) (how : ow = true ∨ ¬ OutputExists s P) (name : Name) (hf : P.file = some name)
    (hd : ∃ stem, P.base = P.dir ++ '/' :: stem) (hin : P.input ≠ P.tmp) :
    ∃ sF d, resliceRun P W s ow = .ok sF ∧ sF.file P.dir name = some (.data (outSlices W h w, files.length - W.crop.d2 - W.crop.d1, outWidth W h w) d) ∧
      (∀ i < outSlices W h w, ∃ M, d i = some M ∧ IsSlice W (files.map img) h w i M) ∧ (∀ i, outSlices W h w ≤ i → d i = none) ∧
      (∀ q, below P.base q = true → sF q = none) ∧
      ∀ q n, below P.base q = false → ¬ (q = P.dir ∧ n = name) → sF.file q n = s.file q n := by
  obtain ⟨t, h1, h2, h3, h4, h5⟩ := first_part P W s ow files img h w hg how hin
  obtain ⟨-, hl⟩ := dir_length P (fun hx => by rw [hf] at hx; cases hx) (fun _ => hd)
  have hl := hl (by rw [hf]; simp)
  have hdb : below P.base P.dir = false := below_false_of_short _ _ hl
  have hdt : below P.tmp P.dir = false := below_false_of_short _ _ (hl.trans (tmp_length P))
  have hdne : P.dir ≠ P.tmp := by
    intro e
    rw [e, below_self] at hdt
    cases hdt
  rw [hf] at h5
  dsimp only at h5
  have hN2 : (npClip W.chunk 1 (((outSlices W h w : Nat) : Int) - 1)).toNat ≠ 0 := by
    have hrows := hg.rows
    have hcols := hg.cols
    have : 2 ≤ outSlices W h w := by
      unfold outSlices
      rcases hg.axis with hax | hax
      · rw [if_neg (by omega)]
        rw [if_pos hax] at hrows
        omega
      · rw [if_pos hax]
        rw [if_pos hax] at hcols
        omega
    unfold npClip
    omega
  have hz : ∀ l : List (Mat K), Post.written l 0 0 id = fun _ => none := by
    intro l
    funext k
    unfold Post.written
    rw [if_neg (by omega)]
  obtain ⟨u, u1, u2⟩ := write_phase P W name _ (files.length - W.crop.d2 - W.crop.d1) (outWidth W h w) (outSlices W h w) hdne
    (chunks (outSlices W h w) (npClip W.chunk 1 (((outSlices W h w : Nat) : Int) - 1)).toNat) 0 (outSlices W h w)
    (chunks_consec _ _ (Nat.pos_of_ne_zero hN2)) le_rfl (t.save P.dir name (.data _ fun _ => none)) _ _ (by
      rw [save_file, if_neg fun hx => hdne hx.1.symm]
      exact h1) (by rw [save_file, if_pos ⟨rfl, rfl⟩, hz])
  obtain ⟨fr1, -⟩ := run_frame _ _ _ u1
  refine ⟨fun q => if below P.base q then none else if below P.tmp q then none else u q,
    Post.written ((List.range (outSlices W h w)).map fun i => sliceImage W (Post.written (files.map img) W.crop.d1
      (files.length - W.crop.d2 - W.crop.d1)
      (prep W ⟨W.crop.d1, files.length - W.crop.d2, W.crop.h1, h - W.crop.h2, W.crop.w1, w - W.crop.w2⟩)) (files.length - W.crop.d2 - W.crop.d1)
      (outWidth W h w) i) 0 (outSlices W h w) id,
    ?_, ?_, fun i hi => ⟨_, ?_,
    slice_ok W files img h w i hg.depth hg.axis⟩, fun i hi => ?_, fun q hq => ?_, fun q n hq hn => ?_⟩
  · rw [h5, runOps_append, runOps_append, runOps_cons, save_one _ _ _ _ _ rfl]
    change Except.bind (runOps (t.save P.dir name (.data _ fun _ => none)) _) _ = _
    rw [u1]
    rfl
  · unfold Disk.file
    dsimp only
    rw [if_neg (by rw [hdb]; decide), if_neg (by rw [hdt]; decide)]
    exact u2
  · unfold Post.written
    rw [if_pos hi, Nat.zero_add, List.getElem?_map, List.getElem?_range hi]
    rfl
  · unfold Post.written
    rw [if_neg (by omega)]
  · dsimp only
    rw [if_pos hq]
  · have hqt : below P.tmp q = false := by
      by_contra hx
      rw [Bool.not_eq_false] at hx
      rw [below_trans_tmp P q hx] at hq
      cases hq
    have : Disk.file (fun q => if below P.base q then none else if below P.tmp q then none else u q) q n = u.file q n := by
      unfold Disk.file
      dsimp only
      rw [if_neg (by rw [hq]; decide), if_neg (by rw [hqt]; decide)]
    rw [this, fr1 q n ?_, save_file, if_neg hn, h2 q n ?_]
    · rintro rfl
      rw [below_self] at hqt
      cases hqt
    · intro op ho hr
      obtain ⟨iv, -, rfl⟩ := List.mem_map.1 ho
      exact hn ⟨hr.1, by simpa using hr.2⟩

/-- **C148**, clean-up, is false of a call that fails: with one image left by the cropping the call raises ValueError, and at that moment the output folder and the
temporary folder have been made and stay there; with tif output the next call with `overwrite=False` is refused because of them. -/
theorem single_leaves_refuted (P : Paths) (W : Work K) (s : Disk (File K)) (ow : Bool) (f : Name) (r : List Name) (m0 : Mat K)
    (hn : s.tifs P.input = .ok (f :: r)) (hi : s.file P.input f = some (.image m0)) (hax : W.axis = 1 ∨ W.axis = 2)
    (hd : W.crop.d1 + W.crop.d2 + 1 = (f :: r).length) (hh : W.crop.h1 + W.crop.h2 < m0.h) (hw : W.crop.w1 + W.crop.w2 < m0.w)
    (how : ow = true ∨ ¬ OutputExists s P) :
    resliceRun P W s ow = .error .valueError ∧ ∃ ops s1, resliceCall P W s ow = .ok ops ∧ runOps s (ops.take 3) = .ok s1 ∧
      ops[3]? = some (.fail .valueError) ∧ (s1 P.base).isSome = true ∧ (s1 P.tmp).isSome = true ∧
      (P.file = none → resliceRun P W s1 false = .error .valueError) := by
  have himg : imageOf s P.input f = .ok m0 := by
    unfold Disk.file at hi
    unfold imageOf
    rw [hi]
  have hplan : resliceCall P W s ow = .ok (resliceOps P W (f :: r) ⟨W.crop.d1, (f :: r).length - W.crop.d2, W.crop.h1, m0.h - W.crop.h2, W.crop.w1,
      m0.w - W.crop.w2⟩) := by
    rw [call_eq, if_neg (by omega), (check_iff s P ow).2 (fun hx => by
      rcases how with rfl | hne
      · exact absurd hx.2 (by decide)
      · exact hne hx.1)]
    show planOf P W s = _
    unfold planOf
    rw [hn]
    change (imageOf s P.input f).bind _ = _
    rw [himg]
    change (Post.croppedShape (f :: r).length m0.h m0.w W.crop).bind _ = _
    rw [Post.croppedShape_ok _ _ _ _ (by omega) hh hw]
    rfl
  have hch : (npClip W.chunk 1 ((((f :: r).length - W.crop.d2 - W.crop.d1 : Nat) : Int) - 1)).toNat = 0 := by
    rw [show (f :: r).length - W.crop.d2 - W.crop.d1 = 1 by omega]
    unfold npClip
    omega
  set s3 : Disk (File K) := ((s.mkdir P.base).mkdir P.tmp).save P.tmp tmpFile (.data ((f :: r).length - W.crop.d2 - W.crop.d1, (if W.axis = 2 then (m0.w - W.crop.w2) - W.crop.w1 else (m0.h - W.crop.h2) - W.crop.h1), (if W.axis = 2 then (m0.h - W.crop.h2) - W.crop.h1 else (m0.w - W.crop.w2) - W.crop.w1)) fun _ => none) with hs3
  have hrun3 : runOps s [.mkdir P.base, .mkdir P.tmp, .save P.tmp [(tmpFile, fun _ => .ok (.data ((f :: r).length - W.crop.d2 - W.crop.d1, (if W.axis = 2 then (m0.w - W.crop.w2) - W.crop.w1 else (m0.h - W.crop.h2) - W.crop.h1), (if W.axis = 2 then (m0.h - W.crop.h2) - W.crop.h1 else (m0.w - W.crop.w2) - W.crop.w1)) fun _ => none))]] = .ok s3 := by
    rw [runOps_cons]
    change runOps (s.mkdir P.base) _ = _
    rw [runOps_cons]
    change runOps ((s.mkdir P.base).mkdir P.tmp) _ = _
    rw [runOps_cons, save_one _ _ _ _ _ rfl]
    rfl
  have hform : ∃ X, resliceOps P W (f :: r) ⟨W.crop.d1, (f :: r).length - W.crop.d2, W.crop.h1, m0.h - W.crop.h2, W.crop.w1, m0.w - W.crop.w2⟩ =
      [.mkdir P.base, .mkdir P.tmp, .save P.tmp [(tmpFile, fun _ => .ok (.data ((f :: r).length - W.crop.d2 - W.crop.d1, (if W.axis = 2 then (m0.w - W.crop.w2) - W.crop.w1 else (m0.h - W.crop.h2) - W.crop.h1), (if W.axis = 2 then (m0.h - W.crop.h2) - W.crop.h1 else (m0.w - W.crop.w2) - W.crop.w1)) fun _ => none))]] ++ ([.fail .valueError] ++ X) := by
    unfold resliceOps
    dsimp only
    rw [if_pos hch, List.append_assoc]
    exact ⟨_, rfl⟩
  obtain ⟨X, hX⟩ := hform
  have htb : P.base ≠ P.tmp := by
    intro e
    have := tmp_length P
    rw [← e] at this
    exact lt_irrefl _ this
  have hb : (s3 P.base).isSome = true := by
    rw [hs3, save_other _ _ _ _ _ htb, mkdir_other _ _ _ htb]
    unfold Disk.mkdir
    rw [if_pos rfl]
    rfl
  refine ⟨?_, _, s3, hplan, ?_, ?_, hb, save_self _ _ _ _, fun hf => ?_⟩
  · unfold resliceRun
    rw [hplan]
    change runOps s _ = _
    rw [hX, runOps_append, hrun3]
    rfl
  · rw [hX]
    exact hrun3
  · rw [hX]
    rfl
  · unfold resliceRun
    rw [call_eq, if_neg (by omega), (check_iff s3 P false).1 ⟨Or.inl ⟨hf, hb⟩, rfl⟩]
    rfl

/-! ### concrete cases -/

/-- A 2 × 2 image. -/
def img4 (a b c d : ℚ) : Mat ℚ := ⟨2, 2, fun i j => if i = 0 then (if j = 0 then a else b) else (if j = 0 then c else d)⟩

/-- A folder with two images. -/
def scan2 : Disk (File ℚ) := fun q =>
  if q = "scan".toList then some [(sliceFile 0, .image (img4 1 2 3 4)), (sliceFile 1, .image (img4 5 6 7 8))] else none

def work1 : Work ℚ := ⟨id, id, 1, 1, noCrop⟩
def toTif : Paths := ⟨"scan".toList, "out/res".toList, "out/res".toList, none⟩
def toHdf : Paths := ⟨"scan".toList, "out/res".toList, "out".toList, some "res.hdf".toList⟩
def inPlace : Paths := ⟨"scan".toList, "scan".toList, "scan".toList, none⟩

/-- Pixel `(0, 0)` of an image file. -/
def pixel (s : Disk (File ℚ)) (p n : Name) : Option ℚ :=
  match s.file p n with
  | some (.image m) => some (m.get 0 0)
  | _ => none

theorem separate_tif : Separate toTif := ⟨fun _ => rfl, fun h => absurd rfl h, by decide, by decide, fun h => absurd rfl h⟩

theorem separate_hdf : Separate toHdf := ⟨fun h => (nomatch h), fun _ => ⟨"res".toList, rfl⟩, by decide, by decide, fun _ => by decide⟩

theorem good_scan2 (P : Paths) (hP : P.input = "scan".toList) :
    Good P work1 scan2 [sliceFile 0, sliceFile 1] (fun f => if f = sliceFile 0 then img4 1 2 3 4 else img4 5 6 7 8) 2 2 := by
  have h1 : scan2.tifs "scan".toList = .ok [sliceFile 0, sliceFile 1] := by
    rw [ok_of (scan2.tifs "scan".toList) [] (by decide +kernel)]
    congr 1
    decide +kernel
  refine ⟨by rw [hP]; exact h1, fun f hf => ?_, fun f hf => ?_, Or.inl rfl, by decide, by decide, by decide⟩
  · rw [hP]
    simp only [List.mem_cons, List.not_mem_nil, or_false] at hf
    rcases hf with rfl | rfl
    · rfl
    · rw [if_neg (by decide +kernel)]
      rfl
  · split <;> exact ⟨rfl, rfl⟩

/-- A non-trivial instance of `reslice_tif`, into a new folder and into the input folder. -/
example : (∃ sF, resliceRun toTif work1 scan2 false = .ok sF) ∧ ∃ sF, resliceRun inPlace work1 scan2 true = .ok sF := by
  obtain ⟨s1, h1, -⟩ := reslice_tif toTif work1 scan2 false _ _ 2 2 (good_scan2 _ rfl) (Or.inr (by
    rintro (⟨-, h⟩ | ⟨n, h, -⟩)
    · exact absurd h (by decide)
    · cases h)) rfl rfl (by decide) (by decide)
  obtain ⟨s2, h2, -⟩ := reslice_tif inPlace work1 scan2 true _ _ 2 2 (good_scan2 _ rfl) (Or.inl rfl) rfl rfl (by decide) (by decide)
  exact ⟨⟨s1, h1⟩, s2, h2⟩

/-- A non-trivial instance of `reslice_hdf`. -/
example : ∃ sF d, resliceRun toHdf work1 scan2 true = .ok sF ∧ sF.file "out".toList "res.hdf".toList = some (.data (2, 2, 2) d) := by
  obtain ⟨s1, d, h1, h2, -⟩ := reslice_hdf toHdf work1 scan2 true _ _ 2 2 (good_scan2 _ rfl) (Or.inl rfl) _ rfl ⟨"res".toList, rfl⟩ (by decide)
  exact ⟨s1, d, h1, h2⟩

/-- A non-trivial instance of `restart`: the call stopped while it was writing its first slice. -/
example : ∃ s' sF', StopsAt toTif work1 scan2 false s' ∧ pixel s' "out/res".toList (sliceFile 0) = some 9 ∧ resliceRun toTif work1 s' true = .ok sF' ∧
    pixel sF' "out/res".toList (sliceFile 0) = some 1 := by
  have hc := plan_good toTif work1 scan2 false _ _ 2 2 (good_scan2 _ rfl) (Or.inr (by
    rintro (⟨-, h⟩ | ⟨n, h, -⟩)
    · exact absurd h (by decide)
    · cases h))
  generalize hops : resliceOps toTif work1 [sliceFile 0, sliceFile 1] ⟨work1.crop.d1, [sliceFile 0, sliceFile 1].length - work1.crop.d2, work1.crop.h1,
    2 - work1.crop.h2, work1.crop.w1, 2 - work1.crop.w2⟩ = ops at hc
  have hr := ok_of (runOps scan2 (ops.take 5)) scan2 (by rw [← hops]; decide +kernel)
  have hrun := ok_of (resliceRun toTif work1 scan2 false) scan2 (by decide +kernel)
  have hop : ops[5]? = some (saveChunk toTif work1 2 2 (0, 1)) := by rw [← hops]; rfl
  have hstop : StopsAt toTif work1 scan2 false
      ((okOr (runOps scan2 (ops.take 5)) scan2).save "out/res".toList (sliceFile 0) (.image (img4 9 9 9 9))) := by
    refine ⟨_, hc, 5, _, hr, Or.inr ⟨_, hop, fun q hq => ?_, fun q n hq => ?_⟩⟩
    · refine save_other _ _ _ _ _ fun e => hq (sliceFile 0) ⟨e, ?_⟩
      exact List.mem_singleton.2 rfl
    · have := save_file (okOr (runOps scan2 (ops.take 5)) scan2) "out/res".toList (sliceFile 0) (File.image (img4 9 9 9 9)) q n
      rw [if_neg fun e => hq ⟨e.1, by rw [e.2]; exact List.mem_singleton.2 rfl⟩] at this
      exact this
  obtain ⟨sF', h1, h2⟩ := (restart toTif work1 separate_tif scan2 _ false hstop).1 _ hrun
  refine ⟨_, sF', hstop, by rw [← hops]; decide +kernel, h1, ?_⟩
  have h3 := (h2 "out/res".toList).2 (sliceFile 0)
  unfold pixel
  rw [← h3]
  decide +kernel

/-- **C147** is false of a call into the input folder: after a stop between two slices the input is partly replaced, and running again gives wrong slices. -/
theorem restart_in_place_refuted : ¬ ∀ (P : Paths) (W : Work ℚ) (s s' : Disk (File ℚ)) (ow : Bool) (sF : Disk (File ℚ)), P.dir = P.base → P.file = none →
    StopsAt P W s ow s' → resliceRun P W s ow = .ok sF → ∃ sF', resliceRun P W s' true = .ok sF' ∧ sF.Same sF' := by
  intro h
  have hc := ok_of (resliceCall inPlace work1 scan2 true) [] (by decide +kernel)
  have hr := ok_of (runOps scan2 ((okOr (resliceCall inPlace work1 scan2 true) []).take 6)) scan2 (by decide +kernel)
  have hrun := ok_of (resliceRun inPlace work1 scan2 true) scan2 (by decide +kernel)
  obtain ⟨sF', h1, h2⟩ := h inPlace work1 scan2 _ true _ rfl rfl ⟨_, hc, 6, _, hr, Or.inl rfl⟩ hrun
  have h3 := (h2 "scan".toList).2 (sliceFile 1)
  have h4 : sF' = okOr (resliceRun inPlace work1 (okOr (runOps scan2 ((okOr (resliceCall inPlace work1 scan2 true) []).take 6)) scan2) true) scan2 := by
    rw [h1]; rfl
  rw [h4] at h3
  have h5 : pixel (okOr (resliceRun inPlace work1 scan2 true) scan2) "scan".toList (sliceFile 1) =
      pixel (okOr (resliceRun inPlace work1 (okOr (runOps scan2 ((okOr (resliceCall inPlace work1 scan2 true) []).take 6)) scan2) true) scan2)
        "scan".toList (sliceFile 1) := by
    unfold pixel
    rw [h3]
  exact absurd h5 (by decide +kernel)

end Verif.ResliceRun
