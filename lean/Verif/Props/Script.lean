import Verif.Model.Script
import Verif.Props.ConvertRun

/-!
A script of dataset functions that was stopped somewhere can be run again from the start.
-/

set_option linter.unusedSectionVars false
set_option linter.unusedSimpArgs false

namespace Verif.Script
open Verif.Io Verif.Convert Verif.Writer Verif.ResliceRun

variable {K : Type} [Field K] [LinearOrder K] [FloorRing K]

/-! ### the functions that read images -/

theorem view_file (s : Disk (File K)) (p n : Name) : (view s).file p n = (s.file p n).map asImage := by
  unfold Disk.file view
  cases s p with
  | none => rfl
  | some d =>
    show Dir.find (d.map fun e => (e.1, asImage e.2)) n = (Dir.find d n).map asImage
    unfold Dir.find
    rw [List.find?_map, Option.map_map, Option.map_map]
    rfl

theorem view_names (s : Disk (File K)) (p : Name) : ((view s p).getD []).map (·.1) = ((s p).getD []).map (·.1) := by
  unfold view
  cases s p with
  | none => rfl
  | some d =>
    show (d.map fun e => (e.1, asImage e.2)).map (·.1) = d.map (·.1)
    rw [List.map_map]
    rfl

theorem read_congr (s t : Disk (File K)) (p : Name) (h : ∀ n, s.file p n = t.file p n) : (view s).read p = (view t).read p := by
  funext n
  have : (view s).file p n = (view t).file p n := by rw [view_file, view_file, h n]
  unfold Disk.file at this
  unfold Disk.read
  rw [this]

/-- All folders have different names for different files. -/
def AllProper (s : Disk (File K)) : Prop := ∀ p, s.Proper p

/-- The listing of a folder is determined by its files. -/
theorem tifs_congr {C : Type} (s t : Disk C) (p : Name) (hs : s.Proper p) (ht : t.Proper p) (h : ∀ n, s.file p n = t.file p n) : s.tifs p = t.tifs p := by
  unfold Disk.tifs
  refine (find_file_spec _ _).2.2 _ ((List.perm_ext_iff_of_nodup hs ht).2 fun n => ?_)
  have := h n
  unfold Disk.file at this
  rw [mem_names, mem_names, this]

theorem jobs_congr_files (gauss : Mat K → Mat K) (c : Call K) (s t : Disk (Mat K)) (h1 : s.tifs c.input = t.tifs c.input)
    (h2 : s.read c.input = t.read c.input) : c.jobs gauss s true = c.jobs gauss t true := by
  cases c with
  | rescale i o nbit mm skip crop =>
    have h1 : s.tifs i = t.tifs i := h1
    have h2 : s.read i = t.read i := h2
    show rescaleCall gauss s i o nbit mm skip crop true = rescaleCall gauss t i o nbit mm skip crop true
    unfold rescaleCall rangeOf stackOf firstImage
    rw [h1, h2, check_true, check_true]
  | downsample i o c0 c1 c2 m sc io crop =>
    have h1 : s.tifs i = t.tifs i := h1
    have h2 : s.read i = t.read i := h2
    show downsampleCall gauss s i o c0 c1 c2 m sc io crop true = downsampleCall gauss t i o c0 c1 c2 m sc io crop true
    unfold downsampleCall Scaling.range rangeOf stackOf firstImage
    rw [h1, h2, check_true, check_true]

/-! ### tasks -/

/-- The input folder of a call. -/
def Task.input : Task K → Name
  | .write c => c.input
  | .reslice P _ => P.input
  | .convert A => A.input
  | .extract A => A.dir

/-- The folders a call may change. -/
def Task.folder : Task K → Name → Prop
  | .write c, q => q = c.output
  | .reslice P _, q => q = P.dir ∨ q = P.base ∨ below P.tmp q = true ∨ (P.file ≠ none ∧ below P.base q = true)
  | .convert A, q => q = A.dir
  | .extract A, q => q = A.out

/-- The files a call may change. -/
def Task.touches : Task K → Name → Name → Prop
  | .write c, q, n => q = c.output ∧ ∃ i, n = sliceFile i
  | .reslice P _, q, n => Touches P q n
  | .convert A, q, n => q = A.dir ∧ n = A.name
  | .extract A, q, n => q = A.out ∧ ∃ k, n = sliceName A.pre k

theorem plan_true (gauss : Mat K → Mat K) (ow : Bool) (s : Disk (File K)) (t : Task K) (ops : List (Op K)) (h : t.plan gauss ow s = .ok ops) :
    t.plan gauss true s = .ok ops := by
  cases t with
  | write c =>
    change (c.jobs gauss (view s) ow).map _ = _ at h
    change (c.jobs gauss (view s) true).map _ = _
    cases hj : c.jobs gauss (view s) ow with
    | error e => rw [hj] at h; cases h
    | ok js =>
      rw [(jobs_congr gauss c (view s) (view s) rfl ow true).1 js hj (check_true _ _)]
      rw [hj] at h
      exact h
  | reslice P W =>
    obtain ⟨h1, h2, -⟩ := call_ok P W s ow ops h
    show resliceCall P W s true = _
    rw [call_eq, if_neg h1, (check_iff s P true).2 fun hx => absurd hx.2 (by decide)]
    exact h2
  | convert A => exact h
  | extract A => exact h

/-- The plan of a call is determined by the files of its input folder. -/
theorem plan_congr (gauss : Mat K → Mat K) (s s' : Disk (File K)) (t : Task K) (hs : AllProper s) (hs' : AllProper s')
    (h : ∀ n, s.file t.input n = s'.file t.input n) : t.plan gauss true s = t.plan gauss true s' := by
  cases t with
  | write c =>
    have h : ∀ n, s.file c.input n = s'.file c.input n := h
    show (c.jobs gauss (view s) true).map _ = (c.jobs gauss (view s') true).map _
    have hp : ∀ u : Disk (File K), AllProper u → (view u).Proper c.input := by
      intro u hu
      unfold Disk.Proper
      rw [view_names]
      exact hu _
    rw [jobs_congr_files gauss c (view s) (view s') (tifs_congr _ _ _ (hp s hs) (hp s' hs') fun n => by rw [view_file, view_file, h n]) (read_congr s s' _ h)]
  | reslice P W =>
    have h : ∀ n, s.file P.input n = s'.file P.input n := h
    show resliceCall P W s true = resliceCall P W s' true
    rw [call_eq, call_eq, (check_iff s P true).2 fun hx => absurd hx.2 (by decide), (check_iff s' P true).2 fun hx => absurd hx.2 (by decide)]
    have hi : imageOf s P.input = imageOf s' P.input := funext fun n => imageOf_congr s s' _ _ (h n)
    have : planOf P W s = planOf P W s' := by
      unfold planOf
      rw [tifs_congr s s' P.input (hs _) (hs' _) h, hi]
    rw [this]
  | convert A => exact ConvertRun.convPlan_congr A s s' (hs _) (hs' _) fun n _ => h n
  | extract A =>
    show ConvertRun.extPlan A s = ConvertRun.extPlan A s'
    unfold ConvertRun.extPlan
    rw [ConvertRun.loadHdf_congr s s' A.dir A.name (h A.name)]

/-- What the effects of a call read, write, make and remove. -/
theorem plan_spec (gauss : Mat K → Mat K) (s : Disk (File K)) (t : Task K) (ops : List (Op K)) (h : t.plan gauss true s = .ok ops) :
    (∀ G : Name → Name → Prop, (∀ n, G t.input n) → ReadsAll G ops) ∧ (∀ op ∈ ops, ∀ q n, op.region q n → t.touches q n) ∧
      ∀ op ∈ ops, ∀ q, op.makes q → t.folder q := by
  cases t with
  | write c =>
    change (c.jobs gauss (view s) true).map _ = _ at h
    cases hj : c.jobs gauss (view s) true with
    | error e => rw [hj] at h; cases h
    | ok js =>
      rw [hj] at h
      cases h
      obtain ⟨files, first, -, -, -, htar⟩ := jobs_targets gauss c _ _ js hj
      have hname : ∀ j ∈ js, ∃ i, j.target = sliceFile i := by
        intro j hjm
        have hm : j.target ∈ js.map (·.target) := List.mem_map_of_mem hjm
        rw [htar] at hm
        obtain ⟨k, -, hk⟩ := List.mem_map.1 hm
        exact ⟨_, hk.symm⟩
      refine ⟨fun G hG => readsAll_of _ _ fun op hop => ?_, fun op hop q n hr => ?_, fun op hop q hr => ?_⟩
      · obtain ⟨j, hjm, rfl⟩ := List.mem_map.1 hop
        intro e he u v huv
        rw [List.mem_singleton.1 he]
        dsimp only
        rw [read_congr u v c.input fun n => huv _ _ (hG n)]
      · obtain ⟨j, hjm, rfl⟩ := List.mem_map.1 hop
        obtain ⟨h1, h2⟩ := hr
        obtain ⟨i, hi⟩ := hname j hjm
        refine ⟨h1, i, ?_⟩
        rw [← hi]
        simpa using h2
      · obtain ⟨j, hjm, rfl⟩ := List.mem_map.1 hop
        exact hr.1
  | reslice P W =>
    obtain ⟨-, h2, -⟩ := call_ok P W s true ops h
    obtain ⟨files, c, rfl⟩ := plan_ops P W s ops h2
    exact ⟨fun G hG => reads_ops P W files c G hG, regions P W files c, makes_folders P W files c⟩
  | convert A =>
    obtain ⟨files, hh, w, -, rfl⟩ := ConvertRun.plan_convOps A s ops h
    exact ⟨fun G hG => ConvertRun.conv_reads A files hh w G fun f _ => hG f, ConvertRun.conv_regions A files hh w, ConvertRun.conv_makes A files hh w⟩
  | extract A =>
    obtain ⟨a, -, rfl⟩ := ConvertRun.ext_plan A s ops h
    exact ⟨fun G hG => ConvertRun.ext_reads A _ _ G (hG _), fun op ho => (ConvertRun.ext_regions A _ _ op ho).1, fun op ho => (ConvertRun.ext_regions A _ _ op ho).2⟩

theorem touches_folder (t : Task K) (q n : Name) (h : t.touches q n) : t.folder q := by
  cases t with
  | write c => exact h.1
  | reslice P W =>
    rcases h with ⟨h, -⟩ | h | h
    · exact Or.inl h
    · exact Or.inr (Or.inr (Or.inl h))
    · exact Or.inr (Or.inr (Or.inr h))
  | convert A => exact h.1
  | extract A => exact h.1

/-! ### folders stay proper -/

theorem proper_write (s : Disk (File K)) (p : Name) (l : List (Name × File K)) (h : AllProper s) : AllProper (writeAll s p l) := by
  unfold writeAll
  induction l generalizing s with
  | nil => exact h
  | cons e l ih =>
    refine ih _ fun q => ?_
    unfold Disk.Proper Disk.save
    dsimp only
    by_cases hq : q = p
    · rw [if_pos hq]
      exact write_names_nodup _ _ _ (h p)
    · rw [if_neg hq]
      exact h q

theorem proper_act (op : Op K) (s t : Disk (File K)) (hs : AllProper s) (h : op.act s = .ok t) : AllProper t := by
  cases op with
  | mkdir p =>
    cases h
    intro q
    unfold Disk.Proper Disk.mkdir
    by_cases hq : q = p
    · rw [if_pos hq]
      exact hs p
    · rw [if_neg hq]
      exact hs q
  | save p l =>
    change (Except.map (fun r => writeAll s p r) (l.mapM fun (e : Name × (Disk (File K) → Py (File K))) => (e.2 s).map fun c => (e.1, c))) = .ok t at h
    cases hm : (l.mapM fun (e : Name × (Disk (File K) → Py (File K))) => (e.2 s).map fun c => (e.1, c)) with
    | error e => rw [hm] at h; cases h
    | ok r =>
      rw [hm] at h
      cases h
      exact proper_write s p r hs
  | remove P =>
    cases h
    intro q
    unfold Disk.Proper
    dsimp only
    split
    · exact List.nodup_nil
    · exact hs q
  | fail e => cases h

theorem proper_run (ops : List (Op K)) (s t : Disk (File K)) (hs : AllProper s) (h : runOps s ops = .ok t) : AllProper t := by
  induction ops generalizing s with
  | nil => cases h; exact hs
  | cons op ops ih =>
    rw [runOps_cons] at h
    cases h1 : op.act s with
    | error e => rw [h1] at h; cases h
    | ok s1 =>
      rw [h1] at h
      exact ih s1 (proper_act op s s1 hs h1) h

/-! ### what a script writes -/

theorem script_cons (gauss : Mat K → Mat K) (ow : Bool) (s : Disk (File K)) (t : Task K) (ts : List (Task K)) :
    runScript gauss ow s (t :: ts) = (t.run gauss ow s).bind fun s1 => runScript gauss ow s1 ts := rfl

theorem run_ok (gauss : Mat K → Mat K) (ow : Bool) (s s1 : Disk (File K)) (t : Task K) (h : t.run gauss ow s = .ok s1) :
    ∃ ops, t.plan gauss ow s = .ok ops ∧ runOps s ops = .ok s1 := by
  unfold Task.run at h
  cases hp : t.plan gauss ow s with
  | error e => rw [hp] at h; cases h
  | ok ops => rw [hp] at h; exact ⟨ops, rfl, h⟩

theorem run_of (gauss : Mat K → Mat K) (ow : Bool) (s : Disk (File K)) (t : Task K) (ops : List (Op K)) (h : t.plan gauss ow s = .ok ops) :
    t.run gauss ow s = runOps s ops := by
  unfold Task.run
  rw [h]
  rfl

/-- The files that the script writes or removes when it is run on `s`. -/
def Written (gauss : Mat K → Mat K) : Disk (File K) → List (Task K) → Name → Name → Prop
  | _, [], _, _ => False
  | s, t :: ts, p, n => (∃ ops, t.plan gauss true s = .ok ops ∧ ∃ op ∈ ops, op.region p n) ∨
      ∃ s1, t.run gauss true s = .ok s1 ∧ Written gauss s1 ts p n

/-- The folders that the script makes or removes when it is run on `s`. -/
def Made (gauss : Mat K → Mat K) : Disk (File K) → List (Task K) → Name → Prop
  | _, [], _ => False
  | s, t :: ts, p => (∃ ops, t.plan gauss true s = .ok ops ∧ ∃ op ∈ ops, op.makes p) ∨ ∃ s1, t.run gauss true s = .ok s1 ∧ Made gauss s1 ts p

theorem written_touches (gauss : Mat K → Mat K) (ts : List (Task K)) (s : Disk (File K)) (p n : Name) (h : Written gauss s ts p n) :
    ∃ t ∈ ts, t.touches p n := by
  induction ts generalizing s with
  | nil => exact h.elim
  | cons t ts ih =>
    rcases h with ⟨ops, h1, op, ho, hr⟩ | ⟨s1, -, h⟩
    · exact ⟨t, by simp, (plan_spec gauss s t ops h1).2.1 op ho p n hr⟩
    · obtain ⟨t', ht, hx⟩ := ih s1 h
      exact ⟨t', by simp [ht], hx⟩

theorem made_folder (gauss : Mat K → Mat K) (ts : List (Task K)) (s : Disk (File K)) (p : Name) (h : Made gauss s ts p) : ∃ t ∈ ts, t.folder p := by
  induction ts generalizing s with
  | nil => exact h.elim
  | cons t ts ih =>
    rcases h with ⟨ops, h1, op, ho, hr⟩ | ⟨s1, -, h⟩
    · exact ⟨t, by simp, (plan_spec gauss s t ops h1).2.2 op ho p hr⟩
    · obtain ⟨t', ht, hx⟩ := ih s1 h
      exact ⟨t', by simp [ht], hx⟩

/-- The two disks agree but for what the script writes when it is run on `s`. -/
def Agree (gauss : Mat K → Mat K) (ts : List (Task K)) (s s' : Disk (File K)) : Prop :=
  Rel (fun p n => ¬ Written gauss s ts p n) (fun p => ¬ Made gauss s ts p) s s'

/-- No call changes its own input folder or that of an earlier call. -/
def Ordered : List (Task K) → Prop
  | [] => True
  | t :: ts => (∀ t' ∈ t :: ts, ¬ t'.folder t.input) ∧ Ordered ts

theorem agree_plan (gauss : Mat K → Mat K) (t : Task K) (ts : List (Task K)) (ho : Ordered (t :: ts)) (s s' : Disk (File K)) (hs : AllProper s)
    (hs' : AllProper s') (h : Agree gauss (t :: ts) s s') :
    t.plan gauss true s = t.plan gauss true s' ∧ ∀ n, ¬ Written gauss s (t :: ts) t.input n := by
  have hin : ∀ n, ¬ Written gauss s (t :: ts) t.input n := by
    intro n hw
    obtain ⟨t', ht, hx⟩ := written_touches gauss _ s _ _ hw
    exact ho.1 t' ht (touches_folder t' _ _ hx)
  exact ⟨plan_congr gauss s s' t hs hs' fun n => h.1 _ _ (hin n), hin⟩

/-- One call from two disks that agree. -/
theorem agree_step (gauss : Mat K → Mat K) (t : Task K) (ts : List (Task K)) (ho : Ordered (t :: ts)) (s s' : Disk (File K)) (hs : AllProper s)
    (hs' : AllProper s') (h : Agree gauss (t :: ts) s s') :
    (∀ s1, t.run gauss true s = .ok s1 → ∃ s1', t.run gauss true s' = .ok s1' ∧ Agree gauss ts s1 s1' ∧ AllProper s1 ∧ AllProper s1') ∧
    ∀ e, t.run gauss true s = .error e → t.run gauss true s' = .error e := by
  obtain ⟨hplan, hin⟩ := agree_plan gauss t ts ho s s' hs hs' h
  cases hp : t.plan gauss true s with
  | error e =>
    have h1 : t.run gauss true s = .error e := by unfold Task.run; rw [hp]; rfl
    have h2 : t.run gauss true s' = .error e := by unfold Task.run; rw [← hplan, hp]; rfl
    rw [h1, h2]
    exact ⟨fun s1 hx => (by cases hx), fun e' hx => hx⟩
  | ok ops =>
    rw [run_of gauss true s t ops hp, run_of gauss true s' t ops (by rw [← hplan, hp])]
    obtain ⟨a, b⟩ := ops_sim ops _ _ ((plan_spec gauss s t ops hp).1 _ hin) s s' h
    refine ⟨fun s1 h1 => ?_, b⟩
    obtain ⟨s1', h1', hrel⟩ := a s1 h1
    have hrun : t.run gauss true s = .ok s1 := by rw [run_of gauss true s t ops hp, h1]
    refine ⟨s1', h1', ⟨fun q n hq => hrel.1 q n ?_, fun q hq => hrel.2 q ?_⟩, proper_run ops s s1 hs h1, proper_run ops s' s1' hs' h1'⟩
    · by_cases hx : ∃ op ∈ ops, op.region q n
      · exact Or.inr hx
      · left
        rintro (⟨ops', h2, hy⟩ | ⟨s2, h2, hy⟩)
        · rw [hp] at h2
          cases h2
          exact hx hy
        · rw [hrun] at h2
          cases h2
          exact hq hy
    · by_cases hx : ∃ op ∈ ops, op.makes q
      · exact Or.inr hx
      · left
        rintro (⟨ops', h2, hy⟩ | ⟨s2, h2, hy⟩)
        · rw [hp] at h2
          cases h2
          exact hx hy
        · rw [hrun] at h2
          cases h2
          exact hq hy

/-- The script from two disks that agree. -/
theorem agree_run (gauss : Mat K → Mat K) (ts : List (Task K)) (ho : Ordered ts) (s s' : Disk (File K)) (hs : AllProper s) (hs' : AllProper s')
    (h : Agree gauss ts s s') :
    (∀ sF, runScript gauss true s ts = .ok sF → ∃ sF', runScript gauss true s' ts = .ok sF' ∧ sF.Same sF') ∧
    (∀ e, runScript gauss true s ts = .error e → runScript gauss true s' ts = .error e) ∧
    (∀ p n, Written gauss s ts p n ↔ Written gauss s' ts p n) ∧ ∀ p, Made gauss s ts p ↔ Made gauss s' ts p := by
  induction ts generalizing s s' with
  | nil =>
    refine ⟨fun sF hF => ⟨s', rfl, ?_⟩, fun e he => (by cases he), fun p n => Iff.rfl, fun p => Iff.rfl⟩
    cases hF
    exact fun p => ⟨h.2 p id, fun n => h.1 p n id⟩
  | cons t ts ih =>
    obtain ⟨hplan, -⟩ := agree_plan gauss t ts ho s s' hs hs' h
    obtain ⟨a, b⟩ := agree_step gauss t ts ho s s' hs hs' h
    rw [script_cons, script_cons]
    cases hr : t.run gauss true s with
    | error e =>
      rw [b e hr]
      refine ⟨fun sF hF => (by cases hF), fun e' he => he, fun p n => ?_, fun p => ?_⟩
      · show (_ ∨ _) ↔ (_ ∨ _)
        rw [hplan, hr, b e hr]
      · show (_ ∨ _) ↔ (_ ∨ _)
        rw [hplan, hr, b e hr]
    | ok s1 =>
      obtain ⟨s1', h1, h2, h3, h4⟩ := a s1 hr
      rw [h1]
      obtain ⟨c1, c2, c3, c4⟩ := ih ho.2 s1 s1' h3 h4 h2
      refine ⟨c1, c2, fun p n => ?_, fun p => ?_⟩
      · show (_ ∨ _) ↔ (_ ∨ _)
        rw [hplan, hr, h1]
        refine or_congr Iff.rfl ⟨?_, ?_⟩
        · rintro ⟨u, hu, hx⟩
          cases hu
          exact ⟨s1', rfl, (c3 p n).1 hx⟩
        · rintro ⟨u, hu, hx⟩
          cases hu
          exact ⟨s1, rfl, (c3 p n).2 hx⟩
      · show (_ ∨ _) ↔ (_ ∨ _)
        rw [hplan, hr, h1]
        refine or_congr Iff.rfl ⟨?_, ?_⟩
        · rintro ⟨u, hu, hx⟩
          cases hu
          exact ⟨s1', rfl, (c4 p).1 hx⟩
        · rintro ⟨u, hu, hx⟩
          cases hu
          exact ⟨s1, rfl, (c4 p).2 hx⟩

/-- A stopped script has changed nothing but what it writes. -/
theorem stops_agree (gauss : Mat K → Mat K) (ow : Bool) (ts : List (Task K)) (s s' : Disk (File K)) (h : StopsScript gauss ow s ts s') :
    Agree gauss ts s s' := by
  induction ts generalizing s with
  | nil =>
    cases h
    exact ⟨fun _ _ _ => rfl, fun _ _ => Iff.rfl⟩
  | cons t ts ih =>
    rcases h with ⟨ops, hp, hst⟩ | ⟨s1, hr, hst⟩
    · have hp' := plan_true gauss ow s t ops hp
      obtain ⟨f1, f2⟩ := stops_frame ops s s' hst
      refine ⟨fun q n hq => (f1 q n fun op ho hx => hq (Or.inl ⟨ops, hp', op, ho, hx⟩)).symm, fun q hq => ?_⟩
      rw [f2 q fun op ho hx => hq (Or.inl ⟨ops, hp', op, ho, hx⟩)]
    · obtain ⟨ops, hp, hrun⟩ := run_ok gauss ow s s1 t hr
      have hp' := plan_true gauss ow s t ops hp
      have hr' : t.run gauss true s = .ok s1 := by rw [run_of gauss true s t ops hp', hrun]
      obtain ⟨f1, f2⟩ := run_frame ops s s1 hrun
      obtain ⟨g1, g2⟩ := ih s1 hst
      refine ⟨fun q n hq => ?_, fun q hq => ?_⟩
      · rw [← g1 q n fun hx => hq (Or.inr ⟨s1, hr', hx⟩)]
        exact (f1 q n fun op ho hx => hq (Or.inl ⟨ops, hp', op, ho, hx⟩)).symm
      · rw [← g2 q fun hx => hq (Or.inr ⟨s1, hr', hx⟩), f2 q fun op ho hx => hq (Or.inl ⟨ops, hp', op, ho, hx⟩)]

/-! ### C149 -/

/-- Any number of attempts to run the script, each stopped somewhere, with any value of `overwrite`. -/
inductive Attempts (gauss : Mat K → Mat K) (ts : List (Task K)) : Disk (File K) → Disk (File K) → Prop where
  | none (s) : Attempts gauss ts s s
  | more (s s1 s2) (ow : Bool) : Attempts gauss ts s s1 → StopsScript gauss ow s1 ts s2 → AllProper s2 → Attempts gauss ts s s2

theorem attempts_agree (gauss : Mat K → Mat K) (ts : List (Task K)) (ho : Ordered ts) (s s' : Disk (File K)) (hs : AllProper s)
    (h : Attempts gauss ts s s') : AllProper s' ∧ Agree gauss ts s s' := by
  induction h with
  | none => exact ⟨hs, fun _ _ _ => rfl, fun _ _ => Iff.rfl⟩
  | more s1 s2 ow _ hst hp ih =>
    obtain ⟨hs1, ha⟩ := ih
    obtain ⟨-, -, hw, hm⟩ := agree_run gauss ts ho s s1 hs hs1 ha
    have hb := stops_agree gauss ow ts s1 s2 hst
    refine ⟨hp, fun q n hq => ?_, fun q hq => ?_⟩
    · rw [ha.1 q n hq, hb.1 q n fun hx => hq ((hw q n).2 hx)]
    · rw [ha.2 q hq, hb.2 q fun hx => hq ((hm q).2 hx)]

/-- **C149.** A script of `rescale_dataset`, `downsample_dataset`, `reslice_dataset`, `convert_tif_to_hdf` and `extract_tif_from_hdf` calls in which no call writes to its own input folder or to that of an
earlier call: after any number of attempts that were stopped anywhere, running it again from the start with `overwrite=True` leaves the disk as one
uninterrupted run would have, and raises what that would have raised; until then only files that the calls write have changed. -/
theorem script_restart (gauss : Mat K → Mat K) (ts : List (Task K)) (ho : Ordered ts) (s s' : Disk (File K)) (hs : AllProper s)
    (h : Attempts gauss ts s s') :
    (∀ sF, runScript gauss true s ts = .ok sF → ∃ sF', runScript gauss true s' ts = .ok sF' ∧ sF.Same sF') ∧
    (∀ e, runScript gauss true s ts = .error e → runScript gauss true s' ts = .error e) ∧
    ∀ p n, (∀ t ∈ ts, ¬ t.touches p n) → s'.file p n = s.file p n := by
  obtain ⟨hs', ha⟩ := attempts_agree gauss ts ho s s' hs h
  obtain ⟨h1, h2, -, -⟩ := agree_run gauss ts ho s s' hs hs' ha
  refine ⟨h1, h2, fun p n hn => (ha.1 p n fun hw => ?_).symm⟩
  obtain ⟨t, ht, hx⟩ := written_touches gauss ts s p n hw
  exact hn t ht hx

/-- An uninterrupted run with `overwrite=False` that is not refused does the same as one with `overwrite=True`. -/
theorem script_overwrite (gauss : Mat K → Mat K) (ow : Bool) (ts : List (Task K)) (s sF : Disk (File K)) (h : runScript gauss ow s ts = .ok sF) :
    runScript gauss true s ts = .ok sF := by
  induction ts generalizing s with
  | nil => exact h
  | cons t ts ih =>
    rw [script_cons] at h ⊢
    cases hr : t.run gauss ow s with
    | error e => rw [hr] at h; cases h
    | ok s1 =>
      rw [hr] at h
      obtain ⟨ops, hp, hrun⟩ := run_ok gauss ow s s1 t hr
      rw [run_of gauss true s t ops (plan_true gauss ow s t ops hp), hrun]
      exact ih s1 h

/-! ### the two models of `rescale_dataset` and `downsample_dataset` -/

theorem view_save (s : Disk (File K)) (p n : Name) (m : Mat K) : view (s.save p n (.image m)) = (view s).save p n m := by
  funext q
  unfold view Disk.save
  dsimp only
  by_cases hq : q = p
  · rw [if_pos hq, if_pos hq]
    have hw : ∀ d : Dir (File K), (Dir.write d n (.image m)).map (fun e => (e.1, asImage e.2)) = Dir.write (d.map fun e => (e.1, asImage e.2)) n m := by
      intro d
      unfold Dir.write
      rw [List.map_cons, List.filter_map]
      rfl
    cases s p with
    | none => exact congrArg some (hw [])
    | some d => exact congrArg some (hw d)
  · rw [if_neg hq, if_neg hq]

theorem view_jobs (input output : Name) (js : List (Job (Mat K))) (s : Disk (File K)) :
    (runOps s (js.map (jobOp input output))).map view = runJobs input output (view s) js := by
  induction js generalizing s with
  | nil => rfl
  | cons j js ih =>
    have h1 : runOps s ((j :: js).map (jobOp input output)) = ((jobOp input output j).act s).bind fun t => runOps t (js.map (jobOp input output)) := rfl
    have h2 : runJobs input output (view s) (j :: js) = (Job.step input output (view s) j).bind fun t => runJobs input output t js := rfl
    have h3 : Job.step input output (view s) j = ((j.reads.mapM ((view s).read input)).bind j.work).bind fun r => .ok ((view s).save output j.target r) := by
      unfold Job.step
      cases j.reads.mapM ((view s).read input) <;> rfl
    rw [h1, h2, h3]
    cases hr : (j.reads.mapM ((view s).read input)).bind j.work with
    | error e =>
      have : (jobOp input output j).act s = .error e := by
        unfold jobOp Op.act
        simp only [List.mapM_cons, List.mapM_nil]
        rw [hr]
        rfl
      rw [this]
      rfl
    | ok m =>
      have : (jobOp input output j).act s = .ok (s.save output j.target (.image m)) := by
        unfold jobOp Op.act
        simp only [List.mapM_cons, List.mapM_nil]
        rw [hr]
        rfl
      rw [this]
      show (runOps (s.save output j.target (.image m)) (js.map (jobOp input output))).map view = runJobs input output ((view s).save output j.target m) js
      rw [ih, view_save]

/-- In a script, the functions that only read images do what they do on their own (the model of C144-C146). -/
theorem write_is_call (gauss : Mat K → Mat K) (ow : Bool) (s : Disk (File K)) (c : Call K) :
    ((Task.write c).run gauss ow s).map view = c.run gauss (view s) ow := by
  unfold Task.run Call.run Task.plan
  dsimp only
  cases c.jobs gauss (view s) ow with
  | error e => rfl
  | ok js => exact view_jobs c.input c.output js s

/-! ### concrete cases -/

/-- First to 8-bit, then reslice. -/
def script2 : List (Task ℚ) :=
  [.write (.rescale "scan".toList "mid".toList 8 (some (0, 10)) none noCrop), .reslice ⟨"mid".toList, "out/res".toList, "out/res".toList, none⟩ work1]

theorem ordered_script2 : Ordered script2 := by
  refine ⟨?_, ?_, True.intro⟩
  · intro t ht
    simp only [script2, List.mem_cons, List.not_mem_nil, or_false] at ht
    rcases ht with rfl | rfl
    · show ¬ ("scan".toList = "mid".toList)
      decide
    · show ¬ (_ ∨ _ ∨ _ ∨ _)
      decide +kernel
  · intro t ht
    simp only [List.mem_cons, List.not_mem_nil, or_false] at ht
    subst ht
    show ¬ (_ ∨ _ ∨ _ ∨ _)
    decide +kernel

theorem proper_scan2 : AllProper scan2 := by
  intro p
  unfold Disk.Proper scan2
  by_cases hp : p = "scan".toList
  · rw [if_pos hp]; decide +kernel
  · rw [if_neg hp]; exact List.nodup_nil

/-- A non-trivial instance of `script_restart`: the script is stopped in its second call; run again from the start it ends with the resliced 8-bit images. -/
example : ∃ s' sF', Attempts id script2 scan2 s' ∧ runScript id true s' script2 = .ok sF' ∧
    pixel sF' "out/res".toList (sliceFile 1) = some 76 := by
  have hrun := ok_of (runScript id true scan2 script2) scan2 (by decide +kernel)
  have h1 := ok_of ((script2.getD 0 (.reslice toTif work1)).run id false scan2) scan2 (by decide +kernel)
  generalize hs1 : okOr ((script2.getD 0 (.reslice toTif work1)).run id false scan2) scan2 = s1 at h1
  have h2 := ok_of ((script2.getD 1 (.reslice toTif work1)).plan id false s1) [] (by rw [← hs1]; decide +kernel)
  generalize hops : okOr ((script2.getD 1 (.reslice toTif work1)).plan id false s1) [] = ops at h2
  have h3 := ok_of (runOps s1 (ops.take 4)) s1 (by rw [← hops, ← hs1]; decide +kernel)
  have hst : StopsScript id false scan2 script2 (okOr (runOps s1 (ops.take 4)) s1) :=
    Or.inr ⟨s1, h1, Or.inl ⟨ops, h2, 4, _, h3, Or.inl rfl⟩⟩
  obtain ⟨ops1, -, hr1⟩ := run_ok _ _ _ _ _ h1
  have hp : AllProper (okOr (runOps s1 (ops.take 4)) s1) := proper_run _ _ _ (proper_run _ _ _ proper_scan2 hr1) h3
  have ha : Attempts id script2 scan2 _ := Attempts.more scan2 scan2 _ false (Attempts.none scan2) hst hp
  obtain ⟨sF', h4, h5⟩ := (script_restart id script2 ordered_script2 scan2 _ proper_scan2 ha).1 _ hrun
  refine ⟨_, sF', ha, h4, ?_⟩
  have := (h5 "out/res".toList).2 (sliceFile 1)
  unfold pixel
  rw [← this]
  decide +kernel

/-- To 8-bit, into an hdf file, and slices of that file along the second axis. -/
def script3 : List (Task ℚ) :=
  [.write (.rescale "scan".toList "mid".toList 8 (some (0, 10)) none noCrop), .convert ⟨"mid".toList, "out".toList, "all.hdf".toList, none, ⟨0, 0, 0, 0⟩⟩,
    .extract ⟨"out".toList, "all.hdf".toList, "back".toList, 1, .tuple 0 (-1) 1, ⟨0, 0, 0, 0⟩, "img".toList⟩]

/-- The conditions of `script_restart` for a script with the converters; it ends with slices of the 8-bit images. -/
example : Ordered script3 ∧ pixel (okOr (runScript id true scan2 script3) scan2) "back".toList (sliceName "img".toList 1) = some 76 := by
  refine ⟨⟨?_, ?_, ?_, True.intro⟩, by decide +kernel⟩
  · intro t ht
    simp only [List.mem_cons, List.not_mem_nil, or_false] at ht
    rcases ht with rfl | rfl | rfl
    · show ¬ ("scan".toList = "mid".toList)
      decide
    · show ¬ ("scan".toList = "out".toList)
      decide
    · show ¬ ("scan".toList = "back".toList)
      decide
  · intro t ht
    simp only [List.mem_cons, List.not_mem_nil, or_false] at ht
    rcases ht with rfl | rfl
    · show ¬ ("mid".toList = "out".toList)
      decide
    · show ¬ ("mid".toList = "back".toList)
      decide
  · intro t ht
    simp only [List.mem_cons, List.not_mem_nil, or_false] at ht
    rcases ht with rfl
    show ¬ ("out".toList = "back".toList)
    decide

/-- Two calls, the second of which writes to the input folder of the first. -/
def swapped : List (Task ℚ) :=
  [.write (.rescale "scan".toList "mid".toList 8 (some (0, 10)) none noCrop), .write (.rescale "mid".toList "scan".toList 8 (some (0, 10)) none noCrop)]

/-- **C149** is false of scripts in which a later call writes to the input folder of an earlier one: stopped in the second call and run again, the first call reads
images that the second has already replaced. -/
theorem ordering_refuted : ¬ ∀ (ts : List (Task ℚ)) (s s' sF : Disk (File ℚ)), AllProper s → Attempts id ts s s' → runScript id true s ts = .ok sF →
    ∃ sF', runScript id true s' ts = .ok sF' ∧ sF.Same sF' := by
  intro h
  have hrun := ok_of (runScript id true scan2 swapped) scan2 (by decide +kernel)
  have h1 := ok_of ((swapped.getD 0 (.reslice toTif work1)).run id true scan2) scan2 (by decide +kernel)
  have h2 := ok_of ((swapped.getD 1 (.reslice toTif work1)).plan id true (okOr ((swapped.getD 0 (.reslice toTif work1)).run id true scan2) scan2)) []
    (by decide +kernel)
  generalize hs1 : okOr ((swapped.getD 0 (.reslice toTif work1)).run id true scan2) scan2 = s1 at h1 h2
  generalize hops : okOr ((swapped.getD 1 (.reslice toTif work1)).plan id true s1) [] = ops at h2
  have h3 := ok_of (runOps s1 (ops.take 1)) s1 (by rw [← hops, ← hs1]; decide +kernel)
  generalize hs2 : okOr (runOps s1 (ops.take 1)) s1 = s2 at h3
  have hst : StopsScript id true scan2 swapped s2 := Or.inr ⟨s1, h1, Or.inl ⟨ops, h2, 1, _, h3, Or.inl rfl⟩⟩
  obtain ⟨ops1, -, hr1⟩ := run_ok _ _ _ _ _ h1
  have hp : AllProper s2 := proper_run _ _ _ (proper_run _ _ _ proper_scan2 hr1) h3
  obtain ⟨sF', h4, h5⟩ := h swapped scan2 s2 _ proper_scan2 (Attempts.more scan2 scan2 _ true (Attempts.none scan2) hst hp) hrun
  have h6 := (h5 "mid".toList).2 (sliceFile 0)
  have h7 : sF' = okOr (runScript id true s2 swapped) scan2 := by rw [h4]; rfl
  have h8 : pixel (okOr (runScript id true scan2 swapped) scan2) "mid".toList (sliceFile 0) = pixel sF' "mid".toList (sliceFile 0) := by
    unfold pixel
    rw [h6]
  rw [h7, ← hs2, ← hops, ← hs1] at h8
  revert h8
  decide +kernel

end Verif.Script
