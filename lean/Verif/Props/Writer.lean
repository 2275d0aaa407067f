import Verif.Model.Writer
import Verif.Props.Convert
import Verif.Props.Reslice
import Verif.Props.InputTypes

/-!
Properties of the functions that write a dataset slice by slice: what is on the disk when such a call stops anywhere, what a second call then does, and
what histories of calls leave behind.
-/

set_option linter.unusedSectionVars false
set_option linter.unusedSimpArgs false

namespace Verif.Writer
open Verif.Io Verif.Convert

variable {C : Type}

/-! ### specification -/

/-- The file `n` of a folder, if there is one. -/
def Disk.file (s : Disk C) (folder n : Name) : Option C := ((s folder).getD []).find n

/-- The two disks have the same folders and the same files in them. -/
def Disk.Same (s t : Disk C) : Prop := ∀ p, ((s p).isSome = true ↔ (t p).isSome = true) ∧ ∀ n, s.file p n = t.file p n

theorem Disk.Same.refl (s : Disk C) : s.Same s := fun _ => ⟨Iff.rfl, fun _ => rfl⟩

theorem Disk.Same.symm {s t : Disk C} (h : s.Same t) : t.Same s := fun p => ⟨(h p).1.symm, fun n => ((h p).2 n).symm⟩

theorem Disk.Same.trans {s t u : Disk C} (h : s.Same t) (h' : t.Same u) : s.Same u :=
  fun p => ⟨(h p).1.trans (h' p).1, fun n => ((h p).2 n).trans ((h' p).2 n)⟩

/-! ### the loop -/

theorem save_file (s : Disk C) (folder n : Name) (c : C) (p m : Name) :
    (s.save folder n c).file p m = if p = folder ∧ m = n then some c else s.file p m := by
  unfold Disk.file Disk.save
  by_cases hp : p = folder
  · subst hp
    rw [if_pos rfl, Option.getD_some, find_write]
    by_cases hm : m = n
    · rw [if_pos hm, if_pos ⟨rfl, hm⟩]
    · rw [if_neg hm, if_neg fun h => hm h.2]
  · rw [if_neg hp, if_neg fun h => hp h.1]

theorem save_other (s : Disk C) (folder n : Name) (c : C) (p : Name) (h : p ≠ folder) : s.save folder n c p = s p := by
  unfold Disk.save
  rw [if_neg h]

theorem save_self (s : Disk C) (folder n : Name) (c : C) : (s.save folder n c folder).isSome = true := by
  unfold Disk.save
  rw [if_pos rfl]
  rfl

theorem mkdir_file (s : Disk C) (folder p n : Name) : (s.mkdir folder).file p n = s.file p n := by
  unfold Disk.file Disk.mkdir
  by_cases hp : p = folder
  · subst hp; rw [if_pos rfl]; rfl
  · rw [if_neg hp]

theorem mkdir_other (s : Disk C) (folder p : Name) (h : p ≠ folder) : s.mkdir folder p = s p := by
  unfold Disk.mkdir
  rw [if_neg h]

/-- The image a job writes when it finds the input as on the disk `s`. -/
def Job.result (input : Name) (s : Disk C) (j : Job C) : Py C := (j.reads.mapM (s.read input)).bind j.work

theorem step_eq (input output : Name) (s : Disk C) (j : Job C) :
    Job.step input output s j = (j.result input s).map fun r => s.save output j.target r := by
  unfold Job.step Job.result
  cases h : j.reads.mapM (s.read input) with
  | error e => rfl
  | ok l =>
    show (j.work l).bind _ = Except.map _ (j.work l)
    cases j.work l <;> rfl

theorem run_cons (input output : Name) (s : Disk C) (j : Job C) (js : List (Job C)) :
    runJobs input output s (j :: js) = (Job.step input output s j).bind fun s1 => runJobs input output s1 js := rfl

/-- What any part of a loop leaves alone. -/
theorem run_frame (input output : Name) (jobs : List (Job C)) (s s' : Disk C) (h : runJobs input output s jobs = .ok s') :
    (∀ p, p ≠ output → s' p = s p) ∧ (∀ n, (∀ j ∈ jobs, j.target ≠ n) → s'.file output n = s.file output n) ∧
    ((s' output).isSome = true ↔ (s output).isSome = true ∨ jobs ≠ []) := by
  induction jobs generalizing s with
  | nil => cases h; exact ⟨fun _ _ => rfl, fun _ _ => rfl, by simp⟩
  | cons j js ih =>
    rw [run_cons, step_eq] at h
    cases hr : j.result input s with
    | error e => rw [hr] at h; cases h
    | ok r =>
      rw [hr] at h
      obtain ⟨h1, h2, h3⟩ := ih _ h
      refine ⟨fun p hp => (h1 p hp).trans (save_other _ _ _ _ _ hp), fun n hn => ?_, ?_⟩
      · rw [h2 n fun j' hj' => hn j' (List.mem_cons_of_mem _ hj'), save_file, if_neg]
        exact fun e => hn j (by simp) e.2.symm
      · rw [h3, save_self]; simp

/-- Saving a list of files. -/
def saveAll (s : Disk C) (output : Name) (l : List (Name × C)) : Disk C := l.foldl (fun s e => s.save output e.1 e.2) s

theorem saveAll_file (output : Name) (l : List (Name × C)) (s : Disk C) (n : Name) :
    (saveAll s output l).file output n = (Dir.find l.reverse n).or (s.file output n) := by
  induction l generalizing s with
  | nil => rfl
  | cons e l ih =>
    show (saveAll (s.save output e.1 e.2) output l).file output n = _
    rw [ih, save_file, List.reverse_cons]
    unfold Dir.find
    rw [List.find?_append]
    cases h : List.find? (fun x => x.1 == n) l.reverse with
    | some x => rfl
    | none =>
      by_cases hn : n = e.1
      · subst hn; simp
      · rw [if_neg fun h => hn h.2, List.find?_cons_of_neg (by simpa using fun h => hn h.symm)]
        rfl

theorem saveAll_other (output : Name) (l : List (Name × C)) (s : Disk C) (p : Name) (h : p ≠ output) : saveAll s output l p = s p := by
  induction l generalizing s with
  | nil => rfl
  | cons e l ih =>
    show saveAll (s.save output e.1 e.2) output l p = _
    rw [ih, save_other _ _ _ _ _ h]

theorem saveAll_self (output : Name) (l : List (Name × C)) (s : Disk C) :
    (saveAll s output l output).isSome = true ↔ (s output).isSome = true ∨ l ≠ [] := by
  induction l generalizing s with
  | nil => simp [saveAll]
  | cons e l ih =>
    show (saveAll (s.save output e.1 e.2) output l output).isSome = true ↔ _
    rw [ih, save_self]; simp

theorem result_congr (input : Name) (s t : Disk C) (h : s input = t input) (j : Job C) : j.result input s = j.result input t := by
  unfold Job.result Disk.read
  rw [h]

/-- A loop whose output folder is not its input folder: the results are those of the input as it was at the start. -/
theorem run_eq (input output : Name) (hio : input ≠ output) (jobs : List (Job C)) (s : Disk C) :
    runJobs input output s jobs =
      (jobs.mapM fun j : Job C => (j.result input s).map fun r => (j.target, r)).map fun l => saveAll s output l := by
  induction jobs generalizing s with
  | nil => rfl
  | cons j js ih =>
    rw [run_cons, step_eq, List.mapM_cons]
    cases hr : j.result input s with
    | error e => rfl
    | ok r =>
      show runJobs input output (s.save output j.target r) js = _
      have hc : (fun i : Job C => (i.result input (s.save output j.target r)).map fun r => (i.target, r)) =
        fun i : Job C => (i.result input s).map fun r => (i.target, r) :=
        funext fun i => by rw [result_congr input _ s (save_other _ _ _ _ _ hio) i]
      rw [ih, hc]
      show _ = Except.map _ (Except.bind (List.mapM _ js) _)
      cases List.mapM (fun j : Job C => (j.result input s).map fun r => (j.target, r)) js <;> rfl

theorem mapM_targets (input : Name) (s : Disk C) (jobs : List (Job C)) (l : List (Name × C))
    (h : (jobs.mapM fun j : Job C => (j.result input s).map fun r => (j.target, r)) = .ok l) :
    l.map (·.1) = jobs.map (·.target) ∧ ∀ k (h1 : k < jobs.length) (h2 : k < l.length), jobs[k].result input s = .ok l[k].2 := by
  obtain ⟨h1, h2⟩ := InputTypes.mapM_ok_get _ _ _ h
  have key : ∀ k (h3 : k < jobs.length) (h4 : k < l.length), l[k].1 = jobs[k].target ∧ jobs[k].result input s = .ok l[k].2 := by
    intro k h3 h4
    have := h2 k h3 h4
    cases hr : jobs[k].result input s with
    | error e => rw [hr] at this; cases this
    | ok r =>
      rw [hr] at this
      have e : (jobs[k].target, r) = l[k] := by
        have := this
        simpa [Except.map] using this
      rw [← e]
      exact ⟨rfl, rfl⟩
  refine ⟨?_, fun k h3 h4 => (key k h3 h4).2⟩
  apply List.ext_getElem (by simp [h1])
  intro k h3 h4
  simp only [List.getElem_map]
  exact (key k (by simpa using h4) (by simpa using h3)).1

/-- Where a loop stops: what it leaves alone. -/
theorem stops_frame (input output : Name) (jobs : List (Job C)) (s s' : Disk C) (h : Stops input output s jobs s') :
    (∀ p, p ≠ output → s' p = s p) ∧ (∀ n, (∀ j ∈ jobs, j.target ≠ n) → s'.file output n = s.file output n) ∧
    ((s output).isSome = true → (s' output).isSome = true) := by
  obtain ⟨k, s1, hrun, hs⟩ := h
  obtain ⟨h1, h2, h3⟩ := run_frame input output _ s s1 hrun
  have h2' : ∀ n, (∀ j ∈ jobs, j.target ≠ n) → s1.file output n = s.file output n :=
    fun n hn => h2 n fun j hj => hn j (List.mem_of_mem_take hj)
  rcases hs with rfl | ⟨-, rfl⟩ | ⟨j, torn, hj, rfl⟩
  · exact ⟨h1, h2', fun h => h3.2 (Or.inl h)⟩
  · refine ⟨fun p hp => (mkdir_other _ _ _ hp).trans (h1 p hp), fun n hn => (mkdir_file _ _ _ _).trans (h2' n hn), fun _ => ?_⟩
    unfold Disk.mkdir; rw [if_pos rfl]; rfl
  · refine ⟨fun p hp => (save_other _ _ _ _ _ hp).trans (h1 p hp), fun n hn => ?_, fun _ => save_self _ _ _ _⟩
    rw [save_file, if_neg]
    · exact h2' n hn
    · exact fun e => hn j (List.mem_of_getElem? hj) e.2.symm

/-- Doing all jobs again after a stop gives what the uninterrupted loop gives, or fails in the same way. -/
theorem rerun (input output : Name) (hio : input ≠ output) (jobs : List (Job C)) (s s' : Disk C) (h : Stops input output s jobs s') :
    (∀ sF, runJobs input output s jobs = .ok sF → ∃ sF', runJobs input output s' jobs = .ok sF' ∧ sF.Same sF') ∧
    ∀ e, runJobs input output s jobs = .error e → runJobs input output s' jobs = .error e := by
  obtain ⟨h1, h2, h3⟩ := stops_frame input output jobs s s' h
  have hin : s' input = s input := h1 input hio
  have hf : (fun j : Job C => (j.result input s').map fun r => (j.target, r)) = fun j : Job C => (j.result input s).map fun r => (j.target, r) :=
    funext fun j => by rw [result_congr input s' s hin j]
  rw [run_eq input output hio jobs s, run_eq input output hio jobs s', hf]
  cases hm : (jobs.mapM fun j : Job C => (j.result input s).map fun r => (j.target, r)) with
  | error e => exact ⟨fun sF h => (by cases h), fun e' h => (by cases h; rfl)⟩
  | ok l =>
    refine ⟨fun sF h => ⟨_, rfl, ?_⟩, fun e h => (by cases h)⟩
    cases h
    have htar := (mapM_targets input s jobs l hm).1
    intro p
    by_cases hp : p = output
    · subst hp
      refine ⟨?_, fun n => ?_⟩
      · rw [saveAll_self, saveAll_self]
        cases l with
        | nil =>
          have hj : jobs = [] := by simpa using htar.symm
          subst hj
          obtain ⟨k, s1, hrun, hs⟩ := h
          rw [List.take_nil] at hrun
          cases hrun
          rcases hs with rfl | ⟨hk, -⟩ | ⟨j, torn, hj, -⟩
          · exact Iff.rfl
          · exact absurd hk (by simp)
          · simp at hj
        | cons a l => simp
      · rw [saveAll_file, saveAll_file]
        cases hn : Dir.find l.reverse n with
        | some c => rfl
        | none =>
          show s.file p n = s'.file p n
          rw [h2 n]
          intro j hj hjn
          have : n ∈ l.map (·.1) := by rw [htar, ← hjn]; exact List.mem_map_of_mem hj
          obtain ⟨e, he, hen⟩ := List.mem_map.1 this
          unfold Dir.find at hn
          rw [Option.map_eq_none_iff, List.find?_eq_none] at hn
          exact hn e (List.mem_reverse.2 he) (by simp [hen])
    · unfold Disk.file
      dsimp only
      rw [saveAll_other output l s p hp, saveAll_other output l s' p hp, h1 p hp]
      exact ⟨Iff.rfl, fun _ => rfl⟩

/-! ### the calls -/

section calls
variable {K : Type} [Field K] [LinearOrder K] [FloorRing K]

/-- A call looks at the output folder only to see if it is there; the rest is determined by the input folder. -/
theorem jobs_congr (gauss : Mat K → Mat K) (c : Call K) (s t : Disk (Mat K)) (h : s c.input = t c.input) (ow ow' : Bool) :
    (∀ js, c.jobs gauss s ow = .ok js → checkFolder t c.output ow' = .ok () → c.jobs gauss t ow' = .ok js) ∧
    (∀ e, c.jobs gauss s ow = .error e → checkFolder s c.output ow = .ok () → checkFolder t c.output ow' = .ok () →
      c.jobs gauss t ow' = .error e) ∧
    (∀ e, checkFolder t c.output ow' = .error e → c.jobs gauss t ow' = .error e) := by
  have key : ∃ plan : Py (List (Job (Mat K))), c.jobs gauss s ow = (checkFolder s c.output ow).bind (fun _ => plan) ∧
      c.jobs gauss t ow' = (checkFolder t c.output ow').bind fun _ => plan := by
    cases c with
    | rescale i o nbit mm skip crop =>
      have hi : s i = t i := h
      refine ⟨_, rfl, ?_⟩
      show rescaleCall gauss t i o nbit mm skip crop ow' = _
      unfold rescaleCall rangeOf stackOf firstImage Disk.tifs Disk.read
      rw [hi]
      rfl
    | downsample i o c0 c1 c2 m sc io crop =>
      have hi : s i = t i := h
      refine ⟨_, rfl, ?_⟩
      show downsampleCall gauss t i o c0 c1 c2 m sc io crop ow' = _
      unfold downsampleCall Scaling.range rangeOf stackOf firstImage Disk.tifs Disk.read
      rw [hi]
      rfl
  obtain ⟨plan, h1, h2⟩ := key
  rw [h1, h2]
  refine ⟨fun js hj ht => ?_, fun e hj hs ht => ?_, fun e ht => ?_⟩
  · rw [ht]
    cases hc : checkFolder s c.output ow with
    | error e => rw [hc] at hj; cases hj
    | ok u => rw [hc] at hj; exact hj
  · rw [ht]
    rw [hs] at hj
    exact hj
  · rw [ht]; rfl

theorem check_true (s : Disk C) (output : Name) : checkFolder s output true = .ok () := by
  unfold checkFolder
  rw [if_neg (by simp)]

theorem check_false (s : Disk C) (output : Name) :
    checkFolder s output false = if (s output).isSome then .error .valueError else .ok () := by
  unfold checkFolder
  by_cases h : (s output).isSome = true
  · rw [if_pos ⟨rfl, h⟩, if_pos h]
  · rw [if_neg fun e => h e.2, if_neg h]

theorem rescale_jobs (gauss : Mat K → Mat K) (s : Disk (Mat K)) (i o : Name) (nbit : Nat) (mm : Option (K × K)) (skip : Option Int) (crop : Post.Crop)
    (ow : Bool) (js : List (Job (Mat K))) (h : rescaleCall gauss s i o nbit mm skip crop ow = .ok js) :
    ∃ files m0 c p, s.tifs i = .ok files ∧ firstImage s i files = .ok m0 ∧ Post.croppedShape files.length m0.h m0.w crop = .ok c ∧
      rangeOf gauss s i files m0 mm (rescaleSkip skip (c.d2 - c.d1)) crop = .ok p ∧
      js = (List.range (c.d2 - c.d1)).map fun k => rescaleJob files c nbit p (c.d1 + k) := by
  unfold rescaleCall at h
  cases h0 : checkFolder s o ow with
  | error e => rw [h0] at h; cases h
  | ok u =>
    rw [h0] at h
    cases h1 : s.tifs i with
    | error e => rw [h1] at h; cases h
    | ok files =>
      rw [h1] at h
      change (firstImage s i files).bind _ = _ at h
      cases h2 : firstImage s i files with
      | error e => rw [h2] at h; cases h
      | ok m0 =>
        rw [h2] at h
        change (Post.croppedShape files.length m0.h m0.w crop).bind _ = _ at h
        cases h3 : Post.croppedShape files.length m0.h m0.w crop with
        | error e => rw [h3] at h; cases h
        | ok c =>
          rw [h3] at h
          change (rangeOf gauss s i files m0 mm (rescaleSkip skip (c.d2 - c.d1)) crop).bind _ = _ at h
          cases h4 : rangeOf gauss s i files m0 mm (rescaleSkip skip (c.d2 - c.d1)) crop with
          | error e => rw [h4] at h; cases h
          | ok p =>
            rw [h4] at h
            cases h
            exact ⟨files, m0, c, p, rfl, h2, h3, h4, rfl⟩

theorem downsample_jobs (gauss : Mat K → Mat K) (s : Disk (Mat K)) (i o : Name) (c0 c1 c2 : Nat) (m : Post.Method) (sc : Scaling K) (io : Bool)
    (crop : Post.Crop) (ow : Bool) (js : List (Job (Mat K))) (h : downsampleCall gauss s i o c0 c1 c2 m sc io crop ow = .ok js) :
    ∃ files m0 c p, s.tifs i = .ok files ∧ firstImage s i files = .ok m0 ∧ Post.croppedShape files.length m0.h m0.w crop = .ok c ∧
      (0 < c0 ∧ 0 < c1 ∧ 0 < c2) ∧ (0 < (c.d2 - c.d1) / c0 ∧ 0 < (c.h2 - c.h1) / c1 ∧ 0 < (c.w2 - c.w1) / c2) ∧
      sc.range gauss s i files m0 (c.d2 - c.d1) crop = .ok p ∧
      js = (List.range ((c.d2 - c.d1) / c0)).map fun num =>
        downsampleJob files m c c0 c1 c2 ((c.h2 - c.h1) / c1) ((c.w2 - c.w1) / c2) p io num := by
  unfold downsampleCall at h
  cases h0 : checkFolder s o ow with
  | error e => rw [h0] at h; cases h
  | ok u =>
    rw [h0] at h
    cases h1 : s.tifs i with
    | error e => rw [h1] at h; cases h
    | ok files =>
      rw [h1] at h
      change (firstImage s i files).bind _ = _ at h
      cases h2 : firstImage s i files with
      | error e => rw [h2] at h; cases h
      | ok m0 =>
        rw [h2] at h
        change (Post.croppedShape files.length m0.h m0.w crop).bind _ = _ at h
        cases h3 : Post.croppedShape files.length m0.h m0.w crop with
        | error e => rw [h3] at h; cases h
        | ok c =>
          rw [h3] at h
          change (if c0 = 0 ∨ c1 = 0 ∨ c2 = 0 then _ else _) = _ at h
          by_cases hz : c0 = 0 ∨ c1 = 0 ∨ c2 = 0
          · rw [if_pos hz] at h; cases h
          · rw [if_neg hz] at h
            change (if (c.d2 - c.d1) / c0 = 0 ∨ (c.h2 - c.h1) / c1 = 0 ∨ (c.w2 - c.w1) / c2 = 0 then _ else _) = _ at h
            by_cases hz' : (c.d2 - c.d1) / c0 = 0 ∨ (c.h2 - c.h1) / c1 = 0 ∨ (c.w2 - c.w1) / c2 = 0
            · rw [if_pos hz'] at h; cases h
            · rw [if_neg hz'] at h
              change (sc.range gauss s i files m0 (c.d2 - c.d1) crop).bind _ = _ at h
              cases h4 : sc.range gauss s i files m0 (c.d2 - c.d1) crop with
              | error e => rw [h4] at h; cases h
              | ok p =>
                rw [h4] at h
                cases h
                refine ⟨files, m0, c, p, rfl, h2, h3, ?_, ?_, h4, rfl⟩
                · omega
                · simp only [not_or] at hz'
                  exact ⟨Nat.pos_of_ne_zero hz'.1, Nat.pos_of_ne_zero hz'.2.1, Nat.pos_of_ne_zero hz'.2.2⟩

theorem cropped_ok (d h w : Nat) (crop c : Post.Crop) (hc : Post.croppedShape d h w crop = .ok c) :
    c = ⟨crop.d1, d - crop.d2, crop.h1, h - crop.h2, crop.w1, w - crop.w2⟩ ∧ crop.d1 + crop.d2 < d ∧ crop.h1 + crop.h2 < h ∧ crop.w1 + crop.w2 < w := by
  unfold Post.croppedShape at hc
  split at hc
  · cases hc
  · cases hc
    refine ⟨rfl, ?_, ?_, ?_⟩ <;> omega

/-- The first slice number and the number of slices that a call writes. -/
theorem jobs_targets (gauss : Mat K → Mat K) (c : Call K) (s : Disk (Mat K)) (ow : Bool) (js : List (Job (Mat K)))
    (h : c.jobs gauss s ow = .ok js) :
    ∃ files first, s.tifs c.input = .ok files ∧ 0 < js.length ∧ first + js.length ≤ files.length ∧
      js.map (·.target) = (List.range js.length).map fun k => sliceFile (first + k) := by
  cases c with
  | rescale i o nbit mm skip crop =>
    obtain ⟨files, m0, c, p, h1, -, h3, -, rfl⟩ := rescale_jobs _ _ _ _ _ _ _ _ _ _ h
    obtain ⟨hc, hd, -, -⟩ := cropped_ok _ _ _ _ _ h3
    have e1 : c.d1 = crop.d1 := by rw [hc]
    have e2 : c.d2 = files.length - crop.d2 := by rw [hc]
    refine ⟨files, c.d1, h1, by simp; omega, by simp; omega, ?_⟩
    simp only [List.length_map, List.length_range, List.map_map]
    rfl
  | downsample i o c0 c1 c2 m sc io crop =>
    obtain ⟨files, m0, c, p, h1, -, h3, hp, hq, -, rfl⟩ := downsample_jobs _ _ _ _ _ _ _ _ _ _ _ _ _ h
    obtain ⟨hc, hd, -, -⟩ := cropped_ok _ _ _ _ _ h3
    have e1 : c.d1 = crop.d1 := by rw [hc]
    have e2 : c.d2 = files.length - crop.d2 := by rw [hc]
    refine ⟨files, 0, h1, by simpa using hq.1, ?_, ?_⟩
    · simp only [List.length_map, List.length_range]
      have := Nat.div_le_self (c.d2 - c.d1) c0
      omega
    · simp only [List.length_map, List.length_range, List.map_map]
      apply List.map_congr_left
      intro k _
      show sliceFile k = sliceFile (0 + k)
      rw [Nat.zero_add]

/-- **C144.** A call stopped anywhere, with the output folder not the input folder: nothing outside the output folder has changed, nor have the files of the
output folder that the call does not write. -/
theorem stop_frame (gauss : Mat K → Mat K) (c : Call K) (s s' : Disk (Mat K)) (ow : Bool) (h : c.StopsAt gauss s ow s') :
    (∀ p, p ≠ c.output → s' p = s p) ∧ ∀ n, (∀ i, sliceFile i ≠ n) → s'.file c.output n = s.file c.output n := by
  obtain ⟨js, hj, hs⟩ := h
  obtain ⟨h1, h2, -⟩ := stops_frame _ _ _ _ _ hs
  refine ⟨h1, fun n hn => h2 n fun j hjm => ?_⟩
  have ht : ∃ i, j.target = sliceFile i := by
    obtain ⟨files, first, -, -, -, ht⟩ := jobs_targets gauss c s ow js hj
    have hm : j.target ∈ js.map (·.target) := List.mem_map_of_mem hjm
    rw [ht] at hm
    obtain ⟨k, -, hk⟩ := List.mem_map.1 hm
    exact ⟨_, hk.symm⟩
  obtain ⟨i, hi⟩ := ht
  rw [hi]
  exact hn i

/-- **C144.** After a stop anywhere, the same call with `overwrite=True` leaves the disk as the uninterrupted call would have, and fails if that would have
failed; with `overwrite=False` it is refused as soon as the output folder has been made, and else nothing has been changed yet. -/
theorem restart (gauss : Mat K → Mat K) (c : Call K) (hio : c.input ≠ c.output) (s s' : Disk (Mat K)) (ow : Bool) (h : c.StopsAt gauss s ow s') :
    (∀ sF, c.run gauss s ow = .ok sF → ∃ sF', c.run gauss s' true = .ok sF' ∧ sF.Same sF') ∧
    (∀ e, c.run gauss s ow = .error e → c.run gauss s' true = .error e) ∧
    ((s' c.output).isSome = true → c.run gauss s' false = .error .valueError) ∧
    ((s' c.output).isSome = false → s' = s) := by
  obtain ⟨js, hj, hs⟩ := h
  obtain ⟨h1, h2, h3⟩ := stops_frame _ _ _ _ _ hs
  have hin : s c.input = s' c.input := (h1 _ hio).symm
  have hj' : c.jobs gauss s' true = .ok js := (jobs_congr gauss c s s' hin ow true).1 js hj (check_true _ _)
  obtain ⟨r1, r2⟩ := rerun c.input c.output hio js s s' hs
  have e1 : c.run gauss s ow = runJobs c.input c.output s js := by unfold Call.run; rw [hj]; rfl
  have e2 : c.run gauss s' true = runJobs c.input c.output s' js := by unfold Call.run; rw [hj']; rfl
  rw [e1, e2]
  refine ⟨r1, r2, fun hx => ?_, fun hx => ?_⟩
  · unfold Call.run
    rw [(jobs_congr gauss c s s' hin ow false).2.2 .valueError (by rw [check_false, if_pos hx])]
    rfl
  · obtain ⟨k, s1, hrun, ht⟩ := hs
    have hfr := (run_frame _ _ _ _ _ hrun).2.2
    rcases ht with rfl | ⟨-, rfl⟩ | ⟨j, torn, -, rfl⟩
    · have : js.take k = [] := by
        by_contra hne
        rw [hfr.2 (Or.inr hne)] at hx
        exact absurd hx (by decide)
      rw [this] at hrun
      cases hrun
      rfl
    · unfold Disk.mkdir at hx; rw [if_pos rfl] at hx; exact absurd hx (by simp)
    · rw [save_self] at hx; exact absurd hx (by decide)

/-- A history of calls with `overwrite=False`, each running to its end or stopped anywhere. -/
inductive History (gauss : Mat K → Mat K) : Disk (Mat K) → Disk (Mat K) → Prop where
  | nil (s) : History gauss s s
  | call (s s' t) (c : Call K) : c.StopsAt gauss s false s' → History gauss s' t → History gauss s t

/-- **C144.** Whatever calls are made with `overwrite=False` and wherever they stop: a folder that exists is never changed again. -/
theorem history_keeps (gauss : Mat K → Mat K) (s t : Disk (Mat K)) (h : History gauss s t) (p : Name) (hp : (s p).isSome = true) : t p = s p := by
  induction h with
  | nil s => rfl
  | call s s' t c hc _ ih =>
    obtain ⟨js, hj, hs⟩ := hc
    have hne : p ≠ c.output := by
      rintro rfl
      rw [(jobs_congr gauss c s s rfl false false).2.2 .valueError (by rw [check_false, if_pos hp])] at hj
      cases hj
    have e := (stops_frame _ _ _ _ _ hs).1 p hne
    rw [ih (by rw [e]; exact hp), e]

/-! ### what the output folder lists -/

theorem pyStr_pos (i : Nat) : 0 < (pyStr i).length := by
  rcases Nat.eq_zero_or_pos (pyStr i).length with h0 | h0
  · rw [List.length_eq_zero_iff] at h0
    unfold pyStr decDigits at h0
    split at h0
    · simp at h0
    · rename_i hne
      simp [Nat.digits_eq_nil_iff_eq_zero] at h0
      exact absurd h0 hne
  · exact h0

theorem sliceFile_eq (i : Nat) (h : i < 100000) : sliceFile i = sliceName "img".toList i := by
  have e1 : lastChars 5 ("0000".toList ++ pyStr i) = lastChars 5 ("00000".toList ++ pyStr i) := by
    unfold lastChars
    have e2 : "00000".toList ++ pyStr i = '0' :: ("0000".toList ++ pyStr i) := rfl
    have hl := pyStr_pos i
    rw [e2, List.length_cons, show ("0000".toList ++ pyStr i).length + 1 - 5 = (("0000".toList ++ pyStr i).length - 5) + 1 by simp; omega,
      List.drop_succ_cons]
  unfold sliceFile sliceName
  rw [e1, multiName_eq i h]
  simp

theorem sliceFile_lt (i j : Nat) (hij : i < j) (hj : j < 100000) : sliceFile i < sliceFile j := by
  rw [sliceFile_eq i (by omega), sliceFile_eq j hj]
  exact sliceName_lt _ _ _ hij hj

theorem sliceFile_inj (i j : Nat) (hi : i < 100000) (hj : j < 100000) (h : sliceFile i = sliceFile j) : i = j := by
  rw [sliceFile_eq i hi, sliceFile_eq j hj] at h
  exact sliceName_inj _ _ _ h

theorem sliceFile_tif (i : Nat) : fnmatch (tifPattern none) (sliceFile i) = true :=
  (pattern_meaning [] _ (by unfold Literal; simp)).1.2 ⟨"img_".toList ++ lastChars 5 ("0000".toList ++ pyStr i), [], by simp [sliceFile]⟩

theorem mem_names (d : Dir C) (n : Name) : n ∈ d.map (·.1) ↔ (d.find n).isSome = true := by
  unfold Dir.find
  rw [Option.isSome_map, List.find?_isSome, List.mem_map]
  simp only [beq_iff_eq]

theorem write_names_nodup (d : Dir C) (n : Name) (c : C) (h : (d.map (·.1)).Nodup) : ((d.write n c).map (·.1)).Nodup := by
  unfold Dir.write
  rw [List.map_cons, List.nodup_cons]
  refine ⟨fun hm => ?_, (List.filter_sublist.map _).nodup h⟩
  obtain ⟨e, he, hen⟩ := List.mem_map.1 hm
  have := (List.mem_filter.1 he).2
  simp [hen] at this

/-- No two files of a folder have the same name. -/
def Disk.Proper (s : Disk C) (p : Name) : Prop := (((s p).getD []).map (·.1)).Nodup

theorem run_proper (input output : Name) (jobs : List (Job C)) (s s' : Disk C) (h : runJobs input output s jobs = .ok s') (hp : s.Proper output) :
    s'.Proper output := by
  induction jobs generalizing s with
  | nil => cases h; exact hp
  | cons j js ih =>
    rw [run_cons, step_eq] at h
    cases hr : j.result input s with
    | error e => rw [hr] at h; cases h
    | ok r =>
      rw [hr] at h
      refine ih _ h ?_
      unfold Disk.Proper Disk.save
      dsimp only
      rw [if_pos rfl]
      exact write_names_nodup _ _ _ hp

/-- The files a folder has after the loop: those of the jobs and those it had. -/
theorem run_names (input output : Name) (jobs : List (Job C)) (s s' : Disk C) (h : runJobs input output s jobs = .ok s') (n : Name) :
    (s'.file output n).isSome = true ↔ (∃ j ∈ jobs, j.target = n) ∨ (s.file output n).isSome = true := by
  induction jobs generalizing s with
  | nil => cases h; simp
  | cons j js ih =>
    rw [run_cons, step_eq] at h
    cases hr : j.result input s with
    | error e => rw [hr] at h; cases h
    | ok r =>
      rw [hr] at h
      rw [ih _ h, save_file]
      by_cases hn : n = j.target
      · subst hn; simp
      · rw [if_neg fun e => hn e.2]
        simp only [List.mem_cons, exists_eq_or_imp]
        constructor
        · rintro (h | h)
          · exact Or.inl (Or.inr h)
          · exact Or.inr h
        · rintro ((h | h) | h)
          · exact absurd h.symm hn
          · exact Or.inl h
          · exact Or.inr h

/-- The order in which a folder is read back: exactly the files of the jobs, if and only if there was no other tif file before. -/
theorem tifs_iff (input output : Name) (jobs : List (Job C)) (s s' : Disk C) (h : runJobs input output s jobs = .ok s') (hp : s.Proper output)
    (first count : Nat) (hc : 0 < count) (hb : first + count ≤ 100000) (ht : jobs.map (·.target) = (List.range count).map fun k => sliceFile (first + k)) :
    s'.tifs output = .ok ((List.range count).map fun k => sliceFile (first + k)) ↔
      ∀ n, fnmatch (tifPattern none) n = true → (s.file output n).isSome = true → ∃ k < count, n = sliceFile (first + k) := by
  have hmem : ∀ n, (∃ j ∈ jobs, j.target = n) ↔ n ∈ (List.range count).map fun k => sliceFile (first + k) := by
    intro n
    rw [← ht, List.mem_map]
  have hlist : ∀ n, n ∈ ((s' output).getD []).map (·.1) ↔ n ∈ ((List.range count).map fun k => sliceFile (first + k)) ∨ (s.file output n).isSome = true := by
    intro n
    rw [mem_names, ← hmem n]
    exact run_names input output jobs s s' h n
  have hpair : ((List.range count).map fun k => sliceFile (first + k)).Pairwise (· < ·) := by
    rw [List.pairwise_map]
    refine (List.pairwise_lt_range (n := count)).imp_of_mem ?_
    intro a b ha hb' hab
    have h2 := List.mem_range.1 hb'
    exact sliceFile_lt _ _ (by omega) (by omega)
  have hnd : ((List.range count).map fun k => sliceFile (first + k)).Nodup := hpair.imp fun {a b} hab e => by
    rw [e] at hab; exact List.lt_irrefl _ hab
  constructor
  · intro he n hn hs
    have hin : n ∈ ((s' output).getD []).map (·.1) := (hlist n).2 (Or.inr hs)
    unfold Disk.tifs at he
    obtain ⟨l, hl1, -, hl2⟩ := (find_file_spec (((s' output).getD []).map (·.1)) (tifPattern none)).2.1 ⟨n, hin, hn⟩
    rw [he] at hl1
    cases hl1
    have : n ∈ (((s' output).getD []).map (·.1)).filter (fnmatch (tifPattern none)) := List.mem_filter.2 ⟨hin, hn⟩
    rw [← hl2.mem_iff] at this
    obtain ⟨k, hk, hkn⟩ := List.mem_map.1 this
    exact ⟨k, List.mem_range.1 hk, hkn.symm⟩
  · intro hold
    unfold Disk.tifs
    refine findFile_eq _ _ _ ?_ ?_ (hpair.imp fun {a b} hab => List.le_of_lt hab)
    · intro he
      have := congrArg List.length he
      simp at this
      omega
    · refine (List.perm_ext_iff_of_nodup hnd (List.Nodup.filter _ (run_proper input output jobs s s' h hp))).2 fun n => ?_
      rw [List.mem_filter, hlist n]
      constructor
      · intro hn
        refine ⟨Or.inl hn, ?_⟩
        obtain ⟨k, -, rfl⟩ := List.mem_map.1 hn
        exact sliceFile_tif _
      · rintro ⟨h1 | h1, h2⟩
        · exact h1
        · obtain ⟨k, hk, rfl⟩ := hold n h2 h1
          exact List.mem_map_of_mem (List.mem_range.2 hk)

/-- What a loop with distinct targets leaves in them. -/
theorem run_result (input output : Name) (hio : input ≠ output) (jobs : List (Job C)) (hd : (jobs.map (·.target)).Nodup) (s s' : Disk C)
    (h : runJobs input output s jobs = .ok s') (j : Job C) (hj : j ∈ jobs) : ∃ r, j.result input s = .ok r ∧ s'.file output j.target = some r := by
  rw [run_eq input output hio] at h
  cases hm : (jobs.mapM fun j : Job C => (j.result input s).map fun r => (j.target, r)) with
  | error e => rw [hm] at h; cases h
  | ok l =>
    rw [hm] at h
    cases h
    obtain ⟨h1, h2⟩ := mapM_targets input s jobs l hm
    obtain ⟨k, hk, rfl⟩ := List.getElem_of_mem hj
    have hl : l.length = jobs.length := by
      have := congrArg List.length h1
      simpa using this
    have hk' : k < l.length := by omega
    refine ⟨l[k].2, h2 k hk hk', ?_⟩
    dsimp only
    rw [saveAll_file]
    have hkey : l[k].1 = jobs[k].target := by
      have := congrArg (fun x => x[k]?) h1
      simp only [List.getElem?_map, List.getElem?_eq_getElem hk, List.getElem?_eq_getElem hk', Option.map_some, Option.some.injEq] at this
      exact this
    have hnd : (l.reverse.map (·.1)).Nodup := by
      rw [List.map_reverse, List.nodup_reverse, h1]
      exact hd
    have : Dir.find l.reverse jobs[k].target = some l[k].2 := by
      unfold Dir.find
      rw [← hkey]
      have hmem : l[k] ∈ l.reverse := List.mem_reverse.2 (List.getElem_mem hk')
      generalize l[k] = e at hmem ⊢
      generalize l.reverse = q at hnd hmem
      induction q with
      | nil => exact nomatch hmem
      | cons a q ih =>
        rw [List.map_cons, List.nodup_cons] at hnd
        rcases List.mem_cons.1 hmem with rfl | hm'
        · simp
        · rw [List.find?_cons_of_neg]
          · exact ih hnd.2 hm'
          · intro he
            exact hnd.1 (by rw [beq_iff_eq.1 he]; exact List.mem_map_of_mem hm')
    rw [this]
    rfl

theorem targets_nodup (first count : Nat) (hb : first + count ≤ 100000) : ((List.range count).map fun k => sliceFile (first + k)).Nodup := by
  refine (List.nodup_range (n := count)).map_on ?_
  intro a ha b hb' h
  have h1 := List.mem_range.1 ha
  have h2 := List.mem_range.1 hb'
  have := sliceFile_inj _ _ (by omega) (by omega) h
  omega

theorem read_file (s : Disk C) (p n : Name) (c : C) : s.read p n = .ok c ↔ s.file p n = some c := by
  unfold Disk.read Disk.file
  cases ((s p).getD []).find n with
  | none => exact ⟨fun h => (by cases h), fun h => (by cases h)⟩
  | some x => exact ⟨fun h => (by cases h; rfl), fun h => (by cases h; rfl)⟩

/-- **C145.** What `rescale_dataset` leaves in its output folder (not the input folder) for at most 100000 slices: with `files` the input images in order of
name, file number `d1 + k` holds the rescaled, cropped input image number `d1 + k`, for every `k`; and reading the folder back gives these images in that
order if and only if the folder had no other tif file before (in particular if there was no folder). -/
theorem rescale_output (gauss : Mat K → Mat K) (s sF : Disk (Mat K)) (input output : Name) (hio : input ≠ output) (nbit : Nat) (minmax : Option (K × K))
    (skip : Option Int) (crop : Post.Crop) (ow : Bool) (files : List Name) (hf : s.tifs input = .ok files) (hn : files.length ≤ 100000)
    (hp : s.Proper output) (h : (Call.rescale input output nbit minmax skip crop).run gauss s ow = .ok sF) :
    ∃ m0 p, s.file input (files.getD 0 []) = some m0 ∧ (∀ q, minmax = some q → p = q) ∧ crop.d1 + crop.d2 < files.length ∧
      crop.h1 + crop.h2 < m0.h ∧ crop.w1 + crop.w2 < m0.w ∧
      (∀ k < files.length - crop.d1 - crop.d2, ∃ m r, s.file input (files.getD (crop.d1 + k) []) = some m ∧
        sF.file output (sliceFile (crop.d1 + k)) = some r ∧
        (nbit = 32 → r = cut m crop.h1 (m0.h - crop.h2) crop.w1 (m0.w - crop.w2)) ∧
        (nbit ≠ 32 → ∃ z, Post.rescale (cut m crop.h1 (m0.h - crop.h2) crop.w1 (m0.w - crop.w2)) nbit (some p) = .ok z ∧ r = z.map fun (x : Int) => (x : K))) ∧
      (sF.tifs output = .ok ((List.range (files.length - crop.d1 - crop.d2)).map fun k => sliceFile (crop.d1 + k)) ↔
        ∀ n, fnmatch (tifPattern none) n = true → (s.file output n).isSome = true →
          ∃ k < files.length - crop.d1 - crop.d2, n = sliceFile (crop.d1 + k)) := by
  unfold Call.run at h
  cases hj : (Call.rescale input output nbit minmax skip crop).jobs gauss s ow with
  | error e => rw [hj] at h; cases h
  | ok js =>
    rw [hj] at h
    change runJobs input output s js = .ok sF at h
    obtain ⟨files', m0, c, p, h1, h2, h3, h4, rfl⟩ := rescale_jobs _ _ _ _ _ _ _ _ _ _ hj
    rw [hf] at h1
    cases h1
    obtain ⟨rfl, hd, hh, hw⟩ := cropped_ok _ _ _ _ _ h3
    dsimp only at h
    have hcnt : files.length - crop.d2 - crop.d1 = files.length - crop.d1 - crop.d2 := by omega
    rw [hcnt] at h
    generalize hk : files.length - crop.d1 - crop.d2 = cnt at h
    have hb : crop.d1 + cnt ≤ 100000 := by omega
    have htar : (((List.range cnt).map fun k => rescaleJob files ⟨crop.d1, files.length - crop.d2, crop.h1, m0.h - crop.h2, crop.w1, m0.w - crop.w2⟩ nbit p
        (crop.d1 + k)).map (·.target)) = (List.range cnt).map fun k => sliceFile (crop.d1 + k) := by
      rw [List.map_map]; rfl
    refine ⟨m0, p, ?_, ?_, hd, hh, hw, fun k hkc => ?_, tifs_iff input output _ s sF h hp crop.d1 cnt (by omega) hb htar⟩
    · cases files with
      | nil => exact absurd hd (by simp)
      | cons f fs => exact (read_file _ _ _ _).1 h2
    · rintro q rfl
      unfold rangeOf at h4
      cases h4
      rfl
    · obtain ⟨r, hr, hfile⟩ := run_result input output hio _ (by rw [htar]; exact targets_nodup _ _ hb) s sF h _
        (List.mem_map_of_mem (List.mem_range.2 hkc))
      unfold Job.result rescaleJob at hr
      dsimp only at hr
      rw [List.mapM_cons, List.mapM_nil] at hr
      cases hm : s.read input (files.getD (crop.d1 + k) []) with
      | error e => rw [hm] at hr; cases hr
      | ok m =>
        rw [hm] at hr
        change rescaleWork _ nbit p m = .ok r at hr
        refine ⟨m, r, (read_file _ _ _ _).1 hm, hfile, fun h32 => ?_, fun h32 => ?_⟩
        · unfold rescaleWork at hr
          dsimp only at hr
          rw [if_pos h32] at hr
          cases hr
          rfl
        · unfold rescaleWork at hr
          dsimp only at hr
          rw [if_neg h32] at hr
          generalize Post.rescale _ nbit (some p) = z at hr ⊢
          cases z with
          | error e => cases hr
          | ok z => cases hr; exact ⟨z, rfl, rfl⟩

theorem mapM_read (s : Disk C) (input : Name) (names : List Name) (l : List C) (h : names.mapM (s.read input) = .ok l) (d : C) :
    l.length = names.length ∧ ∀ k < names.length, s.file input (names.getD k []) = some (l.getD k d) := by
  obtain ⟨h1, h2⟩ := InputTypes.mapM_ok_get _ _ _ h
  refine ⟨h1, fun k hk => ?_⟩
  rw [List.getD_eq_getElem _ _ hk, List.getD_eq_getElem _ _ (by omega)]
  exact (read_file _ _ _ _).1 (h2 k hk (by omega))

/-- **C145.** What `downsample_dataset` (without rescaling) leaves in its output folder (not the input folder) for at most 100000 slices: with `files` the input
images in order of name, all of one size, slice `k` of the data set downsampled as an array (C40) is in file number `k`; and reading the folder back gives
these slices in that order if and only if the folder had no other tif file before. -/
theorem downsample_output (gauss : Mat K → Mat K) (s sF : Disk (Mat K)) (input output : Name) (hio : input ≠ output) (c0 c1 c2 : Nat)
    (method : Post.Method) (o : Scaling K) (ho : o.rescaling = false) (intOut : Bool) (crop : Post.Crop) (ow : Bool) (files : List Name) (m0 : Mat K)
    (hf : s.tifs input = .ok files) (hn : files.length ≤ 100000) (h0 : s.file input (files.getD 0 []) = some m0) (hp : s.Proper output)
    (h : (Call.downsample input output c0 c1 c2 method o intOut crop).run gauss s ow = .ok sF) :
    ∃ a, Post.downsampleDataset (stackOf s input files m0) c0 c1 c2 method crop intOut = .ok a ∧
      (∀ k < a.d, ∃ r, sF.file output (sliceFile k) = some r ∧ r.h = a.h ∧ r.w = a.w ∧ ∀ y < r.h, ∀ x < r.w, r.get y x = a.get k y x) ∧
      (sF.tifs output = .ok ((List.range a.d).map sliceFile) ↔
        ∀ n, fnmatch (tifPattern none) n = true → (s.file output n).isSome = true → ∃ k < a.d, n = sliceFile k) := by
  unfold Call.run at h
  cases hj : (Call.downsample input output c0 c1 c2 method o intOut crop).jobs gauss s ow with
  | error e => rw [hj] at h; cases h
  | ok js =>
    rw [hj] at h
    change runJobs input output s js = .ok sF at h
    obtain ⟨files', m0', c, p, h1, h2, h3, hc, hpos, h4, rfl⟩ := downsample_jobs _ _ _ _ _ _ _ _ _ _ _ _ _ hj
    rw [hf] at h1
    cases h1
    have hm0 : m0' = m0 := by
      cases files with
      | nil => cases h2
      | cons f fs =>
        have := (read_file _ _ _ _).1 h2
        rw [show (f :: fs).getD 0 [] = f from rfl] at h0
        rw [h0] at this
        exact (Option.some.inj this).symm
    subst hm0
    obtain ⟨rfl, hd, hh, hw⟩ := cropped_ok _ _ _ _ _ h3
    have hpn : p = none := by
      unfold Scaling.range at h4
      rw [if_neg (by rw [ho]; simp)] at h4
      exact (Except.ok.inj h4).symm
    subst hpn
    dsimp only at h hpos
    have hcnt := Nat.div_le_self (files.length - crop.d2 - crop.d1) c0
    have hmul := Nat.div_mul_le_self (files.length - crop.d2 - crop.d1) c0
    generalize hk : (files.length - crop.d2 - crop.d1) / c0 = cnt at *
    have hb : 0 + cnt ≤ 100000 := by omega
    have htar : (((List.range cnt).map fun num => downsampleJob files method
        ⟨crop.d1, files.length - crop.d2, crop.h1, m0'.h - crop.h2, crop.w1, m0'.w - crop.w2⟩ c0 c1 c2
        ((m0'.h - crop.h2 - crop.h1) / c1) ((m0'.w - crop.w2 - crop.w1) / c2) (none : Option (Nat × (K × K))) intOut num).map (·.target)) =
        (List.range cnt).map fun k => sliceFile (0 + k) := by
      rw [List.map_map]
      apply List.map_congr_left
      intro k _
      show sliceFile k = _
      rw [Nat.zero_add]
    have hlist := tifs_iff input output _ s sF h hp 0 cnt hpos.1 hb htar
    simp only [Nat.zero_add] at hlist
    unfold Post.downsampleDataset
    rw [Post.croppedShape_ok (stackOf s input files m0').d (stackOf s input files m0').h (stackOf s input files m0').w crop hd hh hw]
    simp only [Except.bind, bind, pure]
    have hst := Post.starts_eq crop.d1 (files.length - crop.d2 - crop.d1) c0 hc.1
    rw [show crop.d1 + (files.length - crop.d2 - crop.d1) = files.length - crop.d2 by omega, hk] at hst
    change ∃ a, (if c0 = 0 ∨ c1 = 0 ∨ c2 = 0 then _ else if (files.length - crop.d2 - crop.d1) / c0 = 0 ∨ (m0'.h - crop.h2 - crop.h1) / c1 = 0 ∨
      (m0'.w - crop.w2 - crop.w1) / c2 = 0 then _ else _) = _ ∧ _
    rw [if_neg (by omega), if_neg (by rw [hk]; omega)]
    refine ⟨_, rfl, ?_, ?_⟩
    · intro k hkc
      have hkc : k < cnt := by
        have e : (stackOf s input files m0').d = files.length := rfl
        simp only [e, hst, List.length_map, List.length_range] at hkc
        exact hkc
      obtain ⟨r, hr, hfile⟩ := run_result input output hio _ (by rw [htar]; exact targets_nodup _ _ hb) s sF h _
        (List.mem_map_of_mem (List.mem_range.2 hkc))
      unfold Job.result downsampleJob at hr
      dsimp only at hr
      cases hm : List.mapM (s.read input) ((List.range c0).map fun x => files.getD (crop.d1 + k * c0 + x) []) with
      | error e => rw [hm] at hr; cases hr
      | ok imgs =>
        rw [hm] at hr
        dsimp only [Except.bind] at hr
        unfold downsampleWork at hr
        dsimp only at hr
        split at hr
        · cases hr
          refine ⟨_, hfile, rfl, rfl, fun y hy x hx => ?_⟩
          change y < (m0'.h - crop.h2 - crop.h1) / c1 at hy
          change x < (m0'.w - crop.w2 - crop.w1) / c2 at hx
          have e : (stackOf s input files m0').d = files.length := rfl
          simp only [e, hst]
          show storeAs intOut (_ : K) = storeAs intOut (_ : K)
          congr 1
          rw [List.map_map, List.getD_eq_getElem _ _ (by simpa using hkc)]
          simp only [List.getElem_map, List.getElem_range, Function.comp]
          congr 1
          apply List.map_congr_left
          intro b hb'
          congr 1
          apply List.map_congr_left
          intro q hq
          congr 1
          apply List.map_congr_left
          intro z hz
          rw [List.mem_range] at hb' hq hz
          rw [Post.reshape6_eq _ _ _ _ _ _ _ _ _ _ rfl rfl hy hb' hx hz]
          refine Eq.trans ?_ (Post.reshape6_eq _ _ _ _ _ _ _ _ _ _ rfl rfl hy hb' hx hz).symm
          dsimp only
          obtain ⟨hlen, himg⟩ := mapM_read s input _ imgs hm ⟨0, 0, fun _ _ => 0⟩
          simp only [List.length_map, List.length_range] at hlen himg
          have hq' := himg q hq
          rw [List.getD_eq_getElem _ _ (by simpa using hq)] at hq'
          simp only [List.getElem_map, List.getElem_range] at hq'
          have hrd := (read_file _ _ _ _).2 hq'
          rw [List.getD_eq_getElem _ _ (by simpa [hlen] using hq), List.getElem_map]
          rw [List.getD_eq_getElem imgs _ (by omega)] at hrd
          unfold cut stackOf
          dsimp only
          rw [show ((crop.d1 : Int) + ((k * c0 : Nat) : Int)).toNat + q = crop.d1 + k * c0 + q by omega, hrd]
        · cases hr
    · have e : (stackOf s input files m0').d = files.length := rfl
      simp only [e, hst, List.length_map, List.length_range]
      exact hlist

/-! ### output folder = input folder -/

theorem run_in_place (p : Name) (jobs : List (Job C)) (hr : ∀ j ∈ jobs, j.reads = [j.target]) (hd : (jobs.map (·.target)).Nodup) (s s' : Disk C)
    (h : runJobs p p s jobs = .ok s') (j : Job C) (hj : j ∈ jobs) : ∃ r, j.result p s = .ok r ∧ s'.file p j.target = some r := by
  induction jobs generalizing s with
  | nil => exact nomatch hj
  | cons i js ih =>
    rw [List.map_cons, List.nodup_cons] at hd
    rw [run_cons, step_eq] at h
    cases hres : i.result p s with
    | error e => rw [hres] at h; cases h
    | ok r =>
      rw [hres] at h
      change runJobs p p (s.save p i.target r) js = .ok s' at h
      rcases List.mem_cons.1 hj with rfl | hj'
      · refine ⟨r, hres, ?_⟩
        rw [(run_frame p p js _ s' h).2.1 j.target fun j' hj' e => hd.1 (by rw [← e]; exact List.mem_map_of_mem hj'), save_file, if_pos ⟨rfl, rfl⟩]
      · obtain ⟨r', h1, h2⟩ := ih (fun x hx => hr x (List.mem_cons_of_mem _ hx)) hd.2 _ h hj'
        refine ⟨r', ?_, h2⟩
        rw [← h1]
        have hne : j.target ≠ i.target := fun e => hd.1 (by rw [← e]; exact List.mem_map_of_mem hj')
        have hrd : (s.save p i.target r).read p j.target = s.read p j.target := by
          have e := save_file s p i.target r p j.target
          rw [if_neg fun e => hne e.2] at e
          unfold Disk.read
          unfold Disk.file at e
          rw [e]
        unfold Job.result
        rw [hr j (List.mem_cons_of_mem _ hj'), List.mapM_cons, List.mapM_cons, hrd]
        rfl

/-- **C146.** Rescaling a folder onto itself, when its tif files are exactly the slice files 0, 1, …, n-1 (as these functions write them): every slice of the
cropped range is replaced by what it would be in another folder, all other files stay as they are, and the folder lists the same files as before. -/
theorem rescale_in_place (gauss : Mat K → Mat K) (s sF : Disk (Mat K)) (p : Name) (nbit : Nat) (minmax : Option (K × K)) (skip : Option Int)
    (crop : Post.Crop) (n : Nat) (hn : n ≤ 100000) (hf : s.tifs p = .ok ((List.range n).map sliceFile)) (hp : s.Proper p)
    (h : (Call.rescale p p nbit minmax skip crop).run gauss s true = .ok sF) :
    ∃ m0 q, s.file p (sliceFile 0) = some m0 ∧ (∀ q', minmax = some q' → q = q') ∧
      (∀ k < n - crop.d1 - crop.d2, ∃ m r, s.file p (sliceFile (crop.d1 + k)) = some m ∧ sF.file p (sliceFile (crop.d1 + k)) = some r ∧
        (nbit = 32 → r = cut m crop.h1 (m0.h - crop.h2) crop.w1 (m0.w - crop.w2)) ∧
        (nbit ≠ 32 → ∃ z, Post.rescale (cut m crop.h1 (m0.h - crop.h2) crop.w1 (m0.w - crop.w2)) nbit (some q) = .ok z ∧ r = z.map fun (x : Int) => (x : K))) ∧
      (∀ name, (∀ k < n - crop.d1 - crop.d2, name ≠ sliceFile (crop.d1 + k)) → sF.file p name = s.file p name) ∧
      sF.tifs p = s.tifs p := by
  unfold Call.run at h
  cases hj : (Call.rescale p p nbit minmax skip crop).jobs gauss s true with
  | error e => rw [hj] at h; cases h
  | ok js =>
    rw [hj] at h
    change runJobs p p s js = .ok sF at h
    obtain ⟨files, m0, c, q, h1, h2, h3, h4, rfl⟩ := rescale_jobs _ _ _ _ _ _ _ _ _ _ hj
    rw [hf] at h1
    cases h1
    obtain ⟨rfl, hd, hh, hw⟩ := cropped_ok _ _ _ _ _ h3
    simp only [List.length_map, List.length_range] at hd
    dsimp only at h
    rw [List.length_map, List.length_range, show n - crop.d2 - crop.d1 = n - crop.d1 - crop.d2 by omega] at h
    generalize hk : n - crop.d1 - crop.d2 = cnt at h
    have hb : crop.d1 + cnt ≤ 100000 := by omega
    have hget : ∀ k < cnt, ((List.range n).map sliceFile).getD (crop.d1 + k) [] = sliceFile (crop.d1 + k) := by
      intro k hkc
      rw [List.getD_eq_getElem _ _ (by simp; omega)]
      simp
    generalize hjs : ((List.range cnt).map fun k => rescaleJob ((List.range n).map sliceFile)
      ⟨crop.d1, n - crop.d2, crop.h1, m0.h - crop.h2, crop.w1, m0.w - crop.w2⟩ nbit q (crop.d1 + k)) = js at h
    have htar : js.map (·.target) = (List.range cnt).map fun k => sliceFile (crop.d1 + k) := by
      rw [← hjs, List.map_map]; rfl
    have hreads : ∀ j ∈ js, j.reads = [j.target] := by
      intro j hjm
      rw [← hjs] at hjm
      obtain ⟨k, hkc, rfl⟩ := List.mem_map.1 hjm
      show [((List.range n).map sliceFile).getD (crop.d1 + k) []] = [sliceFile (crop.d1 + k)]
      rw [hget k (List.mem_range.1 hkc)]
    refine ⟨m0, q, ?_, ?_, fun k hkc => ?_, fun name hname => ?_, ?_⟩
    · obtain ⟨n', rfl⟩ : ∃ n', n = n' + 1 := ⟨n - 1, by omega⟩
      rw [List.range_succ_eq_map] at h2
      exact (read_file _ _ _ _).1 h2
    · rintro q' rfl
      unfold rangeOf at h4
      cases h4
      rfl
    · obtain ⟨r, hr, hfile⟩ := run_in_place p js hreads (by rw [htar]; exact targets_nodup _ _ hb) s sF h
        (rescaleJob ((List.range n).map sliceFile) ⟨crop.d1, n - crop.d2, crop.h1, m0.h - crop.h2, crop.w1, m0.w - crop.w2⟩ nbit q (crop.d1 + k))
        (by rw [← hjs]; exact List.mem_map_of_mem (List.mem_range.2 hkc))
      unfold Job.result rescaleJob at hr
      dsimp only at hr
      rw [List.mapM_cons, List.mapM_nil, hget k hkc] at hr
      cases hm : s.read p (sliceFile (crop.d1 + k)) with
      | error e => rw [hm] at hr; cases hr
      | ok m =>
        rw [hm] at hr
        change rescaleWork _ nbit q m = .ok r at hr
        refine ⟨m, r, (read_file _ _ _ _).1 hm, hfile, fun h32 => ?_, fun h32 => ?_⟩
        · unfold rescaleWork at hr
          dsimp only at hr
          rw [if_pos h32] at hr
          cases hr
          rfl
        · unfold rescaleWork at hr
          dsimp only at hr
          rw [if_neg h32] at hr
          generalize Post.rescale _ nbit (some q) = z at hr ⊢
          cases z with
          | error e => cases hr
          | ok z => cases hr; exact ⟨z, rfl, rfl⟩
    · refine (run_frame p p js s sF h).2.1 name fun j hjm e => ?_
      have hm : j.target ∈ js.map (·.target) := List.mem_map_of_mem hjm
      rw [htar] at hm
      obtain ⟨k, hkc, hkn⟩ := List.mem_map.1 hm
      exact hname k (List.mem_range.1 hkc) (by rw [← e, ← hkn])
    · unfold Disk.tifs
      refine (find_file_spec _ _).2.2 _ ((List.perm_ext_iff_of_nodup (run_proper p p js s sF h hp) hp).2 fun x => ?_)
      rw [mem_names, mem_names]
      refine (run_names p p js s sF h x).trans ⟨?_, Or.inr⟩
      rintro (⟨j, hjm, rfl⟩ | hx)
      · have hm : j.target ∈ js.map (·.target) := List.mem_map_of_mem hjm
        rw [htar] at hm
        obtain ⟨k, hkc, hkn⟩ := List.mem_map.1 hm
        have hkc := List.mem_range.1 hkc
        rw [← hkn]
        have hin : sliceFile (crop.d1 + k) ∈ (List.range n).map sliceFile := List.mem_map_of_mem (List.mem_range.2 (by omega))
        have hne : ∃ m ∈ ((s p).getD []).map (·.1), fnmatch (tifPattern none) m = true := by
          by_contra hno
          have := (find_file_spec (((s p).getD []).map (·.1)) (tifPattern none)).1 fun m hm => by
            rw [← Bool.not_eq_true]; exact fun hh => hno ⟨m, hm, hh⟩
          unfold Disk.tifs at hf
          rw [this] at hf
          cases hf
        obtain ⟨l, hl1, -, hl2⟩ := (find_file_spec (((s p).getD []).map (·.1)) (tifPattern none)).2.1 hne
        unfold Disk.tifs at hf
        rw [hf] at hl1
        cases hl1
        have := hl2.mem_iff.1 hin
        exact (mem_names _ _).1 (List.mem_filter.1 this).1
      · exact hx

end calls

/-! ### concrete cases -/

/-- The value of a computation that succeeds. -/
def okOr {α : Type _} (x : Py α) (d : α) : α :=
  match x with
  | .ok a => a
  | .error _ => d

/-- It succeeds. -/
def isOk {α : Type _} (x : Py α) : Bool :=
  match x with
  | .ok _ => true
  | .error _ => false

theorem ok_of {α : Type _} (x : Py α) (d : α) (h : isOk x = true) : x = .ok (okOr x d) := by
  cases x with
  | ok a => rfl
  | error e => cases h

/-- An image of one pixel. -/
def pix (v : ℚ) : Mat ℚ := ⟨1, 1, fun _ _ => v⟩

/-- The pixel of a one-pixel file. -/
def Disk.pixel (s : Disk (Mat ℚ)) (p n : Name) : Option ℚ := (s.file p n).map fun m => m.get 0 0

/-- A folder `scan` of two slices and a folder `out` of two slices of an earlier run. -/
def disk2 : Disk (Mat ℚ) := fun q =>
  if q = "scan".toList then some [(sliceFile 0, pix 1), (sliceFile 1, pix 1)]
  else if q = "out".toList then some [(sliceFile 0, pix 7), (sliceFile 1, pix 8)]
  else none

/-- Nothing is cropped. -/
def noCrop : Post.Crop := ⟨0, 0, 0, 0, 0, 0⟩

/-- Rescaling of the folder `scan` to 8 bits, from the range 0 … 2. -/
def scanTo (output : Name) (crop : Post.Crop) : Call ℚ := .rescale "scan".toList output 8 (some (0, 2)) none crop

/-- A non-trivial instance of `restart`: the loop of two slices stopped while the second file was being written (it holds garbage); the second run ends with
127 in both files. -/
example : ∃ s' sF', (scanTo "new".toList noCrop).StopsAt id disk2 false s' ∧ s'.pixel "new".toList (sliceFile 1) = some 999 ∧
    (scanTo "new".toList noCrop).run id s' true = .ok sF' ∧ sF'.pixel "new".toList (sliceFile 0) = some 127 ∧
    sF'.pixel "new".toList (sliceFile 1) = some 127 := by
  have hj := ok_of ((scanTo "new".toList noCrop).jobs id disk2 false) [] (by decide +kernel)
  have hr := ok_of (runJobs "scan".toList "new".toList disk2 ((okOr ((scanTo "new".toList noCrop).jobs id disk2 false) []).take 1)) disk2
    (by decide +kernel)
  have hx : ∃ j, (okOr ((scanTo "new".toList noCrop).jobs id disk2 false) [])[1]? = some j ∧ j.target = sliceFile 1 := by
    refine ⟨(okOr ((scanTo "new".toList noCrop).jobs id disk2 false) []).getD 1 ⟨[], [], fun _ => .error .valueError⟩, ?_, by decide +kernel⟩
    rw [List.getD_eq_getElem _ _ (by decide +kernel), List.getElem?_eq_getElem]
  obtain ⟨j, hx1, hx2⟩ := hx
  have hstop : (scanTo "new".toList noCrop).StopsAt id disk2 false _ := ⟨_, hj, 1, _, hr, Or.inr (Or.inr ⟨j, pix 999, hx1, rfl⟩)⟩
  rw [hx2] at hstop
  have hrun := ok_of ((scanTo "new".toList noCrop).run id disk2 false) disk2 (by decide +kernel)
  obtain ⟨sF', h1, h2⟩ := (restart id _ (by decide) disk2 _ false hstop).1 _ hrun
  refine ⟨_, sF', hstop, ?_, h1, ?_, ?_⟩
  · unfold Disk.pixel
    rw [save_file, if_pos ⟨rfl, rfl⟩]
    rfl
  · unfold Disk.pixel
    rw [← (h2 _).2]
    decide +kernel
  · unfold Disk.pixel
    rw [← (h2 _).2]
    decide +kernel

/-- **C144** is false of a call whose output folder is its input folder: stopped after the first slice and made again, it rescales that slice twice (127, then
255). -/
theorem restart_in_place_refuted : ¬ ∀ (c : Call ℚ) (s s' : Disk (Mat ℚ)) (ow : Bool) (sF : Disk (Mat ℚ)), c.StopsAt id s ow s' → c.run id s ow = .ok sF →
    ∃ sF', c.run id s' true = .ok sF' ∧ sF.Same sF' := by
  intro h
  have hj := ok_of ((scanTo "scan".toList noCrop).jobs id disk2 true) [] (by decide +kernel)
  have hr := ok_of (runJobs "scan".toList "scan".toList disk2 ((okOr ((scanTo "scan".toList noCrop).jobs id disk2 true) []).take 1)) disk2
    (by decide +kernel)
  have hrun := ok_of ((scanTo "scan".toList noCrop).run id disk2 true) disk2 (by decide +kernel)
  obtain ⟨sF', h1, h2⟩ := h _ disk2 _ true _ ⟨_, hj, 1, _, hr, Or.inl rfl⟩ hrun
  have h3 := congrArg (Option.map fun m : Mat ℚ => m.get 0 0) ((h2 "scan".toList).2 (sliceFile 0))
  have h4 : sF' = okOr ((scanTo "scan".toList noCrop).run id
      (okOr (runJobs "scan".toList "scan".toList disk2 ((okOr ((scanTo "scan".toList noCrop).jobs id disk2 true) []).take 1)) disk2) true) disk2 := by
    rw [h1]; rfl
  rw [h4] at h3
  exact absurd h3 (by decide +kernel)

/-- **C145** is false of a folder that already has other slices: `overwrite=True` leaves them there, among the new ones (here one slice of the input is cropped
away and the old slice 1 remains). -/
theorem stale_slices_refuted : ¬ ∀ (c : Call ℚ) (s sF : Disk (Mat ℚ)) (js : List (Job (Mat ℚ))), c.input ≠ c.output → s.Proper c.output →
    c.jobs id s true = .ok js → c.run id s true = .ok sF → ∃ l, sF.tifs c.output = .ok l ∧ l.length = js.length := by
  intro h
  have hj := ok_of ((scanTo "out".toList ⟨0, 1, 0, 0, 0, 0⟩).jobs id disk2 true) [] (by decide +kernel)
  have hrun := ok_of ((scanTo "out".toList ⟨0, 1, 0, 0, 0, 0⟩).run id disk2 true) disk2 (by decide +kernel)
  obtain ⟨l, h1, h2⟩ := h _ disk2 _ _ (by decide) (by unfold Disk.Proper; decide +kernel) hj hrun
  have h3 : l = okOr (Disk.tifs (okOr ((scanTo "out".toList ⟨0, 1, 0, 0, 0, 0⟩).run id disk2 true) disk2) "out".toList) [] := by
    have h1' : Disk.tifs (okOr ((scanTo "out".toList ⟨0, 1, 0, 0, 0, 0⟩).run id disk2 true) disk2) "out".toList = .ok l := h1
    rw [h1']; rfl
  rw [h3] at h2
  exact absurd h2 (by decide +kernel)

/-- A non-trivial instance of `rescale_output`: two slices into a folder that is not there yet. -/
example : ∃ sF, (scanTo "new".toList noCrop).run id disk2 false = .ok sF ∧ sF.tifs "new".toList = .ok [sliceFile 0, sliceFile 1] := by
  have hrun := ok_of ((scanTo "new".toList noCrop).run id disk2 false) disk2 (by decide +kernel)
  refine ⟨_, hrun, ?_⟩
  have hf := ok_of (disk2.tifs "scan".toList) [] (by decide +kernel)
  have hl : okOr (disk2.tifs "scan".toList) [] = [sliceFile 0, sliceFile 1] := by decide +kernel
  rw [hl] at hf
  obtain ⟨m0, p, -, -, -, -, -, -, h⟩ := rescale_output id disk2 _ "scan".toList "new".toList (by decide) 8 (some (0, 2)) none noCrop false _ hf (by decide)
    (by unfold Disk.Proper; decide +kernel) hrun
  have := h.2 fun n _ hn => by
    have : disk2.file "new".toList n = none := rfl
    rw [this] at hn
    cases hn
  exact this

/-- A folder with a file that comes first in the alphabet, and slice 0. -/
def diskMixed : Disk (Mat ℚ) := fun q => if q = "scan".toList then some [("a.tif".toList, pix 5), (sliceFile 0, pix 6)] else none

/-- **C146** is false of folders with other file names: copying (`nbit=32`) such a folder onto itself overwrites the second input image with the first before it
is read; the second image is lost. -/
theorem in_place_names_refuted : ¬ ∀ (s sF : Disk (Mat ℚ)) (p : Name) (files : List Name), s.tifs p = .ok files → s.Proper p →
    (Call.rescale p p 32 (some (0, 1)) none noCrop).run id s true = .ok sF →
    ∀ k < files.length, sF.pixel p (sliceFile k) = s.pixel p (files.getD k []) := by
  intro h
  have hf := ok_of (diskMixed.tifs "scan".toList) [] (by decide +kernel)
  have hrun := ok_of ((Call.rescale "scan".toList "scan".toList 32 (some ((0 : ℚ), 1)) none noCrop).run id diskMixed true) diskMixed (by decide +kernel)
  exact absurd (h diskMixed _ _ _ hf (by unfold Disk.Proper; decide +kernel) hrun 1 (by decide +kernel)) (by decide +kernel)

/-- Downsampling options without rescaling. -/
def plain : Scaling ℚ := ⟨false, 16, none, none, none⟩

/-- **C146** is false of `downsample_dataset`: a folder downsampled onto itself keeps the input slices beyond the new ones. -/
theorem downsample_in_place_refuted : ¬ ∀ (s sF : Disk (Mat ℚ)) (p : Name) (js : List (Job (Mat ℚ))) (n : Nat), s.tifs p = .ok ((List.range n).map sliceFile) →
    s.Proper p → (Call.downsample p p 2 1 1 .mean plain false noCrop).jobs id s true = .ok js →
    (Call.downsample p p 2 1 1 .mean plain false noCrop).run id s true = .ok sF → ∃ l, sF.tifs p = .ok l ∧ l.length = js.length := by
  intro h
  have hf := ok_of (disk2.tifs "scan".toList) [] (by decide +kernel)
  have hl : okOr (disk2.tifs "scan".toList) [] = (List.range 2).map sliceFile := by decide +kernel
  rw [hl] at hf
  have hj := ok_of ((Call.downsample "scan".toList "scan".toList 2 1 1 .mean plain false noCrop).jobs id disk2 true) [] (by decide +kernel)
  have hrun := ok_of ((Call.downsample "scan".toList "scan".toList 2 1 1 .mean plain false noCrop).run id disk2 true) disk2 (by decide +kernel)
  obtain ⟨l, h1, h2⟩ := h disk2 _ _ _ 2 hf (by unfold Disk.Proper; decide +kernel) hj hrun
  have h3 : l = okOr (Disk.tifs (okOr ((Call.downsample "scan".toList "scan".toList 2 1 1 .mean plain false noCrop).run id disk2 true) disk2) "scan".toList) [] := by
    rw [h1]; rfl
  rw [h3] at h2
  exact absurd h2 (by decide +kernel)

/-- A non-trivial instance of `downsample_output`: the two slices become one. -/
example : ∃ sF, (Call.downsample "scan".toList "new".toList 2 1 1 .mean plain false noCrop).run id disk2 false = .ok sF ∧
    sF.tifs "new".toList = .ok [sliceFile 0] ∧ sF.pixel "new".toList (sliceFile 0) = some 1 := by
  have hrun := ok_of ((Call.downsample "scan".toList "new".toList 2 1 1 .mean plain false noCrop).run id disk2 false) disk2 (by decide +kernel)
  refine ⟨_, hrun, ?_, by decide +kernel⟩
  have := ok_of (Disk.tifs (okOr ((Call.downsample "scan".toList "new".toList 2 1 1 .mean plain false noCrop).run id disk2 false) disk2) "new".toList) []
    (by decide +kernel)
  rw [this]
  exact congrArg _ (by decide +kernel)

/-- A non-trivial instance of `rescale_in_place`: both slices are 127 afterwards. -/
example : ∃ sF, (scanTo "scan".toList noCrop).run id disk2 true = .ok sF ∧ sF.tifs "scan".toList = disk2.tifs "scan".toList := by
  have hrun := ok_of ((scanTo "scan".toList noCrop).run id disk2 true) disk2 (by decide +kernel)
  have hf := ok_of (disk2.tifs "scan".toList) [] (by decide +kernel)
  have hl : okOr (disk2.tifs "scan".toList) [] = (List.range 2).map sliceFile := by decide +kernel
  rw [hl] at hf
  obtain ⟨m0, q, -, -, -, -, h⟩ := rescale_in_place id disk2 _ "scan".toList 8 (some (0, 2)) none noCrop 2 (by decide) hf
    (by unfold Disk.Proper; decide +kernel) hrun
  exact ⟨_, hrun, h⟩

/-- A history of two calls: the first is stopped after making the folder, the second (to another folder) runs to its end; the folder `out` of an earlier run keeps
its slices. -/
example : ∃ t, History id disk2 t ∧ t "new".toList = some [] ∧ t "out".toList = disk2 "out".toList := by
  have hj := ok_of ((scanTo "new".toList noCrop).jobs id disk2 false) [] (by decide +kernel)
  have hstop : (scanTo "new".toList noCrop).StopsAt id disk2 false (disk2.mkdir "new".toList) :=
    ⟨_, hj, 0, disk2, rfl, Or.inr (Or.inl ⟨by decide +kernel, rfl⟩)⟩
  have hh : History id disk2 (disk2.mkdir "new".toList) := History.call disk2 _ _ _ hstop (History.nil _)
  exact ⟨_, hh, rfl, history_keeps id _ _ hh _ (by decide +kernel)⟩

end Verif.Writer
