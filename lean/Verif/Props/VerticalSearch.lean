import Verif.Props.Autocorrelation
import Verif.Props.VerticalSection
import Verif.Props.VerticalCenter
import Verif.Props.VisualCenter
import Verif.Props.SliceMetric2
import Verif.Props.LogStep

/-!
C150, C151 — the two centre searches on vertical slices.
-/

set_option linter.unusedSectionVars false
set_option linter.unusedSimpArgs false

namespace Verif.VerticalSearch
open Verif.Vertical Verif.VerticalDriver Verif.Recon Verif.Fourier Verif.BackProj Verif.SliceMetric Verif.VisualCenter

/-! ### specification -/

/-- The arguments that do not concern the centre are valid. -/
structure Ok (angles : Option (List ℝ)) (ramp : Ramp) (p : Arr3 ℝ) (idx alpha : ℝ) : Prop where
  ramp : ramp ≠ .other
  depth : 0 < p.d
  height : 0 < p.h
  width : 0 < p.w
  angles : ∀ l, angles = some l → l.length = p.d
  idx : 0 ≤ idx ∧ idx ≤ (p.w : ℝ) - 1
  alpha : 0 ≤ alpha ∧ alpha ≤ 180

/-- Every call of the kernel is a complete run on the CPU or the GPU. -/
def Runs (p : Arr3 ℝ) (bp : ℝ → Kernel) : Prop := ∀ c, Runs1 p.h p.w c (bp c)

/-- The arguments of the slice about centre `c`: no flat or dark field, no crop, all projections, hann filter, pads of 15 percent of the width (at most 150) with
the outer values, logarithm and mask not applied again; the ramp filter is applied after the back-projection unless it is asked for before it. -/
noncomputable def sliceArgs (angles : Option (List ℝ)) (ramp : Ramp) (w : ℕ) (c : ℝ) : VArgs :=
  { center := c, flat := none, dark := none, angles := angles, top := 0, bottom := 0, left := 0, right := 0, projStart := 0, projStop := -1,
    ramp := if ramp = .none then .after else ramp, filter := .hann, pad := some (min (3 * w / 20) 150),
    padIdx := fun n q j => min (j - q) (n - 1), applyLog := false, masking := false }

/-- The slice about centre `c` in terms of the arguments only (as in C117). -/
noncomputable def sliceSpec (angles : Option (List ℝ)) (ramp : Ramp) (p : Arr3 ℝ) (idx alpha c : ℝ) : Mat ℝ := (sliceArgs angles ramp p.w c).slice p idx alpha

theorem searchArgs_eq (angles : Option (List ℝ)) (ramp : Ramp) (w : ℕ) (c : ℝ) : searchArgs angles ramp w c = sliceArgs angles ramp w c := rfl

/-! ### one slice -/

theorem args_pad (angles : Option (List ℝ)) (ramp : Ramp) (w : ℕ) (c : ℝ) : (searchArgs angles ramp w c).PadOk := by
  intro n q j hn _
  show edgeIdx n q j < n
  unfold edgeIdx
  omega

theorem args_valid (angles : Option (List ℝ)) (ramp : Ramp) (p : Arr3 ℝ) (idx alpha c : ℝ) (ho : Ok angles ramp p idx alpha) :
    (searchArgs angles ramp p.w c).Valid p ↔ 0 ≤ c ∧ c ≤ (p.w : ℝ) - 1 := by
  constructor
  · intro h
    exact h.center
  · intro hc
    have hn : (searchArgs angles ramp p.w c).numProj p = p.d := by
      unfold VArgs.numProj searchArgs
      simp
    refine ⟨?_, by rw [hn]; exact_mod_cast ho.depth, fun l hl => by rw [hn]; exact_mod_cast ho.angles l hl, ho.height, ho.width, hc, fun m hm => (nomatch hm),
      fun m hm => (nomatch hm)⟩
    show (if ramp = .none then Ramp.after else ramp) = .before ∨ (if ramp = .none then Ramp.after else ramp) = .after ∨ _
    cases ramp with
    | before => exact Or.inl rfl
    | after => exact Or.inr (Or.inl rfl)
    | none => exact Or.inr (Or.inl rfl)
    | other => exact absurd rfl ho.ramp

/-- A slice is reconstructed exactly for the centres on the detector, otherwise `ValueError` is raised. -/
theorem slice_ok (bp : ℝ → Kernel) (cz : Option ℤ) (angles : Option (List ℝ)) (ramp : Ramp) (p : Arr3 ℝ) (idx alpha c : ℝ) (hbp : Runs p bp)
    (ho : Ok angles ramp p idx alpha) :
    (0 ≤ c ∧ c ≤ (p.w : ℝ) - 1 → ∃ m, slice bp cz angles ramp p idx alpha c = .ok m ∧ m.Eqv (sliceSpec angles ramp p idx alpha c)) ∧
    (¬ (0 ≤ c ∧ c ≤ (p.w : ℝ) - 1) → slice bp cz angles ramp p idx alpha c = .error .valueError) := by
  have hp := args_pad angles ramp p.w c
  obtain ⟨h1, h2⟩ := vertical_single_ok (searchArgs angles ramp p.w c) (bp c) cz p idx alpha hp (hbp c)
  refine ⟨fun hc => ?_, fun hc => ?_⟩
  · obtain ⟨m, hm⟩ := h1.2 ⟨(args_valid angles ramp p idx alpha c ho).2 hc, ho.idx, ho.alpha⟩
    exact ⟨m, hm, vertical_single_value _ _ cz p idx alpha hp (hbp c) m hm⟩
  · cases hs : slice bp cz angles ramp p idx alpha c with
    | ok m => exact absurd ((args_valid angles ramp p idx alpha c ho).1 (h1.1 ⟨m, hs⟩).1) hc
    | error e => rw [h2 e hs]

/-- Chunk size, device and schedule do not matter, for valid and invalid arguments. -/
theorem slice_unique (bp bp' : ℝ → Kernel) (cz cz' : Option ℤ) (angles : Option (List ℝ)) (ramp : Ramp) (p : Arr3 ℝ) (idx alpha c : ℝ) (hbp : Runs p bp)
    (hbp' : Runs p bp') :
    (∃ m m', slice bp cz angles ramp p idx alpha c = .ok m ∧ slice bp' cz' angles ramp p idx alpha c = .ok m' ∧ m.Eqv m') ∨
    (slice bp cz angles ramp p idx alpha c = .error .valueError ∧ slice bp' cz' angles ramp p idx alpha c = .error .valueError) := by
  have hp := args_pad angles ramp p.w c
  cases hs : slice bp cz angles ramp p idx alpha c with
  | ok m =>
    obtain ⟨m', h1, h2⟩ := vertical_single_unique _ (bp c) (bp' c) cz cz' p idx alpha hp (hbp c) (hbp' c) m hs
    exact Or.inl ⟨m, m', rfl, h1, h2⟩
  | error e =>
    rw [(vertical_single_ok _ (bp c) cz p idx alpha hp (hbp c)).2 e hs]
    refine Or.inr ⟨rfl, ?_⟩
    cases hs' : slice bp' cz' angles ramp p idx alpha c with
    | ok m' =>
      obtain ⟨m, h1, -⟩ := vertical_single_unique _ (bp' c) (bp c) cz' cz p idx alpha hp (hbp' c) (hbp c) m' hs'
      have : slice bp cz angles ramp p idx alpha c = .ok m := h1
      rw [hs] at this
      cases this
    | error e' => rw [(vertical_single_ok _ (bp' c) cz' p idx alpha hp (hbp' c)).2 e' hs']

/-! ### logarithm -/

/-- The data the slices are made from, and what is left in the caller's array. -/
theorem prepare_get (b : Bool) (p : Arr3 ℝ) (n i j : ℕ) :
    (prepare b p).get n i j = (if b then -Real.log (if p.get n i j ≤ 0 then 1 else p.get n i j) else p.get n i j) ∧
    (callerAfter b p).get n i j = if b = true ∧ p.get n i j ≤ 0 then 1 else p.get n i j := by
  classical
  constructor
  · show (logged b p).read (n, i, j) = _
    unfold logged LogStep.directCall
    rw [LogStep.logStep_read]
    cases b
    · simp [LogStep.St.read]
    · simp [LogStep.St.read]
  · show (logged b p).caller (n, i, j) = _
    unfold logged
    rw [LogStep.direct_caller]

/-! ### candidates, mask and names -/

theorem centers_eq (start stop step : ℝ) : VerticalCenter.centers start stop step = arange start (stop + step) step := rfl

theorem listMin_eq (start stop step : ℝ) (hs : 0 < step) (hne : start < stop + step) : listMin (VerticalCenter.centers start stop step) = start := by
  rw [centers_eq]
  have hne' := (arange_ne_nil start (stop + step) step hs).2 hne
  have hmin : Post.IsMin (arange start (stop + step) step) (listMin (arange start (stop + step) step)) := by
    cases hl : arange start (stop + step) step with
    | nil => exact absurd hl hne'
    | cons a l => exact Post.foldl_min_spec l a
  refine hmin.unique ⟨(mem_arange _ _ _ hs _).2 ⟨0, by simp, hne⟩, fun y hy => ?_⟩
  obtain ⟨k, rfl, -⟩ := (mem_arange _ _ _ hs _).1 hy
  have : 0 ≤ (k : ℝ) * step := by positivity
  linarith

/-- The mask in use is that of the first candidate. -/
theorem mask_eq (start stop step : ℝ) (hs : 0 < step) (hne : start < stop + step) (w : ℕ) :
    commonMask true (VerticalCenter.centers start stop step) w =
      if pyTrunc (min start ((w : ℝ) - start)) < 0 then .error .valueError else .ok (maskCol start w) := by
  unfold commonMask
  have hne' := (arange_ne_nil start (stop + step) step hs).2 hne
  rw [if_neg (by decide), if_neg (by rw [centers_eq]; exact hne'), listMin_eq start stop step hs hne]

theorem mask_inside (masking : Bool) (start stop step : ℝ) (hs : 0 < step) (hne : start < stop + step) (w : ℕ) (h0 : 0 ≤ start) (h1 : start ≤ (w : ℝ) - 1) :
    commonMask masking (VerticalCenter.centers start stop step) w = .ok (if masking then maskCol start w else fun _ => 1) := by
  cases masking with
  | false => rfl
  | true =>
    rw [mask_eq start stop step hs hne, if_neg]
    · rfl
    · have : 0 ≤ min start ((w : ℝ) - start) := le_min h0 (by linarith)
      unfold pyTrunc
      rw [if_pos this]
      have := Int.floor_nonneg.2 this
      omega

/-- Column `j` is within the radius `⌊min(c, w - c)⌋` that the mask of `vertical_reconstruction` with centre `c` keeps. -/
def Kept (c : ℝ) (w j : ℕ) : Prop := maskCol c w j = 1

theorem kept_iff (c : ℝ) (w j : ℕ) :
    Kept c w j ↔ (w - 2 * ⌊min c ((w : ℝ) - c)⌋₊) / 2 ≤ j ∧ j < (w - 2 * ⌊min c ((w : ℝ) - c)⌋₊) / 2 + 2 * ⌊min c ((w : ℝ) - c)⌋₊ := by
  unfold Kept maskCol
  dsimp only
  split
  · rename_i h; exact ⟨fun _ => h, fun _ => rfl⟩
  · rename_i h; exact ⟨fun hx => absurd hx (by norm_num), fun hx => absurd hx h⟩

theorem kept_mono (c d : ℝ) (w j : ℕ) (hcd : ⌊min c ((w : ℝ) - c)⌋₊ ≤ ⌊min d ((w : ℝ) - d)⌋₊) (h2 : 2 * ⌊min d ((w : ℝ) - d)⌋₊ ≤ w) (h : Kept c w j) :
    Kept d w j := by
  rw [kept_iff] at h ⊢
  omega

theorem two_rad (d : ℝ) (w : ℕ) : 2 * ⌊min d ((w : ℝ) - d)⌋₊ ≤ w := by
  by_cases hd : 0 ≤ min d ((w : ℝ) - d)
  · have hle := Nat.floor_le hd
    have : (2 : ℝ) * (⌊min d ((w : ℝ) - d)⌋₊ : ℝ) ≤ w := by
      linarith [min_le_left d ((w : ℝ) - d), min_le_right d ((w : ℝ) - d)]
    exact_mod_cast this
  · rw [Nat.floor_of_nonpos (le_of_lt (not_le.1 hd))]
    omega

/-- Searching left of `w - start` (in particular in the left half) the common mask keeps nothing that is outside the field of view of a candidate. -/
theorem mask_left (start c : ℝ) (w j : ℕ) (h1 : start ≤ c) (h2 : c ≤ (w : ℝ) - start) (h : Kept start w j) : Kept c w j := by
  refine kept_mono start c w j ?_ (two_rad c w) h
  refine Nat.floor_mono (le_min ?_ ?_)
  · exact (min_le_left _ _).trans h1
  · exact (min_le_left _ _).trans (by linarith)

/-- In the right half it does, for every width: the leftmost column it keeps is outside the field of view of every candidate at least one pixel further right. -/
theorem mask_right_refuted (start c : ℝ) (w : ℕ) (h0 : (w : ℝ) / 2 ≤ start) (h1 : start + 1 ≤ c) (h2 : c ≤ (w : ℝ) - 1) :
    ∃ j < w, Kept start w j ∧ ¬ Kept c w j := by
  have e1 : min start ((w : ℝ) - start) = (w : ℝ) - start := min_eq_right (by linarith)
  have e2 : min c ((w : ℝ) - c) = (w : ℝ) - c := min_eq_right (by linarith)
  have hlt : ⌊min c ((w : ℝ) - c)⌋₊ < ⌊min start ((w : ℝ) - start)⌋₊ := by
    rw [e1, e2]
    have hc0 : (0 : ℝ) ≤ (w : ℝ) - c := by linarith
    have := Nat.floor_add_one hc0
    have h3 : ⌊(w : ℝ) - c + 1⌋₊ ≤ ⌊(w : ℝ) - start⌋₊ := Nat.floor_mono (by linarith)
    omega
  have h2r := two_rad start w
  refine ⟨(w - 2 * ⌊min start ((w : ℝ) - start)⌋₊) / 2, by omega, (kept_iff _ _ _).2 (by omega), fun h => ?_⟩
  rw [kept_iff] at h
  omega

/-- File names tell the candidates apart if the step is above a hundredth of a pixel. -/
theorem names_distinct (x y : ℝ) (h : x + 0.01 < y) : nameOf x < nameOf y := by
  unfold nameOf
  have h1 := abs_le.1 (npRound_abs (100 * x))
  have h2 := abs_le.1 (npRound_abs (100 * y))
  have : ((npRound (100 * x) : ℤ) : ℝ) < ((npRound (100 * y) : ℤ) : ℝ) := by
    norm_num at h
    linarith [h1.2, h2.1]
  exact_mod_cast this

/-! ### C150 -/

theorem loop_all (rec : ℝ → Py (Mat ℝ)) (cs : List ℝ) (P : ℝ → Prop) (h1 : ∀ c ∈ cs, P c → ∃ m, rec c = .ok m) (h2 : ∀ c ∈ cs, ¬ P c → rec c = .error .valueError) :
    ((∀ c ∈ cs, P c) → (loop rec 1 cs).2 = none) ∧
    ((∃ c ∈ cs, ¬ P c) → (loop rec 1 cs).2 = some .valueError ∧ ∃ h : (loop rec 1 cs).1.length < cs.length, ¬ P (cs[(loop rec 1 cs).1.length]'h)) ∧
    ∀ (i : ℕ) (hi : i < (loop rec 1 cs).1.length) (hi' : i < cs.length), P cs[i] := by
  obtain ⟨l1, l2, l3, l4⟩ := loop_spec rec 1 cs
  have hP : ∀ (i : ℕ) (hi : i < (loop rec 1 cs).1.length) (hi' : i < cs.length), P cs[i] := fun i hi hi' => by
    by_contra hn
    have := h2 _ (List.getElem_mem hi') hn
    rw [(l2 i hi hi').2] at this
    cases this
  have hE : ∀ e, (loop rec 1 cs).2 = some e → e = .valueError ∧ ∃ h : (loop rec 1 cs).1.length < cs.length, ¬ P (cs[(loop rec 1 cs).1.length]'h) := by
    intro e he
    obtain ⟨h, hr⟩ := l4 e he
    have hn : ¬ P (cs[(loop rec 1 cs).1.length]'h) := fun hp => by
      obtain ⟨m, hm⟩ := h1 _ (List.getElem_mem h) hp
      rw [hr] at hm
      cases hm
    have := h2 _ (List.getElem_mem h) hn
    rw [hr] at this
    cases this
    exact ⟨rfl, h, hn⟩
  refine ⟨fun ha => ?_, fun ⟨c, hc, hn⟩ => ?_, hP⟩
  · cases he : (loop rec 1 cs).2 with
    | none => rfl
    | some e =>
      obtain ⟨-, h, hn⟩ := hE e he
      exact absurd (ha _ (List.getElem_mem h)) hn
  · cases he : (loop rec 1 cs).2 with
    | none =>
      have hl := l3 he
      obtain ⟨i, hi, rfl⟩ := List.getElem_of_mem hc
      exact absurd (hP i (by rw [hl]; exact hi) hi) hn
    | some e =>
      obtain ⟨h1, h⟩ := hE e he
      exact ⟨by rw [h1], h⟩

/-- **C150.** The files.  In the order of the candidates, each is named after its centre and holds the vertical slice reconstructed about it (from the
projections after the logarithm), with the columns outside the mask of the first candidate set to zero if `masking`.  If all candidates are on the
detector there is one for every candidate; otherwise exactly those before the first candidate off the detector are written, and `ValueError` is raised. -/
theorem visual_files (bp : ℝ → Kernel) (cz : Option ℤ) (angles : Option (List ℝ)) (ramp : Ramp) (applyLog masking : Bool) (p : Arr3 ℝ)
    (idx start stop step alpha : ℝ) (hbp : Runs p bp) (ho : Ok angles ramp p idx alpha) (hs : 0 < step) (hne : start < stop + step) :
    let cs := arange start (stop + step) step
    let r := (visualVertical bp cz angles ramp applyLog masking p idx start stop step alpha).1
    ((∀ c ∈ cs, 0 ≤ c ∧ c ≤ (p.w : ℝ) - 1) → r.2 = none ∧ r.1.length = cs.length) ∧
    ((∃ c ∈ cs, ¬ (0 ≤ c ∧ c ≤ (p.w : ℝ) - 1)) → r.2 = some .valueError ∧
      ∃ h : r.1.length < cs.length, ¬ (0 ≤ cs[r.1.length]'h ∧ cs[r.1.length]'h ≤ (p.w : ℝ) - 1)) ∧
    ∀ (i : ℕ) (hi : i < r.1.length), r.1[i].1 = nameOf (start + i * step) ∧ (0 ≤ start + i * step ∧ start + i * step ≤ (p.w : ℝ) - 1) ∧
      r.1[i].2.h = p.h ∧ r.1[i].2.w = p.w ∧
      ∀ a < p.h, ∀ b < p.w, r.1[i].2.get a b =
        (sliceSpec angles ramp (prepare applyLog p) idx alpha (start + i * step)).get a b * if masking then maskCol start p.w b else 1 := by
  intro cs r
  have hcs0 : cs ≠ [] := (arange_ne_nil start (stop + step) step hs).2 hne
  have hfirst : ∀ (k : ℕ) (hk : k < cs.length), k = 0 → cs[k] = start := by
    intro k hk h0
    subst h0
    exact (arange_get start (stop + step) step 0 hk).trans (by simp)
  have hst : start ∈ cs := (mem_arange _ _ _ hs _).2 ⟨0, by simp, hne⟩
  have hq : Ok angles ramp (prepare applyLog p) idx alpha := ⟨ho.ramp, ho.depth, ho.height, ho.width, ho.angles, ho.idx, ho.alpha⟩
  have hb' : Runs (prepare applyLog p) bp := hbp
  have hr : r = match commonMask masking cs p.w with
    | .error e => ([], some e)
    | .ok f => loop (fun c => (slice bp cz angles ramp (prepare applyLog p) idx alpha c).map (masked f)) 1 cs := rfl
  cases hm : commonMask masking cs p.w with
  | error e =>
    rw [hm] at hr
    have hout : ¬ (0 ≤ start ∧ start ≤ (p.w : ℝ) - 1) := fun h => by
      rw [show cs = VerticalCenter.centers start stop step from rfl, mask_inside masking start stop step hs hne p.w h.1 h.2] at hm
      cases hm
    have he : e = .valueError := by
      cases masking with
      | false => cases hm
      | true =>
        rw [show cs = VerticalCenter.centers start stop step from rfl, mask_eq start stop step hs hne] at hm
        split at hm
        · cases hm; rfl
        · cases hm
    have h0 : 0 < cs.length := List.length_pos_iff.2 hcs0
    simp only [hr]
    refine ⟨fun h => absurd (h start hst) hout, fun _ => ⟨by rw [he], h0, ?_⟩, fun i hi => absurd hi (by simp)⟩
    rw [hfirst _ _ (List.length_nil)]
    exact hout
  | ok f =>
    rw [hm] at hr
    dsimp only at hr
    generalize hrec : (fun c => (slice bp cz angles ramp (prepare applyLog p) idx alpha c).map (masked f)) = rec at hr
    have h1 : ∀ c ∈ cs, (0 ≤ c ∧ c ≤ (p.w : ℝ) - 1) → ∃ m, rec c = .ok m := fun c _ hc => by
      obtain ⟨m, h, -⟩ := (slice_ok bp cz angles ramp (prepare applyLog p) idx alpha c hb' hq).1 hc
      rw [← hrec]
      dsimp only
      rw [h]
      exact ⟨_, rfl⟩
    have h2 : ∀ c ∈ cs, ¬ (0 ≤ c ∧ c ≤ (p.w : ℝ) - 1) → rec c = .error .valueError := fun c _ hc => by
      rw [← hrec]
      dsimp only
      rw [(slice_ok bp cz angles ramp (prepare applyLog p) idx alpha c hb' hq).2 hc]
      rfl
    obtain ⟨g1, g2, g3⟩ := loop_all rec cs _ h1 h2
    obtain ⟨l1, l2, l3, -⟩ := loop_spec rec 1 cs
    rw [hr]
    refine ⟨fun h => ⟨g1 h, l3 (g1 h)⟩, g2, fun i hi => ?_⟩
    have hi' : i < cs.length := lt_of_lt_of_le hi l1
    have hci : cs[i] = start + i * step := by
      show (arange start (stop + step) step)[i] = _
      rw [arange_get]
    obtain ⟨k1, k2⟩ := l2 i hi hi'
    have hin := g3 i hi hi'
    rw [hci] at k1 k2 hin
    rw [div_one] at k1
    have hin0 : 0 ≤ start ∧ start ≤ (p.w : ℝ) - 1 ∨ masking = false := by
      cases masking with
      | false => exact Or.inr rfl
      | true =>
        rcases Nat.eq_zero_or_pos i with rfl | hi0
        · left; simpa using hin
        · have h0 : 0 < (loop rec 1 cs).1.length := lt_of_le_of_lt (Nat.zero_le i) hi
          have := g3 0 h0 (lt_of_lt_of_le h0 l1)
          rw [hfirst _ _ rfl] at this
          exact Or.inl this
    have hf : f = if masking then maskCol start p.w else fun _ => 1 := by
      rcases hin0 with hin0 | rfl
      · rw [show cs = VerticalCenter.centers start stop step from rfl, mask_inside masking start stop step hs hne p.w hin0.1 hin0.2] at hm
        cases hm
        rfl
      · cases hm
        rfl
    obtain ⟨m, e1, e2⟩ := (slice_ok bp cz angles ramp (prepare applyLog p) idx alpha (start + i * step) hb' hq).1 hin
    have hk : rec (start + i * step) = .ok (masked f m) := by
      rw [← hrec]
      dsimp only
      rw [e1]
      rfl
    have hmm : masked f m = (loop rec 1 cs).1[i].2 := Except.ok.inj (hk.symm.trans k2)
    have hsh : m.h = p.h ∧ m.w = p.w := ⟨e2.1, e2.2.1⟩
    refine ⟨k1, hin, ?_, ?_, fun a ha b hb => ?_⟩
    · rw [← hmm]; exact hsh.1
    · rw [← hmm]; exact hsh.2
    · rw [← hmm]
      show m.get a b * f b = _
      rw [e2.2.2 a (by rw [hsh.1]; exact ha) b (by rw [hsh.2]; exact hb), hf]
      cases masking <;> rfl

theorem loop_rel (rec rec' : ℝ → Py (Mat ℝ))
    (h : ∀ c, (∃ m m', rec c = .ok m ∧ rec' c = .ok m' ∧ m.Eqv m') ∨ (rec c = .error .valueError ∧ rec' c = .error .valueError)) (cs : List ℝ) :
    (loop rec 1 cs).2 = (loop rec' 1 cs).2 ∧ List.Forall₂ (fun x y => x.1 = y.1 ∧ x.2.Eqv y.2) (loop rec 1 cs).1 (loop rec' 1 cs).1 := by
  induction cs with
  | nil => exact ⟨rfl, .nil⟩
  | cons c cs ih =>
    rcases h c with ⟨m, m', h1, h2, h3⟩ | ⟨h1, h2⟩
    · rw [loop, loop, h1, h2]
      exact ⟨ih.1, .cons ⟨rfl, h3⟩ ih.2⟩
    · rw [loop, loop, h1, h2]
      exact ⟨rfl, .nil⟩

theorem masked_congr (f : ℕ → ℝ) (m n : Mat ℝ) (h : m.Eqv n) : (masked f m).Eqv (masked f n) := by
  refine ⟨h.1, h.2.1, fun i hi j hj => ?_⟩
  show m.get i j * f j = n.get i j * f j
  rw [h.2.2 i hi j hj]

/-- **C150**: chunk size, device and schedule do not matter: two calls write the same files and raise the same. -/
theorem visual_schedule_free (bp bp' : ℝ → Kernel) (cz cz' : Option ℤ) (angles : Option (List ℝ)) (ramp : Ramp) (applyLog masking : Bool) (p : Arr3 ℝ)
    (idx start stop step alpha : ℝ) (hbp : Runs p bp) (hbp' : Runs p bp') :
    let r := visualVertical bp cz angles ramp applyLog masking p idx start stop step alpha
    let r' := visualVertical bp' cz' angles ramp applyLog masking p idx start stop step alpha
    r.1.2 = r'.1.2 ∧ r.2 = r'.2 ∧ List.Forall₂ (fun x y => x.1 = y.1 ∧ x.2.Eqv y.2) r.1.1 r'.1.1 := by
  intro r r'
  have hv : ∀ (bp : ℝ → Kernel) (cz : Option ℤ), visualVertical bp cz angles ramp applyLog masking p idx start stop step alpha =
    (match commonMask masking (VerticalCenter.centers start stop step) p.w with
      | .error e => ([], some e)
      | .ok f => loop (fun c => (slice bp cz angles ramp (prepare applyLog p) idx alpha c).map (masked f)) 1 (VerticalCenter.centers start stop step),
      callerAfter applyLog p) := fun _ _ => rfl
  have hr : r = _ := hv bp cz
  have hr' : r' = _ := hv bp' cz'
  cases hm : commonMask masking (VerticalCenter.centers start stop step) p.w with
  | error e =>
    rw [hm] at hr hr'
    rw [hr, hr']
    exact ⟨rfl, rfl, .nil⟩
  | ok f =>
    rw [hm] at hr hr'
    rw [hr, hr']
    have := loop_rel (fun c => (slice bp cz angles ramp (prepare applyLog p) idx alpha c).map (masked f))
      (fun c => (slice bp' cz' angles ramp (prepare applyLog p) idx alpha c).map (masked f)) (fun c => by
        rcases slice_unique bp bp' cz cz' angles ramp (prepare applyLog p) idx alpha c hbp hbp' with ⟨m, m', h1, h2, h3⟩ | ⟨h1, h2⟩
        · exact Or.inl ⟨masked f m, masked f m', by rw [h1]; rfl, by rw [h2]; rfl, masked_congr f m m' h3⟩
        · exact Or.inr ⟨by rw [h1]; rfl, by rw [h2]; rfl⟩) (VerticalCenter.centers start stop step)
    exact ⟨this.1, rfl, this.2⟩

/-- **C150** is false of the end of the range: the candidates can run past `stop`, and then the call raises although `start` and `stop` are on the detector (after
the other files have been written). -/
theorem visual_stop_refuted (bp : ℝ → Kernel) (cz : Option ℤ) (angles : Option (List ℝ)) (ramp : Ramp) (applyLog masking : Bool) (p : Arr3 ℝ)
    (idx alpha : ℝ) (hbp : Runs p bp) (ho : Ok angles ramp p idx alpha) (hw : p.w = 2) :
    (visualVertical bp cz angles ramp applyLog masking p idx 0 1 (7 / 10) alpha).1.2 = some .valueError := by
  refine ((visual_files bp cz angles ramp applyLog masking p idx 0 1 (7 / 10) alpha hbp ho (by norm_num) (by norm_num)).2.1 ⟨7 / 5, ?_, ?_⟩).1
  · exact (mem_arange _ _ _ (by norm_num) _).2 ⟨2, by norm_num, by norm_num⟩
  · rw [hw]
    norm_num

/-- **C150** is false of small steps: with a step below half a hundredth of a pixel the second candidate after a whole pixel overwrites the file of the first. -/
theorem names_collide_refuted (c : ℤ) (step : ℝ) (h0 : 0 ≤ step) (h1 : step < 0.005) : nameOf ((c : ℝ) + step) = nameOf c := by
  have e1 : nameOf (c : ℝ) = 100 * c := by
    unfold nameOf
    have : (100 * (c : ℝ)) = ((100 * c : ℤ) : ℝ) := by push_cast; ring
    rw [this]
    exact npRound_int _
  rw [e1]
  have h2 := abs_le.1 (npRound_abs (100 * ((c : ℝ) + step)))
  unfold nameOf
  norm_num at h1
  have a1 : ((npRound (100 * ((c : ℝ) + step)) : ℤ) : ℝ) < ((100 * c + 1 : ℤ) : ℝ) := by push_cast; linarith [h2.2]
  have a2 : ((100 * c - 1 : ℤ) : ℝ) < ((npRound (100 * ((c : ℝ) + step)) : ℤ) : ℝ) := by push_cast; linarith [h2.1]
  have b1 : npRound (100 * ((c : ℝ) + step)) < 100 * c + 1 := by exact_mod_cast a1
  have b2 : 100 * c - 1 < npRound (100 * ((c : ℝ) + step)) := by exact_mod_cast a2
  omega

/-! ### C151 -/

/-- A metric function that sees the image only. -/
def VMetric.Sees : VMetric → Prop
  | .custom f => ∀ m n : Mat ℝ, m.Eqv n → f m = f n
  | _ => True

theorem metric_congr (mt : VMetric) (h : mt.Sees) (r : ℝ × ℝ) (m n : Mat ℝ) (he : m.Eqv n) : metricOf mt r m = metricOf mt r n := by
  cases mt with
  | entropy =>
    unfold metricOf
    dsimp only
    rw [entropy_congr (m.map (stretch r.1 r.2)) (n.map (stretch r.1 r.2))]
    refine ⟨he.1, he.2.1, fun i hi j hj => ?_⟩
    show stretch r.1 r.2 (m.get i j) = stretch r.1 r.2 (n.get i j)
    rw [he.2.2 i hi j hj]
  | sharpness => exact sharpness_congr m n he
  | autocorrelation => exact autocorrelation_congr m n he
  | custom f => exact h m n he
  | unknown => rfl

theorem range_congr (mt : VMetric) (rec rec' : ℝ → Py (Mat ℝ)) (cs : List ℝ)
    (h : ∀ c, (∃ m m', rec c = .ok m ∧ rec' c = .ok m' ∧ m.Eqv m') ∨ (rec c = .error .valueError ∧ rec' c = .error .valueError)) :
    rangeAt mt rec cs = rangeAt mt rec' cs := by
  cases mt with
  | entropy =>
    unfold rangeAt
    dsimp only
    rcases h (cs.sum / cs.length) with ⟨m, m', h1, h2, h3⟩ | ⟨h1, h2⟩
    · rw [h1, h2, VerticalDriver.ok_bind, VerticalDriver.ok_bind, entries_congr m m' h3]
    · rw [h1, h2]
  | _ => rfl

theorem searchOn_unique (bp bp' : ℝ → Kernel) (cz cz' : Option ℤ) (mt : VMetric) (hmt : mt.Sees) (angles : Option (List ℝ)) (ramp : Ramp)
    (masking invert : Bool) (q : Arr3 ℝ) (idx start stop step alpha : ℝ) (hbp : Runs q bp) (hbp' : Runs q bp') :
    searchOn bp cz mt angles ramp masking invert q idx start stop step alpha =
      searchOn bp' cz' mt angles ramp masking invert q idx start stop step alpha := by
  have hu := fun c => slice_unique bp bp' cz cz' angles ramp q idx alpha c hbp hbp'
  have hm : ∀ (f : ℕ → ℝ) (r : ℝ × ℝ), (fun c => (slice bp cz angles ramp q idx alpha c).bind fun m => metricOf mt r (masked f m)) =
      fun c => (slice bp' cz' angles ramp q idx alpha c).bind fun m => metricOf mt r (masked f m) := by
    intro f r
    funext c
    rcases hu c with ⟨m, m', h1, h2, h3⟩ | ⟨h1, h2⟩
    · rw [h1, h2, VerticalDriver.ok_bind, VerticalDriver.ok_bind]
      exact metric_congr mt hmt r _ _ (masked_congr f m m' h3)
    · rw [h1, h2]
  unfold searchOn
  dsimp only
  rw [range_congr mt (slice bp cz angles ramp q idx alpha) (slice bp' cz' angles ramp q idx alpha) (VerticalCenter.centers start stop step) hu]
  simp only [hm]

/-- **C151**: the result of the search does not depend on chunk size, device, number of threads and schedule, for any metric, valid or invalid arguments. -/
theorem search_schedule_free (bp bp' : ℝ → Kernel) (cz cz' : Option ℤ) (mt : VMetric) (hmt : mt.Sees) (angles : Option (List ℝ)) (ramp : Ramp)
    (smooth : Option (Arr3 ℝ → Arr3 ℝ)) (applyLog masking invert : Bool) (p : Arr3 ℝ) (idx start stop step alpha : ℝ)
    (hsm : (smoothed smooth p).h = p.h ∧ (smoothed smooth p).w = p.w) (hbp : Runs p bp) (hbp' : Runs p bp') :
    findCenterVertical bp cz mt angles ramp smooth applyLog masking invert p idx start stop step alpha =
      findCenterVertical bp' cz' mt angles ramp smooth applyLog masking invert p idx start stop step alpha := by
  unfold findCenterVertical searchList
  have h1 : Runs (prepare applyLog (smoothed smooth p)) bp := by
    unfold Runs
    show ∀ c, Runs1 (smoothed smooth p).h (smoothed smooth p).w c (bp c)
    rw [hsm.1, hsm.2]
    exact hbp
  have h2 : Runs (prepare applyLog (smoothed smooth p)) bp' := by
    unfold Runs
    show ∀ c, Runs1 (smoothed smooth p).h (smoothed smooth p).w c (bp' c)
    rw [hsm.1, hsm.2]
    exact hbp'
  rw [searchOn_unique bp bp' cz cz' mt hmt angles ramp masking invert _ idx start stop step alpha h1 h2]

/-- The first best position of a list of metrics. -/
theorem best_of (invert : Bool) (n : ℕ) (hn : 0 < n) (μ : ℕ → ℝ) :
    ∃ k < n, Center.argmin (inverted invert ((List.range n).map μ)) = .ok k ∧ (∀ j < n, if invert then μ j ≤ μ k else μ k ≤ μ j) ∧
      ∀ j < k, if invert then μ j < μ k else μ k < μ j := by
  have hl : (inverted invert ((List.range n).map μ)).length = n := by rw [inverted_length]; simp
  obtain ⟨k, hk⟩ := argmin_exists (inverted invert ((List.range n).map μ)) (by
    intro h
    rw [h] at hl
    simp at hl
    omega)
  obtain ⟨h1, h2, h3⟩ := argmin_ok _ _ hk
  rw [hl] at h1 h2
  have hg : ∀ j < n, (inverted invert ((List.range n).map μ)).getD j 0 = if invert then Post.npMax ((List.range n).map μ) - μ j else μ j := by
    intro j hj
    rw [inverted_getD _ _ _ (by simpa using hj), List.getD_eq_getElem _ _ (by simpa using hj), List.getElem_map, List.getElem_range]
  refine ⟨k, h1, hk, fun j hj => ?_, fun j hj => ?_⟩
  · have := h2 j hj
    dsimp only at this
    rw [hg j hj, hg k h1] at this
    cases invert
    · simpa using this
    · simp only [if_true] at this ⊢
      linarith
  · have := h3 j hj
    dsimp only at this
    rw [hg j (hj.trans h1), hg k h1] at this
    cases invert
    · simpa using this
    · simp only [if_true] at this ⊢
      linarith

/-- Smallest and largest value of the slice about the mean of the candidates, for the entropy. -/
noncomputable def rangeSpec (mt : VMetric) (S : ℝ → Mat ℝ) (cs : List ℝ) : ℝ × ℝ :=
  match mt with
  | .entropy => (Post.npMin (entries (S (cs.sum / cs.length))), Post.npMax (entries (S (cs.sum / cs.length))))
  | _ => (0, 1)

theorem mean_inside (cs : List ℝ) (hne : cs ≠ []) (a b : ℝ) (h : ∀ c ∈ cs, a ≤ c ∧ c ≤ b) : a ≤ cs.sum / cs.length ∧ cs.sum / cs.length ≤ b := by
  have hl : (0 : ℝ) < cs.length := by exact_mod_cast List.length_pos_iff.2 hne
  have key : ∀ l : List ℝ, (∀ c ∈ l, a ≤ c ∧ c ≤ b) → a * l.length ≤ l.sum ∧ l.sum ≤ b * l.length := by
    intro l
    induction l with
    | nil => intro _; simp
    | cons c l ih =>
      intro h
      obtain ⟨h1, h2⟩ := ih fun c hc => h c (List.mem_cons_of_mem _ hc)
      obtain ⟨h3, h4⟩ := h c List.mem_cons_self
      rw [List.sum_cons, List.length_cons]
      push_cast
      constructor <;> linarith
  obtain ⟨h1, h2⟩ := key cs h
  exact ⟨(le_div_iff₀ hl).2 h1, (div_le_iff₀ hl).2 h2⟩

theorem smoothed_eq (smooth : Option (Arr3 ℝ → Arr3 ℝ)) (p : Arr3 ℝ) : smoothed smooth p = smooth.getD id p := by
  cases smooth <;> rfl

/-- **C151**: what the metrics measure.  Entropy: that of the image with `[nmin, nmax]` (range of the slice at the mean candidate) stretched to `[0, 1]` and clipped;
a function of the user: its value at the image. -/
theorem metric_values (r : ℝ × ℝ) (img : Mat ℝ) (hr : r.1 < r.2) :
    (∃ s : ℝ → ℝ, metricOf .entropy r img = .ok (entropyOf (img.map s)) ∧ (∀ v ≤ r.1, s v = 0) ∧ (∀ v, r.2 ≤ v → s v = 1) ∧
      ∀ v, r.1 ≤ v → v ≤ r.2 → s v = (v - r.1) / (r.2 - r.1)) ∧
    (∀ f, metricOf (.custom f) r img = f img) ∧ metricOf .sharpness r img = SliceMetric.sharpness img ∧
    metricOf .autocorrelation r img = autocorrelation img := by
  have h0 : 0 < r.2 - r.1 := by linarith
  refine ⟨⟨stretch r.1 r.2, rfl, fun v hv => ?_, fun v hv => ?_, fun v h1 h2 => ?_⟩, fun _ => rfl, rfl, rfl⟩
  all_goals unfold stretch; rw [if_neg hr.ne]; unfold clip
  · have : (v - r.1) / (r.2 - r.1) ≤ 0 := div_nonpos_of_nonpos_of_nonneg (by linarith) h0.le
    rw [max_eq_right this]; simp
  · have : 1 ≤ (v - r.1) / (r.2 - r.1) := (one_le_div h0).2 (by linarith)
    rw [max_eq_left (by linarith), min_eq_right this]
  · have a1 : 0 ≤ (v - r.1) / (r.2 - r.1) := div_nonneg (by linarith) h0.le
    have a2 : (v - r.1) / (r.2 - r.1) ≤ 1 := (div_le_one h0).2 (by linarith)
    rw [max_eq_left a1, min_eq_left a2]

/-- **C151.** The search.  `μ k` is the metric of the slice about candidate `start + k * step`, reconstructed from the smoothed projections after the logarithm and
masked.  The result is the first candidate with the smallest (`invert_metric`: largest) metric. -/
theorem search_best (bp : ℝ → Kernel) (cz : Option ℤ) (mt : VMetric) (hk : mt.known = true) (hmt : mt.Sees) (angles : Option (List ℝ)) (ramp : Ramp)
    (smooth : Option (Arr3 ℝ → Arr3 ℝ)) (applyLog masking invert : Bool) (p : Arr3 ℝ) (idx start stop step alpha : ℝ)
    (hsm : (smooth.getD id p).d = p.d ∧ (smooth.getD id p).h = p.h ∧ (smooth.getD id p).w = p.w) (hbp : Runs p bp) (ho : Ok angles ramp p idx alpha)
    (hs : 0 < step) (hne : start < stop + step) (hin : ∀ c ∈ arange start (stop + step) step, 0 ≤ c ∧ c ≤ (p.w : ℝ) - 1) (μ : ℕ → ℝ)
    (hμ : ∀ k : ℕ, start + k * step < stop + step →
      metricOf mt (rangeSpec mt (sliceSpec angles ramp (prepare applyLog (smooth.getD id p)) idx alpha) (arange start (stop + step) step))
        (masked (if masking then maskCol start p.w else fun _ => 1) (sliceSpec angles ramp (prepare applyLog (smooth.getD id p)) idx alpha (start + k * step))) =
          .ok (μ k)) :
    ∃ k : ℕ, start + k * step < stop + step ∧
      findCenterVertical bp cz mt angles ramp smooth applyLog masking invert p idx start stop step alpha = .ok (start + k * step) ∧
      (∀ j : ℕ, start + j * step < stop + step → if invert then μ j ≤ μ k else μ k ≤ μ j) ∧ ∀ j < k, if invert then μ j < μ k else μ k < μ j := by
  rw [← smoothed_eq] at hsm
  simp only [← smoothed_eq] at hμ
  generalize hq : prepare applyLog (smoothed smooth p) = q at hμ
  have hd : q.d = p.d ∧ q.h = p.h ∧ q.w = p.w := by rw [← hq]; exact hsm
  have hb' : Runs q bp := by unfold Runs; rw [hd.2.1, hd.2.2]; exact hbp
  have hoq : Ok angles ramp q idx alpha := ⟨ho.ramp, by rw [hd.1]; exact ho.depth, by rw [hd.2.1]; exact ho.height, by rw [hd.2.2]; exact ho.width,
    fun l hl => by rw [hd.1]; exact ho.angles l hl, by rw [hd.2.2]; exact ho.idx, ho.alpha⟩
  have hcs0 := (arange_ne_nil start (stop + step) step hs).2 hne
  have hst : start ∈ arange start (stop + step) step := (mem_arange _ _ _ hs _).2 ⟨0, by simp, hne⟩
  have hlen : ∀ k, k < (arange start (stop + step) step).length ↔ start + (k : ℝ) * step < stop + step := fun k => length_lt_iff _ _ _ hs k
  have hcs : arange start (stop + step) step = (List.range (arange start (stop + step) step).length).map fun k : ℕ => start + (k : ℝ) * step := by
    unfold arange
    simp
  have hr : rangeAt mt (slice bp cz angles ramp q idx alpha) (arange start (stop + step) step) =
      .ok (rangeSpec mt (sliceSpec angles ramp q idx alpha) (arange start (stop + step) step)) := by
    cases mt with
    | entropy =>
      have hm := mean_inside _ hcs0 0 ((p.w : ℝ) - 1) hin
      obtain ⟨m, h1, h2⟩ := (slice_ok bp cz angles ramp q idx alpha _ hb' hoq).1 (by rw [hd.2.2]; exact hm)
      unfold rangeAt rangeSpec
      dsimp only
      rw [h1, VerticalDriver.ok_bind, if_neg, entries_congr _ _ h2]
      intro he
      have : m.get 0 0 ∈ entries m := (mem_entries m _).2 ⟨0, by rw [h2.1]; exact hoq.height, 0, by rw [h2.2.1]; exact hoq.width, rfl⟩
      rw [he] at this
      cases this
    | _ => rfl
  generalize rangeSpec mt (sliceSpec angles ramp q idx alpha) (arange start (stop + step) step) = R at hμ hr
  have hmask := mask_inside masking start stop step hs hne q.w (hin start hst).1 (by rw [hd.2.2]; exact (hin start hst).2)
  have hmapM : ((arange start (stop + step) step).mapM fun c => (slice bp cz angles ramp q idx alpha c).bind fun m =>
      metricOf mt R (masked (if masking then maskCol start q.w else fun _ => 1) m)) = .ok ((List.range (arange start (stop + step) step).length).map μ) := by
    conv_lhs => rw [hcs]
    rw [List.mapM_map]
    refine VerticalCenter.mapM_ok' (g := μ) _ fun k hk => ?_
    have hk' := (hlen k).1 (List.mem_range.1 hk)
    have hmem : start + (k : ℝ) * step ∈ arange start (stop + step) step := (mem_arange _ _ _ hs _).2 ⟨k, rfl, hk'⟩
    obtain ⟨m, h1, h2⟩ := (slice_ok bp cz angles ramp q idx alpha (start + (k : ℝ) * step) hb' hoq).1 (by rw [hd.2.2]; exact hin _ hmem)
    show (slice bp cz angles ramp q idx alpha (start + (k : ℝ) * step)).bind _ = _
    have h3 := hμ k hk'
    rw [h1, VerticalDriver.ok_bind]
    rw [hd.2.2]
    exact (metric_congr mt hmt R _ _ (masked_congr _ m _ h2)).trans h3
  obtain ⟨k, hk1, hk2, hk3, hk4⟩ := best_of invert _ (List.length_pos_iff.2 hcs0) μ
  refine ⟨k, (hlen k).1 hk1, ?_, fun j hj => hk3 j ((hlen j).2 hj), hk4⟩
  unfold findCenterVertical searchList
  rw [if_neg (by rw [hk]; decide), hq]
  unfold searchOn
  dsimp only
  rw [hmask, VerticalDriver.ok_bind]
  rw [centers_eq, if_neg hcs0, hr, VerticalDriver.ok_bind, hmapM, VerticalDriver.ok_bind, VerticalDriver.ok_bind]
  dsimp only
  rw [hk2, VerticalDriver.ok_bind, List.getD_eq_getElem _ _ hk1, arange_get]

/-- Errors: an unknown metric, and a candidate off the detector. -/
theorem search_error (bp : ℝ → Kernel) (cz : Option ℤ) (mt : VMetric) (angles : Option (List ℝ)) (ramp : Ramp)
    (smooth : Option (Arr3 ℝ → Arr3 ℝ)) (applyLog masking invert : Bool) (p : Arr3 ℝ) (idx start stop step alpha : ℝ) (hk : mt.known = false) :
    findCenterVertical bp cz mt angles ramp smooth applyLog masking invert p idx start stop step alpha = .error .valueError := by
  unfold findCenterVertical searchList
  rw [if_pos hk]
  rfl

/-! ### concrete cases -/

/-- Two projections of two rows and three columns. -/
def exP : Arr3 ℝ := ⟨2, 2, 3, fun n i j => 1 + n + i * j⟩

/-- Kernels that run on the GPU. -/
noncomputable def exBp : ℝ → Kernel := gpuKernel 2 3

theorem ex_runs : Runs exP exBp := fun c => gpuKernel_runs 2 3 c

theorem ex_ok : Ok none .none exP 1 0 := ⟨by decide, by decide, by decide, by decide, fun l hl => (nomatch hl), ⟨by norm_num, by norm_num [exP]⟩, by norm_num, by norm_num⟩

theorem ex_inside : ∀ c ∈ arange (0 : ℝ) (2 + 1) 1, 0 ≤ c ∧ c ≤ (exP.w : ℝ) - 1 := by
  intro c hc
  obtain ⟨k, rfl, hk⟩ := (mem_arange _ _ _ (by norm_num) _).1 hc
  have : (k : ℝ) < ((3 : ℕ) : ℝ) := by push_cast; linarith
  have hk : k < 3 := by exact_mod_cast this
  have hk2 : (k : ℝ) ≤ 2 := by exact_mod_cast (by omega : k ≤ 2)
  refine ⟨by positivity, ?_⟩
  show (0 : ℝ) + k * 1 ≤ ((3 : ℕ) : ℝ) - 1
  push_cast
  linarith

/-- A non-trivial instance of `visual_files`: three files. -/
example (cz : Option ℤ) : (visualVertical exBp cz none .none true true exP 1 0 2 1 0).1.1.length = 3 ∧
    (visualVertical exBp cz none .none true true exP 1 0 2 1 0).1.2 = none := by
  obtain ⟨h1, h2⟩ := (visual_files exBp cz none .none true true exP 1 0 2 1 0 ex_runs ex_ok (by norm_num) (by norm_num)).1 ex_inside
  refine ⟨h2.trans ?_, h1⟩
  unfold arange
  have : ⌈((2 : ℝ) + 1 - 0) / 1⌉ = 3 := by norm_num
  rw [this]
  simp

/-- A non-trivial instance of `search_best`, for the autocorrelation. -/
example (cz : Option ℤ) (masking invert : Bool) : ∃ k : ℕ, (0 : ℝ) + k * 1 < 2 + 1 ∧
    findCenterVertical exBp cz .autocorrelation none .none none true masking invert exP 1 0 2 1 0 = .ok (0 + k * 1) := by
  obtain ⟨k, h1, h2, -⟩ := search_best exBp cz .autocorrelation rfl True.intro none .none none true masking invert exP 1 0 2 1 0 ⟨rfl, rfl, rfl⟩ ex_runs ex_ok
    (by norm_num) (by norm_num) ex_inside _ (fun k _ => autocorrelation_eq _ (show 0 < 2 by norm_num) (show 0 < 3 by norm_num))
  exact ⟨k, h1, h2⟩

/-- `mask_right_refuted` has instances: 10 columns, candidates 6 and 7. -/
example : ∃ j < 10, Kept 6 10 j ∧ ¬ Kept 7 10 j := mask_right_refuted 6 7 10 (by norm_num) (by norm_num) (by norm_num)

end Verif.VerticalSearch
