import Verif.Model.VerticalDriver
import Verif.Props.Vertical
import Verif.Props.VerticalChunk
import Verif.Props.Post

/-! C117 — `vertical_reconstruction`, `vertical_reconstruction_multiple` and `vertical_reconstruction_different_angles` from end to end. -/

set_option linter.unusedSectionVars false
set_option linter.unusedSimpArgs false

namespace Verif.VerticalDriver
open Verif.Vertical Verif.Recon Verif.Fourier Verif.BackProj Verif.Sched

/-! ### Specification -/

/-- The padding mode copies samples of the row ("edge", "reflect", "symmetric", "wrap"). -/
def VArgs.PadOk (a : VArgs) : Prop := ∀ n p j, 0 < n → j < n + 2 * p → a.padIdx n p j < n

/-- Every call of the single-slice kernel on images `H × W` is a complete run on the CPU (any number of threads, distribution of the rows and
interleaving) or a complete launch on the GPU (any order of the stores); different calls may differ in all of this. -/
def Runs1 (H W : ℕ) (center : ℝ) (bp : Kernel) : Prop :=
  ∀ xl yl e k c cs, c.h = H → c.w = W →
    (∃ T assign sched im, IsAssignment H T assign ∧ CpuRun T assign sched xl yl center e c cs im ∧ bp xl yl e k c cs = .ok im) ∨
    (∃ b0 b1 order img, 0 < b0 ∧ 0 < b1 ∧ (∀ t < (gridDim H b0 * b0) * (gridDim W b1 * b1), (t, 0) ∈ order) ∧
      verticalBpGpu c cs (fun _ => xl) (fun _ => yl) center e b0 order = .ok img ∧ bp xl yl e k c cs = .ok fun q => img (0, q.1, q.2))

/-- The same for the kernel for `S` slices. -/
def RunsS (S H W : ℕ) (center : ℝ) (bp : KernelS) : Prop :=
  ∀ xm ym e k c cs, c.h = H → c.w = W →
    (∃ T assign sched fin, IsAssignment S T assign ∧ verticalBpCpuChunk c cs xm ym center e T assign sched = .ok fin ∧ fin.Finished ∧
      bp xm ym e k c cs = .ok fin.mem) ∨
    (∃ b0 b1 order img, 0 < b0 ∧ 0 < b1 ∧ (∀ t < (gridDim H b0 * b0) * (gridDim W b1 * b1), ∀ s < S, (t, s) ∈ order) ∧
      verticalBpGpu c cs xm ym center e b0 order = .ok img ∧ bp xm ym e k c cs = .ok img)

/-- The arguments of the three functions that do not concern the slices are valid. -/
structure VArgs.Valid (a : VArgs) (p : Arr3 ℝ) : Prop where
  ramp : a.ramp = .before ∨ a.ramp = .after ∨ a.ramp = .none
  proj : 1 ≤ a.numProj p
  angles : ∀ l, a.angles = some l → (l.length : ℤ) = a.numProj p
  height : a.top + a.bottom < p.h
  width : a.left + a.right < p.w
  center : 0 ≤ a.center ∧ a.center ≤ ((p.w - a.right - a.left : ℕ) : ℝ) - 1
  flat : ∀ m, a.flat = some m → m.h = p.h ∧ m.w = p.w
  dark : ∀ m, a.dark = some m → m.h = p.h ∧ m.w = p.w

/-- Height and width of the result. -/
def VArgs.H (a : VArgs) (p : Arr3 ℝ) : ℕ := p.h - a.bottom - a.top
def VArgs.W (a : VArgs) (p : Arr3 ℝ) : ℕ := p.w - a.right - a.left

/-- The slice index lies in the image. -/
def VArgs.Inside (a : VArgs) (p : Arr3 ℝ) (idx : ℝ) : Prop := 0 ≤ idx ∧ idx ≤ (a.W p : ℝ) - 1

/-- The projection used for angle `n`, cropped, corrected, logarithm taken and filtered if `ramp_filter="before"`. -/
noncomputable def VArgs.proj (a : VArgs) (p : Arr3 ℝ) (n : ℕ) : Mat ℝ := prepared (a.opts p) p (a.projStart + n)

/-- The back-projection at height `i` over the point `(x, y)` of the horizontal plane: the sum over the angles of the projections, read in row `i` at
the detector position `x cos + y sin + center`. -/
noncomputable def VArgs.bpAt (a : VArgs) (p : Arr3 ℝ) (i : ℕ) (x y : ℝ) : ℝ :=
  ∑ n ∈ Finset.range (a.numProj p).toNat, contribution ((a.proj p n).get i) (a.W p) a.edgePad
    (x * Real.cos (a.angle (a.numProj p).toNat n) + y * Real.sin (a.angle (a.numProj p).toNat n) + a.center)

/-- The point of the plane over which column `j` of the slice lies, relative to the centre pixel. -/
noncomputable def px (w : ℕ) (idx alpha : ℝ) (j : ℕ) : ℝ :=
  (idx - (w / 2 : ℕ)) * Real.sin (deg2rad alpha) + ((j : ℝ) - (w / 2 : ℕ)) * Real.cos (deg2rad alpha)
noncomputable def py (w : ℕ) (idx alpha : ℝ) (j : ℕ) : ℝ :=
  -(idx - (w / 2 : ℕ)) * Real.cos (deg2rad alpha) + ((j : ℝ) - (w / 2 : ℕ)) * Real.sin (deg2rad alpha)

/-- The result for one slice, in terms of the arguments only. -/
noncomputable def VArgs.slice (a : VArgs) (p : Arr3 ℝ) (idx alpha : ℝ) : Mat ℝ :=
  a.finish (a.numProj p).toNat (a.H p) (a.W p) fun i j => a.bpAt p i (px (a.W p) idx alpha j) (py (a.W p) idx alpha j)

/-! ### Lemmas -/

theorem valid_iff (a : VArgs) (p : Arr3 ℝ) : ¬ a.bad p ↔ a.Valid p := by
  unfold VArgs.bad
  constructor
  · intro h
    push Not at h
    obtain ⟨h1, h2, h3, h4, h5, h6, h7, h8, h9⟩ := h
    have hw : a.left + a.right < p.w := by unfold VArgs.width at h5; omega
    refine ⟨?_, by omega, fun l hl => h3 l hl, by unfold VArgs.height at h4; omega, hw, ⟨h6, ?_⟩, fun m hm => ?_, fun m hm => ?_⟩
    · cases hr : a.ramp <;> simp_all
    · refine h7.trans (le_of_eq ?_)
      have : a.width p - 1 = ((p.w - a.right - a.left : ℕ) : ℤ) - 1 := by unfold VArgs.width; omega
      rw [this]; push_cast; ring
    · by_contra hc
      exact h8 ⟨m, hm, by by_contra h'; push Not at h'; exact hc h'⟩
    · by_contra hc
      exact h9 ⟨m, hm, by by_contra h'; push Not at h'; exact hc h'⟩
  · rintro ⟨h1, h2, h3, h4, h5, h6, h7, h8⟩
    have he : a.width p - 1 = ((p.w - a.right - a.left : ℕ) : ℤ) - 1 := by unfold VArgs.width; omega
    have he' : ((a.width p - 1 : ℤ) : ℝ) = ((p.w - a.right - a.left : ℕ) : ℝ) - 1 := by rw [he]; push_cast; ring
    rintro (h | h | ⟨l, hl, h⟩ | h | h | h | h | ⟨m, hm, h⟩ | ⟨m, hm, h⟩)
    · rcases h1 with h' | h' | h' <;> rw [h'] at h <;> cases h
    · omega
    · exact h (h3 l hl)
    · unfold VArgs.height at h; omega
    · unfold VArgs.width at h; omega
    · linarith [h6.1]
    · rw [he'] at h; linarith [h6.2]
    · have := h7 m hm; omega
    · have := h8 m hm; omega

theorem height_eq (a : VArgs) (p : Arr3 ℝ) : (a.height p).toNat = a.H p := by unfold VArgs.height VArgs.H; omega
theorem width_eq (a : VArgs) (p : Arr3 ℝ) : (a.width p).toNat = a.W p := by unfold VArgs.width VArgs.W; omega

theorem outside_iff (a : VArgs) (p : Arr3 ℝ) (hv : a.Valid p) (idx : ℝ) : ¬ a.outside p idx ↔ a.Inside p idx := by
  have hw := hv.width
  have he : a.width p - 1 = (a.W p : ℤ) - 1 := by unfold VArgs.width VArgs.W; omega
  have he' : ((a.width p - 1 : ℤ) : ℝ) = (a.W p : ℝ) - 1 := by rw [he]; push_cast; ring
  unfold VArgs.outside VArgs.Inside
  rw [he']
  push Not
  rfl

theorem W_pos (a : VArgs) (p : Arr3 ℝ) (hv : a.Valid p) : 0 < a.W p := by have := hv.width; unfold VArgs.W; omega
theorem H_pos (a : VArgs) (p : Arr3 ℝ) (hv : a.Valid p) : 0 < a.H p := by have := hv.height; unfold VArgs.H; omega

theorem dft_congr (n : ℕ) (f g : ℕ → ℂ) (h : ∀ j < n, f j = g j) (l : ℕ) : dft n f l = dft n g l := by
  unfold dft
  exact Finset.sum_congr rfl fun j hj => by rw [h j (Finset.mem_range.1 hj)]

/-- The filter of a projection looks only at the image. -/
theorem filter_ok (a : VArgs) (p : Arr3 ℝ) (hp : a.PadOk) : FilterOk (a.opts p).filt := by
  intro m n h
  show (a.filtBefore _ _ m).Eqv (a.filtBefore _ _ n) ∧ _
  unfold VArgs.filtBefore
  by_cases hr : a.ramp = .before
  · have e : ∀ k : Mat ℝ, (a.opts p).filt k = applyRampFilter k (some (ramp2d (a.height p).toNat ((a.width p).toNat + 2 * a.padOf (a.width p).toNat) a.filter))
        a.filter (a.padOf (a.width p).toNat) a.padIdx := fun k => if_pos hr
    rw [if_pos hr, if_pos hr, e]
    refine ⟨⟨h.1, h.2.1, fun i hi j hj => ?_⟩, rfl, rfl⟩
    unfold applyRampFilter
    dsimp only
    rw [← h.1, ← h.2.1]
    congr 3
    funext l
    congr 1
    refine dft_congr _ _ _ (fun q hq => ?_) _
    have hw : 0 < m.w := lt_of_le_of_lt (Nat.zero_le _) hj
    rw [h.2.2 i hi _ (hp _ _ _ hw hq)]
  · have e : ∀ k : Mat ℝ, (a.opts p).filt k = k := fun k => if_neg hr
    rw [if_neg hr, if_neg hr, e]
    exact ⟨h, rfl, rfl⟩

/-- The last steps look only at the accumulated slice. -/
theorem finish_congr (a : VArgs) (hp : a.PadOk) (N h w : ℕ) (f g : ℕ → ℕ → ℝ) (he : ∀ i < h, ∀ j < w, f i j = g i j) :
    (a.finish N h w f).Eqv (a.finish N h w g) := by
  refine ⟨rfl, rfl, fun i hi j hj => ?_⟩
  have hi : i < h := hi
  have hj : j < w := hj
  unfold VArgs.finish
  dsimp only
  by_cases hr : a.ramp = .after
  · rw [if_pos hr, if_pos hr]
    congr 3
    unfold filtAfter
    dsimp only
    congr 2
    funext l
    congr 1
    refine dft_congr _ _ _ (fun q hq => ?_) _
    rw [he i hi _ (hp _ _ _ (by omega) hq)]
  · rw [if_neg hr, if_neg hr]
    dsimp only
    rw [he i hi j hj]

theorem sum_eq_bpAt (a : VArgs) (p : Arr3 ℝ) (xl yl : ℕ → ℝ) (i j : ℕ) :
    verticalSum (a.opts p) p a.projStart (a.numProj p).toNat (a.cs (a.numProj p).toNat) xl yl a.center a.edgePad i j =
      a.bpAt p i (xl j) (yl j) := rfl

theorem dims (a : VArgs) (p : Arr3 ℝ) : (a.opts p).bot - (a.opts p).top = a.H p ∧ (a.opts p).right - (a.opts p).left = a.W p := ⟨rfl, rfl⟩

/-- The chunk loop with complete kernel runs. -/
theorem accumulate_single (a : VArgs) (p : Arr3 ℝ) (hv : a.Valid p) (hp : a.PadOk) (bp : Kernel) (hbp : Runs1 (a.H p) (a.W p) a.center bp)
    (cz : Option ℤ) (xl yl : ℕ → ℝ) :
    ∃ r, accumulate (a.opts p) p a.projStart (a.cs (a.numProj p).toNat) (bp xl yl a.edgePad) (a.numProj p).toNat cz = .ok r ∧
      ∀ i < a.H p, ∀ j < a.W p, r (i, j) = a.bpAt p i (xl j) (yl j) := by
  obtain ⟨r, h1, h2⟩ := accumulate_eq (a.opts p) (filter_ok a p hp) p a.projStart (a.numProj p).toNat (by have := hv.proj; omega)
    (a.cs (a.numProj p).toNat) (fun q : ℕ × ℕ => q.1 < a.H p ∧ q.2 < a.W p) (fun _ => xl) (fun _ => yl) (fun q => q.1) (fun q => q.2)
    a.center a.edgePad (fun _ h => h.1) (fun _ h => h.2) (bp xl yl a.edgePad) (by
      intro k c cs hh hw
      have hh : c.h = a.H p := hh
      have hw : c.w = a.W p := hw
      rcases hbp xl yl a.edgePad k c cs hh hw with ⟨T, assign, sched, im, ha, ⟨fin, hr, hf, rfl⟩, hok⟩ | ⟨b0, b1, order, img, g0, g1, hall, hr, hok⟩
      · refine ⟨_, hok, fun q hq => ?_⟩
        obtain ⟨fin', h3, h4⟩ := vertical_bp_cpu_correct c cs xl yl a.center a.edgePad T assign (by rw [hh]; exact ha) sched
        rw [hr] at h3; cases h3
        exact h4 hf q.1 (by rw [hh]; exact hq.1) q.2 (by rw [hw]; exact hq.2)
      · refine ⟨_, hok, fun q hq => ?_⟩
        obtain ⟨img', h3, h4, _⟩ := vertical_bp_gpu_correct c cs (fun _ => xl) (fun _ => yl) a.center a.edgePad b0 b1 g0 g1 1 order
          (by rw [hh, hw]; intro t ht s hs; obtain rfl : s = 0 := by omega
              exact hall t ht)
        rw [hr] at h3; cases h3
        exact h4 0 (by norm_num) q.1 (by rw [hh]; exact hq.1) q.2 (by rw [hw]; exact hq.2)) cz
  exact ⟨r, h1, fun i hi j hj => (h2 (i, j) ⟨hi, hj⟩).trans (sum_eq_bpAt a p xl yl i j)⟩

theorem accumulate_multi (a : VArgs) (p : Arr3 ℝ) (hv : a.Valid p) (hp : a.PadOk) (S : ℕ) (bp : KernelS) (hbp : RunsS S (a.H p) (a.W p) a.center bp)
    (cz : Option ℤ) (xm ym : ℕ → ℕ → ℝ) :
    ∃ r, accumulate (a.opts p) p a.projStart (a.cs (a.numProj p).toNat) (bp xm ym a.edgePad) (a.numProj p).toNat cz = .ok r ∧
      ∀ s < S, ∀ i < a.H p, ∀ j < a.W p, r (s, i, j) = a.bpAt p i (xm s j) (ym s j) := by
  obtain ⟨r, h1, h2⟩ := accumulate_eq (a.opts p) (filter_ok a p hp) p a.projStart (a.numProj p).toNat (by have := hv.proj; omega)
    (a.cs (a.numProj p).toNat) (fun q : ℕ × ℕ × ℕ => q.1 < S ∧ q.2.1 < a.H p ∧ q.2.2 < a.W p) (fun q => xm q.1) (fun q => ym q.1)
    (fun q => q.2.1) (fun q => q.2.2) a.center a.edgePad (fun _ h => h.2.1) (fun _ h => h.2.2) (bp xm ym a.edgePad) (by
      intro k c cs hh hw
      have hh : c.h = a.H p := hh
      have hw : c.w = a.W p := hw
      rcases hbp xm ym a.edgePad k c cs hh hw with ⟨T, assign, sched, fin, ha, hr, hf, hok⟩ | ⟨b0, b1, order, img, g0, g1, hall, hr, hok⟩
      · refine ⟨_, hok, fun q hq => ?_⟩
        obtain ⟨fin', h3, h4⟩ := vertical_bp_cpu_chunk_correct c cs xm ym a.center a.edgePad S T assign ha sched
        rw [hr] at h3; cases h3
        exact h4 hf q.1 hq.1 q.2.1 (by rw [hh]; exact hq.2.1) q.2.2 (by rw [hw]; exact hq.2.2)
      · refine ⟨_, hok, fun q hq => ?_⟩
        obtain ⟨img', h3, h4, _⟩ := vertical_bp_gpu_correct c cs xm ym a.center a.edgePad b0 b1 g0 g1 S order (by rw [hh, hw]; exact hall)
        rw [hr] at h3; cases h3
        exact h4 q.1 hq.1 q.2.1 (by rw [hh]; exact hq.2.1) q.2.2 (by rw [hw]; exact hq.2.2)) cz
  exact ⟨r, h1, fun s hs i hi j hj => (h2 (s, i, j) ⟨hs, hi, hj⟩).trans (sum_eq_bpAt a p (xm s) (ym s) i j)⟩

theorem ok_bind {α β : Type _} (x : α) (f : α → Py β) : (Except.ok x : Py α).bind f = f x := rfl
theorem err_bind {α β : Type _} (e : PyErr) (f : α → Py β) : (Except.error e : Py α).bind f = .error e := rfl

/-! ### One slice -/

/-- C117: `vertical_reconstruction` succeeds exactly for valid arguments, a slice index in the image and an angle between 0 and 180 degrees;
otherwise it raises `ValueError`. -/
theorem vertical_single_ok (a : VArgs) (bp : Kernel) (cz : Option ℤ) (p : Arr3 ℝ) (idx alpha : ℝ) (hp : a.PadOk)
    (hbp : Runs1 (a.H p) (a.W p) a.center bp) :
    ((∃ m, single a bp cz p idx alpha = .ok m) ↔ a.Valid p ∧ a.Inside p idx ∧ 0 ≤ alpha ∧ alpha ≤ 180) ∧
    ∀ e, single a bp cz p idx alpha = .error e → e = .valueError := by
  unfold single
  by_cases hb : a.bad p ∨ a.outside p idx
  · rw [if_pos hb]
    refine ⟨⟨fun ⟨m, h⟩ => (nomatch h), fun ⟨h1, h2, _⟩ => ?_⟩, fun e h => by cases h; rfl⟩
    rcases hb with hb | hb
    · exact absurd hb ((valid_iff a p).2 h1)
    · exact absurd hb ((outside_iff a p h1 idx).2 h2)
  · rw [if_neg hb]
    push Not at hb
    have hv := (valid_iff a p).1 hb.1
    have hi := (outside_iff a p hv idx).1 hb.2
    dsimp only
    rw [width_eq, height_eq]
    by_cases ha : 0 ≤ alpha ∧ alpha ≤ 180
    · obtain ⟨pts, h1, -⟩ := vertical_points idx alpha (a.W p) ha hi
      obtain ⟨r, h2, -⟩ := accumulate_single a p hv hp bp hbp cz pts.1 pts.2
      rw [h1, ok_bind, h2, ok_bind]
      exact ⟨⟨fun _ => ⟨hv, hi, ha⟩, fun _ => ⟨_, rfl⟩⟩, fun e h => (nomatch h)⟩
    · rw [(vertical_points_error idx alpha (a.W p)).2 (.inl ha), err_bind]
      exact ⟨⟨fun ⟨m, h⟩ => (nomatch h), fun h => absurd h.2.2 ha⟩, fun e h => by cases h; rfl⟩

/-- C117: its result; it does not depend on the chunk size, on the device or on the schedule. -/
theorem vertical_single_value (a : VArgs) (bp : Kernel) (cz : Option ℤ) (p : Arr3 ℝ) (idx alpha : ℝ) (hp : a.PadOk)
    (hbp : Runs1 (a.H p) (a.W p) a.center bp) (m : Mat ℝ) (h : single a bp cz p idx alpha = .ok m) : m.Eqv (a.slice p idx alpha) := by
  obtain ⟨hv, hi, ha⟩ := (vertical_single_ok a bp cz p idx alpha hp hbp).1.1 ⟨m, h⟩
  unfold single at h
  rw [if_neg (by rintro (hb | hb); exacts [(valid_iff a p).2 hv hb, (outside_iff a p hv idx).2 hi hb])] at h
  dsimp only at h
  rw [width_eq, height_eq] at h
  obtain ⟨pts, h1, h1'⟩ := vertical_points idx alpha (a.W p) ha hi
  obtain ⟨r, h2, h2'⟩ := accumulate_single a p hv hp bp hbp cz pts.1 pts.2
  rw [h1, ok_bind, h2, ok_bind] at h
  cases h
  refine finish_congr a hp _ _ _ _ _ fun i hi j hj => ?_
  rw [h2' i hi j hj, (h1' j hj).1, (h1' j hj).2]
  rfl

/-! ### Several slices -/

theorem slices_ok (a : VArgs) (bp : KernelS) (cz : Option ℤ) (p : Arr3 ℝ) (hv : a.Valid p) (hp : a.PadOk)
    (lines : List ((ℕ → ℝ) × (ℕ → ℝ))) (hl : lines.length ≠ 0) (hbp : RunsS lines.length (a.H p) (a.W p) a.center bp) :
    ∃ outs, slices a bp cz p lines = .ok outs ∧ outs.length = lines.length ∧ ∀ s (h : s < outs.length) (h' : s < lines.length),
      outs[s].Eqv (a.finish (a.numProj p).toNat (a.H p) (a.W p) fun i j => a.bpAt p i (lines[s].1 j) (lines[s].2 j)) := by
  unfold slices
  rw [if_neg hl]
  dsimp only
  rw [width_eq, height_eq]
  obtain ⟨r, h1, h2⟩ := accumulate_multi a p hv hp lines.length bp hbp cz
    (fun s => (lines.getD s (fun _ => 0, fun _ => 0)).1) (fun s => (lines.getD s (fun _ => 0, fun _ => 0)).2)
  rw [h1, ok_bind]
  refine ⟨_, rfl, by simp, fun s h h' => ?_⟩
  rw [List.getElem_map, List.getElem_range]
  refine finish_congr a hp _ _ _ _ _ fun i hi j hj => ?_
  rw [h2 s h' i hi j hj, List.getD_eq_getElem _ _ h']

/-- The last index: `-1` means the last column. -/
def VArgs.lastIdx (a : VArgs) (p : Arr3 ℝ) (stop : ℤ) : ℤ := if stop = -1 then (a.W p : ℤ) - 1 else stop

/-- The number of indices `start, start + step, ...` up to `stop`. -/
def count (start stop : ℤ) (step : ℕ) : ℕ := (stop - start).toNat / step + 1

theorem mapM_lines {α : Type _} (g : α → Py ((ℕ → ℝ) × (ℕ → ℝ))) : ∀ (l : List α), (∀ x ∈ l, ∃ y, g x = .ok y) →
    ∃ ls, l.mapM g = .ok ls ∧ ls.length = l.length ∧ ∀ k (h : k < l.length) (h' : k < ls.length), g l[k] = .ok ls[k] := by
  intro l
  induction l with
  | nil => intro _; exact ⟨[], rfl, rfl, fun k h => absurd h (Nat.not_lt_zero k)⟩
  | cons x l ih =>
    intro h
    obtain ⟨y, hy⟩ := h x (by simp)
    obtain ⟨ls, h1, h2, h3⟩ := ih fun z hz => h z (by simp [hz])
    refine ⟨y :: ls, ?_, by simp [h2], fun k hk hk' => ?_⟩
    · rw [List.mapM_cons, hy, h1]; rfl
    · cases k with
      | zero => exact hy
      | succ k => exact h3 k (by simpa using hk) (by simpa using hk')

theorem mapM_lines_error {α : Type _} (g : α → Py ((ℕ → ℝ) × (ℕ → ℝ))) (hg : ∀ x e, g x = .error e → e = .valueError) :
    ∀ (l : List α), (∃ x ∈ l, g x = .error .valueError) → l.mapM g = .error .valueError := by
  intro l
  induction l with
  | nil => rintro ⟨x, hx, -⟩; simp at hx
  | cons x l ih =>
    rintro ⟨z, hz, he⟩
    rw [List.mapM_cons]
    cases hx : g x with
    | error e => rw [hg x e hx]; rfl
    | ok y =>
      have hzl : z ∈ l := by
        rcases List.mem_cons.1 hz with rfl | h
        · rw [hx] at he; cases he
        · exact h
      rw [ih ⟨z, hzl, he⟩]
      rfl

theorem points_error (idx alpha : ℝ) (w : ℕ) (e : PyErr) (h : getPointsSingleLine idx alpha w = .error e) : e = .valueError := by
  by_cases hc : ¬ (0 ≤ alpha ∧ alpha ≤ 180) ∨ ¬ (0 ≤ idx ∧ idx ≤ (w : ℝ) - 1)
  · rw [(vertical_points_error idx alpha w).2 hc] at h; cases h; rfl
  · push Not at hc
    obtain ⟨pts, h1, -⟩ := vertical_points idx alpha w hc.1 hc.2
    rw [h1] at h; cases h

theorem lastIdx_eq (a : VArgs) (p : Arr3 ℝ) (hv : a.Valid p) (stop : ℤ) :
    (if stop = -1 then a.width p - 1 else stop) = a.lastIdx p stop := by
  have hw := hv.width
  have : a.width p = (a.W p : ℤ) := by unfold VArgs.width VArgs.W; omega
  rw [this]; rfl

/-- Indices of a multi-slice call. -/
theorem indices_eq (start stop : ℤ) (step : ℕ) (hs : 0 < step) (h : start ≤ stop) :
    pyRange start (stop + 1) step = (List.range (count start stop step)).map fun k : ℕ => start + (k * step : ℕ) := by
  rw [Post.pyRange_eq _ _ _ hs]
  congr 2
  unfold count
  have : (stop + 1 - start).toNat + (step - 1) = (stop - start).toNat + step := by omega
  rw [this, Nat.add_div_right _ hs]

/-- The lines of slices with valid indices give the slices. -/
theorem slices_of_lines (a : VArgs) (bp : KernelS) (cz : Option ℤ) (p : Arr3 ℝ) (hv : a.Valid p) (hp : a.PadOk)
    {α : Type _} (l : List α) (idx alpha : α → ℝ) (hl : l.length ≠ 0) (hbp : RunsS l.length (a.H p) (a.W p) a.center bp)
    (hin : ∀ x ∈ l, a.Inside p (idx x) ∧ 0 ≤ alpha x ∧ alpha x ≤ 180) :
    ∃ outs, ((l.mapM fun x => getPointsSingleLine (idx x) (alpha x) (a.W p)).bind fun lines => slices a bp cz p lines) = .ok outs ∧
      outs.length = l.length ∧ ∀ s (h : s < outs.length) (h' : s < l.length), outs[s].Eqv (a.slice p (idx l[s]) (alpha l[s])) := by
  obtain ⟨ls, h1, h2, h3⟩ := mapM_lines (fun x => getPointsSingleLine (idx x) (alpha x) (a.W p)) l fun x hx => by
    obtain ⟨pts, h, -⟩ := vertical_points (idx x) (alpha x) (a.W p) (hin x hx).2 (hin x hx).1
    exact ⟨pts, h⟩
  rw [h1, ok_bind]
  obtain ⟨outs, g1, g2, g3⟩ := slices_ok a bp cz p hv hp ls (by rw [h2]; exact hl) (by rw [h2]; exact hbp)
  refine ⟨outs, g1, g2.trans h2, fun s h h' => ?_⟩
  have hs : s < ls.length := by omega
  obtain ⟨e1, e2, e3⟩ := g3 s h hs
  have hm := hin l[s] (List.getElem_mem h')
  obtain ⟨pts, p1, p2⟩ := vertical_points (idx l[s]) (alpha l[s]) (a.W p) hm.2 hm.1
  have hpt : ls[s] = pts := by
    have := h3 s h' hs
    rw [p1] at this
    cases this
    rfl
  have hc := finish_congr a hp (a.numProj p).toNat (a.H p) (a.W p) (fun i j => a.bpAt p i (ls[s].1 j) (ls[s].2 j))
    (fun i j => a.bpAt p i (px (a.W p) (idx l[s]) (alpha l[s]) j) (py (a.W p) (idx l[s]) (alpha l[s]) j)) (fun i _ j hj => by
      rw [hpt, (p2 j hj).1, (p2 j hj).2]; rfl)
  refine ⟨e1.trans hc.1, e2.trans hc.2.1, fun i hi j hj => (e3 i hi j hj).trans (hc.2.2 i ?_ j ?_)⟩
  · exact lt_of_lt_of_eq hi e1
  · exact lt_of_lt_of_eq hj e2

/-- C117: `vertical_reconstruction_multiple` succeeds exactly for valid arguments, first and last index in the image and in this order, a positive step
and an angle between 0 and 180 degrees. -/
theorem vertical_multiple_ok (a : VArgs) (bp : KernelS) (cz : Option ℤ) (p : Arr3 ℝ) (start stop : ℤ) (step : ℕ) (alpha : ℝ) (hp : a.PadOk)
    (hbp : RunsS (count start (a.lastIdx p stop) step) (a.H p) (a.W p) a.center bp) :
    (∃ outs, multiple a bp cz p start stop step alpha = .ok outs) ↔
      a.Valid p ∧ a.Inside p start ∧ a.Inside p (a.lastIdx p stop) ∧ 0 < step ∧ start ≤ a.lastIdx p stop ∧ 0 ≤ alpha ∧ alpha ≤ 180 := by
  unfold multiple
  dsimp only
  by_cases hv : a.Valid p
  swap
  · rw [if_pos (.inl (by by_contra h; exact hv ((valid_iff a p).1 h)))]
    exact ⟨fun ⟨o, h⟩ => (nomatch h), fun h => absurd h.1 hv⟩
  rw [lastIdx_eq a p hv, width_eq]
  by_cases hin : a.Inside p start ∧ a.Inside p (a.lastIdx p stop)
  swap
  · rw [if_pos (.inr (by
      by_contra h
      push Not at h
      exact hin ⟨(outside_iff a p hv _).1 h.1, (outside_iff a p hv _).1 h.2⟩))]
    exact ⟨fun ⟨o, h⟩ => (nomatch h), fun h => absurd ⟨h.2.1, h.2.2.1⟩ hin⟩
  rw [if_neg (by
    rintro (h | h | h)
    · exact (valid_iff a p).2 hv h
    · exact (outside_iff a p hv _).2 hin.1 h
    · exact (outside_iff a p hv _).2 hin.2 h)]
  by_cases hs : step = 0
  · rw [if_pos hs]
    exact ⟨fun ⟨o, h⟩ => (nomatch h), fun h => absurd h.2.2.2.1 (by omega)⟩
  rw [if_neg hs]
  unfold getPointsMultipleLines
  by_cases hle : start ≤ a.lastIdx p stop
  swap
  · have : pyRange start (a.lastIdx p stop + 1) step = [] := by
      unfold pyRange
      rw [show (a.lastIdx p stop + 1 - start).toNat = 0 by omega]
      rfl
    rw [this]
    exact ⟨fun ⟨o, h⟩ => (nomatch h), fun h => absurd h.2.2.2.2.1 hle⟩
  by_cases ha : 0 ≤ alpha ∧ alpha ≤ 180
  · rw [indices_eq _ _ _ (by omega) hle]
    obtain ⟨outs, h, -⟩ := slices_of_lines a bp cz p hv hp ((List.range (count start (a.lastIdx p stop) step)).map fun k : ℕ => start + (k * step : ℕ))
      (fun x : ℤ => (x : ℝ)) (fun _ => alpha) (by simp [count]) (by simpa using hbp) (by
        intro x hx
        obtain ⟨k, hk, rfl⟩ := List.mem_map.1 hx
        have hk := List.mem_range.1 hk
        refine ⟨?_, ha⟩
        have hkm : k * step ≤ (a.lastIdx p stop - start).toNat :=
          (Nat.mul_le_mul_right _ (by unfold count at hk; omega)).trans (Nat.div_mul_le_self _ _)
        have h1 : start + ((k * step : ℕ) : ℤ) ≤ a.lastIdx p stop := by omega
        have h1' : ((start + ((k * step : ℕ) : ℤ) : ℤ) : ℝ) ≤ (a.lastIdx p stop : ℝ) := by exact_mod_cast h1
        have h2 : (start : ℝ) ≤ ((start + ((k * step : ℕ) : ℤ) : ℤ) : ℝ) := by exact_mod_cast (by omega : start ≤ start + ((k * step : ℕ) : ℤ))
        exact ⟨hin.1.1.trans h2, h1'.trans hin.2.2⟩)
    exact ⟨fun _ => ⟨hv, hin.1, hin.2, by omega, hle, ha⟩, fun _ => ⟨outs, h⟩⟩
  · rw [mapM_lines_error _ (fun x e h => points_error _ _ _ e h) _ ⟨start, by
      rw [indices_eq _ _ _ (by omega) hle]
      exact List.mem_map.2 ⟨0, List.mem_range.2 (Nat.succ_pos _), by simp⟩, (vertical_points_error _ _ _).2 (.inl ha)⟩, err_bind]
    exact ⟨fun ⟨o, h⟩ => (nomatch h), fun h => absurd h.2.2.2.2.2 ha⟩

/-- C117: slice number `s` is the slice at index `start + s * step`. -/
theorem vertical_multiple_value (a : VArgs) (bp : KernelS) (cz : Option ℤ) (p : Arr3 ℝ) (start stop : ℤ) (step : ℕ) (alpha : ℝ) (hp : a.PadOk)
    (hbp : RunsS (count start (a.lastIdx p stop) step) (a.H p) (a.W p) a.center bp) (outs : List (Mat ℝ))
    (h : multiple a bp cz p start stop step alpha = .ok outs) :
    outs.length = count start (a.lastIdx p stop) step ∧
      ∀ s (hs : s < outs.length), outs[s].Eqv (a.slice p ((start + s * step : ℤ) : ℝ) alpha) := by
  obtain ⟨hv, hi1, hi2, hs, hle, ha⟩ := (vertical_multiple_ok a bp cz p start stop step alpha hp hbp).1 ⟨outs, h⟩
  unfold multiple at h
  dsimp only at h
  rw [lastIdx_eq a p hv, width_eq, if_neg (by
    rintro (h | h | h)
    · exact (valid_iff a p).2 hv h
    · exact (outside_iff a p hv _).2 hi1 h
    · exact (outside_iff a p hv _).2 hi2 h), if_neg (by omega)] at h
  unfold getPointsMultipleLines at h
  rw [indices_eq _ _ _ (by omega) hle] at h
  obtain ⟨outs', h1, h2, h3⟩ := slices_of_lines a bp cz p hv hp ((List.range (count start (a.lastIdx p stop) step)).map fun k : ℕ => start + (k * step : ℕ))
      (fun x : ℤ => (x : ℝ)) (fun _ => alpha) (by simp [count]) (by simpa using hbp) (by
        intro x hx
        obtain ⟨k, hk, rfl⟩ := List.mem_map.1 hx
        have hk := List.mem_range.1 hk
        refine ⟨?_, ha⟩
        have hkm : k * step ≤ (a.lastIdx p stop - start).toNat :=
          (Nat.mul_le_mul_right _ (by unfold count at hk; omega)).trans (Nat.div_mul_le_self _ _)
        have h1 : start + ((k * step : ℕ) : ℤ) ≤ a.lastIdx p stop := by omega
        have h1' : ((start + ((k * step : ℕ) : ℤ) : ℤ) : ℝ) ≤ (a.lastIdx p stop : ℝ) := by exact_mod_cast h1
        have h2 : (start : ℝ) ≤ ((start + ((k * step : ℕ) : ℤ) : ℤ) : ℝ) := by exact_mod_cast (by omega : start ≤ start + ((k * step : ℕ) : ℤ))
        exact ⟨hi1.1.trans h2, h1'.trans hi2.2⟩)
  have h1' : _ = _ := h.symm.trans h1
  cases h1'
  refine ⟨by simpa using h2, fun s hs => ?_⟩
  have hs' : s < ((List.range (count start (a.lastIdx p stop) step)).map fun k : ℕ => start + ((k * step : ℕ) : ℤ)).length := by omega
  have := h3 s hs hs'
  rw [List.getElem_map, List.getElem_range] at this
  rw [show (start + s * step : ℤ) = start + ((s * step : ℕ) : ℤ) by push_cast; ring]
  exact this

/-- C117: `vertical_reconstruction_different_angles` succeeds exactly for valid arguments and equally many (at least one) indices in the image and
angles between 0 and 180 degrees. -/
theorem vertical_different_ok (a : VArgs) (bp : KernelS) (cz : Option ℤ) (p : Arr3 ℝ) (idx alphas : List ℝ) (hp : a.PadOk)
    (hbp : RunsS idx.length (a.H p) (a.W p) a.center bp) :
    (∃ outs, different a bp cz p idx alphas = .ok outs) ↔
      a.Valid p ∧ idx.length = alphas.length ∧ 0 < idx.length ∧ (∀ x ∈ idx, a.Inside p x) ∧ ∀ x ∈ alphas, 0 ≤ x ∧ x ≤ 180 := by
  unfold different
  by_cases hv : a.Valid p
  swap
  · rw [if_pos (.inr (.inl (by by_contra h; exact hv ((valid_iff a p).1 h))))]
    exact ⟨fun ⟨o, h⟩ => (nomatch h), fun h => absurd h.1 hv⟩
  by_cases hlen : idx.length = alphas.length
  swap
  · rw [if_pos (.inl hlen)]
    exact ⟨fun ⟨o, h⟩ => (nomatch h), fun h => absurd h.2.1 hlen⟩
  by_cases hin : ∀ x ∈ idx, a.Inside p x
  swap
  · rw [if_pos (.inr (.inr (by
      push Not at hin
      obtain ⟨x, hx, h⟩ := hin
      exact ⟨x, hx, by by_contra h'; exact h ((outside_iff a p hv x).1 h')⟩)))]
    exact ⟨fun ⟨o, h⟩ => (nomatch h), fun h => absurd h.2.2.2.1 hin⟩
  rw [if_neg (by
    rintro (h | h | ⟨x, hx, h⟩)
    · exact h hlen
    · exact (valid_iff a p).2 hv h
    · exact (outside_iff a p hv x).2 (hin x hx) h), width_eq]
  unfold getPointsDifferentAngles
  by_cases h0 : idx.length = 0
  · have : idx = [] := List.length_eq_zero_iff.1 h0
    subst this
    exact ⟨fun ⟨o, h⟩ => (nomatch h), fun h => absurd h.2.2.1 (by simp)⟩
  have hz : (idx.zip alphas).length = idx.length := by rw [List.length_zip, hlen, min_self]
  by_cases ha : ∀ x ∈ alphas, 0 ≤ x ∧ x ≤ 180
  · obtain ⟨outs, h, -⟩ := slices_of_lines a bp cz p hv hp (idx.zip alphas) (fun q => q.1) (fun q => q.2) (by rw [hz]; exact h0) (by rw [hz]; exact hbp)
      (by rintro ⟨x, y⟩ hxy
          have := List.of_mem_zip hxy
          exact ⟨hin x this.1, ha y this.2⟩)
    exact ⟨fun _ => ⟨hv, hlen, by omega, hin, ha⟩, fun _ => ⟨outs, h⟩⟩
  · have ha' := ha
    push Not at ha'
    obtain ⟨y, hy, hy'⟩ := ha'
    obtain ⟨k, hk, rfl⟩ := List.getElem_of_mem hy
    rw [mapM_lines_error (fun q : ℝ × ℝ => getPointsSingleLine q.1 q.2 (a.W p)) (fun x e h => points_error _ _ _ e h) _
      ⟨(idx[k]'(by omega), alphas[k]), by
        rw [List.mem_iff_getElem]
        exact ⟨k, by omega, List.getElem_zip⟩, (vertical_points_error _ _ _).2 (.inl (by
          rintro ⟨h1, h2⟩
          exact absurd h2 (not_le.2 (hy' h1))))⟩, err_bind]
    exact ⟨fun ⟨o, h⟩ => (nomatch h), fun h => absurd h.2.2.2.2 ha⟩

/-- C117: slice number `s` is the slice at index `idx[s]` with angle `alphas[s]`. -/
theorem vertical_different_value (a : VArgs) (bp : KernelS) (cz : Option ℤ) (p : Arr3 ℝ) (idx alphas : List ℝ) (hp : a.PadOk)
    (hbp : RunsS idx.length (a.H p) (a.W p) a.center bp) (outs : List (Mat ℝ)) (h : different a bp cz p idx alphas = .ok outs) :
    outs.length = idx.length ∧ ∀ s (hs : s < outs.length) (h1 : s < idx.length) (h2 : s < alphas.length), outs[s].Eqv (a.slice p idx[s] alphas[s]) := by
  obtain ⟨hv, hlen, h0, hin, ha⟩ := (vertical_different_ok a bp cz p idx alphas hp hbp).1 ⟨outs, h⟩
  unfold different at h
  rw [if_neg (by
    rintro (h | h | ⟨x, hx, h⟩)
    · exact h hlen
    · exact (valid_iff a p).2 hv h
    · exact (outside_iff a p hv x).2 (hin x hx) h), width_eq] at h
  unfold getPointsDifferentAngles at h
  have hz : (idx.zip alphas).length = idx.length := by rw [List.length_zip, hlen, min_self]
  obtain ⟨outs', h1, h2, h3⟩ := slices_of_lines a bp cz p hv hp (idx.zip alphas) (fun q => q.1) (fun q => q.2) (by omega) (by rw [hz]; exact hbp)
      (by rintro ⟨x, y⟩ hxy
          have := List.of_mem_zip hxy
          exact ⟨hin x this.1, ha y this.2⟩)
  have h1' : _ = _ := h.symm.trans h1
  cases h1'
  refine ⟨h2.trans hz, fun s hs g1 g2 => ?_⟩
  have := h3 s hs (by omega)
  rw [List.getElem_zip] at this
  exact this

/-! ### Consistency of the three functions -/

theorem eqv_symm {m n : Mat ℝ} (h : m.Eqv n) : n.Eqv m :=
  ⟨h.1.symm, h.2.1.symm, fun i hi j hj => (h.2.2 i (by rw [h.1]; exact hi) j (by rw [h.2.1]; exact hj)).symm⟩

theorem eqv_trans {l m n : Mat ℝ} (h : l.Eqv m) (g : m.Eqv n) : l.Eqv n :=
  ⟨h.1.trans g.1, h.2.1.trans g.2.1, fun i hi j hj => (h.2.2 i hi j hj).trans (g.2.2 i (by rw [← h.1]; exact hi) j (by rw [← h.2.1]; exact hj))⟩

/-- C117: chunk size, device and schedule do not matter for `vertical_reconstruction`. -/
theorem vertical_single_unique (a : VArgs) (bp bp' : Kernel) (cz cz' : Option ℤ) (p : Arr3 ℝ) (idx alpha : ℝ) (hp : a.PadOk)
    (hbp : Runs1 (a.H p) (a.W p) a.center bp) (hbp' : Runs1 (a.H p) (a.W p) a.center bp') (m : Mat ℝ) (h : single a bp cz p idx alpha = .ok m) :
    ∃ m', single a bp' cz' p idx alpha = .ok m' ∧ m.Eqv m' := by
  obtain ⟨m', h'⟩ := (vertical_single_ok a bp' cz' p idx alpha hp hbp').1.2 ((vertical_single_ok a bp cz p idx alpha hp hbp).1.1 ⟨m, h⟩)
  exact ⟨m', h', eqv_trans (vertical_single_value a bp cz p idx alpha hp hbp m h) (eqv_symm (vertical_single_value a bp' cz' p idx alpha hp hbp' m' h'))⟩

/-- C117: every slice of `vertical_reconstruction_multiple` is what `vertical_reconstruction` gives for that index, whatever devices, schedules and chunk
sizes the two calls use. -/
theorem vertical_multiple_eq_single (a : VArgs) (bp : KernelS) (bp1 : Kernel) (cz cz1 : Option ℤ) (p : Arr3 ℝ) (start stop : ℤ) (step : ℕ) (alpha : ℝ)
    (hp : a.PadOk) (hbp : RunsS (count start (a.lastIdx p stop) step) (a.H p) (a.W p) a.center bp) (hbp1 : Runs1 (a.H p) (a.W p) a.center bp1)
    (outs : List (Mat ℝ)) (h : multiple a bp cz p start stop step alpha = .ok outs) (s : ℕ) (hs : s < outs.length) :
    ∃ m, single a bp1 cz1 p ((start + s * step : ℤ) : ℝ) alpha = .ok m ∧ outs[s].Eqv m := by
  obtain ⟨hv, hi1, hi2, hst, hle, ha⟩ := (vertical_multiple_ok a bp cz p start stop step alpha hp hbp).1 ⟨outs, h⟩
  obtain ⟨hl, hval⟩ := vertical_multiple_value a bp cz p start stop step alpha hp hbp outs h
  have hin : a.Inside p ((start + s * step : ℤ) : ℝ) := by
    have hk : s < count start (a.lastIdx p stop) step := by omega
    have hkm : s * step ≤ (a.lastIdx p stop - start).toNat :=
      (Nat.mul_le_mul_right _ (by unfold count at hk; omega)).trans (Nat.div_mul_le_self _ _)
    have hc : (s : ℤ) * step = ((s * step : ℕ) : ℤ) := by push_cast; ring
    have h1 : (start + s * step : ℤ) ≤ a.lastIdx p stop := by rw [hc]; omega
    have h1' : ((start + s * step : ℤ) : ℝ) ≤ (a.lastIdx p stop : ℝ) := by exact_mod_cast h1
    have h2 : (start : ℝ) ≤ ((start + s * step : ℤ) : ℝ) := by exact_mod_cast (by rw [hc]; omega : start ≤ (start + s * step : ℤ))
    exact ⟨hi1.1.trans h2, h1'.trans hi2.2⟩
  obtain ⟨m, hm⟩ := (vertical_single_ok a bp1 cz1 p _ alpha hp hbp1).1.2 ⟨hv, hin, ha⟩
  exact ⟨m, hm, eqv_trans (hval s hs) (eqv_symm (vertical_single_value a bp1 cz1 p _ alpha hp hbp1 m hm))⟩

/-- C117: the same for `vertical_reconstruction_different_angles`. -/
theorem vertical_different_eq_single (a : VArgs) (bp : KernelS) (bp1 : Kernel) (cz cz1 : Option ℤ) (p : Arr3 ℝ) (idx alphas : List ℝ)
    (hp : a.PadOk) (hbp : RunsS idx.length (a.H p) (a.W p) a.center bp) (hbp1 : Runs1 (a.H p) (a.W p) a.center bp1)
    (outs : List (Mat ℝ)) (h : different a bp cz p idx alphas = .ok outs) (s : ℕ) (hs : s < outs.length) (h1 : s < idx.length) (h2 : s < alphas.length) :
    ∃ m, single a bp1 cz1 p idx[s] alphas[s] = .ok m ∧ outs[s].Eqv m := by
  obtain ⟨hv, hlen, h0, hin, ha⟩ := (vertical_different_ok a bp cz p idx alphas hp hbp).1 ⟨outs, h⟩
  obtain ⟨m, hm⟩ := (vertical_single_ok a bp1 cz1 p idx[s] alphas[s] hp hbp1).1.2 ⟨hv, hin _ (List.getElem_mem h1), ha _ (List.getElem_mem h2)⟩
  exact ⟨m, hm, eqv_trans ((vertical_different_value a bp cz p idx alphas hp hbp outs h).2 s hs h1 h2)
    (eqv_symm (vertical_single_value a bp1 cz1 p _ _ hp hbp1 m hm))⟩

/-- **C117.** The defaults and the preprocessing in terms of the arguments: with `proj_stop=-1` all projections from `proj_start` on, equidistant angles
from 0 to 180 degrees, a missing flat field counts as one and a missing dark field as zero; without `ramp_filter="before"` the back-projected value is
the corrected one. -/
theorem vertical_values (a : VArgs) (p : Arr3 ℝ) :
    (a.projStop = -1 → a.numProj p = (p.d : ℤ) - a.projStart) ∧ (a.projStop ≠ -1 → a.numProj p = a.projStop - a.projStart) ∧
    (∀ N n : ℕ, a.angles = none → a.angle N n = Real.pi * n / ((N : ℝ) - 1)) ∧
    (∀ (N n : ℕ) (l : List ℝ) (h : n < l.length), a.angles = some l → a.angle N n = l[n]) ∧
    (a.ramp ≠ .before → ∀ n i j,
      (a.proj p n).get i j =
        let r := p.get (a.projStart + n) (a.top + i) (a.left + j)
        let f := a.flat.elim 1 fun m => m.get (a.top + i) (a.left + j)
        let d := a.dark.elim 0 fun m => m.get (a.top + i) (a.left + j)
        let v := (r - d) / (if f - d = 0 then 1 else f - d)
        if a.applyLog then -Real.log (if v ≤ 0 then 1 else v) else v) := by
  refine ⟨fun h => by unfold VArgs.numProj; rw [if_pos h], fun h => by unfold VArgs.numProj; rw [if_neg h], fun N n h => by unfold VArgs.angle; rw [h],
    fun N n l hn h => by unfold VArgs.angle; rw [h]; exact List.getD_eq_getElem _ _ hn, ?_⟩
  intro hr n i j
  have e : (a.proj p n).get i j = corrected (a.opts p) p (a.projStart + n) i j := by
    unfold VArgs.proj prepared VArgs.opts VArgs.filtBefore
    dsimp only
    rw [if_neg hr]
  rw [e]
  unfold corrected VArgs.opts VArgs.flatDark
  dsimp only
  cases hf : a.flat <;> cases hd : a.dark <;> simp <;> congr!

end Verif.VerticalDriver
