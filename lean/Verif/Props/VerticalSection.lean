import Verif.Props.VerticalDriver
import Verif.Props.Recon

/-! C116 — a vertical slice is a section through the stack of horizontal slices.  C117 — masks, crossing slices. -/

set_option linter.unusedSectionVars false
set_option linter.unusedSimpArgs false

namespace Verif.VerticalDriver
open Verif.Vertical Verif.Recon Verif.Fourier Verif.BackProj Verif.Sched

/-! ### Specification -/

/-- The sinogram of detector row `i` (counted from the top of the cropped projections), flat-field corrected, before the logarithm: what a user
would hand to `fbp_reconstruction`. -/
noncomputable def VArgs.sino (a : VArgs) (p : Arr3 ℝ) (i : ℕ) : Mat ℝ :=
  ⟨(a.numProj p).toNat, a.W p, fun n j => corrected { a.opts p with applyLog := false } p (a.projStart + n) i j⟩

/-- The same centre, angles, filter, padding and logarithm in both functions; no mask. -/
structure Matches (a : VArgs) (b : Args (Mat ℂ)) : Prop where
  center : b.center = a.center
  angles : b.angles = a.angles
  filter : b.filter = a.filter
  win : b.rampWin = none
  pad : b.pad = a.pad
  padIdx : b.padIdx = a.padIdx
  log : b.applyLog = a.applyLog
  ratio : b.ratio = none
  mask : a.masking = false

/-! ### Lemmas -/

theorem slice_get (a : VArgs) (p : Arr3 ℝ) (idx alpha : ℝ) (hr : a.ramp ≠ .after) (i j : ℕ) :
    (a.slice p idx alpha).get i j = a.bpAt p i (px (a.W p) idx alpha j) (py (a.W p) idx alpha j) *
      (if a.masking then maskCol a.center (a.W p) j else 1) * Real.pi / (((a.numProj p).toNat : ℝ) - 1) := by
  unfold VArgs.slice VArgs.finish
  dsimp only
  rw [if_neg hr]

/-- The filter acts row by row. -/
theorem ramp_row (m n : Mat ℝ) (f : Filter) (pad : ℕ) (pi : ℕ → ℕ → ℕ → ℕ) (win : Option (Mat ℂ)) (hwin : win = none ∨ win = some (ramp2d m.h (m.w + 2 * pad) f))
    (hw : m.w = n.w) (hpi : ∀ j, j < n.w + 2 * pad → pi n.w pad j < n.w) (i k : ℕ) (h : ∀ j < n.w, m.get i j = n.get k j) (j : ℕ) :
    (applyRampFilter m win f pad pi).get i j = (applyRampFilter n none f pad pi).get k j := by
  have e : applyRampFilter m win f pad pi = applyRampFilter m none f pad pi := by
    rcases hwin with rfl | rfl
    · rfl
    · exact ramp_default m none f pad pi
  rw [e]
  unfold applyRampFilter
  dsimp only
  rw [hw]
  have hW : ∀ l, (fitting (none : Option (Mat ℂ)) m.h (n.w + 2 * pad) (ramp2d m.h (n.w + 2 * pad) f)).get i l =
      (fitting (none : Option (Mat ℂ)) n.h (n.w + 2 * pad) (ramp2d n.h (n.w + 2 * pad) f)).get k l := fun _ => rfl
  congr 3
  funext l
  rw [hW]
  congr 1
  exact dft_congr _ _ _ (fun q hq => by rw [h _ (hpi q hq)]) _

/-- The logarithm of the sinogram is the preprocessed data. -/
theorem log_sino (a : VArgs) (b : Args (Mat ℂ)) (hm : Matches a b) (p : Arr3 ℝ) (i n j : ℕ) :
    (b.logm (a.sino p i)).get n j = corrected (a.opts p) p (a.projStart + n) i j := by
  unfold Args.logm Args.logv VArgs.sino corrected
  dsimp only
  rw [hm.log]
  have h1 : (a.opts p).applyLog = a.applyLog := rfl
  rw [h1]
  by_cases h : a.applyLog = true
  · rw [if_pos h, if_pos h]
    rfl
  · rw [if_neg h, if_neg h]
    rfl

theorem proj_before (a : VArgs) (b : Args (Mat ℂ)) (hm : Matches a b) (hp : a.PadOk) (p : Arr3 ℝ) (hv : a.Valid p) (hr : a.ramp = .before) (i n j : ℕ) :
    (a.proj p n).get i j = (b.filtered (b.logm (a.sino p i))).get n j := by
  unfold VArgs.proj prepared Args.filtered
  have h1 : (a.opts p).filt = a.filtBefore (a.H p) (a.W p) := by
    unfold VArgs.opts
    dsimp only
    rw [height_eq, width_eq]
  rw [h1]
  unfold VArgs.filtBefore
  rw [if_pos hr, hm.win, hm.filter, hm.padIdx]
  have hpad : b.padOf (b.logm (a.sino p i)).w = a.padOf (a.W p) := by unfold Args.padOf VArgs.padOf; rw [hm.pad]; rfl
  rw [hpad]
  refine ramp_row ⟨(a.opts p).bot - (a.opts p).top, (a.opts p).right - (a.opts p).left, corrected (a.opts p) p (a.projStart + n)⟩
    (b.logm (a.sino p i)) a.filter (a.padOf (a.W p)) a.padIdx _ (.inr rfl) rfl (fun q hq => hp _ _ _ (W_pos a p hv) hq) i n (fun q _ => ?_) j
  exact (log_sino a b hm p i n q).symm

theorem proj_raw (a : VArgs) (b : Args (Mat ℂ)) (hm : Matches a b) (p : Arr3 ℝ) (hr : a.ramp ≠ .before) (i n j : ℕ) :
    (a.proj p n).get i j = (b.logm (a.sino p i)).get n j := by
  unfold VArgs.proj prepared
  have h1 : (a.opts p).filt ⟨(a.opts p).bot - (a.opts p).top, (a.opts p).right - (a.opts p).left, corrected (a.opts p) p (a.projStart + n)⟩ =
      ⟨(a.opts p).bot - (a.opts p).top, (a.opts p).right - (a.opts p).left, corrected (a.opts p) p (a.projStart + n)⟩ := by
    unfold VArgs.opts VArgs.filtBefore
    dsimp only
    rw [if_neg hr]
  rw [h1]
  exact (log_sino a b hm p i n j).symm

theorem angle_eq (a : VArgs) (b : Args (Mat ℂ)) (hm : Matches a b) (N n : ℕ) : b.angle N n = a.angle N n := by
  unfold Args.angle VArgs.angle
  rw [hm.angles]
  cases a.angles <;> rfl

/-- Back-projection over a pixel of the horizontal image. -/
theorem bpAt_pixel (a : VArgs) (b : Args (Mat ℂ)) (hm : Matches a b) (p : Arr3 ℝ) (i y x : ℕ) (s : Mat ℝ) (hs : s.h = (a.numProj p).toNat) (hw : s.w = a.W p)
    (hg : ∀ n j, (a.proj p n).get i j = s.get n j) (X Y : ℝ) (hX : X = (x : ℝ) - ((a.W p : ℝ) - 1) / 2) (hY : Y = -((y : ℝ) - ((a.W p : ℝ) - 1) / 2)) :
    a.bpAt p i X Y = backProjection s (b.cs (a.numProj p).toNat) a.center a.edgePad y x := by
  unfold VArgs.bpAt backProjection
  rw [hs, hw]
  refine Finset.sum_congr rfl fun n _ => ?_
  have h1 : (a.proj p n).get i = s.get n := funext fun j => hg n j
  rw [h1]
  congr 1
  unfold Args.cs
  dsimp only
  rw [angle_eq a b hm, Real.cos_neg, Real.sin_neg, hX, hY]
  ring

theorem half_odd (w : ℕ) (h : w % 2 = 1) : ((w / 2 : ℕ) : ℝ) = ((w : ℝ) - 1) / 2 := by
  have : w = 2 * (w / 2) + 1 := by omega
  generalize w / 2 = c at *
  subst this
  push_cast
  ring

theorem point_zero (w : ℕ) (h : w % 2 = 1) (s j : ℕ) :
    px w s 0 j = (j : ℝ) - ((w : ℝ) - 1) / 2 ∧ py w s 0 j = -((s : ℝ) - ((w : ℝ) - 1) / 2) := by
  unfold px py
  rw [deg0, Real.sin_zero, Real.cos_zero, half_odd w h]
  constructor <;> ring

theorem point_ninety (w : ℕ) (h : w % 2 = 1) (s j : ℕ) (hj : j < w) :
    px w s 90 j = (s : ℝ) - ((w : ℝ) - 1) / 2 ∧ py w s 90 j = -(((w - 1 - j : ℕ) : ℝ) - ((w : ℝ) - 1) / 2) := by
  unfold px py
  rw [deg90, Real.sin_pi_div_two, Real.cos_pi_div_two, half_odd w h, Nat.sub_sub, Nat.cast_sub (by omega)]
  push_cast
  constructor <;> ring

/-! ### C116 -/

/-- C116: for an odd width the vertical slice with index `s` at 0 degrees, filtered before back-projection, consists of the rows `s` of the horizontal
slices given by `fbp_reconstruction`, that at 90 degrees of the columns `s`, read upwards. -/
theorem vertical_section_fbp (a : VArgs) (b : Args (Mat ℂ)) (hm : Matches a b) (bp : Kernel) (cz : Option ℤ) (p : Arr3 ℝ) (hp : a.PadOk)
    (hbp : Runs1 (a.H p) (a.W p) a.center bp) (hodd : a.W p % 2 = 1) (hr : a.ramp = .before) (hl : b.Launched (a.W p)) (s : ℕ) (hs : s < a.W p)
    (i : ℕ) (hi : i < a.H p) (o : Mat ℝ) (ho : fbp b (.one (a.sino p i)) = .ok (.one o)) :
    (∀ m, single a bp cz p s 0 = .ok m → ∀ j < a.W p, m.get i j = o.get s j) ∧
    (∀ m, single a bp cz p s 90 = .ok m → ∀ j < a.W p, m.get i j = o.get (a.W p - 1 - j) s) := by
  obtain ⟨-, o1, o2, o3⟩ := fbp_one_inv b (a.sino p i) o hl ho
  have key : ∀ alpha m j y x, single a bp cz p s alpha = .ok m → j < a.W p → y < a.W p → x < a.W p →
      px (a.W p) s alpha j = (x : ℝ) - ((a.W p : ℝ) - 1) / 2 → py (a.W p) s alpha j = -((y : ℝ) - ((a.W p : ℝ) - 1) / 2) → m.get i j = o.get y x := by
    intro alpha m j y x h hj hy hx hX hY
    have hv := ((vertical_single_ok a bp cz p s alpha hp hbp).1.1 ⟨m, h⟩).1
    obtain ⟨e1, e2, e3⟩ := vertical_single_value a bp cz p s alpha hp hbp m h
    rw [e3 i (lt_of_lt_of_eq hi e1.symm) j (lt_of_lt_of_eq hj e2.symm), slice_get a p s alpha (by rw [hr]; decide), hm.mask, if_neg (by decide),
      o3 y hy x hx, bpAt_pixel a b hm p i y x (b.filtered (b.logm (a.sino p i))) rfl rfl (fun n q => proj_before a b hm hp p hv hr i n q) _ _ hX hY]
    unfold Args.image Args.maskAt
    rw [hm.ratio, hm.center]
    have he : a.edgePad = false := by unfold VArgs.edgePad; rw [hr]; rfl
    have hh : (a.sino p i).h = (a.numProj p).toNat := rfl
    rw [he, hh]
    ring
  constructor
  · intro m h j hj
    exact key 0 m j s j h hj hs hj (point_zero _ hodd s j).1 (point_zero _ hodd s j).2
  · intro m h j hj
    exact key 90 m j (a.W p - 1 - j) s h hj (by omega) hs (point_ninety _ hodd s j hj).1 (point_ninety _ hodd s j hj).2

/-- C116, unfiltered: with `ramp_filter=None` the vertical slice is the section through the horizontal back-projections (with `edge_pad=True`), times
`π / (num_proj - 1)`. -/
theorem vertical_section_raw (a : VArgs) (b : Args (Mat ℂ)) (hm : Matches a b) (bp : Kernel) (cz : Option ℤ) (p : Arr3 ℝ) (hp : a.PadOk)
    (hbp : Runs1 (a.H p) (a.W p) a.center bp) (hodd : a.W p % 2 = 1) (hr : a.ramp = .none) (hl : b.Launched (a.W p)) (s : ℕ) (hs : s < a.W p)
    (i : ℕ) (hi : i < a.H p) (img : ℕ × ℕ → ℝ)
    (ho : backProjectionGpu (b.logm (a.sino p i)) (b.cs (a.numProj p).toNat) b.center true b.bx b.order = .ok img) :
    (∀ m, single a bp cz p s 0 = .ok m → ∀ j < a.W p, m.get i j = Real.pi / (((a.numProj p).toNat : ℝ) - 1) * img (s, j)) ∧
    (∀ m, single a bp cz p s 90 = .ok m → ∀ j < a.W p, m.get i j = Real.pi / (((a.numProj p).toNat : ℝ) - 1) * img (a.W p - 1 - j, s)) := by
  obtain ⟨hb, bY, hbY, hall⟩ := hl
  obtain ⟨img', h1, h2, -⟩ := back_projection_gpu_correct (b.logm (a.sino p i)) (b.cs (a.numProj p).toNat) b.center true b.bx bY hb hbY b.order hall
  rw [ho] at h1
  cases h1
  have key : ∀ alpha m j y x, single a bp cz p s alpha = .ok m → j < a.W p → y < a.W p → x < a.W p →
      px (a.W p) s alpha j = (x : ℝ) - ((a.W p : ℝ) - 1) / 2 → py (a.W p) s alpha j = -((y : ℝ) - ((a.W p : ℝ) - 1) / 2) →
      m.get i j = Real.pi / (((a.numProj p).toNat : ℝ) - 1) * img (y, x) := by
    intro alpha m j y x h hj hy hx hX hY
    obtain ⟨e1, e2, e3⟩ := vertical_single_value a bp cz p s alpha hp hbp m h
    rw [e3 i (lt_of_lt_of_eq hi e1.symm) j (lt_of_lt_of_eq hj e2.symm), slice_get a p s alpha (by rw [hr]; decide), hm.mask, if_neg (by decide),
      h2 y hy x hx, bpAt_pixel a b hm p i y x (b.logm (a.sino p i)) rfl rfl (fun n q => proj_raw a b hm p (by rw [hr]; decide) i n q) _ _ hX hY, hm.center]
    have he : a.edgePad = true := by unfold VArgs.edgePad; rw [hr]; rfl
    rw [he]
    ring
  constructor
  · intro m h j hj
    exact key 0 m j s j h hj hs hj (point_zero _ hodd s j).1 (point_zero _ hodd s j).2
  · intro m h j hj
    exact key 90 m j (a.W p - 1 - j) s h hj (by omega) hs (point_ninety _ hodd s j hj).1 (point_ninety _ hodd s j hj).2

/-! ### C117: crossing slices, mask -/

/-- C117: two vertical slices (any indices and angles) agree wherever they cross: columns over the same point of the plane have the same values. -/
theorem vertical_slices_cross (a : VArgs) (bp bp' : Kernel) (cz cz' : Option ℤ) (p : Arr3 ℝ) (hp : a.PadOk)
    (hbp : Runs1 (a.H p) (a.W p) a.center bp) (hbp' : Runs1 (a.H p) (a.W p) a.center bp') (hr : a.ramp ≠ .after) (hmask : a.masking = false)
    (idx alpha idx' alpha' : ℝ) (m m' : Mat ℝ) (h : single a bp cz p idx alpha = .ok m) (h' : single a bp' cz' p idx' alpha' = .ok m')
    (j j' : ℕ) (hj : j < a.W p) (hj' : j' < a.W p) (hX : px (a.W p) idx alpha j = px (a.W p) idx' alpha' j')
    (hY : py (a.W p) idx alpha j = py (a.W p) idx' alpha' j') (i : ℕ) (hi : i < a.H p) : m.get i j = m'.get i j' := by
  obtain ⟨e1, e2, e3⟩ := vertical_single_value a bp cz p idx alpha hp hbp m h
  obtain ⟨f1, f2, f3⟩ := vertical_single_value a bp' cz' p idx' alpha' hp hbp' m' h'
  rw [e3 i (lt_of_lt_of_eq hi e1.symm) j (lt_of_lt_of_eq hj e2.symm), f3 i (lt_of_lt_of_eq hi f1.symm) j' (lt_of_lt_of_eq hj' f2.symm),
    slice_get a p _ _ hr, slice_get a p _ _ hr, hX, hY, hmask]
  simp

/-- C117: in particular slice `s` at 0 degrees and slice `t` at 90 degrees cross in column `t` of the first and column `2 (w/2) - s` of the second, and
slice `s` at 0 degrees read backwards is slice `2 (w/2) - s` at 180 degrees. -/
theorem vertical_slices_cross_right (a : VArgs) (bp bp' : Kernel) (cz cz' : Option ℤ) (p : Arr3 ℝ) (hp : a.PadOk)
    (hbp : Runs1 (a.H p) (a.W p) a.center bp) (hbp' : Runs1 (a.H p) (a.W p) a.center bp') (hr : a.ramp ≠ .after) (hmask : a.masking = false)
    (m m' : Mat ℝ) (i : ℕ) (hi : i < a.H p) (s t k : ℕ) (ht : t < a.W p) (hk : k < a.W p) (hsk : s + k = 2 * (a.W p / 2))
    (h : single a bp cz p s 0 = .ok m) :
    (single a bp' cz' p t 90 = .ok m' → m.get i t = m'.get i k) ∧
    (∀ t', t + t' = 2 * (a.W p / 2) → t' < a.W p → single a bp' cz' p k 180 = .ok m' → m.get i t = m'.get i t') := by
  have hskR : (s : ℝ) = 2 * ((a.W p / 2 : ℕ) : ℝ) - k := by
    have : ((s + k : ℕ) : ℝ) = ((2 * (a.W p / 2) : ℕ) : ℝ) := by rw [hsk]
    push_cast at this
    linarith
  constructor
  · intro h'
    refine vertical_slices_cross a bp bp' cz cz' p hp hbp hbp' hr hmask s 0 t 90 m m' h h' t k ht hk ?_ ?_ i hi
    · unfold px
      rw [deg0, deg90, Real.sin_zero, Real.cos_zero, Real.sin_pi_div_two, Real.cos_pi_div_two]
      ring
    · unfold py
      rw [deg0, deg90, Real.sin_zero, Real.cos_zero, Real.sin_pi_div_two, Real.cos_pi_div_two, hskR]
      ring
  · intro t' htt ht' h'
    have htR : (t : ℝ) = 2 * ((a.W p / 2 : ℕ) : ℝ) - t' := by
      have : ((t + t' : ℕ) : ℝ) = ((2 * (a.W p / 2) : ℕ) : ℝ) := by rw [htt]
      push_cast at this
      linarith
    refine vertical_slices_cross a bp bp' cz cz' p hp hbp hbp' hr hmask s 0 k 180 m m' h h' t t' ht ht' ?_ ?_ i hi
    · unfold px
      rw [deg0, deg180, Real.sin_zero, Real.cos_zero, Real.sin_pi, Real.cos_pi, htR]
      ring
    · unfold py
      rw [deg0, deg180, Real.sin_zero, Real.cos_zero, Real.sin_pi, Real.cos_pi, hskR]
      ring

/-- C117: the mask.  With `masking=True` the `2 ⌊min(center, w - center)⌋` columns in the middle are those of the call without mask, all others are zero. -/
theorem vertical_mask (a : VArgs) (bp bp' : Kernel) (cz cz' : Option ℤ) (p : Arr3 ℝ) (hp : a.PadOk)
    (hbp : Runs1 (a.H p) (a.W p) a.center bp) (hbp' : Runs1 (a.H p) (a.W p) a.center bp') (idx alpha : ℝ) (m : Mat ℝ)
    (h : single { a with masking := true } bp cz p idx alpha = .ok m) :
    ∃ m', single { a with masking := false } bp' cz' p idx alpha = .ok m' ∧ m.h = m'.h ∧ m.w = m'.w ∧
      ∃ rad left : ℕ, (rad : ℝ) ≤ min a.center (a.W p - a.center) ∧ min a.center (a.W p - a.center) < rad + 1 ∧
        (2 * left + 2 * rad = a.W p ∨ 2 * left + 2 * rad + 1 = a.W p) ∧
        ∀ i < a.H p, ∀ j < a.W p, m.get i j = if left ≤ j ∧ j < left + 2 * rad then m'.get i j else 0 := by
  have hv1 := (vertical_single_ok { a with masking := true } bp cz p idx alpha hp hbp).1.1 ⟨m, h⟩
  have hv : a.Valid p := ⟨hv1.1.ramp, hv1.1.proj, hv1.1.angles, hv1.1.height, hv1.1.width, hv1.1.center, hv1.1.flat, hv1.1.dark⟩
  obtain ⟨m', h'⟩ := (vertical_single_ok { a with masking := false } bp' cz' p idx alpha hp hbp').1.2
    ⟨⟨hv.ramp, hv.proj, hv.angles, hv.height, hv.width, hv.center, hv.flat, hv.dark⟩, hv1.2⟩
  obtain ⟨e1, e2, e3⟩ := vertical_single_value { a with masking := true } bp cz p idx alpha hp hbp m h
  obtain ⟨f1, f2, f3⟩ := vertical_single_value { a with masking := false } bp' cz' p idx alpha hp hbp' m' h'
  have hc := hv.center
  have hcW : a.center ≤ (a.W p : ℝ) - 1 := hc.2
  have hmin : 0 ≤ min a.center ((a.W p : ℝ) - a.center) := le_min hc.1 (by linarith)
  have hle := Nat.floor_le hmin
  have hlt := Nat.lt_floor_add_one (min a.center ((a.W p : ℝ) - a.center))
  have h2 : 2 * ⌊min a.center ((a.W p : ℝ) - a.center)⌋₊ ≤ a.W p := by
    have : (2 : ℝ) * (⌊min a.center ((a.W p : ℝ) - a.center)⌋₊ : ℝ) ≤ a.W p := by
      linarith [min_le_left a.center ((a.W p : ℝ) - a.center), min_le_right a.center ((a.W p : ℝ) - a.center)]
    exact_mod_cast this
  refine ⟨m', h', e1.trans f1.symm, e2.trans f2.symm, ⌊min a.center ((a.W p : ℝ) - a.center)⌋₊,
    (a.W p - 2 * ⌊min a.center ((a.W p : ℝ) - a.center)⌋₊) / 2, hle, hlt, by omega, fun i hi j hj => ?_⟩
  have g1 := e3 i (lt_of_lt_of_eq hi e1.symm) j (lt_of_lt_of_eq hj e2.symm)
  have g2 := f3 i (lt_of_lt_of_eq hi f1.symm) j (lt_of_lt_of_eq hj f2.symm)
  rw [g1, g2]
  have key : (({ a with masking := true } : VArgs).slice p idx alpha).get i j =
      (({ a with masking := false } : VArgs).slice p idx alpha).get i j * maskCol a.center (a.W p) j := by
    have : ∀ (x y z : ℝ), x * z * Real.pi / y = x * 1 * Real.pi / y * z := fun x y z => by ring
    exact this _ _ _
  rw [key]
  unfold maskCol
  dsimp only
  split_ifs
  · ring
  · ring

/-! ### Non-vacuity -/

/-- A GPU kernel: all threads in ascending order. -/
noncomputable def gpuKernel (H W : ℕ) (center : ℝ) : Kernel := fun xl yl e _ c cs =>
  (verticalBpGpu c cs (fun _ => xl) (fun _ => yl) center e 1 ((List.range ((gridDim H 1 * 1) * (gridDim W 1 * 1))).map fun t => (t, 0))).map
    fun img q => img (0, q.1, q.2)

theorem gpuKernel_runs (H W : ℕ) (center : ℝ) : Runs1 H W center (gpuKernel H W center) := by
  intro xl yl e k c cs hh hw
  have hall : ∀ t < (gridDim H 1 * 1) * (gridDim W 1 * 1), (t, 0) ∈ (List.range ((gridDim H 1 * 1) * (gridDim W 1 * 1))).map fun t => (t, 0) :=
    fun t ht => List.mem_map.2 ⟨t, List.mem_range.2 ht, rfl⟩
  obtain ⟨img, h1, -⟩ := vertical_bp_gpu_correct c cs (fun _ => xl) (fun _ => yl) center e 1 1 Nat.one_pos Nat.one_pos 1
    ((List.range ((gridDim H 1 * 1) * (gridDim W 1 * 1))).map fun t => (t, 0)) (by
      rw [hh, hw]
      intro t ht s hs
      obtain rfl : s = 0 := by omega
      exact hall t ht)
  refine .inr ⟨1, 1, _, img, Nat.one_pos, Nat.one_pos, hall, h1, ?_⟩
  unfold gpuKernel
  rw [h1]
  rfl

/-- The multi-slice kernel. -/
noncomputable def gpuKernelS (S H W : ℕ) (center : ℝ) : KernelS := fun xm ym e _ c cs =>
  verticalBpGpu c cs xm ym center e 1 ((List.range ((gridDim H 1 * 1) * (gridDim W 1 * 1))).flatMap fun t => (List.range S).map fun s => (t, s))

theorem gpuKernelS_runs (S H W : ℕ) (center : ℝ) : RunsS S H W center (gpuKernelS S H W center) := by
  intro xm ym e k c cs hh hw
  have hall : ∀ t < (gridDim H 1 * 1) * (gridDim W 1 * 1), ∀ s < S,
      (t, s) ∈ (List.range ((gridDim H 1 * 1) * (gridDim W 1 * 1))).flatMap fun t => (List.range S).map fun s => (t, s) :=
    fun t ht s hs => List.mem_flatMap.2 ⟨t, List.mem_range.2 ht, List.mem_map.2 ⟨s, List.mem_range.2 hs, rfl⟩⟩
  obtain ⟨img, h1, -⟩ := vertical_bp_gpu_correct c cs xm ym center e 1 1 Nat.one_pos Nat.one_pos S _ (by rw [hh, hw]; exact hall)
  exact .inr ⟨1, 1, _, img, Nat.one_pos, Nat.one_pos, hall, h1, h1⟩

/-- Arguments for the examples: angles 0, 0, rotation axis in the middle of `w` columns. -/
noncomputable def exV (c : ℝ) : VArgs :=
  { center := c, flat := none, dark := none, angles := some [0, 0], top := 0, bottom := 0, left := 0, right := 0, projStart := 0, projStop := -1,
    ramp := .before, filter := .other, pad := some 0, padIdx := edgeIdx, applyLog := false, masking := false }

theorem exV_pad (c : ℝ) : (exV c).PadOk := by
  intro n p j hn _
  show edgeIdx n p j < n
  unfold edgeIdx
  omega

theorem exV_valid (c : ℝ) (h w : ℕ) (hh : 0 < h) (hw : 0 < w) (h0 : 0 ≤ c) (h1 : c ≤ (w : ℝ) - 1) (f : ℕ → ℕ → ℕ → ℝ) : (exV c).Valid ⟨2, h, w, f⟩ :=
  ⟨.inl rfl, by simp [VArgs.numProj, exV], fun l hl => by cases hl; simp [VArgs.numProj, exV], by simpa [exV] using hh, by simpa [exV] using hw,
    ⟨h0, by simpa [exV] using h1⟩, fun m hm => (nomatch hm), fun m hm => (nomatch hm)⟩

/-- The hypotheses of the section theorems can be met: three columns, two rows. -/
example : ∃ (b : Args (Mat ℂ)) (p : Arr3 ℝ) (m o : Mat ℝ), Matches (exV 1) b ∧ (exV 1).W p % 2 = 1 ∧ b.Launched ((exV 1).W p) ∧
    single (exV 1) (gpuKernel 2 3 1) (some 1) p ((2 : ℕ) : ℝ) 90 = .ok m ∧ fbp b (.one ((exV 1).sino p 1)) = .ok (.one o) := by
  let b : Args (Mat ℂ) :=
    { center := 1, angles := some [0, 0], ratio := none, rampWin := none, filter := .other, pad := some 0, padIdx := edgeIdx,
      applyLog := false, isInt := false, ncore := 1, bx := 1, order := List.range 9 }
  let p : Arr3 ℝ := ⟨2, 2, 3, fun n i j => n + i * j⟩
  have hg : (gridDim 3 b.bx * b.bx) * (gridDim 3 1 * 1) = 9 := by decide
  have hl : b.Launched 3 := ⟨Nat.one_pos, 1, Nat.one_pos, fun t ht => List.mem_range.2 (lt_of_lt_of_eq ht hg)⟩
  obtain ⟨m, hm⟩ := (vertical_single_ok (exV 1) (gpuKernel 2 3 1) (some 1) p ((2 : ℕ) : ℝ) 90 (exV_pad 1) (gpuKernel_runs 2 3 1)).1.2
    ⟨exV_valid 1 2 3 (by norm_num) (by norm_num) (by norm_num) (by norm_num) _, ⟨by norm_num, by
      show ((2 : ℕ) : ℝ) ≤ ((3 : ℕ) : ℝ) - 1
      norm_num⟩, by norm_num, by norm_num⟩
  obtain ⟨o, ho, -⟩ := fbp_one b ((exV 1).sino p 1) hl (by norm_num [b]) (by show (1 : ℝ) < ((3 : ℕ) : ℝ); norm_num) (fun l h => by cases h; rfl)
    (by show (2 : ℕ) ≠ 1; norm_num) (by show (3 : ℕ) ≠ 1; norm_num)
  exact ⟨b, p, m, o, ⟨rfl, rfl, rfl, rfl, rfl, rfl, rfl, rfl, rfl⟩, by decide, hl, hm, ho⟩

/-- Multi-slice calls: two indices, and two angles. -/
example : ∃ outs outs', multiple (exV 1) (gpuKernelS 2 2 3 1) none ⟨2, 2, 3, fun n i j => n + i * j⟩ 0 (-1) 2 30 = .ok outs ∧
    different (exV 1) (gpuKernelS 2 2 3 1) none ⟨2, 2, 3, fun n i j => n + i * j⟩ [0, 1] [90, 45] = .ok outs' := by
  have hv := exV_valid 1 2 3 (by norm_num) (by norm_num) (by norm_num) (by norm_num) (fun n i j => n + i * j)
  have h3 : (exV 1).W ⟨2, 2, 3, fun n i j => n + i * j⟩ = 3 := rfl
  have hlast : (exV 1).lastIdx ⟨2, 2, 3, fun n i j => n + i * j⟩ (-1) = 2 := rfl
  have hcount : count 0 ((exV 1).lastIdx ⟨2, 2, 3, fun n i j => n + i * j⟩ (-1)) 2 = 2 := by rw [hlast]; rfl
  obtain ⟨o, h⟩ := (vertical_multiple_ok (exV 1) (gpuKernelS 2 2 3 1) none ⟨2, 2, 3, fun n i j => n + i * j⟩ 0 (-1) 2 30 (exV_pad 1)
    (by rw [hcount]; exact gpuKernelS_runs 2 2 3 1)).2 ⟨hv, ⟨by norm_num, by rw [h3]; norm_num⟩, ⟨by rw [hlast]; norm_num, by rw [hlast, h3]; norm_num⟩, by norm_num,
      by rw [hlast]; norm_num, by norm_num, by norm_num⟩
  obtain ⟨o', h'⟩ := (vertical_different_ok (exV 1) (gpuKernelS 2 2 3 1) none ⟨2, 2, 3, fun n i j => n + i * j⟩ [0, 1] [90, 45] (exV_pad 1)
    (gpuKernelS_runs 2 2 3 1)).2 ⟨hv, rfl, by norm_num, by
      intro x hx
      unfold VArgs.Inside
      rw [h3]
      simp only [List.mem_cons, List.not_mem_nil, or_false] at hx
      rcases hx with rfl | rfl <;> norm_num, by
      intro x hx
      simp only [List.mem_cons, List.not_mem_nil, or_false] at hx
      rcases hx with rfl | rfl <;> norm_num⟩
  exact ⟨o, o', h, h'⟩

/-! ### Even widths -/

/-- C116 refuted for even widths: the vertical slice is then half a pixel off the grid of the horizontal slices.  Two columns, slice 0 at 0 degrees. -/
theorem vertical_section_even_refuted : ∃ (a : VArgs) (b : Args (Mat ℂ)) (p : Arr3 ℝ) (bp : Kernel) (m o : Mat ℝ), Matches a b ∧ a.PadOk ∧
    Runs1 (a.H p) (a.W p) a.center bp ∧ a.ramp = .before ∧ b.Launched (a.W p) ∧ fbp b (.one (a.sino p 0)) = .ok (.one o) ∧
    single a bp none p 0 0 = .ok m ∧ m.get 0 0 ≠ o.get 0 0 := by
  have hl := exArgs_launched
  let p : Arr3 ℝ := ⟨2, 1, 2, fun _ _ c => if c = 0 then 1 else 0⟩
  have hm : Matches (exV (1 / 2)) exArgs := ⟨rfl, rfl, rfl, rfl, rfl, rfl, rfl, rfl, rfl⟩
  obtain ⟨m, hs⟩ := (vertical_single_ok (exV (1 / 2)) (gpuKernel 1 2 (1 / 2)) none p 0 0 (exV_pad _) (gpuKernel_runs 1 2 _)).1.2
    ⟨exV_valid (1 / 2) 1 2 (by norm_num) (by norm_num) (by norm_num) (by norm_num) _, ⟨by norm_num, by
      show (0 : ℝ) ≤ ((2 : ℕ) : ℝ) - 1
      norm_num⟩, by norm_num, by norm_num⟩
  have hl2 : exArgs.Launched ((exV (1 / 2)).sino p 0).w := hl
  obtain ⟨o, ho, o1, o2, o3⟩ := fbp_one exArgs ((exV (1 / 2)).sino p 0) hl2 (by norm_num [exArgs]) (by show (1 / 2 : ℝ) < ((2 : ℕ) : ℝ); norm_num)
    (fun l h => by cases h; rfl) (by show (2 : ℕ) ≠ 1; norm_num) (by show (2 : ℕ) ≠ 1; norm_num)
  refine ⟨exV (1 / 2), exArgs, p, gpuKernel 1 2 (1 / 2), m, o, hm, exV_pad _, gpuKernel_runs 1 2 _, rfl, hl, ho, hs, ?_⟩
  obtain ⟨e1, e2, e3⟩ := vertical_single_value (exV (1 / 2)) (gpuKernel 1 2 (1 / 2)) none p 0 0 (exV_pad _) (gpuKernel_runs 1 2 _) m hs
  have hz : m.get 0 0 = 0 := by
    rw [e3 0 (lt_of_lt_of_eq (by show 0 < 1; norm_num) e1.symm) 0 (lt_of_lt_of_eq (by show 0 < 2; norm_num) e2.symm),
      slice_get _ _ _ _ (by show Ramp.before ≠ .after; decide)]
    have hb : (exV (1 / 2)).bpAt p 0 (px ((exV (1 / 2)).W p) 0 0 0) (py ((exV (1 / 2)).W p) 0 0 0) = 0 := by
      unfold VArgs.bpAt
      refine Finset.sum_eq_zero fun n hn => ?_
      have hn : n < 2 := Finset.mem_range.1 hn
      have ha : (exV (1 / 2)).angle ((exV (1 / 2)).numProj p).toNat n = 0 := by
        have : n = 0 ∨ n = 1 := by omega
        rcases this with rfl | rfl <;> rfl
      rw [ha, Real.cos_zero, Real.sin_zero]
      have hx : px ((exV (1 / 2)).W p) 0 0 0 = -1 := by
        show px 2 0 0 0 = -1
        unfold px
        rw [deg0, Real.sin_zero, Real.cos_zero]
        norm_num
      rw [hx]
      have hc : (exV (1 / 2)).center = 1 / 2 := rfl
      rw [hc]
      unfold contribution
      rw [if_pos (by norm_num)]
      rfl
    rw [hb]
    ring
  have hne : o.get 0 0 = Real.pi / 2 := by
    rw [o3 0 (by show 0 < 2; norm_num) 0 (by show 0 < 2; norm_num)]
    unfold Args.image Args.maskAt
    have hlg : exArgs.logm ((exV (1 / 2)).sino p 0) = chunkSino exChunk 0 := by
      show (⟨2, 2, fun _ j => if 0 + j = 0 then (1 : ℝ) else 0⟩ : Mat ℝ) = ⟨2, 2, fun _ c => if c = 0 then (1 : ℝ) else 0⟩
      simp only [Nat.zero_add]
    have hh : ((exV (1 / 2)).sino p 0).h = 2 := rfl
    rw [hlg, hh, exBp _ rfl rfl (fun i => by rw [exFiltered, exFiltered]), exFiltered]
    show 1 * (Real.pi / (((2 : ℕ) : ℝ) - 1)) * (2 * (1 / 4)) = Real.pi / 2
    push_cast
    ring
  rw [hz, hne]
  have := Real.pi_pos
  intro h
  linarith

end Verif.VerticalDriver
