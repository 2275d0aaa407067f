import Verif.Model.Recon
import Verif.Props.BackProj
import Verif.Props.Fourier
import Verif.Props.Fourier2
import Verif.Props.Simulation
import Verif.Props.Stacks
import Verif.Props.Polar
import Mathlib.Data.List.GetD
import Mathlib.Analysis.Real.Pi.Bounds

/-! C104 — filtered back-projection from end to end.  C105 — back-projection, then filtering.  C106 — smoothing windows (Props/Windows.lean). -/

set_option linter.unusedSectionVars false
set_option linter.unusedSimpArgs false

namespace Verif.Recon
open Verif.Fourier Verif.BackProj Verif.Simulation

variable {W : Type}

/-! ### Specification -/

/-- The launched grid of GPU threads covers an image of width `w`, and every thread of it is executed. -/
def Args.Launched (a : Args W) (w : ℕ) : Prop :=
  0 < a.bx ∧ ∃ bY, 0 < bY ∧ ∀ t < (gridDim w a.bx * a.bx) * (gridDim w bY * bY), t ∈ a.order

/-- The window used to filter: the caller's if it fits, otherwise the one made from the filter name. -/
noncomputable def Args.filtered (a : Args (Mat ℂ)) (m : Mat ℝ) : Mat ℝ :=
  applyRampFilter m a.rampWin a.filter (a.padOf m.w) a.padIdx

/-- The reconstruction of one sinogram: back-projection of the filtered sinogram, weighted by `π / (nrow - 1)`, inside the circle. -/
noncomputable def Args.image (a : Args (Mat ℂ)) (m : Mat ℝ) (y x : ℕ) : ℝ :=
  a.maskAt m.w y x * (Real.pi / ((m.h : ℝ) - 1)) * backProjection (a.filtered (a.logm m)) (a.cs m.h) a.center false y x

/-! ### Lemmas -/

/-- Back-projection as a matrix. -/
noncomputable def bpMat (a : Args W) (nrow : ℕ) (edge : Bool) (m : Mat ℝ) : Mat ℝ :=
  ⟨m.w, m.w, fun y x => if y < m.w ∧ x < m.w then backProjection m (a.cs nrow) a.center edge y x else 0⟩

theorem bpImage_ok (a : Args W) (nrow : ℕ) (edge : Bool) (m : Mat ℝ) (hl : a.Launched m.w) :
    bpImage a nrow edge m = .ok (bpMat a nrow edge m) := by
  obtain ⟨hb, bY, hbY, hall⟩ := hl
  obtain ⟨img, h1, h2, h3⟩ := back_projection_gpu_correct m (a.cs nrow) a.center edge a.bx bY hb hbY a.order hall
  unfold bpImage bpMat
  rw [h1]
  show Except.ok _ = _
  congr 2
  funext y x
  by_cases h : y < m.w ∧ x < m.w
  · rw [if_pos h, h2 y h.1 x h.2]
  · rw [if_neg h, h3 y x h]

theorem ramp_default (m : Mat ℝ) (win : Option (Mat ℂ)) (f : Filter) (pad : ℕ) (p : ℕ → ℕ → ℕ → ℕ) :
    applyRampFilter m (some (win.getD (ramp2d m.h (m.w + 2 * pad) f))) f pad p = applyRampFilter m win f pad p := by
  cases win with
  | none => unfold applyRampFilter; simp [ramp2d, fitting]
  | some v => rfl

theorem ramp_shape (m : Mat ℝ) (win : Option (Mat ℂ)) (f : Filter) (pad : ℕ) (p : ℕ → ℕ → ℕ → ℕ) :
    (applyRampFilter m win f pad p).h = m.h ∧ (applyRampFilter m win f pad p).w = m.w := ⟨rfl, rfl⟩

/-- C104: what "slice `j`" means in the statements about chunks. -/
theorem slice_spec (s : Arr3 ℝ) (m : Mat ℝ) (j : ℕ) : (Arr.chunk s).slice j = sinogramOf s j ∧ (Arr.one m).slice j = m := ⟨rfl, rfl⟩


theorem slice_shape (x : Arr) (j : ℕ) : (x.slice j).h = x.nrow ∧ (x.slice j).w = x.ncol := by
  cases x <;> exact ⟨rfl, rfl⟩

theorem range_one : List.range 1 = [0] := rfl

open Classical in
/-- Normal form of a successful call: the list of images. -/
theorem fbp_unfold (a : Args (Mat ℂ)) (x : Arr) (hl : a.Launched x.ncol) :
    fbp a x = if a.bad x.nrow x.ncol then .error .valueError
      else if x.num = 1 then
        if x.nrow = 1 ∨ x.ncol = 1 then .error .valueError
        else
          let out : Mat ℝ := ⟨x.ncol, x.ncol, a.finish x.nrow x.ncol (bpMat a x.nrow false (a.filtered (a.logm (x.slice 0)))).get⟩
          .ok (match x with | .one _ => .one out | .chunk _ => .chunk (stack x.ncol [out]))
      else .ok (.chunk (stack x.ncol ((List.range x.num).map fun j =>
        ⟨x.ncol, x.ncol, a.finish x.nrow x.ncol (bpMat a x.nrow false
          (filterChunkSlice a (a.rampWin.getD (ramp2d x.nrow (x.ncol + 2 * a.padOf x.ncol) a.filter)) (a.padOf x.ncol)
            (a.logm (x.slice j)))).get⟩))) := by
  unfold fbp
  dsimp only
  by_cases hb : a.bad x.nrow x.ncol
  · rw [if_pos hb, if_pos hb]
  rw [if_neg hb, if_neg hb]
  by_cases h1 : x.num = 1
  · rw [if_pos h1, if_pos h1]
    by_cases h2 : x.nrow = 1 ∨ x.ncol = 1
    · rw [if_pos h2, if_pos h2]
    · rw [if_neg h2, if_neg h2]
      have hs := slice_shape x 0
      have e : applyRampFilter (a.logm (x.slice 0)) (some (a.rampWin.getD (ramp2d x.nrow (x.ncol + 2 * a.padOf x.ncol) a.filter))) a.filter
          (a.padOf x.ncol) a.padIdx = a.filtered (a.logm (x.slice 0)) := by
        have hd := ramp_default (a.logm (x.slice 0)) a.rampWin a.filter (a.padOf x.ncol) a.padIdx
        have hh : (a.logm (x.slice 0)).h = x.nrow ∧ (a.logm (x.slice 0)).w = x.ncol := hs
        unfold Args.filtered
        rw [hh.2]
        rw [hh.1, hh.2] at hd
        exact hd
      rw [e, bpImage_ok a _ false _ (by show a.Launched (x.slice 0).w; rw [hs.2]; exact hl), Stacks.ok_bind]
      cases x <;> rfl
  · rw [if_neg h1, if_neg h1]
    rw [BackProj.mapM_ok (g := fun j => (⟨x.ncol, x.ncol, a.finish x.nrow x.ncol (bpMat a x.nrow false
          (filterChunkSlice a (a.rampWin.getD (ramp2d x.nrow (x.ncol + 2 * a.padOf x.ncol) a.filter)) (a.padOf x.ncol)
            (a.logm (x.slice j)))).get⟩ : Mat ℝ)) _ fun j _ => by
      have hw : (filterChunkSlice a (a.rampWin.getD (ramp2d x.nrow (x.ncol + 2 * a.padOf x.ncol) a.filter)) (a.padOf x.ncol)
            (a.logm (x.slice j))).w = x.ncol := by
        unfold filterChunkSlice
        dsimp only
        split <;> exact (slice_shape x j).2
      rw [bpImage_ok a _ false _ (by rw [hw]; exact hl), Stacks.ok_bind]
      rfl]
    rfl

theorem stack_slice (w : ℕ) (g : ℕ → Mat ℝ) (n j : ℕ) (hj : j < n) (y x : ℕ) :
    (stack w ((List.range n).map g)).get y j x = (g j).get y x := by
  unfold stack
  dsimp only
  rw [List.getD_eq_getElem _ _ (by simpa using hj)]
  simp

/-- A filtered chunk slice is the filtered slice, unless it is stored into an integer array. -/
theorem filterChunk_eq (a : Args (Mat ℂ)) (x : Arr) (j : ℕ) (hc : a.ncore ≠ 1 ∨ a.isInt = false ∨ a.applyLog = true) :
    filterChunkSlice a (a.rampWin.getD (ramp2d x.nrow (x.ncol + 2 * a.padOf x.ncol) a.filter)) (a.padOf x.ncol) (a.logm (x.slice j)) =
      a.filtered (a.logm (x.slice j)) := by
  have e : applyRampFilter (a.logm (x.slice j)) (some (a.rampWin.getD (ramp2d x.nrow (x.ncol + 2 * a.padOf x.ncol) a.filter))) a.filter
      (a.padOf x.ncol) a.padIdx = a.filtered (a.logm (x.slice j)) := by
    have hd := ramp_default (a.logm (x.slice j)) a.rampWin a.filter (a.padOf x.ncol) a.padIdx
    have hh : (a.logm (x.slice j)).h = x.nrow ∧ (a.logm (x.slice j)).w = x.ncol := slice_shape x j
    unfold Args.filtered
    rw [hh.2]
    rw [hh.1, hh.2] at hd
    exact hd
  unfold filterChunkSlice
  dsimp only
  rw [e]
  split
  · rename_i h
    have : ∀ v, a.store v = v := by
      intro v
      unfold Args.store
      rw [if_neg]
      rintro ⟨h1, h2⟩
      rcases hc with h | h | h <;> simp_all
    simp only [this]
  · rfl

/-- A projection contributes through its `w` samples only. -/
theorem contribution_congr (r r' : ℕ → ℝ) (w : ℕ) (e : Bool) (f : ℝ) (hw : 0 < w) (h : ∀ j < w, r j = r' j) :
    contribution r w e f = contribution r' w e f := by
  unfold contribution
  rw [h 0 hw, h (w - 1) (by omega)]
  split
  · rfl
  split
  · rfl
  rename_i h0 h1
  have h0 := not_lt.1 h0
  have h1 := not_lt.1 h1
  have hf : (⌊f⌋.toNat : ℤ) = ⌊f⌋ := Int.toNat_of_nonneg (Int.floor_nonneg.2 h0)
  have hfr : ((⌊f⌋.toNat : ℕ) : ℝ) = (⌊f⌋ : ℝ) := by exact_mod_cast hf
  have hle := Int.floor_le f
  have hlt : ⌊f⌋.toNat < w := by
    have : ((⌊f⌋.toNat : ℕ) : ℝ) < w := by rw [hfr]; linarith
    exact_mod_cast this
  rw [h _ hlt]
  by_cases h2 : ⌊f⌋.toNat + 1 < w
  · rw [h _ h2]
  · have hw1 : (w : ℝ) = (⌊f⌋.toNat : ℕ) + 1 := by
      have : w = ⌊f⌋.toNat + 1 := by omega
      exact_mod_cast this
    have : f - (⌊f⌋.toNat : ℕ) = 0 := by
      rw [hfr] at hw1 ⊢
      linarith
    rw [this]
    ring

/-! ### C104 -/

/-- C104: when `fbp_reconstruction` succeeds: the centre must lie in `[0, ncol)`, a given list of angles must have one entry per row, and a
single sinogram must have at least two rows and two columns (its `np.squeeze` would drop an axis); otherwise `ValueError`. -/
theorem fbp_error_iff (a : Args (Mat ℂ)) (x : Arr) (hl : a.Launched x.ncol) :
    ((∃ out, fbp a x = .ok out) ↔
      (0 ≤ a.center ∧ a.center < x.ncol ∧ (∀ l, a.angles = some l → l.length = x.nrow) ∧ (x.num = 1 → x.nrow ≠ 1 ∧ x.ncol ≠ 1))) ∧
    ((∃ e, fbp a x = .error e) → fbp a x = .error .valueError) := by
  rw [fbp_unfold a x hl]
  have hb : a.bad x.nrow x.ncol ↔ ¬ (0 ≤ a.center ∧ a.center < x.ncol ∧ ∀ l, a.angles = some l → l.length = x.nrow) := by
    unfold Args.bad
    constructor
    · rintro (h | h | ⟨l, h1, h2⟩) ⟨h3, h4, h5⟩
      · exact absurd h3 (not_le.2 h)
      · exact absurd h4 (not_lt.2 h)
      · exact h2 (h5 l h1)
    · intro h
      by_contra hc
      push Not at hc
      exact h ⟨hc.1, hc.2.1, fun l hl => by_contra fun hn => absurd (hc.2.2 l hl) hn⟩
  by_cases h : a.bad x.nrow x.ncol
  · rw [if_pos h]
    refine ⟨⟨fun ⟨o, ho⟩ => (nomatch ho), fun hc => absurd ⟨hc.1, hc.2.1, hc.2.2.1⟩ (hb.1 h)⟩, fun _ => rfl⟩
  · have hg := not_not.1 (mt hb.2 h)
    rw [if_neg h]
    by_cases h1 : x.num = 1
    · rw [if_pos h1]
      by_cases h2 : x.nrow = 1 ∨ x.ncol = 1
      · rw [if_pos h2]
        refine ⟨⟨fun ⟨o, ho⟩ => (nomatch ho), fun hc => ?_⟩, fun _ => rfl⟩
        have := hc.2.2.2 h1
        rcases h2 with h2 | h2
        · exact absurd h2 this.1
        · exact absurd h2 this.2
      · rw [if_neg h2]
        push Not at h2
        exact ⟨⟨fun _ => ⟨hg.1, hg.2.1, hg.2.2, fun _ => h2⟩, fun _ => ⟨_, rfl⟩⟩, fun ⟨e, he⟩ => (nomatch he)⟩
    · rw [if_neg h1]
      exact ⟨⟨fun _ => ⟨hg.1, hg.2.1, hg.2.2, fun h => absurd h h1⟩, fun _ => ⟨_, rfl⟩⟩, fun ⟨e, he⟩ => (nomatch he)⟩

/-- C104: the result.  A sinogram gives an image, a chunk gives as many images, in the same places; image `j` is, at every pixel, the
reconstruction of sinogram `j` alone (for any order of the GPU threads).  Except: integer data without logarithm on one core. -/
theorem fbp_spec (a : Args (Mat ℂ)) (x out : Arr) (hl : a.Launched x.ncol) (h : fbp a x = .ok out)
    (hc : x.num = 1 ∨ a.ncore ≠ 1 ∨ a.isInt = false ∨ a.applyLog = true) :
    out.nrow = x.ncol ∧ out.ncol = x.ncol ∧ out.num = x.num ∧ ((∃ m, x = .one m) ↔ ∃ m, out = .one m) ∧
    ∀ j < x.num, ∀ y < x.ncol, ∀ k < x.ncol, (out.slice j).get y k = a.image (x.slice j) y k := by
  rw [fbp_unfold a x hl] at h
  have key : ∀ (j y k : ℕ), y < x.ncol → k < x.ncol →
      a.finish x.nrow x.ncol (bpMat a x.nrow false (a.filtered (a.logm (x.slice j)))).get y k = a.image (x.slice j) y k := by
    intro j y k hy hk
    unfold Args.finish Args.image bpMat
    have hs := slice_shape x j
    have hw : (a.filtered (a.logm (x.slice j))).w = x.ncol := hs.2
    dsimp only
    rw [hw, if_pos ⟨hy, hk⟩, hs.1, hs.2]
    ring
  by_cases hb : a.bad x.nrow x.ncol
  · rw [if_pos hb] at h
    exact (nomatch h)
  rw [if_neg hb] at h
  by_cases h1 : x.num = 1
  · rw [if_pos h1] at h
    by_cases h2 : x.nrow = 1 ∨ x.ncol = 1
    · rw [if_pos h2] at h
      exact (nomatch h)
    rw [if_neg h2] at h
    rw [h1]
    cases x with
    | one m =>
      cases h
      refine ⟨rfl, rfl, rfl, by simp, fun j hj y hy k hk => ?_⟩
      have := key 0 y k hy hk
      exact this
    | chunk s =>
      cases h
      refine ⟨rfl, rfl, rfl, by simp, fun j hj y hy k hk => ?_⟩
      have hj : j = 0 := by omega
      subst hj
      exact key 0 y k hy hk
  · rw [if_neg h1] at h
    cases h
    have hx : ¬ ∃ m, x = .one m := by
      rintro ⟨m, rfl⟩
      exact h1 rfl
    refine ⟨rfl, rfl, by simp [Arr.num, stack], ⟨fun h => absurd h hx, by simp⟩, fun j hj y hy k hk => ?_⟩
    show (stack x.ncol _).get y j k = _
    rw [stack_slice _ _ _ _ hj, filterChunk_eq a x j (hc.resolve_left h1)]
    exact key j y k hy hk

/-- C104: a chunk is reconstructed slice by slice: slice `j` of the result is the result of the call with sinogram `j` alone. -/
theorem fbp_chunk_eq_slices (a : Args (Mat ℂ)) (s : Arr3 ℝ) (out : Arr) (hl : a.Launched s.w) (h : fbp a (.chunk s) = .ok out)
    (hc : a.ncore ≠ 1 ∨ a.isInt = false ∨ a.applyLog = true) (h2 : s.d ≠ 1) (h3 : s.w ≠ 1) (j : ℕ) (hj : j < s.h) :
    ∃ m, fbp a (.one (sinogramOf s j)) = .ok (.one m) ∧ m.Eqv (out.slice j) := by
  rw [show sinogramOf s j = chunkSino s j from rfl]
  have hs := fbp_spec a (.chunk s) out hl h (.inr hc)
  have hok := ((fbp_error_iff a (.chunk s) hl).1.1 ⟨out, h⟩)
  obtain ⟨o, ho⟩ := (fbp_error_iff a (.one (chunkSino s j)) hl).1.2 ⟨hok.1, hok.2.1, hok.2.2.1, fun _ => ⟨h2, h3⟩⟩
  have hs1 := fbp_spec a (.one (chunkSino s j)) o hl ho (.inl rfl)
  obtain ⟨m, rfl⟩ := hs1.2.2.2.1.1 ⟨_, rfl⟩
  refine ⟨m, ho, ?_, ?_, fun y hy x hx => ?_⟩
  · exact hs1.1.trans (hs.1.symm.trans (slice_shape out j).1.symm)
  · exact hs1.2.1.trans (hs.2.1.symm.trans (slice_shape out j).2.symm)
  · have hy : y < s.w := lt_of_lt_of_eq hy hs1.1
    have hx : x < s.w := lt_of_lt_of_eq hx hs1.2.1
    rw [hs.2.2.2.2 j hj y hy x hx]
    exact hs1.2.2.2.2 0 (by show 0 < 1; omega) y hy x hx

/-- C104: outside the circle the reconstruction is zero (`ratio` not None and not 0). -/
theorem fbp_outside_zero (a : Args (Mat ℂ)) (x out : Arr) (hl : a.Launched x.ncol) (h : fbp a x = .ok out)
    (hc : x.num = 1 ∨ a.ncore ≠ 1 ∨ a.isInt = false ∨ a.applyLog = true) (r : ℝ) (hr : a.ratio = some r) (hr0 : r ≠ 0)
    (j y k : ℕ) (hj : j < x.num) (hy : y < x.ncol) (hk : k < x.ncol)
    (hout : (r * ((x.ncol / 2 : ℕ) : ℝ)) ^ 2 < (dist2 x.ncol y k : ℝ)) : (out.slice j).get y k = 0 := by
  rw [(fbp_spec a x out hl h hc).2.2.2.2 j hj y hy k hk]
  unfold Args.image Args.maskAt
  rw [hr]
  dsimp only
  rw [if_neg hr0, (slice_shape x j).2, (circle_mask_spec _ r y k).2.2, if_neg (not_le.2 hout)]
  ring

/-- C104: the formula without reference to Fourier transforms, for the unsmoothed ramp (`filter_name=None`): every projection is convolved
with the ramp kernel (circularly, after padding), read at the detector position of the pixel, summed over all angles. -/
theorem fbp_closed_form (a : Args (Mat ℂ)) (m : Mat ℝ) (y x : ℕ) (hf : a.filter = .other) (hw : a.rampWin = none) (hm : 0 < m.w) :
    a.image m y x = a.maskAt m.w y x * (Real.pi / ((m.h : ℝ) - 1)) * ∑ i ∈ Finset.range m.h,
      contribution (fun j => ∑ p ∈ Finset.range (m.w + 2 * a.padOf m.w), a.logv (m.get i (a.padIdx m.w (a.padOf m.w) p)) *
          ramp (centered (m.w + 2 * a.padOf m.w) (((a.padOf m.w + j : ℕ) : ℤ) - p))) m.w false
        (((x : ℝ) - ((m.w : ℝ) - 1) / 2) * Real.cos (a.angle m.h i) - ((y : ℝ) - ((m.w : ℝ) - 1) / 2) * Real.sin (a.angle m.h i) + a.center) := by
  unfold Args.image backProjection
  congr 1
  refine Finset.sum_congr rfl fun i hi => ?_
  have hpos : ((x : ℝ) - (((a.filtered (a.logm m)).w : ℝ) - 1) / 2) * (a.cs m.h i).1 +
      ((y : ℝ) - (((a.filtered (a.logm m)).w : ℝ) - 1) / 2) * (a.cs m.h i).2 + a.center =
      ((x : ℝ) - ((m.w : ℝ) - 1) / 2) * Real.cos (a.angle m.h i) - ((y : ℝ) - ((m.w : ℝ) - 1) / 2) * Real.sin (a.angle m.h i) + a.center := by
    have : (a.filtered (a.logm m)).w = m.w := rfl
    rw [this]
    unfold Args.cs
    rw [Real.cos_neg, Real.sin_neg]
    ring
  rw [hpos]
  refine contribution_congr _ _ _ _ _ hm fun j hj => ?_
  have := ramp_filter_convolution (a.logm m) (a.padOf m.w) (a.padIdx m.w (a.padOf m.w)) i j hj
  rw [show (a.logm m).w = m.w from rfl] at this
  refine Eq.trans ?_ this
  unfold Args.filtered
  rw [hw, hf]
  rfl

/-- `α m + β n`. -/
def lin (α β : ℝ) (m n : Mat ℝ) : Mat ℝ := ⟨m.h, m.w, fun i j => α * m.get i j + β * n.get i j⟩

theorem contribution_linear (α β : ℝ) (r s : ℕ → ℝ) (w : ℕ) (e : Bool) (f : ℝ) :
    contribution (fun j => α * r j + β * s j) w e f = α * contribution r w e f + β * contribution s w e f := by
  unfold contribution
  split
  · split <;> ring
  split
  · split <;> ring
  ring

theorem backProjection_linear (α β : ℝ) (m n : Mat ℝ) (hh : n.h = m.h) (hw : n.w = m.w) (cs : ℕ → ℝ × ℝ) (c : ℝ) (e : Bool) (y x : ℕ) :
    backProjection (lin α β m n) cs c e y x = α * backProjection m cs c e y x + β * backProjection n cs c e y x := by
  unfold backProjection lin
  dsimp only
  rw [hh, hw, Finset.mul_sum, Finset.mul_sum, ← Finset.sum_add_distrib]
  exact Finset.sum_congr rfl fun i _ => contribution_linear α β _ _ _ _ _

theorem ramp_linear (α β : ℝ) (m n : Mat ℝ) (hh : n.h = m.h) (hw : n.w = m.w) (win : Option (Mat ℂ)) (f : Filter) (pad : ℕ)
    (p : ℕ → ℕ → ℕ → ℕ) :
    applyRampFilter (lin α β m n) win f pad p = lin α β (applyRampFilter m win f pad p) (applyRampFilter n win f pad p) := by
  unfold applyRampFilter lin
  dsimp only
  rw [hh, hw]
  congr 1
  funext i j
  set N := m.w + 2 * pad
  generalize fitting win m.h N (ramp2d m.h N f) = V
  rw [← Complex.re_ofReal_mul, ← Complex.re_ofReal_mul, ← Complex.add_re, ← idft_smul, ← idft_smul, ← idft_add]
  congr 2
  funext l
  rw [show (fun j => ((α * m.get i (p m.w pad j) + β * n.get i (p m.w pad j) : ℝ) : ℂ)) =
    fun j => (α : ℂ) * ((m.get i (p m.w pad j) : ℝ) : ℂ) + (β : ℂ) * ((n.get i (p m.w pad j) : ℝ) : ℂ) from
      funext fun j => by push_cast; rfl, dft_add, dft_smul, dft_smul]
  ring

/-- A successful call with one sinogram. -/
theorem fbp_one (a : Args (Mat ℂ)) (m : Mat ℝ) (hl : a.Launched m.w) (h0 : 0 ≤ a.center) (h1 : a.center < m.w)
    (h2 : ∀ l, a.angles = some l → l.length = m.h) (h3 : m.h ≠ 1) (h4 : m.w ≠ 1) :
    ∃ o : Mat ℝ, fbp a (.one m) = .ok (.one o) ∧ o.h = m.w ∧ o.w = m.w ∧ ∀ y < m.w, ∀ x < m.w, o.get y x = a.image m y x := by
  have hl' : a.Launched (Arr.one m).ncol := hl
  obtain ⟨o, ho⟩ := (fbp_error_iff a (.one m) hl').1.2 ⟨h0, h1, h2, fun _ => ⟨h3, h4⟩⟩
  have hs := fbp_spec a (.one m) o hl' ho (.inl rfl)
  obtain ⟨o, rfl⟩ := hs.2.2.2.1.1 ⟨_, rfl⟩
  exact ⟨o, ho, hs.1, hs.2.1, fun y hy x hx => hs.2.2.2.2 0 (by show 0 < 1; omega) y hy x hx⟩

/-- Conversely. -/
theorem fbp_one_inv (a : Args (Mat ℂ)) (m o : Mat ℝ) (hl : a.Launched m.w) (h : fbp a (.one m) = .ok (.one o)) :
    (0 ≤ a.center ∧ a.center < m.w ∧ (∀ l, a.angles = some l → l.length = m.h) ∧ m.h ≠ 1 ∧ m.w ≠ 1) ∧ o.h = m.w ∧ o.w = m.w ∧
      ∀ y < m.w, ∀ x < m.w, o.get y x = a.image m y x := by
  have hl' : a.Launched (Arr.one m).ncol := hl
  have hok := (fbp_error_iff a (.one m) hl').1.1 ⟨_, h⟩
  have hs := fbp_spec a (.one m) _ hl' h (.inl rfl)
  have h1 := hok.2.2.2 rfl
  exact ⟨⟨hok.1, hok.2.1, hok.2.2.1, h1.1, h1.2⟩, hs.1, hs.2.1, fun y hy x hx => hs.2.2.2.2 0 (by show 0 < 1; omega) y hy x hx⟩

/-- C104: without logarithm the reconstruction is linear in the sinogram. -/
theorem fbp_linear (a : Args (Mat ℂ)) (α β : ℝ) (m n m' n' : Mat ℝ) (hh : n.h = m.h) (hw : n.w = m.w) (hlog : a.applyLog = false)
    (hl : a.Launched m.w) (h1 : fbp a (.one m) = .ok (.one m')) (h2 : fbp a (.one n) = .ok (.one n')) :
    ∃ o, fbp a (.one (lin α β m n)) = .ok (.one o) ∧ o.Eqv (lin α β m' n') := by
  obtain ⟨⟨c0, c1, c2, c3, c4⟩, a1, a2, a3⟩ := fbp_one_inv a m m' hl h1
  obtain ⟨-, b1, b2, b3⟩ := fbp_one_inv a n n' (by rw [hw]; exact hl) h2
  obtain ⟨o, ho, o1, o2, o3⟩ := fbp_one a (lin α β m n) hl c0 c1 c2 c3 c4
  have hlg : ∀ k : Mat ℝ, a.logm k = k := by
    intro k
    unfold Args.logm Args.logv
    rw [hlog]
    rfl
  refine ⟨o, ho, o1.trans a1.symm, o2.trans a2.symm, fun y hy x hx => ?_⟩
  have hy : y < m.w := lt_of_lt_of_eq hy o1
  have hx : x < m.w := lt_of_lt_of_eq hx o2
  show o.get y x = α * m'.get y x + β * n'.get y x
  rw [o3 y hy x hx, a3 y hy x hx, b3 y (by omega) x (by omega)]
  unfold Args.image Args.filtered
  rw [hlg, hlg, hlg, show (lin α β m n).w = m.w from rfl, show (lin α β m n).h = m.h from rfl, hh, hw,
    ramp_linear α β m n hh hw, backProjection_linear α β (applyRampFilter m _ _ _ _) (applyRampFilter n _ _ _ _) hh hw]
  ring

/-! Geometry. -/

/-- The mask is symmetric if it is absent or the width is odd. -/
theorem mask_symm (a : Args W) (w y x : ℕ) (hsym : a.ratio = none ∨ w % 2 = 1) (hy : y < w) (hx : x < w) :
    a.maskAt w x (w - 1 - y) = a.maskAt w y x ∧ a.maskAt w (w - 1 - y) x = a.maskAt w y x ∧ a.maskAt w y (w - 1 - x) = a.maskAt w y x := by
  unfold Args.maskAt
  cases hr : a.ratio with
  | none => exact ⟨rfl, rfl, rfl⟩
  | some r =>
    have hodd : w % 2 = 1 := by
      rcases hsym with h | h
      · rw [hr] at h
        exact (nomatch h)
      · exact h
    dsimp only
    generalize (if r = 0 then min a.center (w - a.center) / (0.5 * w) else r) = q
    have h1 := (circle_mask_symm_partial w q y x).2.1 hodd hy hx
    have h2 := (circle_mask_symm_partial w q x (w - 1 - y)).1
    exact ⟨h2.trans h1.1, h1.1, h1.2⟩

theorem cast_flip (w y : ℕ) (hy : y < w) : ((w - 1 - y : ℕ) : ℝ) = (w : ℝ) - 1 - y := by
  rw [Nat.cast_sub (by omega), Nat.cast_sub (by omega)]
  simp

theorem getD_map_lt (l : List ℝ) (f : ℝ → ℝ) (i : ℕ) (hi : i < l.length) : (l.map f).getD i 0 = f (l.getD i 0) := by
  rw [List.getD_eq_getElem _ _ (by simpa using hi), List.getD_eq_getElem _ _ hi, List.getElem_map]

/-- C104: turning all angles by 90 degrees turns the image; negating all angles mirrors it (top to bottom); adding whole turns does not
change it.  With a circle mask this needs an odd width (the mask is not centred on the image otherwise, C57). -/
theorem fbp_rotate (a : Args (Mat ℂ)) (m m' : Mat ℝ) (l : List ℝ) (ha : a.angles = some l) (hsym : a.ratio = none ∨ m.w % 2 = 1)
    (hl : a.Launched m.w) (h : fbp a (.one m) = .ok (.one m')) :
    (∃ o : Mat ℝ, fbp { a with angles := some (l.map fun t => t + Real.pi / 2) } (.one m) = .ok (.one o) ∧ o.h = m.w ∧ o.w = m.w ∧
      ∀ y < m.w, ∀ x < m.w, o.get y x = m'.get x (m.w - 1 - y)) ∧
    (∃ o : Mat ℝ, fbp { a with angles := some (l.map fun t => -t) } (.one m) = .ok (.one o) ∧ o.h = m.w ∧ o.w = m.w ∧
      ∀ y < m.w, ∀ x < m.w, o.get y x = m'.get (m.w - 1 - y) x) ∧
    (∀ k : ℤ, ∃ o : Mat ℝ, fbp { a with angles := some (l.map fun t => t + k * (2 * Real.pi)) } (.one m) = .ok (.one o) ∧ o.h = m.w ∧
      o.w = m.w ∧ ∀ y < m.w, ∀ x < m.w, o.get y x = m'.get y x) := by
  obtain ⟨⟨c0, c1, c2, c3, c4⟩, a1, a2, a3⟩ := fbp_one_inv a m m' hl h
  have hlen : l.length = m.h := c2 l ha
  have hang : ∀ i, a.angle m.h i = l.getD i 0 := by
    intro i
    unfold Args.angle
    rw [ha]
  have gen : ∀ (f : ℝ → ℝ) (P : ℕ → ℕ → ℕ × ℕ), (∀ y < m.w, ∀ x < m.w, (P y x).1 < m.w ∧ (P y x).2 < m.w ∧
      a.maskAt m.w (P y x).1 (P y x).2 = a.maskAt m.w y x ∧
      ∀ t : ℝ, ((x : ℝ) - ((m.w : ℝ) - 1) / 2) * Real.cos (-f t) + ((y : ℝ) - ((m.w : ℝ) - 1) / 2) * Real.sin (-f t) =
        (((P y x).2 : ℝ) - ((m.w : ℝ) - 1) / 2) * Real.cos (-t) + (((P y x).1 : ℝ) - ((m.w : ℝ) - 1) / 2) * Real.sin (-t)) →
      ∃ o : Mat ℝ, fbp { a with angles := some (l.map f) } (.one m) = .ok (.one o) ∧ o.h = m.w ∧ o.w = m.w ∧
        ∀ y < m.w, ∀ x < m.w, o.get y x = m'.get (P y x).1 (P y x).2 := by
    intro f P hP
    obtain ⟨o, ho, o1, o2, o3⟩ := fbp_one { a with angles := some (l.map f) } m hl c0 c1
      (fun l' hl' => by cases hl'; rw [List.length_map]; exact hlen) c3 c4
    refine ⟨o, ho, o1, o2, fun y hy x hx => ?_⟩
    obtain ⟨p1, p2, p3, p4⟩ := hP y hy x hx
    rw [o3 y hy x hx, a3 _ p1 _ p2]
    unfold Args.image
    rw [p3]
    congr 1
    unfold backProjection
    refine Finset.sum_congr rfl fun i hi => ?_
    have hi : i < l.length := by rw [hlen]; exact Finset.mem_range.1 hi
    show contribution ((a.filtered (a.logm m)).get i) m.w false (((x : ℝ) - ((m.w : ℝ) - 1) / 2) * Real.cos (-((l.map f).getD i 0)) +
      ((y : ℝ) - ((m.w : ℝ) - 1) / 2) * Real.sin (-((l.map f).getD i 0)) + a.center) =
      contribution ((a.filtered (a.logm m)).get i) m.w false ((((P y x).2 : ℝ) - ((m.w : ℝ) - 1) / 2) * Real.cos (-(a.angle m.h i)) +
      (((P y x).1 : ℝ) - ((m.w : ℝ) - 1) / 2) * Real.sin (-(a.angle m.h i)) + a.center)
    rw [getD_map_lt l f i hi, hang, p4]
  refine ⟨gen (fun t => t + Real.pi / 2) (fun y x => (x, m.w - 1 - y)) fun y hy x hx => ⟨hx, by dsimp only; omega,
      (mask_symm a m.w y x hsym hy hx).1, fun t => ?_⟩,
    gen (fun t => -t) (fun y x => (m.w - 1 - y, x)) fun y hy x hx => ⟨by dsimp only; omega, hx, (mask_symm a m.w y x hsym hy hx).2.1, fun t => ?_⟩,
    fun k => gen (fun t => t + k * (2 * Real.pi)) (fun y x => (y, x)) fun y hy x hx => ⟨hy, hx, rfl, fun t => ?_⟩⟩
  · dsimp only
    rw [cast_flip m.w y hy, Real.cos_neg, Real.sin_neg, Real.cos_add_pi_div_two, Real.sin_add_pi_div_two, Real.cos_neg, Real.sin_neg]
    ring
  · dsimp only
    rw [cast_flip m.w y hy, neg_neg, Real.cos_neg, Real.sin_neg]
    ring
  · dsimp only
    rw [Real.cos_neg, Real.sin_neg, Real.cos_add_int_mul_two_pi, Real.sin_add_int_mul_two_pi, Real.cos_neg, Real.sin_neg]

/-- C104: the order of the projections does not matter: rows and angles permuted alike give the same image. -/
theorem fbp_permute (a : Args (Mat ℂ)) (m m' : Mat ℝ) (l l' : List ℝ) (σ : ℕ → ℕ) (ha : a.angles = some l) (hwin : a.rampWin = none)
    (hσ : Set.BijOn σ (Set.Iio m.h) (Set.Iio m.h)) (hl'len : l'.length = m.h) (hl' : ∀ i < m.h, l'.getD i 0 = l.getD (σ i) 0)
    (hl : a.Launched m.w) (h : fbp a (.one m) = .ok (.one m')) :
    ∃ o : Mat ℝ, fbp { a with angles := some l' } (.one ⟨m.h, m.w, fun i j => m.get (σ i) j⟩) = .ok (.one o) ∧ o.Eqv m' := by
  obtain ⟨⟨c0, c1, c2, c3, c4⟩, a1, a2, a3⟩ := fbp_one_inv a m m' hl h
  obtain ⟨o, ho, o1, o2, o3⟩ := fbp_one { a with angles := some l' } ⟨m.h, m.w, fun i j => m.get (σ i) j⟩ hl c0 c1
      (fun k hk => by cases hk; exact hl'len) c3 c4
  refine ⟨o, ho, o1.trans a1.symm, o2.trans a2.symm, fun y hy x hx => ?_⟩
  have hy : y < m.w := lt_of_lt_of_eq hy o1
  have hx : x < m.w := lt_of_lt_of_eq hx o2
  rw [o3 y hy x hx, a3 y hy x hx]
  unfold Args.image
  congr 1
  unfold backProjection
  refine Finset.sum_nbij σ (fun i hi => Finset.mem_range.2 (hσ.mapsTo (Finset.mem_range.1 hi))) (fun i hi j hj e => ?_) (fun j hj => ?_)
    fun i hi => ?_
  · exact hσ.injOn (Finset.mem_range.1 hi) (Finset.mem_range.1 hj) e
  · obtain ⟨i, hi, e⟩ := hσ.surjOn (Finset.mem_range.1 hj)
    exact ⟨i, Finset.mem_coe.2 (Finset.mem_range.2 hi), e⟩
  · have hi := Finset.mem_range.1 hi
    have hcs : ({ a with angles := some l' } : Args (Mat ℂ)).cs m.h i = a.cs m.h (σ i) := by
      unfold Args.cs Args.angle
      rw [ha]
      dsimp only
      rw [hl' i hi]
    have hrow : (({ a with angles := some l' } : Args (Mat ℂ)).filtered (({ a with angles := some l' } : Args (Mat ℂ)).logm
        ⟨m.h, m.w, fun i j => m.get (σ i) j⟩)).get i = (a.filtered (a.logm m)).get (σ i) := by
      unfold Args.filtered
      dsimp only
      rw [hwin]
      rfl
    rw [hrow]
    show contribution _ m.w false (((x : ℝ) - ((m.w : ℝ) - 1) / 2) * (({ a with angles := some l' } : Args (Mat ℂ)).cs m.h i).1 +
      ((y : ℝ) - ((m.w : ℝ) - 1) / 2) * (({ a with angles := some l' } : Args (Mat ℂ)).cs m.h i).2 + a.center) = _
    rw [hcs]
    rfl

/-! Mirror. -/

theorem centered_neg (n : ℕ) (hn : 0 < n) (z : ℤ) : centered n (-z) = -centered n z ∨ centered n (-z) = centered n z := by
  have h1 := centered_spec n hn z
  have h2 := centered_spec n hn (-z)
  obtain ⟨q, hq⟩ := h1.1
  obtain ⟨r, hr⟩ := h2.1
  have hs : centered n (-z) + centered n z = n * (q + r) := by linear_combination hq + hr
  have hb : -2 < q + r ∧ q + r < 2 := by
    constructor
    · by_contra hc
      have : (n : ℤ) * (q + r) ≤ n * (-2) := mul_le_mul_of_nonneg_left (by omega) (by omega)
      omega
    · by_contra hc
      have : (n : ℤ) * 2 ≤ n * (q + r) := mul_le_mul_of_nonneg_left (by omega) (by omega)
      omega
  have h3 : q + r = -1 ∨ q + r = 0 ∨ q + r = 1 := by omega
  rcases h3 with h | h | h
  · rw [h] at hs
    right
    omega
  · rw [h] at hs
    left
    omega
  · rw [h] at hs
    right
    omega

theorem ramp_centered_neg (n : ℕ) (hn : 0 < n) (z : ℤ) : ramp (centered n (-z)) = ramp (centered n z) := by
  rcases centered_neg n hn z with h | h
  · rw [h, ramp_even]
  · rw [h]

theorem contribution_between (r : ℕ → ℝ) (w : ℕ) (e : Bool) (f : ℝ) (k : ℕ) (h0 : (k : ℝ) ≤ f) (h1 : f ≤ k + 1) (h2 : k + 1 < w) :
    contribution r w e f = r k + (f - k) * (r (k + 1) - r k) := by
  have hk : (0 : ℝ) ≤ k := Nat.cast_nonneg k
  have hkw : (k : ℝ) + 2 ≤ w := by exact_mod_cast h2
  unfold contribution
  rw [if_neg (by linarith), if_neg (by linarith)]
  rcases h1.lt_or_eq with h | h
  · have : ⌊f⌋ = k := Int.floor_eq_iff.2 ⟨by exact_mod_cast h0, by exact_mod_cast h⟩
    rw [this, Int.toNat_natCast]
  · have : ⌊f⌋ = ((k + 1 : ℕ) : ℤ) := by
      rw [h]
      exact_mod_cast Int.floor_natCast (R := ℝ) (k + 1)
    rw [this, Int.toNat_natCast, h]
    push_cast
    ring

theorem contribution_flip (r : ℕ → ℝ) (w : ℕ) (f : ℝ) (hw : 2 ≤ w) :
    contribution (fun j => r (w - 1 - j)) w false ((w : ℝ) - 1 - f) = contribution r w false f := by
  by_cases h0 : f < 0
  · unfold contribution
    rw [if_pos h0]
    have : (2 : ℝ) ≤ w := by exact_mod_cast hw
    rw [if_neg (by linarith), if_pos (by linarith)]
    rfl
  by_cases h1 : (w : ℝ) - 1 < f
  · unfold contribution
    rw [if_neg h0, if_pos h1, if_pos (by linarith)]
    rfl
  have h0 := not_lt.1 h0
  have h1 := not_lt.1 h1
  obtain ⟨k, hk1, hk2, hk3⟩ : ∃ k : ℕ, (k : ℝ) ≤ f ∧ f ≤ k + 1 ∧ k + 1 < w := by
    by_cases hf : f < (w : ℝ) - 1
    · refine ⟨⌊f⌋.toNat, ?_, ?_, ?_⟩
      all_goals
        have hff : ((⌊f⌋.toNat : ℕ) : ℝ) = (⌊f⌋ : ℝ) := by exact_mod_cast Int.toNat_of_nonneg (Int.floor_nonneg.2 h0)
      · rw [hff]; exact Int.floor_le f
      · rw [hff]; exact (Int.lt_floor_add_one f).le
      · have : ((⌊f⌋.toNat : ℕ) : ℝ) + 1 < w := by
          rw [hff]
          have := Int.floor_le f
          linarith
        exact_mod_cast this
    · refine ⟨w - 2, ?_, ?_, by omega⟩
      all_goals
        rw [Nat.cast_sub hw]
        push_cast
        linarith
  have hc : ((w - 2 - k : ℕ) : ℝ) = (w : ℝ) - 2 - k := by
    rw [Nat.cast_sub (by omega), Nat.cast_sub hw]
    simp
  rw [contribution_between r w false f k hk1 hk2 hk3,
    contribution_between _ w false _ (w - 2 - k) (by rw [hc]; linarith) (by rw [hc]; linarith) (by omega), hc]
  have e1 : w - 1 - (w - 2 - k) = k + 1 := by omega
  have e2 : w - 1 - (w - 2 - k + 1) = k := by omega
  rw [e1, e2]
  ring

/-- C104: half a turn is a mirrored detector: with every row of the sinogram reversed, all angles increased by 180 degrees and the centre at
`ncol - 1 - center`, the image is the same (unsmoothed ramp, pad mode symmetric such as "edge", fixed ratio). -/
theorem fbp_mirror (a : Args (Mat ℂ)) (m m' : Mat ℝ) (l : List ℝ) (ha : a.angles = some l) (hwin : a.rampWin = none) (hf : a.filter = .other)
    (hr : a.ratio ≠ some 0) (hc : a.center ≤ (m.w : ℝ) - 1)
    (hpad : ∀ j < m.w + 2 * a.padOf m.w, a.padIdx m.w (a.padOf m.w) j < m.w ∧
      a.padIdx m.w (a.padOf m.w) (m.w + 2 * a.padOf m.w - 1 - j) = m.w - 1 - a.padIdx m.w (a.padOf m.w) j)
    (hl : a.Launched m.w) (h : fbp a (.one m) = .ok (.one m')) :
    ∃ o : Mat ℝ, fbp { a with angles := some (l.map fun t => t + Real.pi), center := (m.w : ℝ) - 1 - a.center }
      (.one ⟨m.h, m.w, fun i j => m.get i (m.w - 1 - j)⟩) = .ok (.one o) ∧ o.Eqv m' := by
  obtain ⟨⟨c0, c1, c2, c3, c4⟩, a1, a2, a3⟩ := fbp_one_inv a m m' hl h
  have hlen : l.length = m.h := c2 l ha
  set a' : Args (Mat ℂ) := { a with angles := some (l.map fun t => t + Real.pi), center := (m.w : ℝ) - 1 - a.center } with ha'
  set mf : Mat ℝ := ⟨m.h, m.w, fun i j => m.get i (m.w - 1 - j)⟩ with hmf
  obtain ⟨o, ho, o1, o2, o3⟩ := fbp_one a' mf hl (by show 0 ≤ (m.w : ℝ) - 1 - a.center; linarith)
    (by show (m.w : ℝ) - 1 - a.center < m.w; linarith) (fun k hk => by cases hk; rw [List.length_map]; exact hlen) c3 c4
  refine ⟨o, ho, o1.trans a1.symm, o2.trans a2.symm, fun y hy x hx => ?_⟩
  have hy : y < m.w := lt_of_lt_of_eq hy o1
  have hx : x < m.w := lt_of_lt_of_eq hx o2
  have hw2 : 2 ≤ m.w := by omega
  rw [o3 y hy x hx, a3 y hy x hx, fbp_closed_form a' mf y x hf hwin (by show 0 < m.w; omega), fbp_closed_form a m y x hf hwin (by omega)]
  have hmask : a'.maskAt mf.w y x = a.maskAt m.w y x := by
    unfold Args.maskAt
    rw [show a'.ratio = a.ratio from rfl]
    cases hra : a.ratio with
    | none => rfl
    | some r =>
      have : r ≠ 0 := fun e => hr (by rw [hra, e])
      dsimp only
      rw [if_neg this, if_neg this]
  rw [hmask]
  show _ * ∑ i ∈ Finset.range m.h, _ = _
  refine congrArg₂ _ rfl (Finset.sum_congr rfl fun i hi => ?_)
  have hi : i < l.length := by rw [hlen]; exact Finset.mem_range.1 hi
  have hang' : a'.angle mf.h i = a.angle m.h i + Real.pi := by
    unfold Args.angle
    rw [ha]
    exact getD_map_lt l _ i hi
  set P := a.padOf m.w with hP
  set N := m.w + 2 * P with hN
  rw [← contribution_flip _ m.w (_ + a.center) hw2]
  have hpos : ((x : ℝ) - ((mf.w : ℝ) - 1) / 2) * Real.cos (a'.angle mf.h i) - ((y : ℝ) - ((mf.w : ℝ) - 1) / 2) * Real.sin (a'.angle mf.h i) +
      a'.center = (m.w : ℝ) - 1 - (((x : ℝ) - ((m.w : ℝ) - 1) / 2) * Real.cos (a.angle m.h i) -
        ((y : ℝ) - ((m.w : ℝ) - 1) / 2) * Real.sin (a.angle m.h i) + a.center) := by
    rw [hang', Real.cos_add_pi, Real.sin_add_pi]
    show ((x : ℝ) - ((m.w : ℝ) - 1) / 2) * -Real.cos (a.angle m.h i) - ((y : ℝ) - ((m.w : ℝ) - 1) / 2) * -Real.sin (a.angle m.h i) +
      ((m.w : ℝ) - 1 - a.center) = _
    ring
  rw [hpos]
  refine contribution_congr _ _ _ _ _ (by omega) fun j hj => ?_
  have hj : j < m.w := hj
  show ∑ p ∈ Finset.range N, a.logv (m.get i (m.w - 1 - a.padIdx m.w P p)) * ramp (centered N (((P + j : ℕ) : ℤ) - p)) =
    ∑ p ∈ Finset.range N, a.logv (m.get i (a.padIdx m.w P p)) * ramp (centered N (((P + (m.w - 1 - j) : ℕ) : ℤ) - p))
  rw [← Finset.sum_range_reflect]
  refine Finset.sum_congr rfl fun p hp => ?_
  have hp := Finset.mem_range.1 hp
  have h1 := hpad p hp
  rw [h1.2, show m.w - 1 - (m.w - 1 - a.padIdx m.w P p) = a.padIdx m.w P p from by omega, ← ramp_centered_neg N (by omega)]
  congr 3
  omega

/-! Integer data on one core. -/

/-- C104: integer data, no logarithm, one core: the filtered values are stored into an integer array, i.e. rounded towards zero, before the
back-projection. -/
theorem fbp_int_one_core (a : Args (Mat ℂ)) (s : Arr3 ℝ) (out : Arr) (hl : a.Launched s.w) (h : fbp a (.chunk s) = .ok out) (hn : s.h ≠ 1)
    (h1 : a.ncore = 1) (h2 : a.isInt = true) (h3 : a.applyLog = false) (j y x : ℕ) (hj : j < s.h) (hy : y < s.w) (hx : x < s.w) :
    (out.slice j).get y x = a.maskAt s.w y x * (Real.pi / ((s.d : ℝ) - 1)) * backProjection
      ⟨s.d, s.w, fun i c => ((truncInt ((a.filtered (sinogramOf s j)).get i c) : ℤ) : ℝ)⟩ (a.cs s.d) a.center false y x := by
  rw [show sinogramOf s j = chunkSino s j from rfl]
  rw [fbp_unfold a (.chunk s) hl] at h
  by_cases hb : a.bad (Arr.chunk s).nrow (Arr.chunk s).ncol
  · rw [if_pos hb] at h
    exact (nomatch h)
  rw [if_neg hb, if_neg (by exact hn)] at h
  cases h
  show (stack s.w _).get y j x = _
  rw [stack_slice _ _ _ _ (show j < (Arr.chunk s).num from hj)]
  have hlg : a.logm (chunkSino s j) = chunkSino s j := by
    unfold Args.logm Args.logv
    rw [h3]
    rfl
  have hd := ramp_default (chunkSino s j) a.rampWin a.filter (a.padOf s.w) a.padIdx
  have e : filterChunkSlice a (a.rampWin.getD (ramp2d s.d (s.w + 2 * a.padOf s.w) a.filter)) (a.padOf s.w) (a.logm ((Arr.chunk s).slice j)) =
      ⟨s.d, s.w, fun i c => ((truncInt ((a.filtered (chunkSino s j)).get i c) : ℤ) : ℝ)⟩ := by
    show filterChunkSlice a _ _ (a.logm (chunkSino s j)) = _
    rw [hlg]
    unfold filterChunkSlice
    dsimp only
    rw [if_pos h1]
    have hd' : applyRampFilter (chunkSino s j) (some (a.rampWin.getD (ramp2d s.d (s.w + 2 * a.padOf s.w) a.filter))) a.filter (a.padOf s.w)
        a.padIdx = a.filtered (chunkSino s j) := hd
    rw [hd']
    have hst : ∀ v, a.store v = ((truncInt v : ℤ) : ℝ) := fun v => by
      unfold Args.store
      rw [if_pos ⟨h2, h3⟩]
    simp only [hst]
    rfl
  show a.finish s.d s.w (bpMat a s.d false (filterChunkSlice a (a.rampWin.getD (ramp2d s.d (s.w + 2 * a.padOf s.w) a.filter)) (a.padOf s.w)
    (a.logm ((Arr.chunk s).slice j)))).get y x = _
  rw [e]
  unfold Args.finish bpMat
  dsimp only
  rw [if_pos ⟨hy, hx⟩]
  ring

/-- Arguments of the counterexample and of the examples. -/
noncomputable def exArgs : Args (Mat ℂ) :=
  { center := 1 / 2, angles := some [0, 0], ratio := none, rampWin := none, filter := .other, pad := some 0, padIdx := edgeIdx,
    applyLog := false, isInt := true, ncore := 2, bx := 2, order := [0, 1, 2, 3] }

/-- The arguments launch the whole grid for a width of two. -/
theorem exArgs_launched : exArgs.Launched 2 := by
  refine ⟨by norm_num [exArgs], 2, by norm_num, ?_⟩
  have : (gridDim 2 exArgs.bx * exArgs.bx) * (gridDim 2 2 * 2) = 4 := by simp [exArgs, gridDim]
  rw [this]
  intro t ht
  have : t = 0 ∨ t = 1 ∨ t = 2 ∨ t = 3 := by omega
  rcases this with h | h | h | h <;> simp [h, exArgs]

/-- The chunk of the counterexample: two equal sinograms with two projections `[1, 0]`. -/
def exChunk : Arr3 ℝ := ⟨2, 2, 2, fun _ _ c => if c = 0 then 1 else 0⟩

theorem exFiltered (i : ℕ) : (exArgs.filtered (chunkSino exChunk 0)).get i 0 = 1 / 4 := by
  have h := ramp_filter_convolution (chunkSino exChunk 0) 0 (edgeIdx 2 0) i 0 (by show 0 < 2; norm_num)
  have e : (exArgs.filtered (chunkSino exChunk 0)).get i 0 = (applyRamp (chunkSino exChunk 0) (fun _ => 1) 0 (edgeIdx 2 0)).get i 0 := rfl
  rw [e, h]
  show ∑ p ∈ Finset.range 2, (if edgeIdx 2 0 p = 0 then (1 : ℝ) else 0) * ramp (centered 2 (((0 + 0 : ℕ) : ℤ) - p)) = 1 / 4
  rw [Finset.sum_range_succ, Finset.sum_range_one]
  norm_num [edgeIdx, centered, ramp]

theorem exBp (m : Mat ℝ) (hh : m.h = 2) (hw : m.w = 2) (h : ∀ i, m.get i 0 = m.get 0 0) :
    backProjection m (exArgs.cs 2) exArgs.center false 0 0 = 2 * m.get 0 0 := by
  unfold backProjection
  rw [hh, hw, Finset.sum_range_succ, Finset.sum_range_one]
  have hcs : exArgs.cs 2 0 = (1, 0) ∧ exArgs.cs 2 1 = (1, 0) := by
    constructor <;> simp [Args.cs, Args.angle, exArgs]
  rw [hcs.1, hcs.2]
  have hpos : ((0 : ℕ) : ℝ) = 0 := Nat.cast_zero
  have : (((0 : ℕ) : ℝ) - (((2 : ℕ) : ℝ) - 1) / 2) * 1 + (((0 : ℕ) : ℝ) - (((2 : ℕ) : ℝ) - 1) / 2) * 0 + exArgs.center = ((0 : ℕ) : ℝ) := by
    norm_num [exArgs]
  dsimp only
  rw [this]
  have hc : ∀ r : ℕ → ℝ, contribution r 2 false ((0 : ℕ) : ℝ) = r 0 := by
    intro r
    rw [contribution_between r 2 false _ 0 (by norm_num) (by norm_num) (by norm_num)]
    ring
  rw [hc, hc, h 1]
  ring

/-- C104 refuted ("the number of cores does not change the result"): integer data without logarithm, one core against two. -/
theorem fbp_ncore_refuted : ∃ (a : Args (Mat ℂ)) (s : Arr3 ℝ) (o1 o2 : Arr), a.Launched s.w ∧ (∀ i j c, ∃ z : ℤ, s.get i j c = z) ∧
    fbp { a with ncore := 1 } (.chunk s) = .ok o1 ∧ fbp { a with ncore := 2 } (.chunk s) = .ok o2 ∧
    (o1.slice 0).get 0 0 = 0 ∧ (o2.slice 0).get 0 0 = Real.pi / 2 := by
  have hl := exArgs_launched
  have hok : ∀ n, ∃ o, fbp { exArgs with ncore := n } (.chunk exChunk) = .ok o := fun n =>
    (fbp_error_iff { exArgs with ncore := n } (.chunk exChunk) hl).1.2 ⟨by norm_num [exArgs], by
      show (1 / 2 : ℝ) < ((2 : ℕ) : ℝ)
      norm_num, fun l h => by cases h; rfl, fun h => absurd h (by decide)⟩
  obtain ⟨o1, h1⟩ := hok 1
  obtain ⟨o2, h2⟩ := hok 2
  refine ⟨exArgs, exChunk, o1, o2, hl, fun i j c => ?_, h1, h2, ?_, ?_⟩
  · unfold exChunk
    dsimp only
    split
    · exact ⟨1, by simp⟩
    · exact ⟨0, by simp⟩
  · rw [fbp_int_one_core { exArgs with ncore := 1 } exChunk o1 hl h1 (by decide) rfl rfl rfl 0 0 0 (by decide) (by decide) (by decide)]
    have e := exBp ⟨2, 2, fun i c => ((truncInt ((exArgs.filtered (chunkSino exChunk 0)).get i c) : ℤ) : ℝ)⟩ rfl rfl (fun i => by
      dsimp only
      rw [exFiltered, exFiltered])
    have e' : backProjection ⟨exChunk.d, exChunk.w, fun i c => ((truncInt ((({ exArgs with ncore := 1 } : Args (Mat ℂ)).filtered
        (sinogramOf exChunk 0)).get i c) : ℤ) : ℝ)⟩ (({ exArgs with ncore := 1 } : Args (Mat ℂ)).cs exChunk.d)
        ({ exArgs with ncore := 1 } : Args (Mat ℂ)).center false 0 0 = 0 := by
      refine e.trans ?_
      dsimp only
      rw [exFiltered]
      have : truncInt (1 / 4 : ℝ) = 0 := by
        unfold truncInt
        rw [if_pos (by norm_num), Int.floor_eq_iff]
        norm_num
      rw [this]
      simp
    rw [e', mul_zero]
  · have hs := (fbp_spec { exArgs with ncore := 2 } (.chunk exChunk) o2 hl h2 (.inr (.inl (by decide)))).2.2.2.2 0 (by decide) 0 (by decide) 0
      (by decide)
    rw [hs]
    unfold Args.image
    have hlg : (({ exArgs with ncore := 2 } : Args (Mat ℂ)).logm ((Arr.chunk exChunk).slice 0)) = chunkSino exChunk 0 := rfl
    rw [hlg]
    have e := exBp (exArgs.filtered (chunkSino exChunk 0)) rfl rfl (fun i => by rw [exFiltered, exFiltered])
    rw [exFiltered] at e
    have e' : backProjection (({ exArgs with ncore := 2 } : Args (Mat ℂ)).filtered (chunkSino exChunk 0))
        (({ exArgs with ncore := 2 } : Args (Mat ℂ)).cs ((Arr.chunk exChunk).slice 0).h) ({ exArgs with ncore := 2 } : Args (Mat ℂ)).center false 0 0 =
        2 * (1 / 4) := e
    rw [e']
    show 1 * (Real.pi / (((2 : ℕ) : ℝ) - 1)) * (2 * (1 / 4)) = Real.pi / 2
    norm_num
    ring

/-! ### C105: back-projection, then filtering -/

/-- The window `bpf_reconstruction` filters with: the caller's if it fits, else the one made from `fallback`. -/
noncomputable def Args.imageB (a : Args (Mat ℝ)) (fallback : Filter) (m : Mat ℝ) (y x : ℕ) : ℝ :=
  a.maskAt m.w y x * (Real.pi / ((m.h : ℝ) - 1)) *
    (applyCircFilter (bpMat a m.h true (a.logm m)) a.rampWin fallback (a.padOf m.w) a.padIdx).get y x

theorem circ_default (m : Mat ℝ) (win : Option (Mat ℝ)) (f g : Filter) (pad : ℕ) (p : ℕ → ℕ → ℕ → ℕ)
    (h : win = none ∨ f = g) : applyCircFilter m (some (win.getD (circRamp (m.h + 2 * pad) f))) g pad p = applyCircFilter m win f pad p := by
  cases win with
  | none => unfold applyCircFilter; simp [circRamp, Polar.window2d, fitting]
  | some v =>
    rcases h with h | h
    · exact (nomatch h)
    · rw [h]
      rfl

open Classical in
theorem bpf_unfold (a : Args (Mat ℝ)) (x : Arr) (hl : a.Launched x.ncol) :
    bpf a x = if a.bad x.nrow x.ncol then .error .valueError
      else if x.num = 1 then
        if x.nrow = 1 ∨ x.ncol = 1 then .error .typeError
        else
          let out : Mat ℝ := ⟨x.ncol, x.ncol, a.finish x.nrow x.ncol (applyCircFilter (bpMat a x.nrow true (a.logm (x.slice 0)))
            a.rampWin (if a.rampWin = none then a.filter else .other) (a.padOf x.ncol) a.padIdx).get⟩
          .ok (match x with | .one _ => .one out | .chunk _ => .chunk (stack x.ncol [out]))
      else .ok (.chunk (stack x.ncol ((List.range x.num).map fun j =>
        ⟨x.ncol, x.ncol, a.finish x.nrow x.ncol (applyCircFilter (bpMat a x.nrow true (a.logm (x.slice j))) a.rampWin a.filter
          (a.padOf x.ncol) a.padIdx).get⟩))) := by
  unfold bpf
  dsimp only
  by_cases hb : a.bad x.nrow x.ncol
  · rw [if_pos hb, if_pos hb]
  rw [if_neg hb, if_neg hb]
  have hbp : ∀ j, bpImage a x.nrow true (a.logm (x.slice j)) = .ok (bpMat a x.nrow true (a.logm (x.slice j))) := fun j =>
    bpImage_ok a _ true _ (by show a.Launched (x.slice j).w; rw [(slice_shape x j).2]; exact hl)
  have hsh : ∀ j, (bpMat a x.nrow true (a.logm (x.slice j))).h = x.ncol := fun j => (slice_shape x j).2
  by_cases h1 : x.num = 1
  · rw [if_pos h1, if_pos h1]
    by_cases h2 : x.nrow = 1 ∨ x.ncol = 1
    · rw [if_pos h2, if_pos h2]
    · rw [if_neg h2, if_neg h2, hbp 0, Stacks.ok_bind]
      have e : applyCircFilter (bpMat a x.nrow true (a.logm (x.slice 0))) (some (a.rampWin.getD (circRamp (x.ncol + 2 * a.padOf x.ncol) a.filter)))
          .other (a.padOf x.ncol) a.padIdx = applyCircFilter (bpMat a x.nrow true (a.logm (x.slice 0))) a.rampWin
            (if a.rampWin = none then a.filter else .other) (a.padOf x.ncol) a.padIdx := by
        by_cases hn : a.rampWin = none
        · rw [if_pos hn]
          have := circ_default (bpMat a x.nrow true (a.logm (x.slice 0))) a.rampWin a.filter .other (a.padOf x.ncol) a.padIdx (.inl hn)
          rw [hsh 0] at this
          exact this
        · rw [if_neg hn]
          cases hv : a.rampWin with
          | none => exact absurd hv hn
          | some v => rfl
      rw [e]
      cases x <;> rfl
  · rw [if_neg h1, if_neg h1]
    rw [BackProj.mapM_ok (g := fun j => (⟨x.ncol, x.ncol, a.finish x.nrow x.ncol (applyCircFilter (bpMat a x.nrow true (a.logm (x.slice j)))
        a.rampWin a.filter (a.padOf x.ncol) a.padIdx).get⟩ : Mat ℝ)) _ fun j _ => by
      rw [hbp j, Stacks.ok_bind]
      have := circ_default (bpMat a x.nrow true (a.logm (x.slice j))) a.rampWin a.filter a.filter (a.padOf x.ncol) a.padIdx (.inr rfl)
      rw [hsh j] at this
      rw [this]
      rfl]
    rfl

theorem bad_iff (a : Args W) (nrow ncol : ℕ) :
    a.bad nrow ncol ↔ ¬ (0 ≤ a.center ∧ a.center < ncol ∧ ∀ l, a.angles = some l → l.length = nrow) := by
  unfold Args.bad
  constructor
  · rintro (h | h | ⟨l, h1, h2⟩) ⟨h3, h4, h5⟩
    · exact absurd h3 (not_le.2 h)
    · exact absurd h4 (not_lt.2 h)
    · exact h2 (h5 l h1)
  · intro h
    by_contra hc
    push Not at hc
    exact h ⟨hc.1, hc.2.1, fun l hl => by_contra fun hn => absurd (hc.2.2 l hl) hn⟩

/-- C105: when `bpf_reconstruction` succeeds (as for C104; a squeezed axis is a typing error of the compiled kernel). -/
theorem bpf_error_iff (a : Args (Mat ℝ)) (x : Arr) (hl : a.Launched x.ncol) :
    (∃ out, bpf a x = .ok out) ↔
      (0 ≤ a.center ∧ a.center < x.ncol ∧ (∀ l, a.angles = some l → l.length = x.nrow) ∧ (x.num = 1 → x.nrow ≠ 1 ∧ x.ncol ≠ 1)) := by
  rw [bpf_unfold a x hl]
  by_cases h : a.bad x.nrow x.ncol
  · rw [if_pos h]
    exact ⟨fun ⟨o, ho⟩ => (nomatch ho), fun hc => absurd ⟨hc.1, hc.2.1, hc.2.2.1⟩ ((bad_iff a _ _).1 h)⟩
  · have hg := not_not.1 (mt (bad_iff a _ _).2 h)
    rw [if_neg h]
    by_cases h1 : x.num = 1
    · rw [if_pos h1]
      by_cases h2 : x.nrow = 1 ∨ x.ncol = 1
      · rw [if_pos h2]
        refine ⟨fun ⟨o, ho⟩ => (nomatch ho), fun hc => ?_⟩
        have := hc.2.2.2 h1
        rcases h2 with h2 | h2
        · exact absurd h2 this.1
        · exact absurd h2 this.2
      · rw [if_neg h2]
        push Not at h2
        exact ⟨fun _ => ⟨hg.1, hg.2.1, hg.2.2, fun _ => h2⟩, fun _ => ⟨_, rfl⟩⟩
    · rw [if_neg h1]
      exact ⟨fun _ => ⟨hg.1, hg.2.1, hg.2.2, fun h => absurd h h1⟩, fun _ => ⟨_, rfl⟩⟩

/-- C105: the result: image `j` is the filtered back-projection of sinogram `j`, inside the circle; a caller's window that does not fit is
replaced by the unsmoothed window for a single slice, by the window of the filter name for a chunk. -/
theorem bpf_spec (a : Args (Mat ℝ)) (x out : Arr) (hl : a.Launched x.ncol) (h : bpf a x = .ok out) :
    out.nrow = x.ncol ∧ out.ncol = x.ncol ∧ out.num = x.num ∧ ((∃ m, x = .one m) ↔ ∃ m, out = .one m) ∧
    ∀ j < x.num, ∀ y < x.ncol, ∀ k < x.ncol, (out.slice j).get y k =
      a.imageB (if x.num = 1 ∧ a.rampWin ≠ none then .other else a.filter) (x.slice j) y k := by
  rw [bpf_unfold a x hl] at h
  have key : ∀ (f : Filter) (j y k : ℕ), a.finish x.nrow x.ncol (applyCircFilter (bpMat a x.nrow true (a.logm (x.slice j))) a.rampWin f
      (a.padOf x.ncol) a.padIdx).get y k = a.imageB f (x.slice j) y k := by
    intro f j y k
    unfold Args.finish Args.imageB
    rw [(slice_shape x j).1, (slice_shape x j).2]
    ring
  by_cases hb : a.bad x.nrow x.ncol
  · rw [if_pos hb] at h
    exact (nomatch h)
  rw [if_neg hb] at h
  by_cases h1 : x.num = 1
  · rw [if_pos h1] at h
    by_cases h2 : x.nrow = 1 ∨ x.ncol = 1
    · rw [if_pos h2] at h
      exact (nomatch h)
    rw [if_neg h2] at h
    have hff : (if x.num = 1 ∧ a.rampWin ≠ none then Filter.other else a.filter) = if a.rampWin = none then a.filter else .other := by
      by_cases hn : a.rampWin = none
      · rw [if_pos hn, if_neg (fun h => h.2 hn)]
      · rw [if_neg hn, if_pos ⟨h1, hn⟩]
    rw [hff, h1]
    cases x with
    | one m =>
      cases h
      exact ⟨rfl, rfl, rfl, by simp, fun j hj y hy k hk => key _ 0 y k⟩
    | chunk s =>
      cases h
      refine ⟨rfl, rfl, rfl, by simp, fun j hj y hy k hk => ?_⟩
      have hj : j = 0 := by omega
      subst hj
      exact key _ 0 y k
  · rw [if_neg h1] at h
    cases h
    have hx : ¬ ∃ m, x = .one m := by
      rintro ⟨m, rfl⟩
      exact h1 rfl
    refine ⟨rfl, rfl, by simp [Arr.num, stack], ⟨fun h => absurd h hx, by simp⟩, fun j hj y hy k hk => ?_⟩
    show (stack x.ncol _).get y j k = _
    rw [stack_slice _ _ _ _ hj, if_neg (fun h => h1 h.1)]
    exact key _ j y k

/-- C105 (partial): a chunk is reconstructed slice by slice, if the caller gives no window, a fitting one, or no filter name. -/
theorem bpf_chunk_eq_slices_partial (a : Args (Mat ℝ)) (s : Arr3 ℝ) (out : Arr) (hl : a.Launched s.w) (h : bpf a (.chunk s) = .ok out)
    (hw : ∀ v, a.rampWin = some v → (v.h = s.w + 2 * a.padOf s.w ∧ v.w = s.w + 2 * a.padOf s.w) ∨ a.filter = .other)
    (h2 : s.d ≠ 1) (h3 : s.w ≠ 1) (j : ℕ) (hj : j < s.h) :
    ∃ m, bpf a (.one (sinogramOf s j)) = .ok (.one m) ∧ m.Eqv (out.slice j) := by
  rw [show sinogramOf s j = chunkSino s j from rfl]
  have hs := bpf_spec a (.chunk s) out hl h
  have hok := ((bpf_error_iff a (.chunk s) hl).1 ⟨out, h⟩)
  obtain ⟨o, ho⟩ := (bpf_error_iff a (.one (chunkSino s j)) hl).2 ⟨hok.1, hok.2.1, hok.2.2.1, fun _ => ⟨h2, h3⟩⟩
  have hs1 := bpf_spec a (.one (chunkSino s j)) o hl ho
  obtain ⟨m, rfl⟩ := hs1.2.2.2.1.1 ⟨_, rfl⟩
  have hany : ∀ (f g : Filter) (y x : ℕ), (a.rampWin ≠ none ∨ f = g) → (f = g ∨ a.filter ≠ .other) →
      a.imageB f (chunkSino s j) y x = a.imageB g (chunkSino s j) y x := by
    intro f g y x hn hg
    by_cases hfg : f = g
    · rw [hfg]
    have hn := hn.resolve_right hfg
    have hg := hg.resolve_left hfg
    obtain ⟨v, hv⟩ := Option.ne_none_iff_exists'.1 hn
    have hsz := (hw v hv).resolve_right hg
    unfold Args.imageB applyCircFilter
    rw [hv]
    unfold fitting
    have hsz' : v.h = (bpMat a (chunkSino s j).h true (a.logm (chunkSino s j))).h + 2 * a.padOf (chunkSino s j).w ∧
        v.w = (bpMat a (chunkSino s j).h true (a.logm (chunkSino s j))).h + 2 * a.padOf (chunkSino s j).w := hsz
    dsimp only
    rw [if_pos hsz', if_pos hsz']
  refine ⟨m, ho, ?_, ?_, fun y hy x hx => ?_⟩
  · exact hs1.1.trans (hs.1.symm.trans (slice_shape out j).1.symm)
  · exact hs1.2.1.trans (hs.2.1.symm.trans (slice_shape out j).2.symm)
  · have hy : y < s.w := lt_of_lt_of_eq hy hs1.1
    have hx : x < s.w := lt_of_lt_of_eq hx hs1.2.1
    rw [hs.2.2.2.2 j hj y hy x hx]
    refine (hs1.2.2.2.2 0 (by show 0 < 1; omega) y hy x hx).trans ?_
    show a.imageB _ (chunkSino s j) y x = a.imageB _ (chunkSino s j) y x
    by_cases hn : a.rampWin = none
    · rw [if_neg (fun h => h.2 hn), if_neg (fun h => h.2 hn)]
    · by_cases ho : a.filter = .other
      · rw [ho]
        simp
      · exact hany _ _ y x (.inl hn) (.inr ho)

/-- C105: outside the circle the reconstruction is zero (`ratio` not None and not 0). -/
theorem bpf_outside_zero (a : Args (Mat ℝ)) (x out : Arr) (hl : a.Launched x.ncol) (h : bpf a x = .ok out) (r : ℝ) (hr : a.ratio = some r)
    (hr0 : r ≠ 0) (j y k : ℕ) (hj : j < x.num) (hy : y < x.ncol) (hk : k < x.ncol)
    (hout : (r * ((x.ncol / 2 : ℕ) : ℝ)) ^ 2 < (dist2 x.ncol y k : ℝ)) : (out.slice j).get y k = 0 := by
  rw [(bpf_spec a x out hl h).2.2.2.2 j hj y hy k hk]
  unfold Args.imageB Args.maskAt
  rw [hr]
  dsimp only
  rw [if_neg hr0, (slice_shape x j).2, (circle_mask_spec _ r y k).2.2, if_neg (not_le.2 hout)]
  ring

theorem circ_linear (α β : ℝ) (m n : Mat ℝ) (hh : n.h = m.h) (win : Option (Mat ℝ)) (f : Filter) (pad : ℕ) (p : ℕ → ℕ → ℕ → ℕ) (i j : ℕ) :
    (applyCircFilter (lin α β m n) win f pad p).get i j = α * (applyCircFilter m win f pad p).get i j + β * (applyCircFilter n win f pad p).get i j := by
  unfold applyCircFilter
  dsimp only
  rw [show (lin α β m n).h = m.h from rfl, hh]
  set N := m.h + 2 * pad
  exact filter2_linear ⟨N, N, fun i j => m.get (p m.h pad i) (p m.h pad j)⟩ ⟨N, N, fun i j => n.get (p m.h pad i) (p m.h pad j)⟩ rfl rfl α β _ _ _

/-- C105: without logarithm the reconstruction is linear in the sinogram. -/
theorem bpf_linear (a : Args (Mat ℝ)) (α β : ℝ) (m n m' n' : Mat ℝ) (hh : n.h = m.h) (hw : n.w = m.w) (hlog : a.applyLog = false)
    (hl : a.Launched m.w) (h1 : bpf a (.one m) = .ok (.one m')) (h2 : bpf a (.one n) = .ok (.one n')) :
    ∃ o, bpf a (.one (lin α β m n)) = .ok (.one o) ∧ o.Eqv (lin α β m' n') := by
  have hl' : a.Launched (Arr.one m).ncol := hl
  have hok := (bpf_error_iff a (.one m) hl').1 ⟨_, h1⟩
  obtain ⟨o, ho⟩ := (bpf_error_iff a (.one (lin α β m n)) hl).2 hok
  have hs := bpf_spec a (.one (lin α β m n)) o hl ho
  obtain ⟨o, rfl⟩ := hs.2.2.2.1.1 ⟨_, rfl⟩
  have s1 := bpf_spec a (.one m) _ hl' h1
  have s2 := bpf_spec a (.one n) _ (show a.Launched n.w by rw [hw]; exact hl) h2
  have hlg : ∀ k : Mat ℝ, a.logm k = k := by
    intro k
    unfold Args.logm Args.logv
    rw [hlog]
    rfl
  refine ⟨o, ho, hs.1.trans s1.1.symm, hs.2.1.trans s1.2.1.symm, fun y hy x hx => ?_⟩
  have hy : y < m.w := lt_of_lt_of_eq hy hs.1
  have hx : x < m.w := lt_of_lt_of_eq hx hs.2.1
  have f0 := hs.2.2.2.2 0 (by show 0 < 1; omega) y hy x hx
  have f1 := s1.2.2.2.2 0 (by show 0 < 1; omega) y hy x hx
  have f2 := s2.2.2.2.2 0 (by show 0 < 1; omega) y (by show y < n.w; omega) x (by show x < n.w; omega)
  obtain ⟨g, hg⟩ : ∃ g, g = if 1 = 1 ∧ a.rampWin ≠ none then Filter.other else a.filter := ⟨_, rfl⟩
  have f0 : o.get y x = a.imageB g (lin α β m n) y x := by rw [hg]; exact f0
  have f1 : m'.get y x = a.imageB g m y x := by rw [hg]; exact f1
  have f2 : n'.get y x = a.imageB g n y x := by rw [hg]; exact f2
  show o.get y x = α * m'.get y x + β * n'.get y x
  rw [f0, f1, f2]
  unfold Args.imageB
  have hbp : bpMat a m.h true (lin α β m n) = lin α β (bpMat a m.h true m) (bpMat a m.h true n) := by
    unfold bpMat
    rw [show (lin α β m n).w = m.w from rfl, hw]
    unfold lin
    congr 1
    funext y x
    dsimp only
    by_cases hyx : y < m.w ∧ x < m.w
    · rw [if_pos hyx, if_pos hyx, if_pos hyx]
      exact backProjection_linear α β m n hh hw _ _ _ _ _
    · rw [if_neg hyx, if_neg hyx, if_neg hyx]
      ring
  rw [hlg, hlg, hlg, show (lin α β m n).w = m.w from rfl, show (lin α β m n).h = m.h from rfl, hh, hw, hbp,
    circ_linear α β (bpMat a m.h true m) (bpMat a m.h true n) hw]
  ring

theorem contribution_const (r : ℕ → ℝ) (w : ℕ) (c f : ℝ) (hw : 0 < w) (h : ∀ j < w, r j = c) : contribution r w true f = c := by
  rw [contribution_congr r (fun _ => c) w true f hw h]
  unfold contribution
  simp

/-- C105: a constant sinogram (without logarithm) gives a constant image inside the circle: `nrow` times the value, times the gain of the
window at frequency zero, weighted. -/
theorem bpf_constant (a : Args (Mat ℝ)) (f : Filter) (m : Mat ℝ) (c : ℝ) (hlog : a.applyLog = false) (hm : 0 < m.w)
    (hc : ∀ i < m.h, ∀ j < m.w, m.get i j = c) (hpad : ∀ j < m.w + 2 * a.padOf m.w, a.padIdx m.w (a.padOf m.w) j < m.w) (y x : ℕ)
    (V : Mat ℝ) (hV : V = fitting a.rampWin (m.w + 2 * a.padOf m.w) (m.w + 2 * a.padOf m.w) (circRamp (m.w + 2 * a.padOf m.w) f)) :
    a.imageB f m y x = a.maskAt m.w y x * (Real.pi / ((m.h : ℝ) - 1)) *
      (V.get ((m.w + 2 * a.padOf m.w) / 2) ((m.w + 2 * a.padOf m.w) / 2) * (m.h * c)) := by
  have hlg : a.logm m = m := by
    unfold Args.logm Args.logv
    rw [hlog]
    rfl
  unfold Args.imageB applyCircFilter
  rw [hlg]
  dsimp only
  have hh : (bpMat a m.h true m).h = m.w := rfl
  rw [hh, ← hV]
  set N := m.w + 2 * a.padOf m.w with hN
  have hN0 : 0 < N := by omega
  congr 1
  rw [filter2_const ⟨N, N, fun i j => (bpMat a m.h true m).get (a.padIdx m.w (a.padOf m.w) i) (a.padIdx m.w (a.padOf m.w) j)⟩ (m.h * c)
    (fun i hi j hj => ?_) _ hN0 hN0]
  · rw [ifftshiftIdx_zero, Complex.ofReal_re]
  · dsimp only
    unfold bpMat
    dsimp only
    rw [if_pos ⟨hpad i hi, hpad j hj⟩]
    unfold backProjection
    rw [Finset.sum_congr rfl fun k hk => contribution_const (m.get k) m.w c _ hm (hc k (Finset.mem_range.1 hk)), Finset.sum_const,
      Finset.card_range, nsmul_eq_mul]

/-- Gain of the default window of `bpf_reconstruction` at frequency zero. -/
theorem circ_gain (n : ℕ) (f : Filter) (hn : 2 ≤ n) :
    (circRamp n f).get (n / 2) (n / 2) = |∑ i ∈ Finset.range n, ramp ((i : ℤ) - (n / 2 : ℕ))| * smoothingWindow f n (n / 2) := by
  unfold circRamp
  refine ((Polar.window_central_column n _ hn).2.2 (n / 2) (by omega)).trans ?_
  congr 1
  have : fftshiftIdx n (n / 2) = 0 := by
    unfold fftshiftIdx
    rw [show n / 2 + (n - n / 2) = n by omega, Nat.mod_self]
  rw [this]
  unfold dft
  have hz : ∀ i : ℕ, (rampKernel n i : ℂ) * Complex.exp (-(2 * Real.pi * Complex.I * (((0 : ℕ) : ℂ) * i / n))) = ((rampKernel n i : ℝ) : ℂ) := by
    intro i
    simp
  simp only [hz]
  rw [← Complex.ofReal_sum, Complex.norm_real, Real.norm_eq_abs]
  congr 1
  exact Finset.sum_congr rfl fun i _ => rampKernel_eq n i

/-- Arguments of the counterexample: a window of the wrong shape, and the default filter name. -/
noncomputable def exArgsB : Args (Mat ℝ) :=
  { center := 1 / 2, angles := none, ratio := none, rampWin := some ⟨5, 5, fun _ _ => 1⟩, filter := .hann, pad := some 0, padIdx := edgeIdx,
    applyLog := false, isInt := false, ncore := 2, bx := 2, order := [0, 1, 2, 3] }

/-- C105 refuted ("a chunk is reconstructed slice by slice"): with a window that does not fit, a slice alone is filtered with the
unsmoothed window, a slice of a chunk with the smoothed one. -/
theorem bpf_window_refuted : ∃ (a : Args (Mat ℝ)) (s : Arr3 ℝ) (o : Arr) (m : Mat ℝ), a.Launched s.w ∧ bpf a (.chunk s) = .ok o ∧
    bpf a (.one (sinogramOf s 0)) = .ok (.one m) ∧ m.get 0 0 ≠ (o.slice 0).get 0 0 := by
  have hl : exArgsB.Launched 2 := exArgs_launched
  set s : Arr3 ℝ := ⟨2, 2, 2, fun _ _ _ => 1⟩ with hs
  obtain ⟨o, ho⟩ := (bpf_error_iff exArgsB (.chunk s) hl).2 ⟨by norm_num [exArgsB], by
      show (1 / 2 : ℝ) < ((2 : ℕ) : ℝ)
      norm_num, fun l h => (nomatch h), fun h => absurd h (by decide)⟩
  obtain ⟨m, hm⟩ := (bpf_error_iff exArgsB (.one (chunkSino s 0)) hl).2 ⟨by norm_num [exArgsB], by
      show (1 / 2 : ℝ) < ((2 : ℕ) : ℝ)
      norm_num, fun l h => (nomatch h), fun _ => ⟨by decide, by decide⟩⟩
  have s1 := bpf_spec exArgsB (.chunk s) o hl ho
  have s2 := bpf_spec exArgsB (.one (chunkSino s 0)) m hl hm
  obtain ⟨m, rfl⟩ := s2.2.2.2.1.1 ⟨_, rfl⟩
  refine ⟨exArgsB, s, o, m, hl, ho, hm, ?_⟩
  have e1 := s1.2.2.2.2 0 (by decide) 0 (by decide) 0 (by decide)
  have e2 := s2.2.2.2.2 0 (by decide) 0 (by decide) 0 (by decide)
  rw [if_neg (fun h => absurd h.1 (by decide))] at e1
  rw [if_pos ⟨rfl, by simp [exArgsB]⟩] at e2
  have hp : exArgsB.padOf 2 = 0 := rfl
  have key : ∀ f, exArgsB.imageB f (chunkSino s 0) 0 0 = Real.pi * ((|1 / 4 - 1 / Real.pi ^ 2| * smoothingWindow f 2 1) * 2) := by
    intro f
    rw [bpf_constant exArgsB f (chunkSino s 0) 1 rfl (by decide) (fun _ _ _ _ => rfl) (fun j hj => by
      show edgeIdx 2 0 j < 2
      unfold edgeIdx
      omega) 0 0 (circRamp 2 f) (by
        show _ = fitting (some ⟨5, 5, fun _ _ => 1⟩) 2 2 (circRamp 2 f)
        unfold fitting
        dsimp only
        rw [if_neg (by decide)])]
    have hg := circ_gain 2 f le_rfl
    have : (circRamp 2 f).get (((chunkSino s 0).w + 2 * exArgsB.padOf (chunkSino s 0).w) / 2)
        (((chunkSino s 0).w + 2 * exArgsB.padOf (chunkSino s 0).w) / 2) = (circRamp 2 f).get (2 / 2) (2 / 2) := rfl
    rw [this, hg, Finset.sum_range_succ, Finset.sum_range_one]
    have hr : ramp (((0 : ℕ) : ℤ) - ((2 / 2 : ℕ) : ℤ)) + ramp (((1 : ℕ) : ℤ) - ((2 / 2 : ℕ) : ℤ)) = 1 / 4 - 1 / Real.pi ^ 2 := by
      norm_num [ramp]
      ring
    rw [hr]
    show 1 * (Real.pi / (((2 : ℕ) : ℝ) - 1)) * (|1 / 4 - 1 / Real.pi ^ 2| * smoothingWindow f 2 (2 / 2) * (((2 : ℕ) : ℝ) * 1)) = _
    norm_num
  have f1 : (o.slice 0).get 0 0 = _ := e1.trans (key .hann)
  have f2 : m.get 0 0 = _ := e2.trans (key .other)
  rw [f1, f2]
  have hh : smoothingWindow .hann 2 1 = 0 := by
    unfold smoothingWindow generalCosine
    dsimp only
    rw [if_neg (by norm_num)]
    have : -Real.pi + 2 * Real.pi * ((1 : ℕ) : ℝ) / (((2 : ℕ) : ℝ) - 1) = Real.pi := by
      push_cast
      ring
    rw [this, Real.cos_pi]
    norm_num
  rw [hh]
  show Real.pi * (|1 / 4 - 1 / Real.pi ^ 2| * 1 * 2) ≠ _
  have hpi := Real.pi_gt_d2
  have h9 : (9 : ℝ) < Real.pi ^ 2 := by nlinarith
  have hpos : 0 < 1 / 4 - 1 / Real.pi ^ 2 := by
    have : 1 / Real.pi ^ 2 < 1 / 9 := one_div_lt_one_div_of_lt (by norm_num) h9
    linarith
  rw [abs_of_pos hpos]
  have : 0 < Real.pi * ((1 / 4 - 1 / Real.pi ^ 2) * 1 * 2) := by positivity
  rw [mul_zero, zero_mul, mul_zero]
  exact this.ne'

/-- Non-vacuity: the launched grid, a successful call of each driver on the example data. -/
example : exArgs.Launched 2 ∧ ∃ o, fbp exArgs (.chunk exChunk) = .ok o :=
  ⟨exArgs_launched, (fbp_error_iff exArgs (.chunk exChunk) exArgs_launched).1.2 ⟨by norm_num [exArgs], by
      show (1 / 2 : ℝ) < ((2 : ℕ) : ℝ)
      norm_num, fun l h => by cases h; rfl, fun h => absurd h (by decide)⟩⟩

/-- Non-vacuity: the hypothesis of `fbp_mirror` on the pad mode holds for "edge". -/
example (w p j : ℕ) (hw : 0 < w) (hj : j < w + 2 * p) : edgeIdx w p j < w ∧ edgeIdx w p (w + 2 * p - 1 - j) = w - 1 - edgeIdx w p j := by
  unfold edgeIdx
  omega

end Verif.Recon
