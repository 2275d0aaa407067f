import Verif.Props.SliceMetric2

/-! C110 — invariance of the search under scaling, and the search with filtered back-projection. -/

set_option linter.unusedSectionVars false
set_option linter.unusedSimpArgs false

namespace Verif.SliceMetric

/-- The reconstructions of the two sinograms fail at the same centres, and where they do not, the images differ by the factor `a` and the
offset `b`. -/
def Affine (rec : Mat ℝ → ℝ → Py (Mat ℝ)) (a b : ℝ) (m m' : Mat ℝ) : Prop :=
  ∀ c, (∀ img, rec m c = .ok img → ∃ img', rec m' c = .ok img' ∧ img'.Eqv (img.map fun v => a * v + b)) ∧
    ((∃ e, rec m c = .error e) → ∃ e, rec m' c = .error e)

theorem isMin_affine (l : List ℝ) (a b x : ℝ) (ha : 0 < a) (h : Post.IsMin l x) : Post.IsMin (l.map fun v => a * v + b) (a * x + b) := by
  refine ⟨List.mem_map.2 ⟨x, h.1, rfl⟩, fun y hy => ?_⟩
  obtain ⟨v, hv, rfl⟩ := List.mem_map.1 hy
  nlinarith [h.2 v hv]

theorem isMax_affine (l : List ℝ) (a b x : ℝ) (ha : 0 < a) (h : Post.IsMax l x) : Post.IsMax (l.map fun v => a * v + b) (a * x + b) := by
  refine ⟨List.mem_map.2 ⟨x, h.1, rfl⟩, fun y hy => ?_⟩
  obtain ⟨v, hv, rfl⟩ := List.mem_map.1 hy
  nlinarith [h.2 v hv]

theorem eqv_map {m n : Mat ℝ} (f : ℝ → ℝ) (h : m.Eqv n) : (m.map f).Eqv (n.map f) :=
  ⟨h.1, h.2.1, fun i hi j hj => by show f (m.get i j) = f (n.get i j); rw [h.2.2 i hi j hj]⟩

/-- The factor by which the metric changes. -/
noncomputable def factor (mt : Metric) (a : ℝ) : ℝ :=
  match mt with
  | .entropy => 1
  | _ => a

theorem metric_affine (mt : Metric) (hm : mt = .entropy ∨ mt = .sharpness) (a b lo hi lo' hi' v : ℝ) (ha : 0 < a) (img img' : Mat ℝ)
    (he : img'.Eqv (img.map fun v => a * v + b)) (hlo : mt = .entropy → lo' = a * lo + b ∧ hi' = a * hi + b)
    (h : metricOf mt lo hi img = .ok v) : metricOf mt lo' hi' img' = .ok (factor mt a * v) := by
  rcases hm with rfl | rfl
  · obtain ⟨rfl, rfl⟩ := hlo rfl
    cases h
    show Except.ok _ = Except.ok _
    congr 1
    rw [factor, one_mul, entropy_congr _ _ (eqv_map _ he)]
    congr 1
    unfold Mat.map
    congr 1
    funext i j
    dsimp only
    rw [show a * img.get i j + b - (a * lo + b) = a * (img.get i j - lo) by ring, show a * hi + b - (a * lo + b) = a * (hi - lo) by ring,
      mul_div_mul_left _ _ ha.ne']
  · show sharpness img' = _
    have h : sharpness img = .ok v := h
    rw [sharpness_congr _ _ he, sharpness_affine img a b ha.le, h, ok_bind]
    rfl

theorem metrics_affine (o : Opt) (hm : o.metric = .entropy ∨ o.metric = .sharpness) (rec : Mat ℝ → ℝ → Py (Mat ℝ)) (a b : ℝ) (ha : 0 < a)
    (m m' : Mat ℝ) (hr : Affine rec a b (prepare o m) (prepare o m')) (start stop step : ℝ) (f : ℕ → ℝ)
    (h : Metrics o rec m start stop step f) : Metrics o rec m' start stop step fun j => factor o.metric a * f j := by
  obtain ⟨lo, hi, h1, h2, h3⟩ := h
  by_cases he : o.metric = .entropy
  · obtain ⟨ref, r1, r2, r3, r4⟩ := h1 he
    obtain ⟨ref', q1, q2⟩ := (hr _).1 ref r1
    have hent : entries ref' = (entries ref).map fun v => a * v + b := by rw [entries_congr _ _ q2, entries_map]
    refine ⟨a * lo + b, a * hi + b, fun _ => ⟨ref', q1, ?_, ?_, ?_⟩, fun hn => absurd he hn, fun j hj => ?_⟩
    · rw [hent]; exact isMin_affine _ a b _ ha r2
    · rw [hent]; exact isMax_affine _ a b _ ha r3
    · intro h
      exact r4 (mul_left_cancel₀ ha.ne' (add_right_cancel h))
    · obtain ⟨img, i1, i2⟩ := h3 j hj
      obtain ⟨img', j1, j2⟩ := (hr _).1 img i1
      exact ⟨img', j1, metric_affine _ hm a b _ _ _ _ _ ha img img' j2 (fun _ => ⟨rfl, rfl⟩) i2⟩
  · refine ⟨lo, hi, fun h => absurd h he, h2, fun j hj => ?_⟩
    obtain ⟨img, i1, i2⟩ := h3 j hj
    obtain ⟨img', j1, j2⟩ := (hr _).1 img i1
    exact ⟨img', j1, metric_affine _ hm a b _ _ _ _ _ ha img img' j2 (fun h => absurd h he) i2⟩

/-- C110: if the slices of the second sinogram differ from those of the first by a positive factor and an offset, the same candidate is
best. -/
theorem best_affine (o : Opt) (hm : o.metric = .entropy ∨ o.metric = .sharpness) (rec : Mat ℝ → ℝ → Py (Mat ℝ)) (a b : ℝ) (ha : 0 < a)
    (m m' : Mat ℝ) (hr : Affine rec a b (prepare o m) (prepare o m')) (start stop step c : ℝ) (h : Best o rec m start stop step c) :
    Best o rec m' start stop step c := by
  obtain ⟨f, k, h1, h2, h3, h4, h5⟩ := h
  have hf : 0 < factor o.metric a := by
    unfold factor
    split
    · exact one_pos
    · exact ha
  refine ⟨_, k, metrics_affine o hm rec a b ha m m' hr start stop step f h1, h2, h3, fun j hj => ?_, fun j hj => ?_⟩
  · have := h4 j hj
    split at this
    · rw [if_pos (by assumption)]; exact mul_le_mul_of_nonneg_left this hf.le
    · rw [if_neg (by assumption)]; exact mul_le_mul_of_nonneg_left this hf.le
  · have := h5 j hj
    split at this
    · rw [if_pos (by assumption)]; exact mul_lt_mul_of_pos_left this hf
    · rw [if_neg (by assumption)]; exact mul_lt_mul_of_pos_left this hf

/-- C110: if the slices of the second sinogram differ from those of the first by a positive factor and an offset, the search by entropy or
sharpness finds the same centre. -/
theorem find_center_affine (o : Opt) (hm : o.metric = .entropy ∨ o.metric = .sharpness) (rec recz : Mat ℝ → ℝ → Py (Mat ℝ)) (a b : ℝ)
    (ha : 0 < a) (m m' zm zm' : Mat ℝ) (hr : Affine rec a b (prepare o m) (prepare o m')) (hrz : Affine recz a b (prepare o zm) (prepare o zm'))
    (start stop step radius zoom c : ℝ) (hs : 0 < step) (h : findCenter o rec recz m zm start stop step radius zoom = .ok c) :
    findCenter o rec recz m' zm' start stop step radius zoom = .ok c := by
  rw [find_center_iff _ _ _ _ _ _ _ _ _ _ _ hs] at h ⊢
  obtain ⟨c0, h1, h2⟩ := h
  refine ⟨c0, ?_, ?_⟩
  · split at h1
    · rw [if_pos (by assumption)]
      obtain ⟨c1, h3, h4⟩ := h1
      refine ⟨c1, ?_, h4⟩
      split at h3
      · rw [if_pos (by assumption), if_pos (by assumption)]
        exact best_affine o hm _ a b ha _ _ hrz _ _ _ _ h3
      · rw [if_neg (by assumption), if_neg (by assumption)]
        exact best_affine o hm _ a b ha _ _ hr _ _ _ _ h3
    · rw [if_neg (by assumption)]; exact h1
  · split at h2
    · rw [if_pos (by assumption)]; exact h2
    · rw [if_neg (by assumption)]
      exact best_affine o hm _ a b ha _ _ hr _ _ _ _ h2

/-! ### Filtered back-projection -/

open Verif.Recon in
/-- `_reconstruct_slice(..., method="fbp")` (reconstruction.py:1183-1186). -/
noncomputable def fbpRec (A : Args (Mat ℂ)) (m : Mat ℝ) (c : ℝ) : Py (Mat ℝ) := do
  let out ← fbp { A with center := c, applyLog := false } (.one m)
  pure (out.slice 0)

theorem fbpRec_ok_iff (A : Recon.Args (Mat ℂ)) (m : Mat ℝ) (c : ℝ) (hl : A.Launched m.w) :
    (∃ img, fbpRec A m c = .ok img) ↔
      0 ≤ c ∧ c < m.w ∧ (∀ l, A.angles = some l → l.length = m.h) ∧ m.h ≠ 1 ∧ m.w ≠ 1 := by
  have h := (Recon.fbp_error_iff { A with center := c, applyLog := false } (.one m) hl).1
  have e : (∃ img, fbpRec A m c = .ok img) ↔ ∃ out, Recon.fbp { A with center := c, applyLog := false } (.one m) = .ok out := by
    unfold fbpRec
    constructor
    · rintro ⟨img, h⟩
      obtain ⟨out, h1, -⟩ := bind_ok h
      exact ⟨out, h1⟩
    · rintro ⟨out, h⟩
      rw [h, ok_bind]
      exact ⟨_, rfl⟩
  rw [e, h]
  constructor
  · rintro ⟨a, b, c, d⟩; exact ⟨a, b, c, (d rfl).1, (d rfl).2⟩
  · rintro ⟨a, b, c, d, e⟩; exact ⟨a, b, c, fun _ => ⟨d, e⟩⟩

/-- Filtered back-projection accepts only centres on the detector, as `find_center_edge` assumes. -/
theorem fbp_on_detector (A : Recon.Args (Mat ℂ)) (o : Opt) (m : Mat ℝ) (hl : A.Launched (prepare o m).w) (hw : (prepare o m).w = m.w) :
    OnDetector (fbpRec A) o m m.w := by
  intro c img h
  obtain ⟨h1, h2, -⟩ := (fbpRec_ok_iff A (prepare o m) c hl).1 ⟨img, h⟩
  rw [hw] at h2
  exact ⟨h1, h2⟩

theorem fbpRec_affine (A : Recon.Args (Mat ℂ)) (m : Mat ℝ) (hl : A.Launched m.w) (a : ℝ) : Affine (fbpRec A) a 0 m (m.map fun v => a * v) := by
  intro c
  have hlin : (m.map fun v => a * v) = Recon.lin a 0 m m := by
    unfold Recon.lin Mat.map
    congr 1
    funext i j
    ring
  constructor
  · intro img h
    obtain ⟨out, h1, h2⟩ := bind_ok h
    have hs := (Recon.fbp_spec _ _ _ (by exact hl) h1 (Or.inl rfl)).2.2.2.1
    obtain ⟨o1, rfl⟩ := hs.1 ⟨m, rfl⟩
    cases h2
    obtain ⟨o2, h3, h4⟩ := Recon.fbp_linear { A with center := c, applyLog := false } a 0 m m o1 o1 rfl rfl rfl hl h1 h1
    refine ⟨o2, ?_, h4.1, h4.2.1, fun i hi j hj => ?_⟩
    · unfold fbpRec
      rw [hlin, h3]
      rfl
    · rw [h4.2.2 i hi j hj]
      show a * o1.get i j + 0 * o1.get i j = a * o1.get i j + 0
      ring
  · rintro ⟨e, h⟩
    cases hr : fbpRec A (m.map fun v => a * v) c with
    | error e => exact ⟨e, rfl⟩
    | ok img =>
      have := (fbpRec_ok_iff A (m.map fun v => a * v) c hl).1 ⟨img, hr⟩
      obtain ⟨img', h'⟩ := (fbpRec_ok_iff A m c hl).2 this
      rw [h'] at h
      exact (nomatch h)

/-- C110: with filtered back-projection and without logarithm, smoothing (or none) that commutes with scaling, the centre found by entropy or
sharpness does not change when the sinogram is multiplied by a positive factor (`zoom = 1`). -/
theorem find_center_scale_partial (o : Opt) (hm : o.metric = .entropy ∨ o.metric = .sharpness) (hlog : o.applyLog = false)
    (A : Recon.Args (Mat ℂ)) (a : ℝ) (ha : 0 < a) (m : Mat ℝ)
    (hsm : ∀ g, o.smooth = some g → g (m.map fun v => a * v) = (g m).map fun v => a * v) (hl : A.Launched (prepare o m).w)
    (start stop step radius c : ℝ) (hs : 0 < step)
    (h : findCenter o (fbpRec A) (fbpRec A) m m start stop step radius 1 = .ok c) :
    findCenter o (fbpRec A) (fbpRec A) (m.map fun v => a * v) (m.map fun v => a * v) start stop step radius 1 = .ok c := by
  have hp : prepare o (m.map fun v => a * v) = (prepare o m).map fun v => a * v := by
    unfold prepare
    rw [hlog]
    cases hg : o.smooth with
    | none => rfl
    | some g => exact hsm g hg
  have hA := fbpRec_affine A (prepare o m) hl a
  rw [← hp] at hA
  exact find_center_affine o hm _ _ a 0 ha m _ m _ hA hA start stop step radius 1 c hs h

/-! ### Concrete instance -/

/-- A toy reconstruction on 20 columns whose edges are sharper the farther the centre is from 7. -/
noncomputable def toyRec (_ : Mat ℝ) (c : ℝ) : Py (Mat ℝ) :=
  if 0 ≤ c ∧ c < 20 then .ok ⟨2, 2, fun i _ => (i : ℝ) * (c - 7) ^ 2⟩ else .error .valueError

/-- Search by sharpness, no smoothing, no logarithm. -/
def toyOpt : Opt := ⟨.sharpness, false, none, false⟩

theorem toy_sharpness (a : ℝ) : sharpness ⟨2, 2, fun i _ => (i : ℝ) * a ^ 2⟩ = .ok (a ^ 2) := by
  unfold sharpness
  rw [if_neg (by simp)]
  congr 1
  simp only [Finset.sum_range_succ, Finset.sum_range_zero, grad]
  norm_num
  rw [Real.sqrt_sq (by positivity)]
  ring

/-- The hypotheses of `search_opt_iff` and `find_center_edge` are met: among 5, 6, 7, 8, 9 the search finds 7. -/
theorem toy_search (m : Mat ℝ) : searchOpt toyOpt toyRec m 5 10 1 = .ok 7 := by
  rw [search_opt_iff _ _ _ _ _ _ one_pos]
  refine ⟨fun j => ((5 + (j : ℝ) * 1) - 7) ^ 2, 2, ⟨0, 1, fun h => (nomatch h), fun _ => ⟨rfl, rfl⟩, fun j hj => ?_⟩, by norm_num, by norm_num,
    fun j hj => ?_, fun j hj => ?_⟩
  · refine ⟨⟨2, 2, fun i _ => (i : ℝ) * ((5 + (j : ℝ) * 1) - 7) ^ 2⟩, ?_, toy_sharpness _⟩
    unfold toyRec
    have : (0 : ℝ) ≤ j := Nat.cast_nonneg j
    rw [if_pos ⟨by linarith, by linarith⟩]
  · show (((5 : ℝ) + ((2 : ℕ) : ℝ) * 1) - 7) ^ 2 ≤ ((5 + (j : ℝ) * 1) - 7) ^ 2
    have : ((5 : ℝ) + ((2 : ℕ) : ℝ) * 1) - 7 = 0 := by norm_num
    rw [this]
    exact le_trans (by norm_num) (sq_nonneg _)
  · show (((5 : ℝ) + ((2 : ℕ) : ℝ) * 1) - 7) ^ 2 < ((5 + (j : ℝ) * 1) - 7) ^ 2
    have e : ((5 : ℝ) + ((2 : ℕ) : ℝ) * 1) - 7 = 0 := by norm_num
    rw [e]
    have : j = 0 ∨ j = 1 := by omega
    rcases this with rfl | rfl <;> norm_num

example (o : Opt) (m : Mat ℝ) : OnDetector toyRec o m 20 := by
  intro c img h
  unfold toyRec at h
  split at h
  · rename_i hc
    exact ⟨hc.1, by exact_mod_cast hc.2⟩
  · exact (nomatch h)

end Verif.SliceMetric
