import Verif.Props.SliceMetric

/-! C110 — the two-stage search, its range and its invariance; the metrics. -/

set_option linter.unusedSectionVars false
set_option linter.unusedSimpArgs false

namespace Verif.SliceMetric

/-- `c` is the first of the candidates `start, start + step, … < stop` with the best metric: the smallest one, or the largest one with
`invert_metric`; every candidate could be reconstructed and measured. -/
def Best (o : Opt) (rec : Mat ℝ → ℝ → Py (Mat ℝ)) (m : Mat ℝ) (start stop step c : ℝ) : Prop :=
  ∃ (f : ℕ → ℝ) (k : ℕ), Metrics o rec m start stop step f ∧ c = start + k * step ∧ c < stop ∧
    (∀ j : ℕ, start + j * step < stop → if o.invert then f j ≤ f k else f k ≤ f j) ∧
    (∀ j < k, if o.invert then f j < f k else f k < f j)

theorem zoomOf_pos (zoom : ℝ) : 0 < zoomOf zoom ∧ zoomOf zoom ≤ 1 := by
  unfold zoomOf clip
  constructor
  · refine lt_min (lt_of_lt_of_le (by norm_num) (le_max_right _ _)) (by norm_num)
  · exact min_le_right _ _

theorem zoomOf_eq (zoom : ℝ) (h0 : 0.01 ≤ zoom) (h1 : zoom ≤ 1) : zoomOf zoom = zoom := by
  unfold zoomOf clip
  rw [max_eq_left h0, min_eq_left h1]

theorem coarse_iff (o : Opt) (rec recz : Mat ℝ → ℝ → Py (Mat ℝ)) (m zm : Mat ℝ) (start stop zoom c0 : ℝ) :
    coarseCenter o rec recz m zm start stop zoom = .ok c0 ↔
      if start < stop then ∃ c1, Best o (if zoomOf zoom < 1 then recz else rec) (if zoomOf zoom < 1 then zm else m)
          (start * zoomOf zoom) (stop * zoomOf zoom + 1) 1 c1 ∧ c0 = c1 / zoomOf zoom
      else c0 = start := by
  obtain ⟨hz, hz1⟩ := zoomOf_pos zoom
  unfold coarseCenter
  dsimp only
  generalize zoomOf zoom = z at *
  have e : ∀ x : ℝ, (if z < 1 then x * z else x) = x * z := by
    intro x
    split
    · rfl
    · rw [le_antisymm hz1 (not_lt.1 (by assumption)), mul_one]
  rw [e, e]
  by_cases h : start < stop
  · rw [if_pos (mul_lt_mul_of_pos_right h hz), if_pos h]
    constructor
    · intro hc
      obtain ⟨c1, h1, h2⟩ := bind_ok hc
      cases h2
      exact ⟨c1, (search_opt_iff _ _ _ _ _ _ one_pos _).1 h1, rfl⟩
    · rintro ⟨c1, h1, rfl⟩
      rw [(search_opt_iff _ _ _ _ _ _ one_pos _).2 h1]
      rfl
  · rw [if_neg (fun h' => h (lt_of_mul_lt_mul_right h' hz.le)), if_neg h, mul_div_assoc, div_self hz.ne', mul_one]
    constructor
    · intro h; cases h; rfl
    · rintro rfl; rfl

/-- C110: the two-stage search.  The coarse centre is `start` if the interval is empty, otherwise the best of the candidates one (zoomed)
pixel apart from `start` to `stop`, scaled back; with `radius=0` it is the result, otherwise the result is the best of the candidates `step`
apart within the radius around it, the radius being at least one step plus one zoomed pixel. -/
theorem find_center_iff (o : Opt) (rec recz : Mat ℝ → ℝ → Py (Mat ℝ)) (m zm : Mat ℝ) (start stop step radius zoom c : ℝ) (hs : 0 < step) :
    findCenter o rec recz m zm start stop step radius zoom = .ok c ↔
      ∃ c0, (if start < stop then ∃ c1, Best o (if zoomOf zoom < 1 then recz else rec) (if zoomOf zoom < 1 then zm else m)
          (start * zoomOf zoom) (stop * zoomOf zoom + 1) 1 c1 ∧ c0 = c1 / zoomOf zoom
        else c0 = start) ∧
        (if radius = 0 then c = c0 else
          Best o rec m (c0 - max radius (step + 1 / zoomOf zoom)) (c0 + max radius (step + 1 / zoomOf zoom) + step) step c) := by
  unfold findCenter
  constructor
  · intro h
    obtain ⟨c0, h1, h2⟩ := bind_ok h
    refine ⟨c0, (coarse_iff _ _ _ _ _ _ _ _ _).1 h1, ?_⟩
    by_cases hr : radius = 0
    · rw [if_pos hr]
      rw [if_neg (not_not.2 hr)] at h2
      cases h2
      rfl
    · rw [if_neg hr]
      rw [if_pos hr] at h2
      exact (search_opt_iff _ _ _ _ _ _ hs _).1 h2
  · rintro ⟨c0, h1, h2⟩
    rw [(coarse_iff _ _ _ _ _ _ _ _ _).2 h1, ok_bind]
    by_cases hr : radius = 0
    · rw [if_neg (not_not.2 hr)]
      rw [if_pos hr] at h2
      rw [h2]
      rfl
    · rw [if_pos hr]
      rw [if_neg hr] at h2
      exact (search_opt_iff _ _ _ _ _ _ hs _).2 h2

/-- C110: how far the result can be from the requested interval: by less than the radius plus one step and one zoomed pixel. -/
theorem find_center_bounds (o : Opt) (rec recz : Mat ℝ → ℝ → Py (Mat ℝ)) (m zm : Mat ℝ) (start stop step radius zoom c : ℝ) (hs : 0 < step)
    (hss : start ≤ stop) (h : findCenter o rec recz m zm start stop step radius zoom = .ok c) :
    start - max radius (step + 1 / zoomOf zoom) ≤ c ∧ c < stop + 1 / zoomOf zoom + max radius (step + 1 / zoomOf zoom) + step := by
  obtain ⟨hz, -⟩ := zoomOf_pos zoom
  obtain ⟨c0, h1, h2⟩ := (find_center_iff _ _ _ _ _ _ _ _ _ _ _ hs).1 h
  have hinv : 0 < 1 / zoomOf zoom := by positivity
  have hr : 0 < max radius (step + 1 / zoomOf zoom) := lt_of_lt_of_le (by linarith) (le_max_right _ _)
  have hc0 : start ≤ c0 ∧ c0 < stop + 1 / zoomOf zoom := by
    by_cases hlt : start < stop
    · rw [if_pos hlt] at h1
      obtain ⟨c1, ⟨f, k, -, hk, hlt1, -⟩, rfl⟩ := h1
      constructor
      · rw [le_div_iff₀ hz, hk]
        have : (0 : ℝ) ≤ k := Nat.cast_nonneg k
        linarith
      · rw [div_lt_iff₀ hz]
        have : (stop + 1 / zoomOf zoom) * zoomOf zoom = stop * zoomOf zoom + 1 := by field_simp
        linarith
    · rw [if_neg hlt] at h1
      rw [h1]
      exact ⟨le_rfl, by linarith⟩
  by_cases hr0 : radius = 0
  · rw [if_pos hr0] at h2
    rw [h2]
    exact ⟨by linarith [hc0.1], by linarith [hc0.2]⟩
  · rw [if_neg hr0] at h2
    obtain ⟨f, k, -, hk, hlt1, -⟩ := h2
    have : 0 ≤ (k : ℝ) * step := by positivity
    exact ⟨by linarith [hc0.1], by linarith [hc0.2]⟩

/-! ### The detector edge -/

/-- The reconstruction accepts only centres on the detector. -/
def OnDetector (rec : Mat ℝ → ℝ → Py (Mat ℝ)) (o : Opt) (m : Mat ℝ) (n : ℕ) : Prop :=
  ∀ c img, rec (prepare o m) c = .ok img → 0 ≤ c ∧ c < n

theorem best_inside (o : Opt) (rec : Mat ℝ → ℝ → Py (Mat ℝ)) (m : Mat ℝ) (n : ℕ) (hd : OnDetector rec o m n) (start stop step c : ℝ)
    (hs : 0 < step) (h : Best o rec m start stop step c) : 0 ≤ start ∧ stop - step < n := by
  obtain ⟨f, k, ⟨lo, hi, -, -, hf⟩, hk, hlt, -⟩ := h
  have hk0 : 0 ≤ (k : ℝ) * step := by positivity
  constructor
  · obtain ⟨img, h1, -⟩ := hf 0 (by push_cast; linarith)
    have := (hd _ _ h1).1
    push_cast at this
    linarith
  · have hx : 0 < (stop - start) / step := by
      apply div_pos _ hs; linarith
    have hceil : 0 < ⌈(stop - start) / step⌉ := Int.ceil_pos.2 hx
    obtain ⟨q, hq⟩ : ∃ q : ℕ, ((q : ℤ) : ℤ) = ⌈(stop - start) / step⌉ - 1 := ⟨(⌈(stop - start) / step⌉ - 1).toNat, by omega⟩
    have h1 : (q : ℝ) < (stop - start) / step := by
      have : ((q : ℤ)) < ⌈(stop - start) / step⌉ := by omega
      have := Int.lt_ceil.1 this
      exact_mod_cast this
    have h2 : (stop - start) / step ≤ (q : ℝ) + 1 := by
      have := Int.le_ceil ((stop - start) / step)
      have e : ((⌈(stop - start) / step⌉ : ℤ) : ℝ) = (q : ℝ) + 1 := by
        have : ⌈(stop - start) / step⌉ = (q : ℤ) + 1 := by omega
        rw [this]; push_cast; ring
      linarith
    rw [lt_div_iff₀ hs] at h1
    rw [div_le_iff₀ hs] at h2
    obtain ⟨img, h3, -⟩ := hf q (by linarith)
    have := (hd _ _ h3).2
    nlinarith

/-- C110: with a fine search (`radius` not 0) the search succeeds only if the whole interval of the radius around the coarse centre lies on the
detector. -/
theorem find_center_edge (o : Opt) (rec recz : Mat ℝ → ℝ → Py (Mat ℝ)) (m zm : Mat ℝ) (n : ℕ) (hd : OnDetector rec o m n)
    (start stop step radius zoom c : ℝ) (hs : 0 < step) (hr : radius ≠ 0) (h : findCenter o rec recz m zm start stop step radius zoom = .ok c) :
    ∃ c0, coarseCenter o rec recz m zm start stop zoom = .ok c0 ∧ max radius (step + 1 / zoomOf zoom) ≤ c0 ∧
      c0 + max radius (step + 1 / zoomOf zoom) < n := by
  obtain ⟨c0, h1, h2⟩ := (find_center_iff _ _ _ _ _ _ _ _ _ _ _ hs).1 h
  rw [if_neg hr] at h2
  obtain ⟨h3, h4⟩ := best_inside o rec m n hd _ _ _ _ hs h2
  exact ⟨c0, (coarse_iff _ _ _ _ _ _ _ _ _).2 h1, by linarith, by linarith⟩

/-- C110, refuted at the edge of the detector: with the default step 0.5 and radius 2, a search at a centre less than two pixels from an edge never
returns, although the centre itself is valid. -/
theorem find_center_edge_refuted (o : Opt) (rec recz : Mat ℝ → ℝ → Py (Mat ℝ)) (m zm : Mat ℝ) (n : ℕ) (hd : OnDetector rec o m n)
    (s : ℝ) (hs : s < 2 ∨ (n : ℝ) - 2 ≤ s) (c : ℝ) : findCenter o rec recz m zm s s 0.5 2 1 ≠ .ok c := by
  intro h
  obtain ⟨c0, h1, h2, h3⟩ := find_center_edge o rec recz m zm n hd s s 0.5 2 1 c (by norm_num) (by norm_num) h
  have h1 := (coarse_iff _ _ _ _ _ _ _ _ _).1 h1
  rw [if_neg (lt_irrefl _)] at h1
  subst h1
  rw [zoomOf_eq 1 (by norm_num) le_rfl, max_eq_left (by norm_num)] at h2 h3
  rcases hs with hs | hs <;> linarith

/-! ### The metrics -/

theorem mem_entries (m : Mat ℝ) (v : ℝ) : v ∈ entries m ↔ ∃ i < m.h, ∃ j < m.w, m.get i j = v := by
  unfold entries
  simp only [List.mem_flatMap, List.mem_range, List.mem_map]

theorem entries_congr (m n : Mat ℝ) (h : m.Eqv n) : entries m = entries n := by
  unfold entries
  rw [← h.1, ← h.2.1]
  refine List.flatMap_congr fun i hi => List.map_congr_left fun j hj => ?_
  exact h.2.2 i (List.mem_range.1 hi) j (List.mem_range.1 hj)

theorem entries_map (m : Mat ℝ) (f : ℝ → ℝ) : entries (m.map f) = (entries m).map f := by
  unfold entries
  rw [List.map_flatMap]
  refine List.flatMap_congr fun i _ => ?_
  rw [List.map_map]
  rfl

/-- C110: the entropy depends on the values only, not on their places. -/
theorem entropy_perm (m n : Mat ℝ) (h : (entries m).Perm (entries n)) : entropyOf m = entropyOf n := by
  have hh : ∀ k, hist m k = hist n k := fun k => by
    unfold hist
    rw [(h.filter _).length_eq]
  have hs : ∀ k, smoothHist m k = smoothHist n k := fun k => by
    unfold smoothHist
    exact Finset.sum_congr rfl fun t _ => hh _
  unfold entropyOf
  rw [Finset.sum_congr rfl fun k _ => by rw [hs k]]

theorem entropy_congr (m n : Mat ℝ) (h : m.Eqv n) : entropyOf m = entropyOf n :=
  entropy_perm m n (entries_congr m n h ▸ List.Perm.refl _)

theorem grad_congr (n : ℕ) (f g : ℕ → ℝ) (hn : 2 ≤ n) (h : ∀ i < n, f i = g i) (i : ℕ) (hi : i < n) : grad n f i = grad n g i := by
  unfold grad
  split
  · rw [h 0 (by omega), h 1 (by omega)]
  split
  · rw [h _ (by omega), h _ (by omega)]
  · rw [h _ (by omega), h _ (by omega)]

theorem sharpness_congr (m n : Mat ℝ) (h : m.Eqv n) : sharpness m = sharpness n := by
  unfold sharpness
  rw [← h.1, ← h.2.1]
  split
  · rfl
  rename_i hs
  congr 2
  refine Finset.sum_congr rfl fun i hi => Finset.sum_congr rfl fun j hj => ?_
  have hi := Finset.mem_range.1 hi
  have hj := Finset.mem_range.1 hj
  rw [grad_congr m.h (fun i => m.get i j) (fun i => n.get i j) (by omega) (fun i' hi' => h.2.2 i' hi' j hj) i hi,
    grad_congr m.w (fun j => m.get i j) (fun j => n.get i j) (by omega) (fun j' hj' => h.2.2 i hi j' hj') j hj]

theorem grad_affine (n : ℕ) (f : ℕ → ℝ) (a b : ℝ) (i : ℕ) : grad n (fun i => a * f i + b) i = a * grad n f i := by
  unfold grad
  split
  · ring
  split
  · ring
  · ring

/-- C110: scaling the image by `a >= 0` scales the sharpness, adding a constant leaves it. -/
theorem sharpness_affine (m : Mat ℝ) (a b : ℝ) (ha : 0 ≤ a) :
    sharpness (m.map fun v => a * v + b) = (do let s ← sharpness m; pure (a * s)) := by
  unfold sharpness
  show (if m.h < 2 ∨ m.w < 2 then _ else _) = _
  by_cases hs : m.h < 2 ∨ m.w < 2
  · rw [if_pos hs, if_pos hs]
    rfl
  rw [if_neg hs, if_neg hs, ok_bind]
  show Except.ok _ = Except.ok _
  congr 1
  rw [← mul_div_assoc, Finset.mul_sum]
  congr 1
  refine Finset.sum_congr rfl fun i _ => ?_
  rw [Finset.mul_sum]
  refine Finset.sum_congr rfl fun j _ => ?_
  show Real.sqrt (grad m.h (fun i => a * m.get i j + b) i ^ 2 + grad m.w (fun j => a * m.get i j + b) j ^ 2) = _
  rw [grad_affine m.h (fun i => m.get i j), grad_affine m.w (fun j => m.get i j), mul_pow, mul_pow, ← mul_add,
    Real.sqrt_mul (sq_nonneg a), Real.sqrt_sq ha]

theorem grad_zero (n : ℕ) (f : ℕ → ℝ) (hn : 2 ≤ n) (h : ∀ i < n, grad n f i = 0) : ∀ i < n, f i = f 0 := by
  have h0 := h 0 (by omega)
  unfold grad at h0
  rw [if_pos rfl] at h0
  have key : ∀ i, (i < n → f i = f 0) ∧ (i + 1 < n → f (i + 1) = f 0) := by
    intro i
    induction i with
    | zero => exact ⟨fun _ => rfl, fun _ => by linarith⟩
    | succ i ih =>
      refine ⟨ih.2, fun hi => ?_⟩
      have hg := h (i + 1) (by omega)
      unfold grad at hg
      rw [if_neg (by omega), if_neg (by omega), Nat.add_sub_cancel] at hg
      have := ih.1 (by omega)
      linarith
  exact fun i hi => (key i).1 hi

/-- C110: the sharpness is not negative, and zero exactly for a constant image. -/
theorem sharpness_zero_iff (m : Mat ℝ) (s : ℝ) (h : sharpness m = .ok s) :
    0 ≤ s ∧ (s = 0 ↔ ∀ i < m.h, ∀ j < m.w, m.get i j = m.get 0 0) := by
  unfold sharpness at h
  split at h
  · exact (nomatch h)
  rename_i hs
  rw [not_or, not_lt, not_lt] at hs
  cases h
  have hnn : 0 ≤ ∑ i ∈ Finset.range m.h, ∑ j ∈ Finset.range m.w,
      Real.sqrt (grad m.h (fun i => m.get i j) i ^ 2 + grad m.w (fun j => m.get i j) j ^ 2) :=
    Finset.sum_nonneg fun i _ => Finset.sum_nonneg fun j _ => Real.sqrt_nonneg _
  have hpos : (0 : ℝ) < (m.h : ℝ) * m.w := by
    have h1 : (0 : ℝ) < m.h := by exact_mod_cast (by omega : 0 < m.h)
    have h2 : (0 : ℝ) < m.w := by exact_mod_cast (by omega : 0 < m.w)
    positivity
  refine ⟨div_nonneg hnn hpos.le, ?_⟩
  rw [div_eq_zero_iff, or_iff_left hpos.ne']
  rw [Finset.sum_eq_zero_iff_of_nonneg fun i _ => Finset.sum_nonneg fun j _ => Real.sqrt_nonneg _]
  constructor
  · intro hz
    have hg : ∀ i < m.h, ∀ j < m.w, grad m.h (fun i => m.get i j) i = 0 ∧ grad m.w (fun j => m.get i j) j = 0 := by
      intro i hi j hj
      have := (Finset.sum_eq_zero_iff_of_nonneg fun j _ => Real.sqrt_nonneg _).1 (hz i (Finset.mem_range.2 hi)) j (Finset.mem_range.2 hj)
      rw [Real.sqrt_eq_zero (by positivity)] at this
      constructor
      · nlinarith [sq_nonneg (grad m.h (fun i => m.get i j) i), sq_nonneg (grad m.w (fun j => m.get i j) j)]
      · nlinarith [sq_nonneg (grad m.h (fun i => m.get i j) i), sq_nonneg (grad m.w (fun j => m.get i j) j)]
    intro i hi j hj
    have e1 := grad_zero m.h (fun i => m.get i j) hs.1 (fun i hi => (hg i hi j hj).1) i hi
    have e2 := grad_zero m.w (fun j => m.get 0 j) hs.2 (fun j hj => (hg 0 (by omega) j hj).2) j hj
    exact e1.trans e2
  · intro hc i hi
    refine Finset.sum_eq_zero fun j hj => ?_
    have hi := Finset.mem_range.1 hi
    have hj := Finset.mem_range.1 hj
    rw [grad_congr m.h (fun i => m.get i j) (fun _ => m.get 0 0) hs.1 (fun i' hi' => hc i' hi' j hj) i hi,
      grad_congr m.w (fun j => m.get i j) (fun _ => m.get 0 0) hs.2 (fun j' hj' => hc i hi j' hj') j hj]
    unfold grad
    simp

end Verif.SliceMetric
