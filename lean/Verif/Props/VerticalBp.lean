import Verif.Props.Vertical
import Mathlib.Data.List.GetD
import Mathlib.Data.List.Pairwise

/-! C48 — vertical back-projection: independent of threads, schedules, chunking; multi = stack of single. -/

set_option linter.unusedSectionVars false
set_option linter.unusedSimpArgs false

namespace Verif.Vertical
open Verif.Sched Verif.BackProj

variable {K : Type _} [Field K] [LinearOrder K] [IsStrictOrderedRing K] [FloorRing K]

/-! ### Specification -/

/-- Vertical back-projection of a projection stack along the points `(xl j, yl j)`: at `(i, j)` the sum over
the projections of row `i` interpolated at `x cos + y sin + center`. -/
def verticalBp (p : Arr3 K) (cs : Nat → K × K) (xl yl : Nat → K) (center : K) (edgePad : Bool)
    (i j : Nat) : K :=
  ∑ n ∈ Finset.range p.d, contribution (p.get n i) p.w edgePad
    (xl j * (cs n).1 + yl j * (cs n).2 + center)

/-! ### Threads that own their cells -/

theorem pend_not_touches {ι : Type _} [DecidableEq ι] (l : List (ι × K)) (q : ι) (h : ¬ Touches l q) :
    pend l q = 0 := by
  induction l with
  | nil => rfl
  | cons u l ih =>
    rw [pend_cons, ih (fun ⟨v, hv⟩ => h ⟨v, by simp [hv]⟩), if_neg, add_zero]
    intro hu
    exact h ⟨u.2, by simp [← hu]⟩

/-- If every unit of work `u` only touches cells owned by `u`, and each unit is given to exactly one
thread, every complete interleaving leaves in each cell the updates of its owner. -/
theorem owned_run {ι : Type _} [DecidableEq ι] (R : Nat → List (ι × K)) (owner : ι → Nat)
    (hown : ∀ u q, Touches (R u) q → owner q = u) (U T : Nat) (assign : Nat → List Nat)
    (ha : IsAssignment U T assign) (sched : List Nat)
    (hf : ((Shared.init (fun _ => (0 : K)) T (fun t => ((List.range T).map fun t =>
      ((assign t).map R).flatten).getD t [])).run sched).Finished) (q : ι) (hq : owner q < U) :
    ((Shared.init (fun _ => (0 : K)) T (fun t => ((List.range T).map fun t =>
      ((assign t).map R).flatten).getD t [])).run sched).mem q = pend (R (owner q)) q := by
  have hnd : ((List.range T).flatMap assign).Nodup := ha.nodup_iff.mpr List.nodup_range
  rw [List.nodup_flatMap] at hnd
  have hdisj : ∀ t < T, ∀ t' < T, t ≠ t' → ∀ u, u ∈ assign t → u ∉ assign t' := by
    intro t ht t' ht' hne u h1 h2
    have hsymm : Std.Symm (Function.onFun List.Disjoint assign) := ⟨by
      intro a b h c h1 h2; exact h h2 h1⟩
    have := hnd.2.forall (List.mem_range.mpr ht) (List.mem_range.mpr ht') hne
    exact this h1 h2
  have htod : ∀ t p, Touches ((Shared.init (fun _ => (0 : K)) T (fun t => ((List.range T).map fun t =>
      ((assign t).map R).flatten).getD t [])).thr t).todo p → t < T ∧ owner p ∈ assign t := by
    intro t p h
    by_cases ht : t < T
    · refine ⟨ht, ?_⟩
      simp only [Shared.init, ht, if_true, getD_map_range T t _ _ ht] at h
      obtain ⟨v, hv⟩ := h
      rw [List.mem_flatten] at hv
      obtain ⟨l, hl, hv⟩ := hv
      obtain ⟨u, hu, rfl⟩ := List.mem_map.mp hl
      rw [hown u p ⟨v, hv⟩]; exact hu
    · simp only [Shared.init, ht, if_false] at h
      obtain ⟨v, hv⟩ := h; cases hv
  have hex : (Shared.init (fun _ => (0 : K)) T (fun t => ((List.range T).map fun t =>
      ((assign t).map R).flatten).getD t [])).ExclRun sched := by
    apply Shared.exclRun_of_disjoint
    intro t t' hne p h1 h2
    obtain ⟨a1, a2⟩ := htod t p h1
    obtain ⟨b1, b2⟩ := htod t' p h2
    exact hdisj t a1 t' b1 hne _ a2 b2
  have hinv := Shared.inv_run (Shared.inv_init _ T _) hex
  rw [Shared.mem_of_finished hinv hf q, zero_add]
  have : ∀ t ∈ Finset.range T, pend (((List.range T).map fun t =>
      ((assign t).map R).flatten).getD t []) q = ((assign t).map fun u => pend (R u) q).sum := by
    intro t ht
    rw [getD_map_range T t _ _ (Finset.mem_range.mp ht), pend_flatten_map]
  rw [Finset.sum_congr rfl this, sum_flatMap_map, (ha.map _).sum_eq, sum_range_eq]
  rw [Finset.sum_eq_single (owner q)]
  · intro u _ hu
    exact pend_not_touches _ _ (fun h => hu (hown u q h).symm)
  · intro h; exact absurd (Finset.mem_range.mpr hq) h

/-! ### CPU, single slice -/

theorem rv_image (p : Arr3 K) (n i : Nat) (f : K) (edgePad : Bool) :
    (rv (image p n) i f edgePad).getD 0 = contribution (p.get n i) p.w edgePad f := by
  rw [rv_getD]; rfl

/-- Updates of a row when all reads succeed. -/
def rowList (p : Arr3 K) (cs : Nat → K × K) (xl yl : Nat → K) (center : K) (edgePad : Bool)
    (i : Nat) : List ((Nat × Nat) × K) :=
  ((List.range p.d).map fun n => (List.range p.w).filterMap fun j =>
    (rv (image p n) i (vPos (cs n) center (xl j) (yl j)) edgePad).map fun v => ((i, j), v)).flatten

theorem rowUpdates_ok (p : Arr3 K) (cs : Nat → K × K) (xl yl : Nat → K) (center : K) (edgePad : Bool)
    (i : Nat) (hi : i < p.h) :
    rowUpdates p cs xl yl center edgePad i = .ok (rowList p cs xl yl center edgePad i) := by
  unfold rowUpdates rowList
  rw [mapM_ok (g := fun n => (List.range p.w).map fun j =>
    (rv (image p n) i (vPos (cs n) center (xl j) (yl j)) edgePad).map fun v => ((i, j), v))]
  · simp only [bind, Except.bind, pure, Except.pure]
    rw [filterMap_flatten_map]
  · intro n _
    apply mapM_ok
    intro j hj
    have hj := List.mem_range.mp hj
    rw [rayVal_eq (image p n) i _ edgePad hi (by show 0 < p.w; omega)]
    rfl

theorem rowList_owner (p : Arr3 K) (cs : Nat → K × K) (xl yl : Nat → K) (center : K) (edgePad : Bool)
    (i : Nat) (q : Nat × Nat) (h : Touches (rowList p cs xl yl center edgePad i) q) : q.1 = i := by
  obtain ⟨v, hv⟩ := h
  unfold rowList at hv
  simp only [List.mem_flatten, List.mem_map, List.mem_range] at hv
  obtain ⟨l, ⟨n, _, rfl⟩, hm⟩ := hv
  simp only [List.mem_filterMap, List.mem_range, Option.map_eq_some_iff] at hm
  obtain ⟨j, _, v', _, h2⟩ := hm
  simp only [Prod.mk.injEq] at h2
  rw [← h2.1]

theorem pend_rowList (p : Arr3 K) (cs : Nat → K × K) (xl yl : Nat → K) (center : K) (edgePad : Bool)
    (i j : Nat) (hj : j < p.w) :
    pend (rowList p cs xl yl center edgePad i) (i, j) = verticalBp p cs xl yl center edgePad i j := by
  unfold rowList verticalBp
  rw [pend_flatten_map, sum_range_eq]
  apply Finset.sum_congr rfl
  intro n _
  rw [pend_inj_filterMap (List.range p.w) List.nodup_range (fun j => (i, j))
    (by intro a b h; simpa using h)]
  rw [sum_range_eq, Finset.sum_eq_single j]
  · simp only [if_true, rv_image]; rfl
  · intro k _ hk; rw [if_neg]; simpa using hk
  · intro hn; exact absurd (Finset.mem_range.mpr hj) hn

/-- C48 (CPU kernel).  For every number of threads, every distribution of the rows over the threads and
every interleaving of their memory accesses, no read is out of range and once all threads have finished the
image is the vertical back-projection. -/
theorem vertical_bp_cpu_correct (p : Arr3 K) (cs : Nat → K × K) (xl yl : Nat → K) (center : K)
    (edgePad : Bool) (T : Nat) (assign : Nat → List Nat) (ha : IsAssignment p.h T assign)
    (sched : List Nat) :
    ∃ fin, verticalBpCpu p cs xl yl center edgePad T assign sched = .ok fin ∧
      (fin.Finished → ∀ i < p.h, ∀ j < p.w,
        fin.mem (i, j) = verticalBp p cs xl yl center edgePad i j) := by
  unfold verticalBpCpu
  rw [mapM_ok (g := fun t => ((assign t).map (rowList p cs xl yl center edgePad)).flatten)]
  · refine ⟨_, rfl, ?_⟩
    intro hf i hi j hj
    have := owned_run (rowList p cs xl yl center edgePad) (fun q => q.1)
      (fun u q h => rowList_owner p cs xl yl center edgePad u q h) p.h T assign ha sched hf (i, j) hi
    exact this.trans (pend_rowList p cs xl yl center edgePad i j hj)
  · intro t ht
    rw [mapM_ok (g := rowList p cs xl yl center edgePad)]
    · rfl
    · intro i hi
      apply rowUpdates_ok
      have : i ∈ (List.range T).flatMap assign := List.mem_flatMap.mpr ⟨t, ht, hi⟩
      exact List.mem_range.mp (ha.mem_iff.mp this)

/-! ### CPU, several slices -/

/-- Updates of a slice when all reads succeed. -/
def sliceList (p : Arr3 K) (cs : Nat → K × K) (xm ym : Nat → Nat → K) (center : K) (edgePad : Bool)
    (s : Nat) : List ((Nat × Nat × Nat) × K) :=
  ((List.range p.d).map fun n => ((List.range p.w).map fun j => (List.range p.h).filterMap fun i =>
    (rv (image p n) i (vPos (cs n) center (xm s j) (ym s j)) edgePad).map
      fun v => ((s, i, j), v)).flatten).flatten

theorem filterMap_id_flatten {β : Type _} (l : List (List (Option β))) :
    l.flatten.filterMap id = (l.map fun m => m.filterMap id).flatten := by
  induction l with
  | nil => rfl
  | cons a l ih => simp [List.filterMap_append, ih]

theorem sliceUpdates_ok (p : Arr3 K) (cs : Nat → K × K) (xm ym : Nat → Nat → K) (center : K)
    (edgePad : Bool) (s : Nat) :
    sliceUpdates p cs xm ym center edgePad s = .ok (sliceList p cs xm ym center edgePad s) := by
  unfold sliceUpdates sliceList
  rw [mapM_ok (g := fun n => ((List.range p.w).map fun j => (List.range p.h).map fun i =>
    (rv (image p n) i (vPos (cs n) center (xm s j) (ym s j)) edgePad).map
      fun v => ((s, i, j), v)).flatten)]
  · simp only [bind, Except.bind, pure, Except.pure]
    rw [filterMap_id_flatten, List.map_map]
    congr 2
    apply List.map_congr_left
    intro n _
    simp only [Function.comp]
    rw [filterMap_flatten_map]
  · intro n _
    rw [mapM_ok (g := fun j => (List.range p.h).map fun i =>
      (rv (image p n) i (vPos (cs n) center (xm s j) (ym s j)) edgePad).map fun v => ((s, i, j), v))]
    · rfl
    · intro j hj
      have hj := List.mem_range.mp hj
      apply mapM_ok
      intro i hi
      have hi := List.mem_range.mp hi
      rw [rayVal_eq (image p n) i _ edgePad hi (by show 0 < p.w; omega)]
      rfl

theorem sliceList_owner (p : Arr3 K) (cs : Nat → K × K) (xm ym : Nat → Nat → K) (center : K)
    (edgePad : Bool) (s : Nat) (q : Nat × Nat × Nat)
    (h : Touches (sliceList p cs xm ym center edgePad s) q) : q.1 = s := by
  obtain ⟨v, hv⟩ := h
  unfold sliceList at hv
  simp only [List.mem_flatten, List.mem_map, List.mem_range] at hv
  obtain ⟨l, ⟨n, _, rfl⟩, hm⟩ := hv
  simp only [List.mem_flatten, List.mem_map, List.mem_range] at hm
  obtain ⟨l, ⟨j, _, rfl⟩, hm⟩ := hm
  simp only [List.mem_filterMap, List.mem_range, Option.map_eq_some_iff] at hm
  obtain ⟨i, _, v', _, h2⟩ := hm
  simp only [Prod.mk.injEq] at h2
  rw [← h2.1]

theorem pend_sliceList (p : Arr3 K) (cs : Nat → K × K) (xm ym : Nat → Nat → K) (center : K)
    (edgePad : Bool) (s i j : Nat) (hi : i < p.h) (hj : j < p.w) :
    pend (sliceList p cs xm ym center edgePad s) (s, i, j)
      = verticalBp p cs (xm s) (ym s) center edgePad i j := by
  unfold sliceList verticalBp
  rw [pend_flatten_map, sum_range_eq]
  apply Finset.sum_congr rfl
  intro n _
  rw [pend_flatten_map, sum_range_eq, Finset.sum_eq_single j]
  · rw [pend_inj_filterMap (List.range p.h) List.nodup_range (fun i => (s, i, j))
      (by intro a b h; simpa using h)]
    rw [sum_range_eq, Finset.sum_eq_single i]
    · simp only [if_true, rv_image]; rfl
    · intro k _ hk; rw [if_neg]; simpa using hk
    · intro hn; exact absurd (Finset.mem_range.mpr hi) hn
  · intro k _ hk
    rw [pend_inj_filterMap (List.range p.h) List.nodup_range (fun i => (s, i, k))
      (by intro a b h; simpa using h)]
    apply List.sum_eq_zero
    intro z hz
    obtain ⟨l, _, rfl⟩ := List.mem_map.mp hz
    rw [if_neg]
    intro h
    simp only [Prod.mk.injEq] at h
    exact hk h.2.2
  · intro hn; exact absurd (Finset.mem_range.mpr hj) hn

/-- C48 (CPU chunk kernel): slice `s` of the result is the single-slice vertical back-projection along
line `s`, for all threads and schedules. -/
theorem vertical_bp_cpu_chunk_correct (p : Arr3 K) (cs : Nat → K × K) (xm ym : Nat → Nat → K)
    (center : K) (edgePad : Bool) (S T : Nat) (assign : Nat → List Nat)
    (ha : IsAssignment S T assign) (sched : List Nat) :
    ∃ fin, verticalBpCpuChunk p cs xm ym center edgePad T assign sched = .ok fin ∧
      (fin.Finished → ∀ s < S, ∀ i < p.h, ∀ j < p.w,
        fin.mem (s, i, j) = verticalBp p cs (xm s) (ym s) center edgePad i j) := by
  unfold verticalBpCpuChunk
  rw [mapM_ok (g := fun t => ((assign t).map (sliceList p cs xm ym center edgePad)).flatten)]
  · refine ⟨_, rfl, ?_⟩
    intro hf s hs i hi j hj
    have := owned_run (sliceList p cs xm ym center edgePad) (fun q => q.1)
      (fun u q h => sliceList_owner p cs xm ym center edgePad u q h) S T assign ha sched hf (s, i, j) hs
    exact this.trans (pend_sliceList p cs xm ym center edgePad s i j hi hj)
  · intro t ht
    rw [mapM_ok (g := sliceList p cs xm ym center edgePad)]
    · rfl
    · intro s _
      exact sliceUpdates_ok p cs xm ym center edgePad s

/-! ### GPU -/

theorem gpuAcc_ok (p : Arr3 K) (cs : Nat → K × K) (xl yl : Nat → K) (center : K) (edgePad : Bool)
    (i j : Nat) (hi : i < p.h) (hw : 0 < p.w) :
    gpuAcc p cs (xl j) (yl j) center edgePad i = .ok (verticalBp p cs xl yl center edgePad i j) := by
  unfold gpuAcc
  rw [mapM_ok (g := fun n => rv (image p n) i (vPos (cs n) center (xl j) (yl j)) edgePad) _
    (fun n _ => rayVal_eq (image p n) i _ edgePad hi hw)]
  simp only [bind, Except.bind, pure, Except.pure]
  congr 1
  rw [foldl_opt_sum, zero_add, List.map_map, sum_range_eq]
  unfold verticalBp
  apply Finset.sum_congr rfl
  intro n _
  simp only [Function.comp, rv_image]
  rfl

/-- C48 (GPU kernels): whatever the order of the stores, once every (thread, slice) store of the launched
grid has happened, entry `(s, i, j)` is the single-slice vertical back-projection along line `s`. -/
theorem vertical_bp_gpu_correct (p : Arr3 K) (cs : Nat → K × K) (xm ym : Nat → Nat → K)
    (center : K) (edgePad : Bool) (b0 b1 : Nat) (hb0 : 0 < b0) (hb1 : 0 < b1) (S : Nat)
    (order : List (Nat × Nat))
    (hall : ∀ t < (gridDim p.h b0 * b0) * (gridDim p.w b1 * b1), ∀ s < S, (t, s) ∈ order) :
    ∃ img, verticalBpGpu p cs xm ym center edgePad b0 order = .ok img ∧
      (∀ s < S, ∀ i < p.h, ∀ j < p.w,
        img (s, i, j) = verticalBp p cs (xm s) (ym s) center edgePad i j) ∧
      (∀ s i j, ¬ (i < p.h ∧ j < p.w) → img (s, i, j) = 0) := by
  have hcx := gridDim_covers p.h b0 hb0
  have hcy := gridDim_covers p.w b1 hb1
  unfold verticalBpGpu
  generalize gridDim p.h b0 * b0 = nx at *
  generalize gridDim p.w b1 * b1 = ny at *
  have key : ∀ (order : List (Nat × Nat)) (r0 : Nat × Nat × Nat → K),
      ∃ img, order.foldlM (fun r e => gpuStore p cs xm ym center edgePad nx e.1 e.2 r) r0 = .ok img ∧
        ∀ q, ((∃ t, (t, q.1) ∈ order ∧ threadXY nx t = (q.2.1, q.2.2) ∧ q.2.1 < p.h ∧ q.2.2 < p.w) →
            img q = verticalBp p cs (xm q.1) (ym q.1) center edgePad q.2.1 q.2.2) ∧
          ((¬ ∃ t, (t, q.1) ∈ order ∧ threadXY nx t = (q.2.1, q.2.2) ∧ q.2.1 < p.h ∧ q.2.2 < p.w) →
            img q = r0 q) := by
    intro order
    induction order with
    | nil => intro r0; exact ⟨r0, rfl, fun q => ⟨by simp, fun _ => rfl⟩⟩
    | cons e es ih =>
      intro r0
      obtain ⟨t, s⟩ := e
      by_cases hg : (threadXY nx t).1 ≥ p.h ∨ (threadXY nx t).2 ≥ p.w
      · have h1 : gpuStore p cs xm ym center edgePad nx t s r0 = .ok r0 := by
          unfold gpuStore; simp only [hg, if_true]; rfl
        obtain ⟨img, a1, a2⟩ := ih r0
        refine ⟨img, by rw [List.foldlM_cons, h1]; exact a1, ?_⟩
        intro q
        have hiff : (∃ t', (t', q.1) ∈ (t, s) :: es ∧ threadXY nx t' = (q.2.1, q.2.2) ∧ q.2.1 < p.h ∧ q.2.2 < p.w)
            ↔ (∃ t', (t', q.1) ∈ es ∧ threadXY nx t' = (q.2.1, q.2.2) ∧ q.2.1 < p.h ∧ q.2.2 < p.w) := by
          constructor
          · rintro ⟨t', h2, h3, h4⟩
            rcases List.mem_cons.mp h2 with h5 | h5
            · exfalso
              simp only [Prod.mk.injEq] at h5
              rw [h5.1] at h3
              rw [h3] at hg
              simp only at hg
              omega
            · exact ⟨t', h5, h3, h4⟩
          · rintro ⟨t', h2, h3⟩; exact ⟨t', by simp [h2], h3⟩
        rw [hiff]
        exact a2 q
      · have hg' : (threadXY nx t).1 < p.h ∧ (threadXY nx t).2 < p.w := by omega
        have h1 : gpuStore p cs xm ym center edgePad nx t s r0 = .ok (fun q =>
            if q = (s, (threadXY nx t).1, (threadXY nx t).2) then
              verticalBp p cs (xm s) (ym s) center edgePad (threadXY nx t).1 (threadXY nx t).2
            else r0 q) := by
          unfold gpuStore
          simp only [hg, if_false]
          rw [gpuAcc_ok p cs (xm s) (ym s) center edgePad _ _ hg'.1 (by omega)]
          rfl
        obtain ⟨img, a1, a2⟩ := ih (fun q =>
            if q = (s, (threadXY nx t).1, (threadXY nx t).2) then
              verticalBp p cs (xm s) (ym s) center edgePad (threadXY nx t).1 (threadXY nx t).2
            else r0 q)
        refine ⟨img, by rw [List.foldlM_cons, h1]; exact a1, ?_⟩
        intro q
        by_cases hin : ∃ t', (t', q.1) ∈ es ∧ threadXY nx t' = (q.2.1, q.2.2) ∧ q.2.1 < p.h ∧ q.2.2 < p.w
        · refine ⟨fun _ => (a2 q).1 hin, fun hc => ?_⟩
          exfalso; apply hc
          obtain ⟨t', h2, h3⟩ := hin
          exact ⟨t', by simp [h2], h3⟩
        · have hq := (a2 q).2 hin
          constructor
          · rintro ⟨t', h2, h3, h4⟩
            rcases List.mem_cons.mp h2 with h5 | h5
            · simp only [Prod.mk.injEq] at h5
              have hqe : q = (s, (threadXY nx t).1, (threadXY nx t).2) := by
                rw [← h5.1, h3, ← h5.2]
              rw [hq, if_pos hqe, hqe]
            · exact absurd ⟨t', h5, h3, h4⟩ hin
          · intro hc
            rw [hq, if_neg]
            intro hqe
            apply hc
            rw [hqe]
            exact ⟨t, by simp, rfl, hg'⟩
  obtain ⟨img, h1, h2⟩ := key order (fun _ => 0)
  refine ⟨img, h1, ?_, ?_⟩
  · intro s hs i hi j hj
    apply (h2 (s, i, j)).1
    have hi' : i < nx := by omega
    refine ⟨j * nx + i, hall _ ?_ s hs, ?_, hi, hj⟩
    · calc j * nx + i < j * nx + nx := by omega
        _ = (j + 1) * nx := by ring
        _ ≤ ny * nx := Nat.mul_le_mul_right _ (by omega)
        _ = _ := Nat.mul_comm _ _
    · unfold threadXY
      rw [Nat.add_comm, Nat.add_mul_mod_self_right, Nat.mod_eq_of_lt hi',
        Nat.add_mul_div_right _ _ (by omega), Nat.div_eq_of_lt hi', Nat.zero_add]
  · intro s i j hn
    apply (h2 (s, i, j)).2
    rintro ⟨_, _, _, h3⟩
    exact hn h3

end Verif.Vertical
