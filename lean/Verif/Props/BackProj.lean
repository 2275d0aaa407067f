import Verif.Model.BackProj
import Verif.Lemmas.Sched
import Mathlib.Data.Rat.Floor
import Mathlib.Tactic.Linarith
import Mathlib.Tactic.Positivity
import Mathlib.Tactic.FieldSimp
import Mathlib.Tactic.NormNum

/-! C02, C03, C04 — back-projection. -/

set_option linter.unusedSectionVars false
set_option linter.unusedSimpArgs false

namespace Verif.BackProj
open Verif.Sched

variable {K : Type _} [Field K] [LinearOrder K] [IsStrictOrderedRing K] [FloorRing K]

/-! ### Specification -/

/-- Contribution of one projection (values `row 0 .. row (w-1)`) at detector position `f`:
piecewise-linear interpolation on `[0, w-1]`, edge value or nothing outside. -/
def contribution (row : Nat → K) (w : Nat) (edgePad : Bool) (f : K) : K :=
  if f < 0 then (if edgePad then row 0 else 0)
  else if (w : K) - 1 < f then (if edgePad then row (w - 1) else 0)
  else row ⌊f⌋.toNat + (f - (⌊f⌋.toNat : K)) * (row (⌊f⌋.toNat + 1) - row ⌊f⌋.toNat)

/-- Sinogram `j` of a chunk whose axes are (angles, slices, columns). -/
def sinogramOf (s : Arr3 K) (j : Nat) : Mat K := ⟨s.d, s.w, fun i c => s.get i j c⟩

/-- The back-projected image: at pixel `(y, x)` the sum over all angles of the contribution at the
detector position `(x - (w-1)/2) cos + (y - (w-1)/2) sin + center`. -/
def backProjection (sino : Mat K) (cs : Nat → K × K) (center : K) (edgePad : Bool) (y x : Nat) : K :=
  ∑ i ∈ Finset.range sino.h, contribution (sino.get i) sino.w edgePad
    (((x : K) - ((sino.w : K) - 1) / 2) * (cs i).1 + ((y : K) - ((sino.w : K) - 1) / 2) * (cs i).2
      + center)

/-! ### Lemmas -/

theorem mapM_ok {α β : Type _} {f : α → Py β} {g : α → β} (l : List α)
    (h : ∀ x ∈ l, f x = .ok (g x)) : l.mapM f = .ok (l.map g) := by
  induction l with
  | nil => rfl
  | cons a l ih =>
    rw [List.mapM_cons, h a (by simp), ih (fun x hx => h x (by simp [hx]))]
    rfl

/-- Total version of `rayVal`. -/
def rv (sino : Mat K) (i : Nat) (f : K) (edgePad : Bool) : Option K :=
  if (f < 0 ∨ (sino.w : K) - 1 < f) ∧ edgePad = false then none
  else some (contribution (sino.get i) sino.w edgePad f)

theorem read_ok {α : Type _} (m : Mat α) (i j : Nat) (hi : i < m.h) (hj : j < m.w) :
    m.read (i : Int) (j : Int) = .ok (m.get i j) := by
  unfold Mat.read
  rw [if_pos ⟨by omega, by omega, by omega, by omega⟩]
  simp

theorem rayVal_eq (sino : Mat K) (i : Nat) (f : K) (edgePad : Bool) (hi : i < sino.h)
    (hw : 0 < sino.w) : rayVal sino i f edgePad = .ok (rv sino i f edgePad) := by
  unfold rayVal rv
  by_cases hin : 0 ≤ f ∧ f ≤ (sino.w : K) - 1
  · have h0 : ¬ f < 0 := not_lt.mpr hin.1
    have h1 : ¬ (sino.w : K) - 1 < f := not_lt.mpr hin.2
    simp only [hin, and_self, if_true, h0, h1, or_self, false_and, if_false, contribution]
    have hfl0 : 0 ≤ ⌊f⌋ := Int.floor_nonneg.mpr hin.1
    obtain ⟨d, hd⟩ := Int.eq_ofNat_of_zero_le hfl0
    have hfle : (⌊f⌋ : K) ≤ f := Int.floor_le f
    have hdw : d < sino.w := by
      have h2 : ((d : Int) : K) ≤ (sino.w : K) - 1 := by rw [← hd]; exact hfle.trans hin.2
      have h3 : (d : K) + 1 ≤ (sino.w : K) := by push_cast at h2; linarith
      exact_mod_cast h3
    by_cases hu : ⌈f⌉ = ⌊f⌋
    · have hfeq : f = (⌊f⌋ : K) := by
        apply le_antisymm
        · rw [← hu]; exact Int.le_ceil f
        · exact hfle
      have hz : f - (d : K) = 0 := by rw [hd] at hfeq; rw [hfeq]; simp
      simp only [ne_eq, hu, not_true_eq_false, if_false]
      rw [hd, read_ok sino i d hi hdw]
      simp only [Int.ofNat_eq_natCast, Int.toNat_natCast, hz, zero_mul, add_zero]
      rfl
    · have hce : ⌈f⌉ = ⌊f⌋ + 1 := by
        have h1 := Int.ceil_le_floor_add_one f
        have h2 := Int.floor_le_ceil f
        omega
      have hlt : (⌊f⌋ : K) < f := by
        rcases lt_or_eq_of_le hfle with h | h
        · exact h
        · exfalso; apply hu; rw [← h]; simp
      have hdw1 : d + 1 < sino.w := by
        have h2 : ((d : Int) : K) < (sino.w : K) - 1 := by
          rw [← hd]; exact lt_of_lt_of_le hlt hin.2
        have h3 : ((d + 1 : Nat) : K) < (sino.w : K) := by push_cast at h2 ⊢; linarith
        exact_mod_cast h3
      simp only [ne_eq, hu, not_false_eq_true, if_true]
      rw [hce, hd]
      have e1 : ((d : Int) + 1 : Int) = ((d + 1 : Nat) : Int) := by simp
      rw [e1, read_ok sino i (d + 1) hi hdw1, read_ok sino i d hi hdw]
      simp only [Int.toNat_natCast, Int.cast_natCast]
      rw [mul_comm (f - (d : K))]
      rfl
  · rw [if_neg hin]
    have hout : f < 0 ∨ (sino.w : K) - 1 < f := by
      by_contra hc; push Not at hc; exact hin hc
    cases edgePad with
    | false => simp only [Bool.false_eq_true, if_false, hout, and_self, if_true]; rfl
    | true =>
      simp only [if_true, Bool.true_eq_false, and_false, if_false, contribution]
      by_cases h0 : f < 0
      · rw [if_pos h0, if_pos h0]
        have : sino.read (i : Int) 0 = .ok (sino.get i 0) := read_ok sino i 0 hi hw
        rw [this]; rfl
      · have h1 : (sino.w : K) - 1 < f := hout.resolve_left h0
        rw [if_neg h0, if_neg h0, if_pos h1]
        have : ((sino.w : Int) - 1) = ((sino.w - 1 : Nat) : Int) := by omega
        rw [this, read_ok sino i (sino.w - 1) hi (by omega)]; rfl

theorem rv_getD (sino : Mat K) (i : Nat) (f : K) (edgePad : Bool) :
    (rv sino i f edgePad).getD 0 = contribution (sino.get i) sino.w edgePad f := by
  unfold rv
  split
  · rename_i h
    obtain ⟨h1, h2⟩ := h
    subst h2
    unfold contribution
    rcases h1 with h1 | h1
    · simp [h1]
    · by_cases h0 : f < 0
      · simp [h0]
      · simp [h0, h1]
  · rfl

theorem fPos_eq (w : Nat) (cs : K × K) (center : K) (x y : Nat) :
    fPos w cs center x y = ((x : K) - ((w : K) - 1) / 2) * cs.1 + ((y : K) - ((w : K) - 1) / 2) * cs.2
      + center := by
  unfold fPos
  have : (1 / 2 : K) * ((w : K) - 1) = ((w : K) - 1) / 2 := by ring
  simp only [this]

theorem mem_pixels (w : Nat) (p : Nat × Nat) : p ∈ pixels w ↔ p.1 < w ∧ p.2 < w := by
  obtain ⟨y, x⟩ := p
  simp [pixels]

theorem nodup_pixels (w : Nat) : (pixels w).Nodup := by
  have : pixels w = (List.range w) ×ˢ (List.range w) := by
    simp [pixels, List.product, SProd.sprod]
  rw [this]
  exact List.Nodup.product List.nodup_range List.nodup_range

theorem pend_filterMap {ι : Type _} [DecidableEq ι] (l : List ι) (hl : l.Nodup) (g : ι → Option K)
    (q : ι) : pend (l.filterMap fun p => (g p).map fun v => (p, v)) q
      = if q ∈ l then (g q).getD 0 else 0 := by
  induction l with
  | nil => simp [pend_nil]
  | cons a l ih =>
    rw [List.nodup_cons] at hl
    have ih := ih hl.2
    by_cases hqa : q = a
    · subst hqa
      rw [if_neg hl.1] at ih
      simp only [List.mem_cons, true_or, if_true]
      rw [List.filterMap_cons]
      cases hg : g q with
      | none => simpa using ih
      | some v => simp [pend_cons, ih]
    · have hm : (q ∈ a :: l) = (q ∈ l) := by simp [hqa]
      simp only [hm]
      rw [List.filterMap_cons]
      cases hg : g a with
      | none => simpa using ih
      | some v =>
        have hqa' : ¬ a = q := fun h => hqa h.symm
        simp [pend_cons, ih, hqa']

theorem pend_append {ι : Type _} [DecidableEq ι] (l m : List (ι × K)) (q : ι) :
    pend (l ++ m) q = pend l q + pend m q := by simp [pend]

theorem pend_flatten_map {ι α : Type _} [DecidableEq ι] (l : List α) (g : α → List (ι × K)) (q : ι) :
    pend ((l.map g).flatten) q = (l.map fun a => pend (g a) q).sum := by
  induction l with
  | nil => simp [pend_nil]
  | cons a l ih => simp [pend_append, ih]

/-- Updates of angle `i` when all reads succeed. -/
def angleList (sino : Mat K) (cs : Nat → K × K) (center : K) (edgePad : Bool) (i : Nat) :
    List ((Nat × Nat) × K) :=
  (pixels sino.w).filterMap fun p =>
    (rv sino i (fPos sino.w (cs i) center p.2 p.1) edgePad).map fun v => (p, v)

theorem angleUpdates_ok (sino : Mat K) (cs : Nat → K × K) (center : K) (edgePad : Bool) (i : Nat)
    (hi : i < sino.h) : angleUpdates sino cs center edgePad i
      = .ok (angleList sino cs center edgePad i) := by
  unfold angleUpdates angleList
  rw [mapM_ok (g := fun p => (rv sino i (fPos sino.w (cs i) center p.2 p.1) edgePad).map
      fun v => (p, v))]
  · simp only [bind, Except.bind, pure, Except.pure, List.filterMap_map]
    rfl
  · intro p hp
    have := (mem_pixels _ _).mp hp
    rw [rayVal_eq sino i _ edgePad hi (by omega)]
    rfl

theorem threadUpdates_ok (sino : Mat K) (cs : Nat → K × K) (center : K) (edgePad : Bool)
    (angles : List Nat) (h : ∀ i ∈ angles, i < sino.h) :
    threadUpdates sino cs center edgePad angles
      = .ok ((angles.map (angleList sino cs center edgePad)).flatten) := by
  unfold threadUpdates
  rw [mapM_ok (g := angleList sino cs center edgePad) _
    (fun i hi => angleUpdates_ok sino cs center edgePad i (h i hi))]
  rfl

theorem pend_angleList (sino : Mat K) (cs : Nat → K × K) (center : K) (edgePad : Bool) (i : Nat)
    (y x : Nat) (hy : y < sino.w) (hx : x < sino.w) :
    pend (angleList sino cs center edgePad i) (y, x)
      = contribution (sino.get i) sino.w edgePad (fPos sino.w (cs i) center x y) := by
  unfold angleList
  rw [pend_filterMap _ (nodup_pixels _)
    (fun p => rv sino i (fPos sino.w (cs i) center p.2 p.1) edgePad)]
  rw [if_pos ((mem_pixels _ _).mpr ⟨hy, hx⟩), rv_getD]

theorem sum_flatMap_map (T : Nat) (assign : Nat → List Nat) (c : Nat → K) :
    ∑ t ∈ Finset.range T, ((assign t).map c).sum = (((List.range T).flatMap assign).map c).sum := by
  induction T with
  | zero => simp
  | succ T ih =>
    rw [Finset.sum_range_succ, ih, List.range_succ, List.flatMap_append, List.map_append,
      List.sum_append]
    simp

theorem sum_range_eq (n : Nat) (c : Nat → K) :
    ((List.range n).map c).sum = ∑ i ∈ Finset.range n, c i := by
  induction n with
  | zero => simp
  | succ n ih => rw [List.range_succ, List.map_append, List.sum_append, ih, Finset.sum_range_succ]; simp

theorem getD_map_range {β : Type _} (T t : Nat) (g : Nat → β) (d : β) (ht : t < T) :
    ((List.range T).map g).getD t d = g t := by
  simp [List.getD, List.getElem?_map, List.getElem?_range ht]

/-- The angles handed out by `prange`: each angle goes to exactly one thread. -/
abbrev IsAssignment (h T : Nat) (assign : Nat → List Nat) : Prop :=
  ((List.range T).flatMap assign).Perm (List.range h)

theorem cpu_state (sino : Mat K) (cs : Nat → K × K) (center : K) (edgePad : Bool)
    (T : Nat) (assign : Nat → List Nat) (sched : List Nat)
    (ha : IsAssignment sino.h T assign) :
    backProjectionCpu sino cs center edgePad T assign sched
      = .ok ((Shared.init (fun _ => 0) T (fun t => ((List.range T).map fun t =>
          ((assign t).map (angleList sino cs center edgePad)).flatten).getD t [])).run sched) := by
  unfold backProjectionCpu
  rw [mapM_ok (g := fun t => ((assign t).map (angleList sino cs center edgePad)).flatten)]
  · rfl
  · intro t ht
    apply threadUpdates_ok
    intro i hi
    have : i ∈ (List.range T).flatMap assign := List.mem_flatMap.mpr ⟨t, ht, hi⟩
    exact List.mem_range.mp (ha.mem_iff.mp this)

theorem cpu_total (sino : Mat K) (cs : Nat → K × K) (center : K) (edgePad : Bool)
    (T : Nat) (assign : Nat → List Nat) (ha : IsAssignment sino.h T assign)
    (y x : Nat) (hy : y < sino.w) (hx : x < sino.w) :
    (0 : K) + ∑ t ∈ Finset.range T, pend (((List.range T).map fun t =>
          ((assign t).map (angleList sino cs center edgePad)).flatten).getD t []) (y, x)
      = backProjection sino cs center edgePad y x := by
  rw [zero_add]
  have : ∀ t ∈ Finset.range T, pend (((List.range T).map fun t =>
          ((assign t).map (angleList sino cs center edgePad)).flatten).getD t []) (y, x)
      = ((assign t).map fun i => contribution (sino.get i) sino.w edgePad
          (fPos sino.w (cs i) center x y)).sum := by
    intro t ht
    rw [getD_map_range T t _ _ (Finset.mem_range.mp ht), pend_flatten_map]
    congr 1
    apply List.map_congr_left
    intro i _
    exact pend_angleList sino cs center edgePad i y x hy hx
  rw [Finset.sum_congr rfl this, sum_flatMap_map, (ha.map _).sum_eq, sum_range_eq]
  unfold backProjection
  apply Finset.sum_congr rfl
  intro i _
  rw [fPos_eq]

/-! ### C04: reads stay on the detector -/

/-- C04.  For every detector position `f` (hence for every centre, angle and pixel) and every row of a
sinogram with at least one column, the interpolation performs only in-range array reads (the
checked model never raises), adds nothing exactly when `f` is outside `[0, w-1]` and edge padding is
off, and otherwise yields the interpolated (or edge) value. -/
theorem back_projection_reads_in_range (sino : Mat K) (i : Nat) (f : K) (edgePad : Bool)
    (hi : i < sino.h) (hw : 0 < sino.w) :
    ∃ r, rayVal sino i f edgePad = .ok r ∧
      (r = none ↔ (f < 0 ∨ (sino.w : K) - 1 < f) ∧ edgePad = false) ∧
      (∀ v, r = some v → v = contribution (sino.get i) sino.w edgePad f) := by
  refine ⟨_, rayVal_eq sino i f edgePad hi hw, ?_, ?_⟩
  · unfold rv; split <;> simp_all
  · intro v hv
    unfold rv at hv
    split at hv
    · cases hv
    · cases hv; rfl

/-- C04 (indices): whenever the guard of the code holds, both interpolation columns are in
`[0, w-1]`. -/
theorem back_projection_columns_in_range (w : Nat) (f : K) (h0 : 0 ≤ f) (h1 : f ≤ (w : K) - 1) :
    0 ≤ ⌊f⌋ ∧ ⌊f⌋ ≤ ⌈f⌉ ∧ ⌈f⌉ ≤ (w : Int) - 1 := by
  refine ⟨Int.floor_nonneg.mpr h0, Int.floor_le_ceil f, ?_⟩
  rw [Int.ceil_le]
  push_cast
  exact h1

/-- C04 (interpolation is between the two neighbouring detector values). -/
theorem back_projection_value_between (row : Nat → K) (w : Nat) (edgePad : Bool) (f : K)
    (h0 : 0 ≤ f) (h1 : f ≤ (w : K) - 1) (lo hi : K) (hlo : ∀ j < w, lo ≤ row j)
    (hhi : ∀ j < w, row j ≤ hi) :
    lo ≤ contribution row w edgePad f ∧ contribution row w edgePad f ≤ hi := by
  have hfl0 : 0 ≤ ⌊f⌋ := Int.floor_nonneg.mpr h0
  obtain ⟨d, hd⟩ := Int.eq_ofNat_of_zero_le hfl0
  have hfle : (⌊f⌋ : K) ≤ f := Int.floor_le f
  have hflt : f < (⌊f⌋ : K) + 1 := Int.lt_floor_add_one f
  unfold contribution
  rw [if_neg (not_lt.mpr h0), if_neg (not_lt.mpr h1)]
  rw [hd] at hfle hflt ⊢
  simp only [Int.ofNat_eq_natCast, Int.toNat_natCast, Int.cast_natCast] at *
  have hdw : d < w := by
    have h3 : (d : K) + 1 ≤ (w : K) := by linarith
    exact_mod_cast h3
  by_cases heq : f = d
  · rw [heq]; simp [hlo d hdw, hhi d hdw]
  · have hlt : (d : K) < f := lt_of_le_of_ne hfle (Ne.symm heq)
    have hdw1 : d + 1 < w := by
      have h3 : ((d + 1 : Nat) : K) < (w : K) := by push_cast; linarith
      exact_mod_cast h3
    have a1 := hlo d hdw; have a2 := hhi d hdw
    have b1 := hlo (d + 1) hdw1; have b2 := hhi (d + 1) hdw1
    have t0 : 0 ≤ f - d := by linarith
    have t1 : 0 ≤ 1 - (f - d) := by linarith
    constructor
    · nlinarith [mul_nonneg t0 (sub_nonneg.mpr b1), mul_nonneg t1 (sub_nonneg.mpr a1)]
    · nlinarith [mul_nonneg t0 (sub_nonneg.mpr b2), mul_nonneg t1 (sub_nonneg.mpr a2)]

/-- Non-vacuity of the C04 theorems: a 1×3 sinogram read at `f = 3/2`. -/
example : rayVal (K := ℚ) ⟨1, 3, fun _ j => j * 10⟩ 0 (3 / 2) false = .ok (some 15) := by
  rw [rayVal_eq _ _ _ _ (by decide) (by decide)]
  have : ⌊(3 / 2 : ℚ)⌋ = 1 := by norm_num [Int.floor_eq_iff]
  simp only [rv, contribution, this]
  norm_num

/-! ### C02: CPU back-projection -/

/-- The full claim of C02 for the CPU routine: for every assignment of angles to threads and every
interleaving that completes, the result is the sum over angles. -/
def CpuScheduleIndependent (sino : Mat ℚ) (cs : Nat → ℚ × ℚ) (center : ℚ) (edgePad : Bool) : Prop :=
  ∀ (T : Nat) (assign : Nat → List Nat) (sched : List Nat) (s : Shared (Nat × Nat) ℚ),
    IsAssignment sino.h T assign →
    backProjectionCpu sino cs center edgePad T assign sched = .ok s → s.Finished →
    ∀ y < sino.w, ∀ x < sino.w, s.mem (y, x) = backProjection sino cs center edgePad y x

/-- C02 is false of the code: with two projections of a one-pixel detector and two threads, the
interleaving load₀ load₁ store₀ store₁ loses one update (result 1 instead of 2). -/
theorem back_projection_cpu_lost_update_refuted :
    ∃ (sino : Mat ℚ) (cs : Nat → ℚ × ℚ) (center : ℚ),
      ¬ CpuScheduleIndependent sino cs center false := by
  refine ⟨⟨2, 1, fun _ _ => 1⟩, fun _ => (1, 0), 0, ?_⟩
  intro h
  have ha : IsAssignment 2 2 (fun t => [t]) := by decide
  have hs := cpu_state (K := ℚ) ⟨2, 1, fun _ _ => 1⟩ (fun _ => (1, 0)) 0 false 2 (fun t => [t])
    [0, 1, 0, 1] ha
  have hl : ∀ i, angleList (K := ℚ) ⟨2, 1, fun _ _ => 1⟩ (fun _ => (1, 0)) 0 false i
      = [((0, 0), 1)] := by
    intro i
    simp [angleList, pixels, rv, fPos, contribution]
  have hb : backProjection (K := ℚ) ⟨2, 1, fun _ _ => 1⟩ (fun _ => (1, 0)) 0 false 0 0 = 2 := by
    simp [backProjection, contribution, Finset.sum_range_succ]
  have hf := h 2 (fun t => [t]) [0, 1, 0, 1] _ ha hs (by
    intro t
    rcases t with _ | _ | t <;> simp [Shared.run, Shared.step, Shared.init, List.range_succ, hl])
    0 (by decide) 0 (by decide)
  rw [hb] at hf
  revert hf
  simp [Shared.run, Shared.step, Shared.init, List.range_succ, hl]

/-- C02 (partial): if no two threads are ever between the load and the store of the *same* pixel
(mutual exclusion per pixel), then every complete interleaving gives the sum over angles.
Missing for the full claim: the code does nothing to guarantee mutual exclusion. -/
theorem back_projection_cpu_schedule_partial (sino : Mat K) (cs : Nat → K × K) (center : K)
    (edgePad : Bool) (T : Nat) (assign : Nat → List Nat) (sched : List Nat)
    (ha : IsAssignment sino.h T assign) :
    ∃ (s0 : Shared (Nat × Nat) K),
      backProjectionCpu sino cs center edgePad T assign [] = .ok s0 ∧
      backProjectionCpu sino cs center edgePad T assign sched = .ok (s0.run sched) ∧
      (s0.ExclRun sched → (s0.run sched).Finished →
        ∀ y < sino.w, ∀ x < sino.w,
          (s0.run sched).mem (y, x) = backProjection sino cs center edgePad y x) := by
  refine ⟨_, cpu_state sino cs center edgePad T assign [] ha,
    cpu_state sino cs center edgePad T assign sched ha, ?_⟩
  intro hx hf y hy x hxx
  have hinv := Shared.inv_run (Shared.inv_init _ T _) hx
  exact (Shared.mem_of_finished hinv hf (y, x)).trans
    (cpu_total sino cs center edgePad T assign ha y x hy hxx)

/-- C02 (partial): with a single thread (e.g. `NUMBA_NUM_THREADS=1`) every complete execution gives
the sum over angles, in whatever order the thread processes them. -/
theorem back_projection_cpu_one_thread_partial (sino : Mat K) (cs : Nat → K × K) (center : K)
    (edgePad : Bool) (assign : Nat → List Nat) (sched : List Nat) (s : Shared (Nat × Nat) K)
    (ha : IsAssignment sino.h 1 assign)
    (hs : backProjectionCpu sino cs center edgePad 1 assign sched = .ok s) (hf : s.Finished) :
    ∀ y < sino.w, ∀ x < sino.w, s.mem (y, x) = backProjection sino cs center edgePad y x := by
  rw [cpu_state sino cs center edgePad 1 assign sched ha] at hs
  cases hs
  intro y hy x hx
  have hex : (Shared.init (fun _ => (0 : K)) 1 (fun t => ((List.range 1).map fun t =>
          ((assign t).map (angleList sino cs center edgePad)).flatten).getD t [])).ExclRun sched := by
    apply Shared.exclRun_of_disjoint
    intro t t' htt p h1 h2
    obtain ⟨v1, h1⟩ := h1
    obtain ⟨v2, h2⟩ := h2
    have e1 : t = 0 := by
      by_contra hc
      simp [Shared.init, show ¬ t < 1 by omega] at h1
    have e2 : t' = 0 := by
      by_contra hc
      simp [Shared.init, show ¬ t' < 1 by omega] at h2
    exact htt (e1.trans e2.symm)
  have hinv := Shared.inv_run (Shared.inv_init _ 1 _) hex
  rw [Shared.mem_of_finished hinv hf (y, x)]
  exact cpu_total sino cs center edgePad 1 assign ha y x hy hx

/-- Non-vacuity: a one-thread run of the witness sinogram is complete and gives 2. -/
example : ∃ s, backProjectionCpu (K := ℚ) ⟨2, 1, fun _ _ => 1⟩ (fun _ => (1, 0)) 0 false 1
    (fun _ => [0, 1]) [0, 0, 0, 0] = .ok s ∧ s.Finished ∧ s.mem (0, 0) = 2 := by
  have hl : ∀ i, angleList (K := ℚ) ⟨2, 1, fun _ _ => 1⟩ (fun _ => (1, 0)) 0 false i
      = [((0, 0), 1)] := by
    intro i
    simp [angleList, pixels, rv, fPos, contribution]
  refine ⟨_, cpu_state (K := ℚ) ⟨2, 1, fun _ _ => 1⟩ (fun _ => (1, 0)) 0 false 1 (fun _ => [0, 1])
    [0, 0, 0, 0] (by decide), ?_, ?_⟩
  · intro t
    rcases t with _ | t <;> simp [Shared.run, Shared.step, Shared.init, hl]
  · simp [Shared.run, Shared.step, Shared.init, hl]; norm_num

/-! ### C03: GPU back-projection -/

theorem foldl_opt_sum (l : List (Option K)) (a : K) :
    l.foldl addOpt a
      = a + (l.map fun r => r.getD 0).sum := by
  induction l generalizing a with
  | nil => simp
  | cons r l ih =>
    rw [List.foldl_cons, ih]
    cases r with
    | none => simp [addOpt]
    | some v => simp [addOpt, add_assoc]

theorem gpuNum_ok (sino : Mat K) (cs : Nat → K × K) (center : K) (edgePad : Bool) (x y : Nat)
    (hw : 0 < sino.w) :
    gpuNum sino cs center edgePad x y = .ok (backProjection sino cs center edgePad y x) := by
  unfold gpuNum
  rw [mapM_ok (g := fun i => rv sino i (fPos sino.w (cs i) center x y) edgePad) _
    (fun i hi => rayVal_eq sino i _ edgePad (List.mem_range.mp hi) hw)]
  simp only [bind, Except.bind, pure, Except.pure]
  congr 1
  rw [foldl_opt_sum, zero_add, List.map_map, sum_range_eq]
  unfold backProjection
  apply Finset.sum_congr rfl
  intro i _
  simp only [Function.comp, rv_getD, fPos_eq]

theorem gridDim_covers (w b : Nat) (hb : 0 < b) : w ≤ gridDim w b * b := by
  unfold gridDim
  have h1 := Nat.div_add_mod (w + b - 1) b
  have h2 := Nat.mod_lt (w + b - 1) hb
  rw [Nat.mul_comm] at h1
  omega

/-- C03 (single slice).  Whatever order the threads' stores happen in, once every thread of the
launched grid has run, the image is the back-projection; cells outside the image are never
written. -/
theorem back_projection_gpu_correct (sino : Mat K) (cs : Nat → K × K) (center : K) (edgePad : Bool)
    (bx bY : Nat) (hbx : 0 < bx) (hby : 0 < bY) (order : List Nat)
    (hall : ∀ t < (gridDim sino.w bx * bx) * (gridDim sino.w bY * bY), t ∈ order) :
    ∃ img, backProjectionGpu sino cs center edgePad bx order = .ok img ∧
      (∀ y < sino.w, ∀ x < sino.w, img (y, x) = backProjection sino cs center edgePad y x) ∧
      (∀ y x, ¬ (y < sino.w ∧ x < sino.w) → img (y, x) = 0) := by
  generalize hnx : gridDim sino.w bx * bx = nx at *
  have hcx : sino.w ≤ nx := by rw [← hnx]; exact gridDim_covers _ _ hbx
  have hcy := gridDim_covers sino.w bY hby
  have key : ∀ (order : List Nat) (r0 : Nat × Nat → K),
      ∃ img, order.foldlM (fun rec t => gpuThread sino cs center edgePad nx t rec) r0 = .ok img ∧
        (∀ p, img p = if ∃ t ∈ order, threadXY nx t = (p.2, p.1) ∧ p.1 < sino.w ∧ p.2 < sino.w
          then backProjection sino cs center edgePad p.1 p.2 else r0 p) := by
    intro order
    induction order with
    | nil => intro r0; exact ⟨r0, rfl, by simp⟩
    | cons t ts ih =>
      intro r0
      by_cases hg : (threadXY nx t).1 < sino.w ∧ (threadXY nx t).2 < sino.w
      · have h1 : gpuThread sino cs center edgePad nx t r0 = .ok (fun p =>
            if p = ((threadXY nx t).2, (threadXY nx t).1) then
              backProjection sino cs center edgePad (threadXY nx t).2 (threadXY nx t).1 else r0 p) := by
          unfold gpuThread
          simp only [hg, and_self, if_true]
          rw [gpuNum_ok _ _ _ _ _ _ (by omega)]
          rfl
        obtain ⟨img, hi1, hi2⟩ := ih (fun p =>
            if p = ((threadXY nx t).2, (threadXY nx t).1) then
              backProjection sino cs center edgePad (threadXY nx t).2 (threadXY nx t).1 else r0 p)
        refine ⟨img, ?_, ?_⟩
        · rw [List.foldlM_cons, h1]; exact hi1
        · intro p
          rw [hi2 p]
          by_cases hp : p = ((threadXY nx t).2, (threadXY nx t).1)
          · have hex : ∃ t' ∈ t :: ts, threadXY nx t' = (p.2, p.1) ∧ p.1 < sino.w ∧ p.2 < sino.w :=
              ⟨t, by simp, by rw [hp], by rw [hp]; exact hg.2, by rw [hp]; exact hg.1⟩
            rw [if_pos hex, if_pos hp]
            split
            · rfl
            · rw [hp]
          · rw [if_neg hp]
            have : (∃ t' ∈ t :: ts, threadXY nx t' = (p.2, p.1) ∧ p.1 < sino.w ∧ p.2 < sino.w) ↔
                (∃ t' ∈ ts, threadXY nx t' = (p.2, p.1) ∧ p.1 < sino.w ∧ p.2 < sino.w) := by
              constructor
              · rintro ⟨t', ht', h2, h3⟩
                rcases List.mem_cons.mp ht' with rfl | h4
                · exfalso; apply hp; rw [h2]
                · exact ⟨t', h4, h2, h3⟩
              · rintro ⟨t', ht', h2⟩; exact ⟨t', by simp [ht'], h2⟩
            simp only [this]
      · have h1 : gpuThread sino cs center edgePad nx t r0 = .ok r0 := by
          unfold gpuThread
          simp only [hg, if_false]
          rfl
        obtain ⟨img, hi1, hi2⟩ := ih r0
        refine ⟨img, ?_, ?_⟩
        · rw [List.foldlM_cons, h1]; exact hi1
        · intro p
          rw [hi2 p]
          have : (∃ t' ∈ t :: ts, threadXY nx t' = (p.2, p.1) ∧ p.1 < sino.w ∧ p.2 < sino.w) ↔
              (∃ t' ∈ ts, threadXY nx t' = (p.2, p.1) ∧ p.1 < sino.w ∧ p.2 < sino.w) := by
            constructor
            · rintro ⟨t', ht', h2, h3⟩
              rcases List.mem_cons.mp ht' with rfl | h4
              · exfalso; apply hg; rw [h2]; exact ⟨h3.2, h3.1⟩
              · exact ⟨t', h4, h2, h3⟩
            · rintro ⟨t', ht', h2⟩; exact ⟨t', by simp [ht'], h2⟩
          simp only [this]
  obtain ⟨img, h1, h2⟩ := key order (fun _ => 0)
  refine ⟨img, ?_, ?_, ?_⟩
  · unfold backProjectionGpu; rw [hnx]; exact h1
  · intro y hy x hx
    rw [h2 (y, x), if_pos]
    refine ⟨y * nx + x, hall _ ?_, ?_, hy, hx⟩
    · calc y * nx + x < y * nx + nx := by omega
        _ = (y + 1) * nx := by ring
        _ ≤ (gridDim sino.w bY * bY) * nx := Nat.mul_le_mul_right _ (by omega)
        _ = _ := Nat.mul_comm _ _
    · unfold threadXY
      have hx' : x < nx := by omega
      rw [Nat.add_comm, Nat.add_mul_mod_self_right, Nat.mod_eq_of_lt hx',
        Nat.add_mul_div_right _ _ (by omega), Nat.div_eq_of_lt hx', Nat.zero_add]
  · intro y x hn
    rw [h2 (y, x), if_neg]
    rintro ⟨t, _, _, h3⟩
    exact hn h3

/-- Updates of a chunk-kernel thread when all reads succeed. -/
def chunkList (s : Arr3 K) (cs : Nat → K × K) (center : K) (edgePad : Bool) (nx t : Nat) :
    List ((Nat × Nat × Nat) × K) :=
  if (threadXY nx t).1 < s.w ∧ (threadXY nx t).2 < s.w then
    (((List.range s.d).map fun i => (List.range s.h).filterMap fun j =>
      (rv (chunkSino s j) i (fPos s.w (cs i) center (threadXY nx t).1 (threadXY nx t).2)
        edgePad).map fun v => (((threadXY nx t).2, j, (threadXY nx t).1), v))).flatten
  else []

theorem filterMap_flatten_map {α β γ : Type _} (l : List α) (m : List γ) (g : α → γ → Option β) :
    ((l.map fun i => m.map (g i)).flatten).filterMap id
      = (l.map fun i => m.filterMap (g i)).flatten := by
  induction l with
  | nil => rfl
  | cons a l ih =>
    simp only [List.map_cons, List.flatten_cons, List.filterMap_append, ih]
    congr 1
    rw [List.filterMap_map]; rfl

theorem gpuChunkUpdates_ok (s : Arr3 K) (cs : Nat → K × K) (center : K) (edgePad : Bool)
    (nx t : Nat) : gpuChunkUpdates s cs center edgePad nx t
      = .ok (chunkList s cs center edgePad nx t) := by
  unfold gpuChunkUpdates chunkList
  by_cases hg : (threadXY nx t).1 < s.w ∧ (threadXY nx t).2 < s.w
  · simp only [hg, and_self, if_true]
    rw [mapM_ok (g := fun i => (List.range s.h).map fun j =>
      (rv (chunkSino s j) i (fPos s.w (cs i) center (threadXY nx t).1 (threadXY nx t).2)
        edgePad).map fun v => (((threadXY nx t).2, j, (threadXY nx t).1), v))]
    · simp only [bind, Except.bind, pure, Except.pure]
      rw [filterMap_flatten_map]
    · intro i hi
      apply mapM_ok
      intro j _
      rw [rayVal_eq (chunkSino s j) i _ edgePad (List.mem_range.mp hi) (by
        show 0 < s.w; omega)]
      rfl
  · simp only [hg, if_false]; rfl

theorem pend_inj_filterMap {ι κ : Type _} [DecidableEq ι] [DecidableEq κ] (l : List κ) (hl : l.Nodup)
    (e : κ → ι) (he : Function.Injective e) (g : κ → Option K) (q : ι) :
    pend (l.filterMap fun j => (g j).map fun v => (e j, v)) q
      = (l.map fun j => if e j = q then (g j).getD 0 else 0).sum := by
  induction l with
  | nil => simp [pend_nil]
  | cons a l ih =>
    rw [List.nodup_cons] at hl
    rw [List.filterMap_cons]
    cases hg : g a with
    | none => simp [ih hl.2, hg]
    | some v => simp [pend_cons, ih hl.2, hg]

theorem pend_chunkList (s : Arr3 K) (cs : Nat → K × K) (center : K) (edgePad : Bool) (nx t : Nat)
    (y j x : Nat) (hy : y < s.w) (hj : j < s.h) (hx : x < s.w) :
    pend (chunkList s cs center edgePad nx t) (y, j, x)
      = if threadXY nx t = (x, y) then backProjection (chunkSino s j) cs center edgePad y x else 0 := by
  unfold chunkList
  by_cases ht : threadXY nx t = (x, y)
  · rw [if_pos ht, ht]
    simp only [hx, hy, and_self, if_true]
    rw [pend_flatten_map, sum_range_eq]
    unfold backProjection
    apply Finset.sum_congr rfl
    intro i _
    rw [pend_inj_filterMap (List.range s.h) List.nodup_range (fun j => (y, j, x))
      (by intro a b h; simpa using h)]
    rw [sum_range_eq, Finset.sum_eq_single j]
    · simp only [if_true, rv_getD, fPos_eq]; rfl
    · intro k _ hk; rw [if_neg]; simpa using hk
    · intro hn; exact absurd (Finset.mem_range.mpr hj) hn
  · rw [if_neg ht]
    split
    · rw [pend_flatten_map]
      apply List.sum_eq_zero
      intro z hz
      obtain ⟨i, _, rfl⟩ := List.mem_map.mp hz
      rw [pend_inj_filterMap (List.range s.h) List.nodup_range
        (fun j => ((threadXY nx t).2, j, (threadXY nx t).1)) (by intro a b h; simpa using h)]
      apply List.sum_eq_zero
      intro z hz
      obtain ⟨k, _, rfl⟩ := List.mem_map.mp hz
      rw [if_neg]
      intro h
      apply ht
      simp only [Prod.mk.injEq] at h
      exact Prod.ext h.2.2 h.1
    · exact pend_nil _

theorem touches_chunkList (s : Arr3 K) (cs : Nat → K × K) (center : K) (edgePad : Bool) (nx t : Nat)
    (p : Nat × Nat × Nat) (h : Touches (chunkList s cs center edgePad nx t) p) :
    p.1 = (threadXY nx t).2 ∧ p.2.2 = (threadXY nx t).1 ∧ p.1 < s.w ∧ p.2.1 < s.h ∧ p.2.2 < s.w := by
  obtain ⟨v, hv⟩ := h
  unfold chunkList at hv
  split at hv
  · rename_i hg
    simp only [List.mem_flatten, List.mem_map, List.mem_range] at hv
    obtain ⟨l, ⟨i, _, rfl⟩, hm⟩ := hv
    simp only [List.mem_filterMap, List.mem_range, Option.map_eq_some_iff] at hm
    obtain ⟨j, hj, v', _, h2⟩ := hm
    simp only [Prod.mk.injEq] at h2
    rw [← h2.1]
    exact ⟨rfl, rfl, hg.2, hj, hg.1⟩
  · cases hv

/-- C03 (chunk kernel).  For every interleaving of the GPU threads' loads and stores that lets all
threads finish, slice `j` of the output is exactly the single-slice back-projection of sinogram
`j`. -/
theorem back_projection_gpu_chunk_correct (s : Arr3 K) (cs : Nat → K × K) (center : K)
    (edgePad : Bool) (bx bY : Nat) (hbx : 0 < bx) (hby : 0 < bY) (sched : List Nat) :
    ∃ fin, backProjectionGpuChunk s cs center edgePad bx bY sched = .ok fin ∧
      (fin.Finished → ∀ y < s.w, ∀ j < s.h, ∀ x < s.w,
        fin.mem (y, j, x) = backProjection (sinogramOf s j) cs center edgePad y x) := by
  have hsino : ∀ j, sinogramOf s j = chunkSino s j := fun _ => rfl
  simp only [hsino]
  have hcx := gridDim_covers s.w bx hbx
  have hcy := gridDim_covers s.w bY hby
  unfold backProjectionGpuChunk
  generalize gridDim s.w bx * bx = nx at *
  generalize gridDim s.w bY * bY = ny at *
  rw [mapM_ok (g := chunkList s cs center edgePad nx) _
    (fun t _ => gpuChunkUpdates_ok s cs center edgePad nx t)]
  refine ⟨_, rfl, ?_⟩
  intro hf y hy j hj x hx
  have hprog : ∀ t < nx * ny, ((List.range (nx * ny)).map (chunkList s cs center edgePad nx)).getD t []
      = chunkList s cs center edgePad nx t := fun t ht => getD_map_range _ _ _ _ ht
  have hex : (Shared.init (fun _ => (0 : K)) (nx * ny) (fun t =>
      ((List.range (nx * ny)).map (chunkList s cs center edgePad nx)).getD t [])).ExclRun sched := by
    apply Shared.exclRun_of_disjoint
    have hsm : ∀ t p, Touches ((Shared.init (fun _ => (0 : K)) (nx * ny) (fun t =>
      ((List.range (nx * ny)).map (chunkList s cs center edgePad nx)).getD t [])).thr t).todo p →
      t < nx * ny ∧ Touches (chunkList s cs center edgePad nx t) p := by
      intro t p hp
      by_cases ht : t < nx * ny
      · refine ⟨ht, ?_⟩
        simp only [Shared.init, ht, if_true] at hp
        rwa [hprog t ht] at hp
      · obtain ⟨v, hv⟩ := hp
        simp only [Shared.init, ht, if_false] at hv
        cases hv
    intro t t' htt p h1 h2
    obtain ⟨ht, h1⟩ := hsm t p h1
    obtain ⟨ht', h2⟩ := hsm t' p h2
    have a := touches_chunkList s cs center edgePad nx t p h1
    have b := touches_chunkList s cs center edgePad nx t' p h2
    apply htt
    have e1 : t / nx = t' / nx := by
      have := a.1.symm.trans b.1; simpa [threadXY] using this
    have e2 : t % nx = t' % nx := by
      have := a.2.1.symm.trans b.2.1; simpa [threadXY] using this
    rw [← Nat.div_add_mod t nx, ← Nat.div_add_mod t' nx, e1, e2]
  have hinv := Shared.inv_run (Shared.inv_init _ (nx * ny) _) hex
  have := Shared.mem_of_finished hinv hf (y, j, x)
  have e : ((Shared.init (fun _ => (0 : K)) (nx * ny) (fun t =>
      ((List.range (nx * ny)).map (chunkList s cs center edgePad nx)).getD t [])).run sched).mem (y, j, x)
      = backProjection (chunkSino s j) cs center edgePad y x := by
    rw [this, zero_add]
    have hx' : x < nx := by omega
    have hnx : 0 < nx := by omega
    have htid : threadXY nx (y * nx + x) = (x, y) := by
      unfold threadXY
      rw [Nat.add_comm, Nat.add_mul_mod_self_right, Nat.mod_eq_of_lt hx',
        Nat.add_mul_div_right _ _ hnx, Nat.div_eq_of_lt hx', Nat.zero_add]
    have hlt : y * nx + x < nx * ny := by
      calc y * nx + x < y * nx + nx := by omega
        _ = (y + 1) * nx := by ring
        _ ≤ ny * nx := Nat.mul_le_mul_right _ (by omega)
        _ = _ := Nat.mul_comm _ _
    rw [Finset.sum_eq_single (y * nx + x)]
    · rw [hprog _ hlt, pend_chunkList s cs center edgePad nx _ y j x hy hj hx, if_pos htid]
    · intro t ht hne
      have ht := Finset.mem_range.mp ht
      rw [hprog _ ht, pend_chunkList s cs center edgePad nx _ y j x hy hj hx, if_neg]
      intro h
      apply hne
      unfold threadXY at h
      simp only [Prod.mk.injEq] at h
      rw [← Nat.div_add_mod t nx, h.1, h.2, Nat.mul_comm]
    · intro hn; exact absurd (Finset.mem_range.mpr hlt) hn
  exact e

/-- C03 (chunk kernel = stack of single-slice kernels), stated between the two routines. -/
theorem back_projection_gpu_chunk_eq_single (s : Arr3 K) (cs : Nat → K × K) (center : K)
    (edgePad : Bool) (bx bY : Nat) (hbx : 0 < bx) (hby : 0 < bY) (sched order : List Nat) (j : Nat)
    (hj : j < s.h)
    (hall : ∀ t < (gridDim s.w bx * bx) * (gridDim s.w bY * bY), t ∈ order)
    (fin : Shared (Nat × Nat × Nat) K) (img : Nat × Nat → K)
    (hc : backProjectionGpuChunk s cs center edgePad bx bY sched = .ok fin) (hf : fin.Finished)
    (hs : backProjectionGpu (sinogramOf s j) cs center edgePad bx order = .ok img) :
    ∀ y < s.w, ∀ x < s.w, fin.mem (y, j, x) = img (y, x) := by
  have hsino : ∀ j, sinogramOf s j = chunkSino s j := fun _ => rfl
  rw [hsino] at hs
  obtain ⟨fin', h1, h2⟩ := back_projection_gpu_chunk_correct s cs center edgePad bx bY hbx hby sched
  obtain ⟨img', g1, g2, _⟩ := back_projection_gpu_correct (chunkSino s j) cs center edgePad bx bY hbx hby
    order hall
  rw [hc] at h1; cases h1
  rw [hs] at g1; cases g1
  intro y hy x hx
  rw [h2 hf y hy j hj x hx, g2 y hy x hx]
  rfl

/-- Non-vacuity: a complete chunk-kernel execution exists (1 angle, 2 slices, 1×1 image, block 1×1). -/
example : ∃ fin, backProjectionGpuChunk (K := ℚ) ⟨1, 2, 1, fun _ j _ => j + 5⟩ (fun _ => (1, 0)) 0 false
    1 1 [0, 0, 0, 0] = .ok fin ∧ fin.Finished := by
  have hl : ∀ t, chunkList (K := ℚ) ⟨1, 2, 1, fun _ j _ => j + 5⟩ (fun _ => (1, 0)) 0 false 1 t
      = if t = 0 then [((0, 0, 0), 5), ((0, 1, 0), 6)] else [] := by
    intro t
    by_cases ht : t = 0
    · subst ht
      simp [chunkList, threadXY, rv, fPos, contribution, chunkSino, List.range_succ]
      norm_num
    · simp [chunkList, threadXY, Nat.mod_one, ht]
  unfold backProjectionGpuChunk
  rw [mapM_ok (g := chunkList (K := ℚ) ⟨1, 2, 1, fun _ j _ => j + 5⟩ (fun _ => (1, 0)) 0 false 1) _
    (fun t _ => by simpa [gridDim] using gpuChunkUpdates_ok _ _ _ _ _ t)]
  refine ⟨_, rfl, ?_⟩
  intro t
  rcases t with _ | t <;>
    simp [Shared.run, Shared.step, Shared.init, hl, gridDim]

end Verif.BackProj
