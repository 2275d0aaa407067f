import Verif.Model.ParallelSlices
import Verif.Lemmas.Sched

/-! C01 — `parallel_process_slices` equals the serial slice-by-slice map, for every schedule. -/

namespace Verif.ParSlices
open Verif.Sched

variable {α β : Type _}

/-! ### Lemmas -/

theorem run_done_collect {n : Nat} {f : Nat → β} {ncore : Nat} {s : Pool β} {sch : List Ev}
    (h : (Pool.init β n).run ncore f sch = some s) (hd : s.isDone = true) :
    s.collect n = (List.range n).map (fun i => some (f i)) := by
  have hi := Pool.inv_run (Pool.inv_init n f) h
  simp only [Pool.isDone, Bool.and_eq_true, List.isEmpty_iff] at hd
  apply List.map_congr_left
  intro i hin
  rcases hi.cover i (List.mem_range.mp hin) with h1 | h1
  · simp [hd.1, hd.2] at h1
  · exact h1

theorem filterMap_some_map (n : Nat) (f : Nat → β) :
    ((List.range n).map (fun i => some (f i))).filterMap id = (List.range n).map f := by
  rw [List.filterMap_map]
  simp

/-! ### C01 -/

/-- The specification: the 3D array `out` has, along `axis`, exactly the slices `f (slice i)`. -/
def IsSliceMap (axis : Nat) (data : Arr3 α) (f : Mat α → Mat β) (out : Arr3 β) : Prop :=
  count axis out = count axis data ∧
  ∀ i < count axis data, (slice axis out i).Eqv (f (slice axis data i))

/-- Stacking the results of all slices gives the slice-by-slice image of the data. -/
theorem stack_slices [Inhabited β] (data : Arr3 α) (method : Mat α → Mat β) (axis : Nat) (H W : Nat)
    (hpos : 0 < count axis data)
    (hshape : ∀ i < count axis data,
      (method (slice axis data i)).h = H ∧ (method (slice axis data i)).w = W) :
    ∃ out, (stack ((List.range (count axis data)).map fun i => method (slice axis data i))).map (moveaxis0 axis) = .ok out ∧
      IsSliceMap axis data method out := by
  unfold IsSliceMap
  generalize hn : count axis data = n at *
  obtain ⟨m, rfl⟩ : ∃ m, n = m + 1 := ⟨n - 1, by omega⟩
  have hl : (List.range (m + 1)).map (fun i => method (slice axis data i)) =
      method (slice axis data 0) ::
        (List.range m).map (fun i => method (slice axis data (i + 1))) := by
    rw [List.range_succ_eq_map]; simp
  generalize hms : (List.range (m + 1)).map (fun i => method (slice axis data i)) = ms at *
  have h0 := hshape 0 (by omega)
  have hall : ms.all (fun x => x.h == (method (slice axis data 0)).h
      && x.w == (method (slice axis data 0)).w) = true := by
    rw [List.all_eq_true]
    intro x hx
    rw [← hms] at hx
    obtain ⟨i, hi, rfl⟩ := List.mem_map.mp hx
    have := hshape i (List.mem_range.mp hi)
    simp [this, h0]
  have hget : ∀ i < m + 1, ms.getD i (method (slice axis data 0)) = method (slice axis data i) := by
    intro i hi
    rw [← hms]; simp [List.getD, List.getElem?_map, List.getElem?_range hi]
  have hlen : ms.length = m + 1 := by rw [← hms]; simp
  have hst : stack ms = .ok ⟨m + 1, H, W,
      fun k i j => (ms.getD k (method (slice axis data 0))).get i j⟩ := by
    unfold stack
    split
    · simp at hlen
    · rename_i x xs
      have : x = method (slice axis data 0) := by
        have := congrArg List.head? hl; simpa using this
      subst this
      rw [if_pos hall, hlen, h0.1, h0.2]
  rw [hst]
  refine ⟨_, rfl, ?_, ?_⟩
  · unfold moveaxis0 count
    by_cases h2 : axis = 2
    · simp [h2, ← hn, count]
    · by_cases h1 : axis = 1
      · simp [h1, ← hn, count]
      · simp [h1, h2, ← hn, count]
  · intro i hi
    have hsh := hshape i hi
    unfold moveaxis0 slice
    unfold slice at hget hsh
    by_cases h2 : axis = 2
    · simp only [h2, if_true] at hget hsh ⊢
      refine ⟨hsh.1.symm, hsh.2.symm, ?_⟩
      intro a _ b _; dsimp only; rw [hget i hi]
    · by_cases h1 : axis = 1
      · subst h1
        simp only [show ¬ (1 = 2) by decide, if_false, if_true] at hget hsh ⊢
        refine ⟨hsh.1.symm, hsh.2.symm, ?_⟩
        intro a _ b _; dsimp only; rw [hget i hi]
      · simp only [h1, h2, if_false] at hget hsh ⊢
        refine ⟨hsh.1.symm, hsh.2.symm, ?_⟩
        intro a _ b _; dsimp only; rw [hget i hi]

/-- C01.  Every complete execution of the pool — whatever the worker count and the order of
start/finish events — returns the array whose slice `i` along `axis` is `method (slice i)`,
provided all results have one shape (otherwise numpy refuses to build the output array) and there
is at least one slice. -/
theorem parallel_process_slices_eq_map [Inhabited β] (data : Arr3 α) (method : Mat α → Mat β)
    (axis : Nat) (ncore : Int) (sched : List Ev) (r : Py (Arr3 β)) (H W : Nat)
    (hpos : 0 < count axis data)
    (hshape : ∀ i < count axis data,
      (method (slice axis data i)).h = H ∧ (method (slice axis data i)).w = W)
    (hrun : parallelProcessSlices data method axis ncore sched = some r) :
    ∃ out, r = .ok out ∧ IsSliceMap axis data method out := by
  unfold parallelProcessSlices at hrun
  simp only at hrun
  split at hrun
  · cases hrun
  · rename_i s hs
    split at hrun
    · rename_i hd
      rw [run_done_collect hs hd, filterMap_some_map] at hrun
      obtain ⟨out, ho, h⟩ := stack_slices data method axis H W hpos hshape
      exact ⟨out, (Option.some.inj hrun).symm.trans ho, h⟩
    · cases hrun

/-- C01 (progress).  The pool never deadlocks: as long as it is not done, some event is enabled,
for every `ncore` (also 0 and negative, thanks to the clip), and every execution has at most
`2 * n` events, so every maximal execution completes. -/
theorem parallel_process_slices_progress {β : Type _} (n : Nat) (ncore : Int) (f : Nat → β)
    (sched : List Ev) (s : Pool β)
    (hrun : (Pool.init β n).run (max ncore 1).toNat f sched = some s) :
    sched.length ≤ 2 * n ∧
    (s.isDone = true ↔ sched.length = 2 * n) ∧
    (s.isDone = false → ∃ e s', s.step (max ncore 1).toNat f e = some s') := by
  have hleft := Pool.left_run hrun
  have hd : s.isDone = true ↔ s.left = 0 := by
    simp only [Pool.isDone, Pool.left, Bool.and_eq_true, List.isEmpty_iff]
    constructor
    · rintro ⟨h1, h2⟩; simp [h1, h2]
    · intro h
      exact ⟨List.eq_nil_of_length_eq_zero (by omega), List.eq_nil_of_length_eq_zero (by omega)⟩
  have hinit : (Pool.init β n).left = 2 * n := by simp [Pool.left, Pool.init]
  rw [hinit] at hleft
  refine ⟨by omega, ?_, ?_⟩
  · rw [hd]; omega
  · intro hnd
    cases hr : s.running with
    | cons i rs => exact ⟨.finish i, _, by simp only [Pool.step]; rw [if_pos (by simp [hr])]⟩
    | nil =>
      cases hp : s.pending with
      | nil => simp [Pool.isDone, hp, hr] at hnd
      | cons i ps =>
        refine ⟨.start i, _, by simp only [Pool.step]; rw [if_pos ⟨by simp [hp], ?_⟩]⟩
        simp only [hr, List.length_nil]
        omega

/-- Non-vacuity: a 2-worker execution on a 2×3×2 array along axis 1 in which tasks start and finish out of
order; the hypotheses of `parallel_process_slices_eq_map` are met and the result is the slice map. -/
example : ∃ out, parallelProcessSlices (α := Nat) (β := Nat) ⟨2, 3, 2, fun a b c => 100 * a + 10 * b + c⟩
    (fun m => ⟨m.w, m.h, fun i j => m.get j i + 1⟩) 1 2
    [.start 2, .start 0, .finish 0, .start 1, .finish 1, .finish 2] = some (.ok out) ∧
    IsSliceMap 1 ⟨2, 3, 2, fun a b c => 100 * a + 10 * b + c⟩
      (fun m => ⟨m.w, m.h, fun i j => m.get j i + 1⟩) out := by
  obtain ⟨out, h1, h2⟩ := parallel_process_slices_eq_map (α := Nat) (β := Nat)
    ⟨2, 3, 2, fun a b c => 100 * a + 10 * b + c⟩
    (fun m => ⟨m.w, m.h, fun i j => m.get j i + 1⟩) 1 2
    [.start 2, .start 0, .finish 0, .start 1, .finish 1, .finish 2] _ 2 2 (by decide)
    (by intro i _; exact ⟨rfl, rfl⟩) rfl
  exact ⟨out, by rw [← h1]; rfl, h2⟩

end Verif.ParSlices
