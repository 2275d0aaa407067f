import Verif.Model.ParallelErrors
import Verif.Props.ParallelSlices
import Verif.Props.DetectSample
import Verif.Props.InputTypes

/-! C164 — errors in workers reach the caller, and only those. -/

set_option linter.unusedSectionVars false
set_option linter.unusedSimpArgs false

namespace Verif.ParSlices
open Verif.Sched

variable {α β : Type}

theorem slots_bound {n : Nat} {f : Nat → β} {ncore : Nat} : ∀ (sched : List Ev) (s s' : Pool β), s.Inv n f →
    (∀ i, s.slots i ≠ none → i < n) → s.run ncore f sched = some s' → ∀ i, s'.slots i ≠ none → i < n
  | [], s, s', _, hb, h => by cases h; exact hb
  | e :: es, s, s', hi, hb, h => by
    unfold Pool.run at h
    cases hs : s.step ncore f e with
    | none => rw [hs] at h; cases h
    | some s1 =>
      rw [hs] at h
      refine slots_bound es s1 s' (Pool.inv_step hi hs) ?_ h
      intro i hne
      cases e with
      | start k =>
        simp only [Pool.step] at hs
        split at hs
        · cases hs; exact hb i hne
        · cases hs
      | finish k =>
        simp only [Pool.step] at hs
        split at hs
        · rename_i hk
          cases hs
          by_cases hik : i = k
          · subst hik
            exact hi.bound i (List.mem_append.2 (Or.inr hk))
          · simp only [hik, if_false] at hne
            exact hb i hne
        · cases hs

theorem run_snoc {f : Nat → β} {ncore : Nat} : ∀ (sched : List Ev) (s s1 s2 : Pool β) (e : Ev), s.run ncore f sched = some s1 →
    s1.step ncore f e = some s2 → s.run ncore f (sched ++ [e]) = some s2
  | [], s, s1, s2, e, h, he => by
    cases h
    show Pool.run ncore f s [e] = _
    unfold Pool.run
    rw [he]
    rfl
  | a :: es, s, s1, s2, e, h, he => by
    rw [List.cons_append]
    unfold Pool.run at h ⊢
    cases hs : s.step ncore f a with
    | none => rw [hs] at h; cases h
    | some t =>
      rw [hs] at h
      exact run_snoc es t s1 s2 e h he

/-- C164: what `Parallel` gives the caller, for every schedule: a list only if every task succeeds, and then the list of their values in the order of
submission; an exception only if a task raised it. -/
theorem outcome_spec (n ncore : Nat) (f : Nat → Py β) (sched : List Ev) (r : Py (List β)) (h : Outcome n ncore f sched r) :
    (∀ l, r = .ok l → l.length = n ∧ ∀ i < n, ∃ v, f i = .ok v ∧ l[i]? = some v) ∧
    (∀ e, r = .error e → ∃ i < n, f i = .error e) := by
  obtain ⟨s, hs, hr⟩ := h
  have hi := Pool.inv_run (Pool.inv_init n f) hs
  rcases hr with ⟨i, e, hi1, rfl⟩ | ⟨hd, l, hl, rfl⟩
  · refine ⟨fun l hl => (nomatch hl), fun e' he => ⟨i, ?_, ?_⟩⟩
    · exact slots_bound sched _ s (Pool.inv_init n f) (fun k hk => absurd rfl hk) hs i (by rw [hi1]; simp)
    · cases Except.error.inj he
      rcases hi.slot i with h0 | h0
      · rw [hi1] at h0; cases h0
      · rw [hi1] at h0; exact (Option.some.inj h0).symm
  · rw [run_done_collect hs hd, filterMap_some_map, InputTypes.mapM_id_map] at hl
    refine ⟨fun l' he => ?_, fun e he => (nomatch he)⟩
    cases Except.ok.inj he
    obtain ⟨h1, h2⟩ := InputTypes.mapM_ok_get _ _ _ hl
    rw [List.length_range] at h1
    refine ⟨h1, fun i hin => ⟨l[i]'(by omega), ?_, by simp [h1, hin]⟩⟩
    have := h2 i (by rw [List.length_range]; exact hin) (by omega)
    rwa [List.getElem_range] at this

/-- C164: whatever the tasks do, and for every number of workers, some outcome is reached; and a pool that has run all its tasks gives one. -/
theorem outcome_exists (n ncore : Nat) (hc : 0 < ncore) (f : Nat → Py β) :
    (∃ sched r, Outcome n ncore f sched r) ∧
    ∀ sched s, (Pool.init (Py β) n).run ncore f sched = some s → s.isDone = true → ∃ r, Outcome n ncore f sched r := by
  have key : ∀ sched s, (Pool.init (Py β) n).run ncore f sched = some s → s.isDone = true → ∃ r, Outcome n ncore f sched r := by
    intro sched s hs hd
    by_cases hall : ∀ i < n, ∃ v, f i = .ok v
    · by_cases hn : n = 0
      · subst hn
        refine ⟨.ok [], s, hs, Or.inr ⟨hd, [], ?_, rfl⟩⟩
        rw [run_done_collect hs hd, filterMap_some_map]
        rfl
      haveI : Nonempty β := by
        obtain ⟨v, _⟩ := hall 0 (by omega)
        exact ⟨v⟩
      choose! g hg using hall
      refine ⟨.ok ((List.range n).map g), s, hs, Or.inr ⟨hd, (List.range n).map g, ?_, rfl⟩⟩
      rw [run_done_collect hs hd, filterMap_some_map, InputTypes.mapM_id_map]
      exact Detect.mapM_all_ok _ _ _ fun i hi => hg i (List.mem_range.1 hi)
    · push Not at hall
      obtain ⟨i, hin, hv⟩ := hall
      cases hfi : f i with
      | ok v => exact absurd hfi (hv v)
      | error e =>
        refine ⟨.error e, s, hs, Or.inl ⟨i, e, ?_, rfl⟩⟩
        have hcov := (Pool.inv_run (Pool.inv_init n f) hs).cover i hin
        simp only [Pool.isDone, Bool.and_eq_true, List.isEmpty_iff] at hd
        rw [hd.1, hd.2] at hcov
        rcases hcov with h0 | h0
        · simp at h0
        · rw [h0, hfi]
  refine ⟨?_, key⟩
  obtain ⟨sched, s, hs, hd⟩ : ∃ sched s, (Pool.init (Py β) n).run ncore f sched = some s ∧ s.isDone = true := by
    have hex : ∀ k, k ≤ 2 * n → ∃ sched s, sched.length = k ∧ (Pool.init (Py β) n).run ncore f sched = some s := by
      intro k
      induction k with
      | zero => exact fun _ => ⟨[], _, rfl, rfl⟩
      | succ k ih =>
        intro hk
        obtain ⟨sched, s, hlen, hs⟩ := ih (by omega)
        have hm : (max (ncore : Int) 1).toNat = ncore := by omega
        have hp := parallel_process_slices_progress n (ncore : Int) f sched s (by rw [hm]; exact hs)
        rw [hm] at hp
        obtain ⟨_, h2, h3⟩ := hp
        have hnd : s.isDone = false := by
          cases hdd : s.isDone with
          | false => rfl
          | true => have := h2.1 hdd; omega
        obtain ⟨e, s', he⟩ := h3 hnd
        exact ⟨sched ++ [e], s', by simp [hlen], run_snoc sched _ s s' e hs he⟩
    obtain ⟨sched, s, hlen, hs⟩ := hex (2 * n) le_rfl
    have hm : (max (ncore : Int) 1).toNat = ncore := by omega
    have hp := parallel_process_slices_progress n (ncore : Int) f sched s (by rw [hm]; exact hs)
    exact ⟨sched, s, hs, hp.2.1.2 hlen⟩
  obtain ⟨r, hr⟩ := key sched s hs hd
  exact ⟨sched, r, hr⟩

/-- C164.  `parallel_process_slices` with a method that may raise, for every axis, number of workers and schedule.
* If the method raises for some slice, the call raises; nothing is returned.
* If the call raises, the exception is the one the method raised for some slice, or a `ValueError` because two results have different shapes.
* If the method succeeds for every slice with results of one shape, the call returns the array of these results (C01). -/
theorem parallel_errors [Inhabited β] (data : Arr3 α) (method : Mat α → Py (Mat β)) (axis : Nat) (ncore : Int) (sched : List Ev) (r : Py (Arr3 β))
    (h : ProcessOutcome data method axis ncore sched r) :
    ((∃ i < count axis data, ∃ e, method (slice axis data i) = .error e) → ∃ e, r = .error e) ∧
    (∀ e, r = .error e → (∃ i < count axis data, method (slice axis data i) = .error e) ∨
      (e = .valueError ∧ ∃ i < count axis data, ∃ j < count axis data, ∃ a b, method (slice axis data i) = .ok a ∧
        method (slice axis data j) = .ok b ∧ (a.h ≠ b.h ∨ a.w ≠ b.w))) ∧
    (∀ (g : Mat α → Mat β) (H W : Nat), 0 < count axis data →
      (∀ i < count axis data, method (slice axis data i) = .ok (g (slice axis data i)) ∧ (g (slice axis data i)).h = H ∧ (g (slice axis data i)).w = W) →
      ∃ out, r = .ok out ∧ IsSliceMap axis data g out) := by
  obtain ⟨l, hl, rfl⟩ := h
  obtain ⟨h1, h2⟩ := outcome_spec _ _ _ _ _ hl
  refine ⟨?_, ?_, ?_⟩
  · rintro ⟨i, hi, e, he⟩
    cases l with
    | error e' => exact ⟨e', rfl⟩
    | ok ms =>
      obtain ⟨v, hv, _⟩ := (h1 ms rfl).2 i hi
      rw [he] at hv
      cases hv
  · intro e he
    cases l with
    | error e' =>
      cases Except.error.inj he
      exact Or.inl (h2 _ rfl)
    | ok ms =>
      right
      have he : (stack ms).map (moveaxis0 axis) = .error e := he
      obtain ⟨hlen, hget⟩ := h1 ms rfl
      cases ms with
      | nil => cases he
      | cons m ms =>
        unfold stack at he
        dsimp only at he
        by_cases hall : ((m :: ms).all fun x => x.h == m.h && x.w == m.w) = true
        · rw [if_pos hall] at he; cases he
        · rw [if_neg hall] at he
          refine ⟨(Except.error.inj he).symm, ?_⟩
          rw [List.all_eq_true] at hall
          push Not at hall
          obtain ⟨x, hx, hne⟩ := hall
          obtain ⟨j, hj, hxj⟩ := List.getElem_of_mem hx
          rw [List.length_cons] at hlen
          have h0 : 0 < count axis data := by omega
          have hjn : j < count axis data := by rw [List.length_cons] at hj; omega
          obtain ⟨v, hv, hv'⟩ := hget 0 h0
          obtain ⟨w, hw, hw'⟩ := hget j hjn
          rw [List.getElem?_cons_zero] at hv'
          rw [List.getElem?_eq_getElem hj, hxj] at hw'
          cases Option.some.inj hv'
          cases Option.some.inj hw'
          refine ⟨0, h0, j, hjn, m, x, hv, hw, ?_⟩
          by_contra hc
          push Not at hc
          apply hne
          rw [hc.1, hc.2]
          simp
  · intro g H W hpos hg
    cases l with
    | error e' =>
      obtain ⟨i, hi, he⟩ := h2 e' rfl
      rw [(hg i hi).1] at he
      cases he
    | ok ms =>
      obtain ⟨hlen, hget⟩ := h1 ms rfl
      have hms : ms = (List.range (count axis data)).map fun i => g (slice axis data i) := by
        apply List.ext_getElem?
        intro i
        by_cases hi : i < count axis data
        · obtain ⟨v, hv, hv'⟩ := hget i hi
          rw [(hg i hi).1] at hv
          rw [hv', List.getElem?_map, List.getElem?_range hi, ← Except.ok.inj hv]
          rfl
        · rw [List.getElem?_eq_none (by omega), List.getElem?_eq_none (by simp; omega)]
      obtain ⟨out, ho, hs⟩ := stack_slices data g axis H W hpos fun i hi => (hg i hi).2
      exact ⟨out, by rw [← ho, ← hms]; rfl, hs⟩

/-- Concrete instance: three slices, the method fails for the second; two workers. -/
example : ProcessOutcome (⟨3, 1, 1, fun k _ _ => (k : ℚ)⟩ : Arr3 ℚ)
    (fun m => if m.get 0 0 = 1 then .error .zeroDivision else .ok m) 0 2 [.start 0, .start 1, .finish 1] (.error .zeroDivision : Py (Arr3 ℚ)) := by
  refine ⟨.error .zeroDivision, ?_, rfl⟩
  refine ⟨_, rfl, Or.inl ⟨1, .zeroDivision, ?_, rfl⟩⟩
  simp [slice]

end Verif.ParSlices
