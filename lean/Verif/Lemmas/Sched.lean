import Verif.Model.Sched
import Mathlib.Algebra.BigOperators.Group.Finset.Basic
import Mathlib.Algebra.BigOperators.Intervals
import Mathlib.Tactic.Ring
import Mathlib.Tactic.Abel

/-! Helper lemmas about the pool and the shared-memory machine. -/

namespace Verif.Sched

section pool
variable {β : Type _}

/-- Pool invariant: every task is exactly in one of pending/running/done and a done slot holds `f i`. -/
structure Pool.Inv (n : Nat) (f : Nat → β) (s : Pool β) : Prop where
  nodup : (s.pending ++ s.running).Nodup
  bound : ∀ i ∈ s.pending ++ s.running, i < n
  slot : ∀ i, s.slots i = none ∨ s.slots i = some (f i)
  cover : ∀ i < n, i ∈ s.pending ++ s.running ∨ s.slots i = some (f i)

theorem Pool.inv_init (n : Nat) (f : Nat → β) : (Pool.init β n).Inv n f where
  nodup := by simp [Pool.init, List.nodup_range]
  bound := by simp [Pool.init]
  slot := by simp [Pool.init]
  cover := by intro i hi; left; simpa [Pool.init] using hi

theorem Pool.inv_step {n : Nat} {f : Nat → β} {ncore : Nat} {s s' : Pool β} {e : Ev}
    (h : s.Inv n f) (hs : s.step ncore f e = some s') : s'.Inv n f := by
  obtain ⟨hn, hb, hsl, hc⟩ := h
  cases e with
  | start i =>
    simp only [Pool.step] at hs
    split at hs
    · rename_i hi
      cases hs
      have hp : (s.pending.erase i ++ i :: s.running).Perm (s.pending ++ s.running) := by
        refine List.perm_middle.trans ?_
        rw [← List.cons_append]
        exact (List.perm_cons_erase hi.1).symm.append_right _
      exact ⟨hp.nodup_iff.mpr hn, fun k hk => hb k (hp.mem_iff.mp hk), hsl,
        fun k hk => (hc k hk).imp_left hp.mem_iff.mpr⟩
    · cases hs
  | finish i =>
    simp only [Pool.step] at hs
    split at hs
    · rename_i hi
      cases hs
      have hsub : List.Sublist (s.pending ++ s.running.erase i) (s.pending ++ s.running) :=
        List.Sublist.append_left List.erase_sublist _
      refine ⟨hn.sublist hsub, fun k hk => hb k (hsub.subset hk), ?_, ?_⟩
      · intro k
        by_cases hk : k = i
        · subst hk; simp
        · simpa [hk] using hsl k
      · intro k hk
        by_cases hki : k = i
        · subst hki; simp
        · rcases hc k hk with h1 | h1
          · left
            rcases List.mem_append.mp h1 with h2 | h2
            · exact List.mem_append_left _ h2
            · exact List.mem_append_right _ ((List.mem_erase_of_ne hki).mpr h2)
          · right; simpa [hki] using h1
    · cases hs

theorem Pool.inv_run {n : Nat} {f : Nat → β} {ncore : Nat} {s s' : Pool β} {es : List Ev}
    (h : s.Inv n f) (hs : s.run ncore f es = some s') : s'.Inv n f := by
  induction es generalizing s with
  | nil => simp only [Pool.run] at hs; cases hs; exact h
  | cons e es ih =>
    simp only [Pool.run] at hs
    split at hs
    · cases hs
    · rename_i s1 h1; exact ih (Pool.inv_step h h1) hs

/-- Number of events still to happen. -/
def Pool.left (s : Pool β) : Nat := 2 * s.pending.length + s.running.length

theorem Pool.left_step {f : Nat → β} {ncore : Nat} {s s' : Pool β} {e : Ev}
    (hs : s.step ncore f e = some s') : s'.left + 1 = s.left := by
  cases e with
  | start i =>
    simp only [Pool.step] at hs
    split at hs
    · rename_i hi; cases hs
      have := List.length_pos_of_mem hi.1
      simp only [Pool.left, List.length_erase_of_mem hi.1, List.length_cons]; omega
    · cases hs
  | finish i =>
    simp only [Pool.step] at hs
    split at hs
    · rename_i hi; cases hs
      have := List.length_pos_of_mem hi
      simp only [Pool.left, List.length_erase_of_mem hi]; omega
    · cases hs

theorem Pool.left_run {f : Nat → β} {ncore : Nat} {s s' : Pool β} {es : List Ev}
    (hs : s.run ncore f es = some s') : s'.left + es.length = s.left := by
  induction es generalizing s with
  | nil => simp only [Pool.run] at hs; cases hs; simp
  | cons e es ih =>
    simp only [Pool.run] at hs
    split at hs
    · cases hs
    · rename_i s1 h1
      have := ih hs; have := Pool.left_step h1; simp only [List.length_cons]; omega

end pool

section shared
variable {ι K : Type _} [DecidableEq ι] [AddCommMonoid K]

/-- Sum of the pending updates of a thread program at cell `p`. -/
def pend (l : List (ι × K)) (p : ι) : K := (l.map fun u => if u.1 = p then u.2 else 0).sum

theorem pend_nil (p : ι) : pend ([] : List (ι × K)) p = 0 := rfl
theorem pend_cons (u : ι × K) (l : List (ι × K)) (p : ι) :
    pend (u :: l) p = (if u.1 = p then u.2 else 0) + pend l p := by simp [pend]

/-- Mutual exclusion: no two threads are between load and store of the same cell. -/
def Shared.Excl (s : Shared ι K) : Prop :=
  ∀ t t', t ≠ t' → ∀ p v r q v' r',
    (s.thr t).todo.head? = some (p, v) → (s.thr t).reg = some r →
    (s.thr t').todo.head? = some (q, v') → (s.thr t').reg = some r' → p ≠ q

/-- Invariant: memory plus pending updates is the total; registers are up to date. -/
structure Shared.Inv (T : Nat) (tot : ι → K) (s : Shared ι K) : Prop where
  idle : ∀ t, T ≤ t → (s.thr t).todo = []
  total : ∀ p, s.mem p + ∑ t ∈ Finset.range T, pend (s.thr t).todo p = tot p
  fresh : ∀ t p v r rest, (s.thr t).todo = (p, v) :: rest → (s.thr t).reg = some r → r = s.mem p

theorem Shared.inv_step {T : Nat} {tot : ι → K} {s : Shared ι K} (h : s.Inv T tot)
    (hx : s.Excl) (t : Nat) : (s.step t).Inv T tot := by
  obtain ⟨hi, ht, hf⟩ := h
  unfold Shared.step
  split
  · exact ⟨hi, ht, hf⟩
  · rename_i p v rest h1 h2
    refine ⟨?_, ?_, ?_⟩
    · intro k hk; dsimp only; split
      · rename_i hkt; subst hkt; exact hi k hk
      · exact hi k hk
    · intro q
      rw [← ht q]
      congr 1
      apply Finset.sum_congr rfl
      intro k _; dsimp only; split
      · rename_i hkt; subst hkt; rfl
      · rfl
    · intro k q v' r rest' hk1 hk2
      dsimp only at hk1 hk2 ⊢
      split at hk1
      · rename_i hkt; subst hkt
        simp only [if_true] at hk2
        simp only at hk1
        rw [h1] at hk1
        cases hk1; cases hk2; rfl
      · rename_i hkt; rw [if_neg hkt] at hk2
        exact hf k q v' r rest' hk1 hk2
  · rename_i p v rest r h1 h2
    have hr : r = s.mem p := hf t p v r rest h1 h2
    have htT : t < T := by
      by_contra hc; have := hi t (by omega); rw [this] at h1; cases h1
    refine ⟨?_, ?_, ?_⟩
    · intro k hk; dsimp only; split
      · rename_i hkt; subst hkt; omega
      · exact hi k hk
    · intro q
      rw [← ht q]
      have hmem : t ∈ Finset.range T := Finset.mem_range.mpr htT
      rw [← Finset.add_sum_erase _ _ hmem, ← Finset.add_sum_erase _ _ hmem]
      have e1 : ∑ x ∈ (Finset.range T).erase t,
          pend ((if x = t then (⟨rest, none⟩ : Thread ι K) else s.thr x).todo) q
          = ∑ x ∈ (Finset.range T).erase t, pend (s.thr x).todo q := by
        apply Finset.sum_congr rfl
        intro k hk
        rw [if_neg (Finset.ne_of_mem_erase hk)]
      dsimp only
      rw [e1, if_pos rfl, h1, pend_cons]
      by_cases hq : q = p
      · subst hq; simp only [if_true, hr]; abel
      · have hq' : ¬ p = q := fun h => hq h.symm
        simp only [if_neg hq, if_neg hq', zero_add]
    · intro k q v' r' rest' hk1 hk2
      dsimp only at hk1 hk2 ⊢
      split at hk1
      · rename_i hkt; rw [if_pos hkt] at hk2; cases hk2
      · rename_i hkt
        rw [if_neg hkt] at hk2
        have hne : q ≠ p := hx k t hkt q v' r' p v r (by rw [hk1]; rfl) hk2 (by rw [h1]; rfl) h2
        rw [if_neg hne]
        exact hf k q v' r' rest' hk1 hk2

theorem Shared.inv_init (mem : ι → K) (T : Nat) (prog : Nat → List (ι × K)) :
    (Shared.init mem T prog).Inv T
      (fun p => mem p + ∑ t ∈ Finset.range T, pend (prog t) p) where
  idle := by intro t ht; simp [Shared.init, Nat.not_lt.mpr ht]
  total := by
    intro p; simp only [Shared.init]; congr 1
    apply Finset.sum_congr rfl; intro t ht
    rw [if_pos (Finset.mem_range.mp ht)]
  fresh := by
    intro t p v r rest h1 h2
    simp only [Shared.init] at h2
    split at h2 <;> cases h2

/-- Mutual exclusion holds in every state the schedule passes through. -/
def Shared.ExclRun : Shared ι K → List Nat → Prop
  | s, [] => s.Excl
  | s, t :: ts => s.Excl ∧ (s.step t).ExclRun ts

theorem Shared.inv_run {T : Nat} {tot : ι → K} {s : Shared ι K} {sch : List Nat}
    (h : s.Inv T tot) (hx : s.ExclRun sch) : (s.run sch).Inv T tot := by
  induction sch generalizing s with
  | nil => exact h
  | cons t ts ih => exact ih (Shared.inv_step h hx.1 t) hx.2

theorem Shared.mem_of_finished {T : Nat} {tot : ι → K} {s : Shared ι K} (h : s.Inv T tot)
    (hf : s.Finished) (p : ι) : s.mem p = tot p := by
  have := h.total p
  rw [← this, Finset.sum_eq_zero, add_zero]
  intro t _; rw [hf t, pend_nil]

/-- The cells a thread ever touches. -/
def Touches (l : List (ι × K)) (p : ι) : Prop := ∃ v, (p, v) ∈ l

/-- Programs with pairwise disjoint cells never violate mutual exclusion. -/
theorem Shared.step_todo_suffix (s : Shared ι K) (t k : Nat) :
    ((s.step t).thr k).todo <:+ (s.thr k).todo := by
  unfold Shared.step
  split
  · exact List.suffix_rfl
  · dsimp only; split
    · rename_i hkt; subst hkt; exact List.suffix_rfl
    · exact List.suffix_rfl
  · rename_i p v rest r h1 h2
    dsimp only; split
    · rename_i hkt; subst hkt; rw [h1]; exact List.suffix_cons _ _
    · exact List.suffix_rfl

theorem Shared.exclRun_of_disjoint {s : Shared ι K} (sch : List Nat)
    (h : ∀ t t', t ≠ t' → ∀ p, Touches (s.thr t).todo p → ¬ Touches (s.thr t').todo p) :
    s.ExclRun sch := by
  have hex : ∀ s : Shared ι K, (∀ t t', t ≠ t' → ∀ p, Touches (s.thr t).todo p →
      ¬ Touches (s.thr t').todo p) → s.Excl := by
    intro s h t t' htt p v r q v' r' h1 _ h3 _ hpq
    subst hpq
    refine h t t' htt p ⟨v, ?_⟩ ⟨v', ?_⟩
    · exact List.mem_of_mem_head? h1
    · exact List.mem_of_mem_head? h3
  induction sch generalizing s with
  | nil => exact hex s h
  | cons t ts ih =>
    refine ⟨hex s h, ih ?_⟩
    intro k k' hk p ⟨v, hv⟩ ⟨v', hv'⟩
    exact h k k' hk p ⟨v, (s.step_todo_suffix t k).subset hv⟩
      ⟨v', (s.step_todo_suffix t k').subset hv'⟩

end shared
end Verif.Sched
