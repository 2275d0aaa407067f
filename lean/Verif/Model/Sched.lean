import Verif.Np

/-!
# Model of the two parallel execution mechanisms used by algotom

* `Pool` : joblib's `Parallel(n_jobs=ncore)(delayed(f)(...) for i in range(n))`
* `Shared`: numba `prange` / CUDA threads that update a shared output array by non-atomic
  read-modify-write (`a[p] += v` is a load followed by a store).
-/

namespace Verif.Sched

/-! ## joblib pool -/

/-- State of a joblib pool running tasks `0..n-1`: tasks not yet dispatched, tasks currently being
executed by a worker, and the result slots.  Models `Parallel(n_jobs=ncore)(...)` as used in
algotom/util/utility.py:105-119.  Simplification: a task runs to completion without raising. -/
structure Pool (β : Type _) where
  pending : List Nat
  running : List Nat
  slots : Nat → Option β

/-- Events of the pool: a worker picks up a task, or finishes it. -/
inductive Ev where
  | start (i : Nat)
  | finish (i : Nat)
  deriving DecidableEq

/-- Initial pool for `n` tasks. -/
def Pool.init (β : Type _) (n : Nat) : Pool β := ⟨List.range n, [], fun _ => none⟩

/-- One pool event for worker limit `ncore` and task function `f`; `none` = event not enabled.
Result slots are indexed by submission order (joblib returns results in submission order). -/
def Pool.step {β : Type _} (ncore : Nat) (f : Nat → β) (s : Pool β) : Ev → Option (Pool β)
  | .start i =>
    if i ∈ s.pending ∧ s.running.length < ncore then
      some ⟨s.pending.erase i, i :: s.running, s.slots⟩
    else none
  | .finish i =>
    if i ∈ s.running then
      some ⟨s.pending, s.running.erase i, fun k => if k = i then some (f i) else s.slots k⟩
    else none

/-- Run a list of events (a schedule). -/
def Pool.run {β : Type _} (ncore : Nat) (f : Nat → β) : Pool β → List Ev → Option (Pool β)
  | s, [] => some s
  | s, e :: es => match s.step ncore f e with
    | none => none
    | some s' => s'.run ncore f es

/-- The pool has finished: `Parallel` returns. -/
def Pool.isDone {β : Type _} (s : Pool β) : Bool := s.pending.isEmpty && s.running.isEmpty

/-- What `Parallel(...)` returns: the slots in submission order. -/
def Pool.collect {β : Type _} (n : Nat) (s : Pool β) : List (Option β) :=
  (List.range n).map s.slots

/-- `Parallel(n_jobs=ncore)(delayed(f)(i) for i in range(n))` executed along the schedule `sched`; `none` = `sched` is not
a complete execution. -/
def parMap {β : Type _} (n ncore : Nat) (f : Nat → β) (sched : List Ev) : Option (List β) :=
  match (Pool.init β n).run ncore f sched with
  | none => none
  | some s => if s.isDone then some ((s.collect n).filterMap id) else none

/-! ## shared-memory threads -/

/-- A thread: the list of updates `recon[p] += v` still to do and, between the load and the store
of the first one, the loaded value. -/
structure Thread (ι K : Type _) where
  todo : List (ι × K)
  reg : Option K

/-- Shared memory and the threads (indexed by naturals). -/
structure Shared (ι K : Type _) where
  mem : ι → K
  thr : Nat → Thread ι K

variable {ι K : Type _} [DecidableEq ι] [Add K]

/-- One micro-step of thread `t`: load the cell of its first pending update, or, if already loaded,
store the sum and drop the update.  A finished thread does nothing. -/
def Shared.step (s : Shared ι K) (t : Nat) : Shared ι K :=
  match (s.thr t).todo, (s.thr t).reg with
  | [], _ => s
  | (p, _) :: _, none =>
    { s with thr := fun k => if k = t then ⟨(s.thr t).todo, some (s.mem p)⟩ else s.thr k }
  | (p, v) :: rest, some r =>
    { mem := fun q => if q = p then r + v else s.mem q
      thr := fun k => if k = t then ⟨rest, none⟩ else s.thr k }

/-- Run a schedule = the sequence of thread numbers that take a micro-step. -/
def Shared.run : Shared ι K → List Nat → Shared ι K
  | s, [] => s
  | s, t :: ts => (s.step t).run ts

/-- Start state: given memory, thread `t < T` has program `prog t`, others are empty. -/
def Shared.init (mem : ι → K) (T : Nat) (prog : Nat → List (ι × K)) : Shared ι K :=
  ⟨mem, fun t => if t < T then ⟨prog t, none⟩ else ⟨[], none⟩⟩

/-- All threads have finished (the parallel region ends). -/
def Shared.Finished (s : Shared ι K) : Prop := ∀ t, (s.thr t).todo = []

end Verif.Sched
