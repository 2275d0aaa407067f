import Verif.Model.ParallelSlices

/-! `parallel_process_slices` (algotom/util/utility.py:70-120) with a method that may raise. -/

namespace Verif.ParSlices
open Verif.Sched

variable {α β : Type _}

/-- What `Parallel(n_jobs=ncore)(delayed(f)(i) for i in range(n))` (utility.py:106-108, 111-113, 116-118) can do after the events `sched`, if the task
`i` ends with `f i` (a value or an exception): return the list of values when all tasks have finished without exception, or raise the exception of a
task that has finished with one.  Simplification: which one is raised, and how many other tasks are still run after the first exception, is left open
(joblib cancels them at some later time), so every version of joblib is covered. -/
def Outcome (n ncore : Nat) (f : Nat → Py β) (sched : List Ev) (r : Py (List β)) : Prop :=
  ∃ s, (Pool.init (Py β) n).run ncore f sched = some s ∧
    ((∃ i e, s.slots i = some (.error e) ∧ r = .error e) ∨ (s.isDone = true ∧ ∃ l, ((s.collect n).filterMap id).mapM id = .ok l ∧ r = .ok l))

/-- `parallel_process_slices` (utility.py:98-120) with a method that may raise: what the caller can get after the events `sched`. -/
def ProcessOutcome [Inhabited β] (data : Arr3 α) (method : Mat α → Py (Mat β)) (axis : Nat) (ncore : Int) (sched : List Ev) (r : Py (Arr3 β)) : Prop :=
  ∃ l, Outcome (count axis data) (max ncore 1).toNat (fun i => method (slice axis data i)) sched l ∧
    r = l.bind fun ms => (stack ms).map (moveaxis0 axis)

end Verif.ParSlices
