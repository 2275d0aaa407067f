import Verif.Np
import Verif.Model.Sched

/-! Model of algotom/util/utility.py:70-120 `parallel_process_slices`. -/

namespace Verif.ParSlices
open Verif.Sched

variable {α β : Type _}

/-- `data[:, :, i]` (axis 2), `data[:, i, :]` (axis 1), `data[i, :, :]` (any other axis):
algotom/util/utility.py:107,112,117. -/
def slice (axis : Nat) (a : Arr3 α) (i : Nat) : Mat α :=
  if axis = 2 then ⟨a.d, a.h, fun p q => a.get p q i⟩
  else if axis = 1 then ⟨a.d, a.w, fun p q => a.get p i q⟩
  else ⟨a.h, a.w, fun p q => a.get i p q⟩

/-- Number of tasks: `range(width)`, `range(height)`, `range(depth)` (lines 108, 113, 118). -/
def count (axis : Nat) (a : Arr3 α) : Nat :=
  if axis = 2 then a.w else if axis = 1 then a.h else a.d

/-- `np.float32(list_of_2d_arrays)`: stack along a new axis 0; a ragged list raises `ValueError`.
(lines 109, 114, 119; float conversion not modelled.) -/
def stack [Inhabited β] (ms : List (Mat β)) : Py (Arr3 β) :=
  match ms with
  | [] => .ok ⟨0, 0, 0, fun _ _ _ => default⟩
  | m :: _ =>
    if ms.all (fun x => x.h == m.h && x.w == m.w) then
      .ok ⟨ms.length, m.h, m.w, fun k i j => (ms.getD k m).get i j⟩
    else .error .valueError

/-- `np.moveaxis(out, 0, axis)` for axis 1, 2 (lines 109, 114); nothing for axis 0 (line 119). -/
def moveaxis0 (axis : Nat) (s : Arr3 β) : Arr3 β :=
  if axis = 2 then ⟨s.h, s.w, s.d, fun i j k => s.get k i j⟩
  else if axis = 1 then ⟨s.h, s.d, s.w, fun i k j => s.get k i j⟩
  else s

/-- algotom/util/utility.py:70-120.  `sched` is the sequence of pool events that happens; `none`
means that `sched` is not a complete execution of the pool.  The worker limit is
`np.clip(ncore, 1, None)` (line 102). -/
def parallelProcessSlices [Inhabited β] (data : Arr3 α) (method : Mat α → Mat β) (axis : Nat)
    (ncore : Int) (sched : List Ev) : Option (Py (Arr3 β)) :=
  let n := count axis data
  match (Pool.init (Mat β) n).run (max ncore 1).toNat (fun i => method (slice axis data i)) sched with
  | none => none
  | some s =>
    if s.isDone then
      some ((stack ((s.collect n).filterMap id)).map (moveaxis0 axis))
    else none

end Verif.ParSlices
