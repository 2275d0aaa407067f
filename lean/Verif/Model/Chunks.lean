import Verif.Np

/-!
The idiom `for pos in np.array_split(np.arange(a, b), k): bindex = pos[0]; eindex = pos[-1] + 1`, used by
algotom/prep/removal.py:489-492, 569-574, algotom/rec/vertrec.py, algotom/util/correlation.py, algotom/prep/phase.py.
-/

namespace Verif

/-- `bindex, eindex = pos[0], pos[-1] + 1`; `IndexError` for an empty chunk (removal.py:491-492). -/
def chunkEnds (pos : List Nat) : Py (Nat × Nat) :=
  match pos.head?, pos.getLast? with
  | some a, some b => .ok (a, b + 1)
  | _, _ => .error .indexError

/-- The list of `(bindex, eindex)` of `np.array_split(np.arange(a, a + n), k)`, evaluated one after the other (the
first empty chunk raises). -/
def chunkBounds (a n k : Nat) : Py (List (Nat × Nat)) := do
  let cs ← arraySplit (List.range' a n) k
  cs.mapM chunkEnds

end Verif
