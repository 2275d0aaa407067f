import Verif.Model.Io

/-!
Model of the handling of file paths: `__correct_path` (used on Windows) and `__get_path` (algotom/io/loadersaver.py:56-89).  A path is a list of
characters; `Path(...)` keeps the characters (its normalisation of doubled separators is not modelled).
-/

namespace Verif.WinPath
open Verif.Io

/-- The table `escape_sequences` (loadersaver.py:62-70): control character and the letter after the backslash. -/
def table : List (Char × Char) :=
  [(Char.ofNat 7, 'a'), (Char.ofNat 8, 'b'), (Char.ofNat 12, 'f'), (Char.ofNat 10, 'n'), (Char.ofNat 13, 'r'), (Char.ofNat 9, 't'), (Char.ofNat 11, 'v')]

/-- `file_path.replace(char, "\\" + letter)`. -/
def replaceEsc (ch letter : Char) (s : Name) : Name := s.flatMap fun c => if c = ch then ['\\', letter] else [c]

/-- `__correct_path` (loadersaver.py:71-75).  The test `char in file_path` only saves work. -/
def correctPath (s : Name) : Name :=
  (table.foldl (fun acc e => if e.1 ∈ acc then replaceEsc e.1 e.2 acc else acc) s).map fun c => if c = '\\' then '/' else c

/-- `__get_path(file_path, check_exist)` (loadersaver.py:82-89) with the set of existing paths. -/
def getPath (windows : Bool) (exist : Name → Bool) (check : Bool) (s : Name) : Py Name :=
  let p := if windows then correctPath s else s
  if check && !exist p then .error .valueError else .ok p

end Verif.WinPath
