import Verif.Model.Hdf

/-!
The recursion of `get_hdf_tree` as it is written (algotom/io/loadersaver.py:546-661): every member is opened again by its path, the lines are
appended to one list.  Props/HdfTree.lean shows that it prints what the structural recursion of Model/Hdf.lean prints.
-/

namespace Verif.Hdf
open Verif.Io

variable {D : Type _}

/-- `sorted(list_group)` (loadersaver.py:569). -/
def sortNames (l : List Name) : List Name := l.mergeSort fun a b => decide (a ≤ b)

/-- `_get_subgroups(hdf_object, key)` (loadersaver.py:551-570). -/
def getSubgroups (f : Forest D) (key : Option Name) : List Name × Name :=
  match key with
  | none =>
    let l := f.names
    (sortNames l, if l.length = 1 then l.getD 0 [] else [])
  | some k =>
    match openKey f k with
    | some (.group kids) => (sortNames kids.names, k)
    | _ => ([], k)

/-- `_add_branches(tree, hdf_object, key, key1, index, last_index, prefix, connector, level, add_shape)` (loadersaver.py:579-598): the lines
appended; `body` is `_make_tree_body` with this prefix, key and level.  `key_comb in hdf_object` is False for a missing link. -/
def addBranches (shape : D → Option Name) (f : Forest D) (body : Name → Option Name → ℕ → List Name) (key key1 : Name) (index last : ℕ)
    (pre conn : Name) (level : ℕ) : List Name :=
  let comb := key ++ '/' :: key1
  let sh : Option Name := match openKey f comb with
    | some (.dataset d) => shape d
    | _ => none
  let line := match sh with
    | some s => pre ++ conn ++ ' ' :: key1 ++ ' ' :: s
    | none => pre ++ conn ++ ' ' :: key1
  let pre' := if index ≠ last then pre ++ pipePrefix else pre ++ spacePrefix
  line :: body pre' (some comb) level

/-- `_make_tree_body(tree, hdf_object, prefix, key, level, add_shape)` (loadersaver.py:607-626): the lines appended.  The first argument
bounds the depth of the recursion. -/
def makeTreeBody (shape : D → Option Name) (f : Forest D) : ℕ → Name → Option Name → ℕ → List Name
  | 0, _, _, _ => []
  | fuel + 1, pre, key, level =>
    let (entries, key) := getSubgroups f key
    let num := entries.length
    let last := num - 1
    let level := level + 1
    if num > 0 then
      if last = 0 then
        let key := if level = 1 then [] else key
        let conn := if num > 1 then pipe else if level > 1 then elbow else []
        addBranches shape f (makeTreeBody shape f fuel) key (entries.getD 0 []) 0 0 pre conn level
      else entries.zipIdx.flatMap fun (p : Name × ℕ) =>
        let conn := if p.2 = last then elbow else tee
        (if p.2 = 0 then [pre ++ pipe] else []) ++
          addBranches shape f (makeTreeBody shape f fuel) key p.1 p.2 last pre conn level
    else []

/-- `get_hdf_tree` (loadersaver.py:648-650). -/
def treeOf (shape : D → Option Name) (f : Forest D) (fuel : ℕ) : List Name := makeTreeBody shape f fuel [] none 0

end Verif.Hdf
