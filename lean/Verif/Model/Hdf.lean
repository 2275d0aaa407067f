import Verif.Model.Io

/-!
Listing, searching and displaying the content of hdf files, and opening a new one for writing: algotom/io/loadersaver.py:116-272 and
421-468, 546-661.  A file is the forest of the objects under its root group.  Simplifications: objects of a group are kept in the order in
which h5py iterates over them (increasing name, so `sorted` changes nothing); a link is a soft or external link whose target is missing;
every object is reached by one hard link.
-/

namespace Verif.Hdf
open Verif.Io

/-- The members of a group (first member and the remaining ones); `D` is what is known of a dataset (shape and type). -/
inductive Forest (D : Type _) where
  | nil
  | group (name : Name) (kids rest : Forest D)
  | dataset (name : Name) (d : D) (rest : Forest D)
  | link (name : Name) (rest : Forest D)

variable {D : Type _}

/-- What a path may lead to. -/
inductive Obj (D : Type _) where
  | group (kids : Forest D)
  | dataset (d : D)
  | link

/-- `list(group.keys())`. -/
def Forest.names : Forest D → List Name
  | .nil => []
  | .group n _ rest => n :: rest.names
  | .dataset n _ rest => n :: rest.names
  | .link n rest => n :: rest.names

/-- The object reached by following the names of a path. -/
def Forest.at : Forest D → List Name → Option (Obj D)
  | _, [] => none
  | .nil, _ :: _ => none
  | .group n kids rest, a :: p => if a = n then (if p = [] then some (.group kids) else kids.at p) else rest.at (a :: p)
  | .dataset n d rest, a :: p => if a = n then (if p = [] then some (.dataset d) else none) else rest.at (a :: p)
  | .link n rest, a :: p => if a = n then (if p = [] then some .link else none) else rest.at (a :: p)

/-- Names of a path joined by "/". -/
def join : List Name → Name
  | [] => []
  | [n] => n
  | n :: p => n ++ '/' :: join p

/-- Components of a key: the parts between slashes, empty parts dropped (HDF5's rule); `acc` is the current part, reversed. -/
def compsAux (acc : Name) : Name → List Name
  | [] => if acc = [] then [] else [acc.reverse]
  | c :: r => if c = '/' then (if acc = [] then compsAux [] r else acc.reverse :: compsAux [] r) else compsAux (c :: acc) r

/-- Components of a key. -/
def comps (key : Name) : List Name := compsAux [] key

/-- `hdf_object[key]`; `none` is a `KeyError` (also raised for a link whose target is missing). -/
def openKey (f : Forest D) (key : Name) : Option (Obj D) :=
  match f.at (comps key) with
  | some .link => none
  | o => o

/-- `hdf_object.visit(keys.append)`: the keys of all objects in preorder; links are not visited. -/
def visit (pre : List Name) : Forest D → List Name
  | .nil => []
  | .group n kids rest => join (pre ++ [n]) :: (visit (pre ++ [n]) kids ++ visit pre rest)
  | .dataset n _ rest => join (pre ++ [n]) :: visit pre rest
  | .link _ rest => visit pre rest

/-- What one visited key contributes to the list; `miss` says what is added on a `KeyError` (loadersaver.py:140-154, 203-216). -/
def keysOf (f : Forest D) (miss : Name → List Name) (key : Name) : List Name :=
  match openKey f key with
  | some (.group kids) => if kids.names.isEmpty then [key] else kids.names.map fun k => key ++ '/' :: k
  | some (.dataset _) => ['/' :: key]
  | _ => miss key

/-- Shape and type reported for a key (loadersaver.py:155-166, 221-231). -/
def infoOf (f : Forest D) (key : Name) : Option D :=
  match openKey f key with
  | some (.dataset d) => some d
  | _ => none

/-- `get_hdf_information` (loadersaver.py:136-175): the keys and, at the same positions, what is known of them. -/
def getHdfInformation (f : Forest D) : List Name × List (Option D) :=
  let keys := (visit [] f).flatMap (keysOf f fun k => [k])
  (keys, keys.map (infoOf f))

/-- `find_hdf_key` (loadersaver.py:200-241). -/
def findHdfKey (f : Forest D) (pattern : Name) : List Name × List (Option D) :=
  let keys := ((visit [] f).flatMap (keysOf f fun _ => [])).filter fun k => decide (pattern <:+: k)
  (keys, keys.map (infoOf f))

/-- `load_hdf` (loadersaver.py:261-272). -/
def loadHdf (f : Forest D) (key : Name) : Py (Obj D) :=
  match openKey f key with
  | some o => .ok o
  | none => .error .valueError

/-! ### tree view -/

def pipe : Name := ['│']
def elbow : Name := ['└', '─', '─']
def tee : Name := ['├', '─', '─']
def pipePrefix : Name := ['│', ' ', ' ', ' ']
def spacePrefix : Name := [' ', ' ', ' ', ' ']

/-- The line `│` before the first of several members (loadersaver.py:623-624). -/
def headLine (pre : Name) (f : Forest D) : List Name := if f.names.length ≥ 2 then [pre ++ pipe] else []

/-- Connector of a member (loadersaver.py:612-622): `single` = only member, `top` = first level. -/
def connector (top single last : Bool) : Name :=
  if single then (if top then [] else elbow) else if last then elbow else tee

/-- Text of an object: the name, followed by the shape for datasets (`shape = none` if `add_shape=False`; loadersaver.py:581-592). -/
def label (name : Name) (shape : Option Name) : Name :=
  match shape with
  | some s => name ++ ' ' :: s
  | none => name

/-- Lines of the members of a group (loadersaver.py:573-626); the code opens each member again by its path, the model recurses on it. -/
def branches (shape : D → Option Name) (pre : Name) (top single : Bool) : Forest D → List Name
  | .nil => []
  | .group n kids rest =>
    let last := rest.names.isEmpty
    let pre' := pre ++ (if last then spacePrefix else pipePrefix)
    (pre ++ connector top single last ++ ' ' :: label n none) ::
      (headLine pre' kids ++ branches shape pre' false (kids.names.length = 1) kids ++ branches shape pre top single rest)
  | .dataset n d rest =>
    (pre ++ connector top single rest.names.isEmpty ++ ' ' :: label n (shape d)) :: branches shape pre top single rest
  | .link n rest =>
    (pre ++ connector top single rest.names.isEmpty ++ ' ' :: label n none) :: branches shape pre top single rest

/-- `get_hdf_tree` (loadersaver.py:648-661). -/
def getHdfTree (shape : D → Option Name) (f : Forest D) : List Name :=
  headLine [] f ++ branches shape [] true (f.names.length = 1) f

/-! ### open_hdf_stream -/

/-- A path can be created beside another one: neither is a beginning of the other. -/
def compatible (p q : List Name) : Bool := !(p.isPrefixOf q) && !(q.isPrefixOf p)

/-- `create_dataset(key)` in a file that holds the datasets `ps`: refused if the key exists or is a group, or lies below a dataset. -/
def createDataset (ps : List (List Name)) (key : Name) : Py (List (List Name)) :=
  if comps key ≠ [] ∧ ps.all (compatible (comps key)) then .ok (ps ++ [comps key]) else .error .valueError

/-- The loop over the additional datasets (loadersaver.py:457-466): content of the file and outcome. -/
def addOptions (keyPath : Name) : List Name → List (List Name) → List (List Name) × Py Unit
  | [], ps => (ps, .ok ())
  | key :: rest, ps =>
    if keyPath <:+: key then (ps, .error .valueError)
    else match createDataset ps key with
      | .error e => (ps, .error e)
      | .ok ps' => addOptions keyPath rest ps'

/-- `open_hdf_stream` on one path (loadersaver.py:453-468): whatever the file held is discarded by opening it with mode "w"; the result is
the new content and the outcome. -/
def openStream (_old : List (List Name)) (keyPath : Name) (options : List Name) : List (List Name) × Py Unit :=
  match addOptions keyPath options [] with
  | (ps, .error e) => (ps, .error e)
  | (ps, .ok ()) =>
    match createDataset ps keyPath with
    | .error e => (ps, .error e)
    | .ok ps' => (ps', .ok ())

/-- File name used for a name `stem ++ ext` (loadersaver.py:448-449; `ext` is empty or starts with a dot). -/
def streamName (stem ext : Name) : Name :=
  if ext.map Char.toLower ∈ [".hdf".toList, ".h5".toList, ".nxs".toList, ".hdf5".toList] then stem ++ ext else stem ++ ".hdf".toList

end Verif.Hdf
