import Verif.Model.Correction

/-!
Model of `flat_field_correction` with its options, for images and sinograms (2D) and for stacks (3D): algotom/prep/correction.py:45-132.

The functions that can be named in an option (those of `removal`, `filtering` and `phase`) are parameters; they are assumed not to change their
argument in place and to return a 2D array.  Dark fields have the shape of the flat field.
-/

namespace Verif.FlatOptions
open Verif.Correction

variable {K : Type} [Field K] [LinearOrder K] [FloorRing K] {P : Type}

/-! ### division by the flat field -/

/-- `flat_dark` (or `flat`) after the replacement of zeros (correction.py:77-85, 90-95). -/
def denominator (isInt : Bool) (ratio : K) (useDark : Bool) (flat dark : Mat K) : Mat K :=
  let flat' : Mat K := ⟨flat.h, flat.w, fun i j => ratio * flat.get i j⟩
  if useDark then fixZeros isInt ⟨flat.h, flat.w, fun i j => flat'.get i j - dark.get i j⟩ else fixZeros isInt flat'

/-- 2D data (correction.py:86-98); a flat field with one row (or a 1D array) is used for all rows of the data (numpy broadcasting).  A zero
denominator (numpy: inf/nan) is reported as `zeroDivision`, as in `Correction.flatField`. -/
def divide2 (isInt : Bool) (ratio : K) (useDark : Bool) (proj flat dark : Mat K) : Py (Mat K) :=
  if ¬((flat.h = proj.h ∨ flat.h = 1) ∧ flat.w = proj.w) then .error .valueError
  else
    let den := denominator isInt ratio useDark flat dark
    let row := fun i => if flat.h = 1 then 0 else i
    if hasZero den then .error .zeroDivision
    else .ok ⟨proj.h, proj.w, fun i j => (if useDark then proj.get i j - dark.get (row i) j else proj.get i j) / den.get (row i) j⟩

/-- 3D data, first axis: projections; one flat-field image for all projections (correction.py:86-98). -/
def divide3 (isInt : Bool) (ratio : K) (useDark : Bool) (proj : Arr3 K) (flat dark : Mat K) : Py (Arr3 K) :=
  if ¬(flat.h = proj.h ∧ flat.w = proj.w) then .error .valueError
  else
    let den := denominator isInt ratio useDark flat dark
    if hasZero den then .error .zeroDivision
    else .ok ⟨proj.d, proj.h, proj.w, fun d i j => (if useDark then proj.get d i j - dark.get i j else proj.get d i j) / den.get i j⟩

/-! ### options -/

/-- A value of an option dictionary: a string or another parameter. -/
inductive Value (P : Type) where
  | str (s : String)
  | par (p : P)

/-- A keyword argument: `None`, a dictionary (its values in order), something else. -/
inductive Opt (P : Type) where
  | none
  | dict (values : List (Value P))
  | other

/-- A processing function with its further positional arguments. -/
abbrev Method (K P : Type) := List (Value P) → Mat K → Py (Mat K)

/-- The modules `removal`, `filtering`, `phase`, as name tables. -/
structure Modules (K P : Type) where
  remo : String → Option (Method K P)
  filt : String → Option (Method K P)
  ps : String → Option (Method K P)

/-- `if method in dir(remo) … elif … else: raise ValueError` (correction.py:106-114, 117-128). -/
def Modules.find (ns : Modules K P) : Value P → Py (Method K P)
  | .par _ => .error .valueError
  | .str s =>
    match ns.remo s with
    | some f => .ok f
    | Option.none =>
      match ns.filt s with
      | some f => .ok f
      | Option.none =>
        match ns.ps s with
        | some f => .ok f
        | Option.none => .error .valueError

/-- One option on 2D data (correction.py:101-114, 129-131). -/
def apply2 (ns : Modules K P) (m : Mat K) : Opt P → Py (Mat K)
  | .none => .ok m
  | .other => .error .valueError
  | .dict [] => .error .indexError
  | .dict (v :: para) => (ns.find v).bind fun f => f para m

/-- `data[:, i, :]`. -/
def sinoOf (a : Arr3 K) (i : Nat) : Mat K := ⟨a.d, a.w, fun d j => a.get d i j⟩

/-- `data[:, i, :] = r` with numpy broadcasting of `r`. -/
def store (a : Arr3 K) (i : Nat) (r : Mat K) : Py (Arr3 K) :=
  if (r.h = a.d ∨ r.h = 1) ∧ (r.w = a.w ∨ r.w = 1) then
    .ok ⟨a.d, a.h, a.w, fun d i' j => if i' = i then r.get (if r.h = a.d then d else 0) (if r.w = a.w then j else 0) else a.get d i' j⟩
  else .error .valueError

/-- One pass of the loop over the sinograms of a stack (correction.py:116-128). -/
def step3 (ns : Modules K P) (v : Value P) (para : List (Value P)) (a : Arr3 K) (i : Nat) : Py (Arr3 K) :=
  (ns.find v).bind fun f => (f para (sinoOf a i)).bind fun r => store a i r

/-- One option on 3D data (correction.py:101-104, 115-131). -/
def apply3 (ns : Modules K P) (a : Arr3 K) : Opt P → Py (Arr3 K)
  | .none => .ok a
  | .other => .error .valueError
  | .dict [] => .error .indexError
  | .dict (v :: para) => (List.range a.h).foldlM (step3 ns v para) a

/-- `flat_field_correction` of 2D data (correction.py:45-132). -/
def correct2 (ns : Modules K P) (isInt : Bool) (ratio : K) (useDark : Bool) (proj flat dark : Mat K) (options : List (Opt P)) : Py (Mat K) :=
  (divide2 isInt ratio useDark proj flat dark).bind fun m => options.foldlM (apply2 ns) m

/-- `flat_field_correction` of 3D data (correction.py:45-132). -/
def correct3 (ns : Modules K P) (isInt : Bool) (ratio : K) (useDark : Bool) (proj : Arr3 K) (flat dark : Mat K) (options : List (Opt P)) :
    Py (Arr3 K) :=
  (divide3 isInt ratio useDark proj flat dark).bind fun a => options.foldlM (apply3 ns) a

end Verif.FlatOptions
