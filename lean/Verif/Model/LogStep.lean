import Verif.Np
import Mathlib.Algebra.Order.Field.Basic

/-!
Model of the "apply logarithm" step of the reconstruction entry points with numpy's *reference* semantics: the local name
`sinogram` / `img_chunk` is at first bound to (a view of) the caller's array, `x = expr` rebinds the name
to a new array, and `x[mask] = v` writes through to whatever array the name is bound to.

Sources: algotom/rec/reconstruction.py:431-436 (fbp), 632-637 (bpf), 860-867 (dfi), 961-966 (gridrec), 1136-1141 (astra),
1317-1325 (find_center_based_slice_metric); algotom/rec/vertrec.py:598-610, 639-651 (vertical reconstruction, also 869-881,
1144-1156), 1343-1354 (find_center_vertical_slice).
-/

namespace Verif.LogStep

variable {ι K : Type _} [Field K] [LinearOrder K]

/-- The caller's array, the cells of it the local name can see (`view`: all cells, or the chunk/crop of a slice
expression), and the local binding: `none` = the caller's array itself, `some a` = a new array `a`. -/
structure St (ι K : Type _) where
  caller : ι → K
  view : ι → Prop
  loc : Option (ι → K)

/-- Value read through the local name. -/
def St.read (s : St ι K) : ι → K := s.loc.getD s.caller

/-- `x = <new array>`. -/
def St.rebind (s : St ι K) (a : ι → K) : St ι K := { s with loc := some a }

open Classical in
/-- In-place assignment `x[x <= 0.0] = 1.0`. -/
noncomputable def St.fixInPlace (s : St ι K) : St ι K :=
  match s.loc with
  | none => { s with caller := fun q => if s.view q ∧ s.caller q ≤ 0 then 1 else s.caller q }
  | some a => { s with loc := some fun q => if s.view q ∧ a q ≤ 0 then 1 else a q }

open Classical in
/-- `if np.any(x <= 0.0): x[x <= 0.0] = 1.0` followed by `x = -np.log(x)` (`lg` = `-log`), when `apply_log`.  In vertrec.py the
test is the `RuntimeWarning` of `np.log`, raised exactly when some value is not positive. -/
noncomputable def logStep (lg : K → K) (applyLog : Bool) (s : St ι K) : St ι K :=
  if applyLog then
    let s1 := if ∃ q, s.view q ∧ s.read q ≤ 0 then s.fixInPlace else s
    s1.rebind fun q => lg (s1.read q)
  else s

/-- `fbp_reconstruction`, `bpf_reconstruction`, `gridrec_reconstruction`, `astra_reconstruction` up to and
including the logarithm (everything after works on the local array and does not write to it). -/
noncomputable def directCall (lg : K → K) (applyLog : Bool) (sino : ι → K) : St ι K :=
  logStep lg applyLog ⟨sino, fun _ => True, none⟩

/-- `dfi_reconstruction` (reconstruction.py:860-867): shifting and padding (`pre`) create a new array before the
logarithm. -/
noncomputable def dfiCall (lg : K → K) (pre : (ι → K) → ι → K) (applyLog : Bool) (sino : ι → K) : St ι K :=
  let s : St ι K := ⟨sino, fun _ => True, none⟩
  logStep lg applyLog (s.rebind (pre s.read))

/-- `find_center_based_slice_metric` (reconstruction.py:1317-1325) and `find_center_vertical_slice`
(vertrec.py:1343-1354): Gaussian smoothing (`smooth`) creates a new array only for `sigma > 0`. -/
noncomputable def centerCall (lg : K → K) (smooth : (ι → K) → ι → K) (sigma : K) (applyLog : Bool)
    (sino : ι → K) : St ι K :=
  let s : St ι K := ⟨sino, fun _ => True, none⟩
  logStep lg applyLog (if sigma > 0 then s.rebind (smooth s.read) else s)

/-- One pass of the chunk loop of `vertical_reconstruction*`: `img_chunk` is a view of the cells `chunk`;
flat-field correction (`flat`) creates a new array. Returns the caller's array afterwards and the processed chunk. -/
noncomputable def chunkPass (lg : K → K) (flat : Option ((ι → K) → ι → K)) (applyLog : Bool) (chunk : ι → Prop)
    (proj : ι → K) : (ι → K) × (ι → K) :=
  let s : St ι K := ⟨proj, chunk, none⟩
  let s1 := match flat with
    | none => s
    | some f => s.rebind (f s.read)
  let s2 := logStep lg applyLog s1
  (s2.caller, s2.read)

/-- The whole chunk loop, as far as the caller's array is concerned. -/
noncomputable def chunkLoop (lg : K → K) (flat : Option ((ι → K) → ι → K)) (applyLog : Bool)
    (chunks : List (ι → Prop)) (proj : ι → K) : ι → K :=
  chunks.foldl (fun p c => (chunkPass lg flat applyLog c p).1) proj

end Verif.LogStep
