import Verif.Model.ConvertRun

/-!
Model of a script that calls several functions one after the other on the same disk: `rescale_dataset` (algotom/post/postprocessing.py:506-591),
`downsample_dataset` (366-503) and `reslice_dataset` (782-957), each from a tif folder, and `convert_tif_to_hdf` and `extract_tif_from_hdf`
(algotom/io/converter.py:37-146).  The script may be stopped anywhere in any of its calls.

A file with a tif name that holds no image reads as an image without pixels in the first two functions.
-/

namespace Verif.Script
open Verif.Io Verif.Convert Verif.Writer Verif.ResliceRun

variable {K : Type} [Field K] [LinearOrder K] [FloorRing K]

/-- What `load_image` (loadersaver.py:106-113) makes of a file. -/
def asImage : File K → Mat K
  | .image m => m
  | .data _ _ => ⟨0, 0, fun _ _ => 0⟩

/-- The disk as the functions that only read images see it (loadersaver.py:106-113). -/
def view (s : Disk (File K)) : Disk (Mat K) := fun q => (s q).map fun d => d.map fun e => (e.1, asImage e.2)

/-- One turn of the loop of `rescale_dataset` or `downsample_dataset` (postprocessing.py:472-500, 574-588). -/
def jobOp (input output : Name) (j : Job (Mat K)) : Op K :=
  .save output [(j.target, fun s => ((j.reads.mapM ((view s).read input)).bind j.work).map .image)]

/-- A line of the script: one of the five functions (postprocessing.py:366-368, 506-508, 782-785, converter.py:37-38, 87-88). -/
inductive Task (K : Type) where
  | write (c : Call K)
  | reslice (P : Paths) (W : Work K)
  | convert (A : ConvertRun.ConvArgs)
  | extract (A : ConvertRun.ExtArgs)

/-- The call up to its first effect (postprocessing.py:406-467, 539-572, 831-842, converter.py:63-77, 115-126); the converters always overwrite. -/
def Task.plan (gauss : Mat K → Mat K) (overwrite : Bool) (s : Disk (File K)) : Task K → Py (List (Op K))
  | .write c => (c.jobs gauss (view s) overwrite).map fun js => js.map (jobOp c.input c.output)
  | .reslice P W => resliceCall P W s overwrite
  | .convert A => ConvertRun.convPlan A s
  | .extract A => ConvertRun.extPlan A s

/-- The whole call (postprocessing.py:366-503, 506-591, 782-957, converter.py:63-84, 115-146). -/
def Task.run (gauss : Mat K → Mat K) (overwrite : Bool) (s : Disk (File K)) (t : Task K) : Py (Disk (File K)) :=
  (t.plan gauss overwrite s).bind fun ops => runOps s ops

/-- The script: the calls (postprocessing.py:366-503, 506-591, 782-957, converter.py:63-84, 115-146) one after the other. -/
def runScript (gauss : Mat K → Mat K) (overwrite : Bool) (s : Disk (File K)) (ts : List (Task K)) : Py (Disk (File K)) :=
  ts.foldlM (fun s t => t.run gauss overwrite s) s

/-- Where the script can stop: at its end, or anywhere in one of its calls (postprocessing.py:366-503, 506-591, 782-957, converter.py:63-84, 115-146). -/
def StopsScript (gauss : Mat K → Mat K) (overwrite : Bool) : Disk (File K) → List (Task K) → Disk (File K) → Prop
  | s, [], s' => s' = s
  | s, t :: ts, s' => (∃ ops, t.plan gauss overwrite s = .ok ops ∧ StopsOps s ops s') ∨
      ∃ s1, t.run gauss overwrite s = .ok s1 ∧ StopsScript gauss overwrite s1 ts s'

end Verif.Script
