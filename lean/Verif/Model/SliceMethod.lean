import Verif.Model.SliceMetric
import Verif.Model.VisualCenter
import Verif.Model.Recon
import Verif.Model.Dfi
import Verif.Model.External

/-!
Model of `_reconstruct_slice` (algotom/rec/reconstruction.py:1177-1208), which reconstructs a candidate slice for
`find_center_based_slice_metric` and `find_center_visual_slices` by the method asked for.

Everything the two searches do not pass on has the default of the signature of the reconstruction function.
-/

namespace Verif.SliceMethod
open Verif.Recon Verif.External Verif.Dfi Verif.Fourier

/-- What runs underneath: the order of the GPU threads (Model/BackProj.lean), the external programs, the interpolation of scipy, and
whether there is a GPU. -/
structure Engines where
  bx : ℕ
  order : List ℕ
  R : Gridrec
  A : Astra
  S : ShiftCols
  I : Spline
  cuda : Bool

/-- The arguments passed on by the searches: `angles`, `ratio`, `filter_name`, `apply_log`, `gpu`. -/
structure Req where
  angles : Option (List ℝ)
  ratio : Option ℝ
  filter : Option String
  applyLog : Bool
  gpu : Bool

/-- `make_smoothing_window`: the window named by `filter_name` (reconstruction.py:67-82). -/
def windowOf (f : Option String) : Filter :=
  if f = some "hann" then .hann
  else if f = some "bartlett" then .bartlett
  else if f = some "blackman" then .blackman
  else if f = some "hamming" then .hamming
  else if f = some "nuttall" then .nuttall
  else if f = some "parzen" then .parzen
  else if f = some "triang" then .triang
  else .other

/-- The call of `fbp_reconstruction` or `bpf_reconstruction` (reconstruction.py:1184-1191; defaults 362-364, 563-565).  `isInt` and `ncore`
matter for chunks only. -/
noncomputable def bpArgs (W : Type) (E : Engines) (q : Req) (c : ℝ) : Args W :=
  ⟨c, q.angles, q.ratio, none, windowOf q.filter, none, edgeIdx, q.applyLog, false, 1, E.bx, E.order⟩

/-- The call of `astra_reconstruction` (reconstruction.py:1193-1200; defaults 1047-1050). -/
noncomputable def astraArgs (q : Req) (c : ℝ) : AArgs :=
  ⟨⟨c, q.angles, q.ratio, q.applyLog⟩, if q.gpu then "FBP_CUDA".toList else "FBP".toList, 1, q.filter.getD "ram-lak", none, 1, []⟩

/-- The call of `gridrec_reconstruction` (reconstruction.py:1202-1204; defaults 910-912). -/
noncomputable def gridArgs (q : Req) (c : ℝ) : GArgs :=
  ⟨⟨c, q.angles, q.ratio, q.applyLog⟩, .int 100, q.filter.getD "shepp", 0.9⟩

/-- The call of `dfi_reconstruction` (reconstruction.py:1206-1208; defaults 809-811). -/
noncomputable def dfiArgs (q : Req) (c : ℝ) : DArgs :=
  ⟨c, q.angles, q.ratio, windowOf q.filter, 0.25, edgeIdx, q.applyLog⟩

/-- `_reconstruct_slice(sinogram, center, method, ...)` (reconstruction.py:1183-1208). -/
noncomputable def reconstructSlice (E : Engines) (q : Req) (method : String) (m : Mat ℝ) (c : ℝ) : Py (Mat ℝ) :=
  let run : Py Arr :=
    if method = "fbp" then fbp (bpArgs (Mat ℂ) E q c) (.one m)
    else if method = "bpf" then bpf (bpArgs (Mat ℝ) E q c) (.one m)
    else if method = "astra" then (astra E.A E.S E.cuda (astraArgs q c) (.one m)).getD (.error .typeError)
    else if method = "gridrec" then gridrec E.R (gridArgs q c) (.one m)
    else dfi E.I (dfiArgs q c) (.one m)
  run.bind fun out => .ok (out.slice 0)

end Verif.SliceMethod
