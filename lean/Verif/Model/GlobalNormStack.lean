import Verif.Model.GpuShifts

/-! `norm_global` of `find_local_shifts` for stacks on the CPU and for the one-direction search on the GPU (algotom/util/correlation.py:1053-1055,
1352-1354, 1621-1623). -/

namespace Verif.GpuShifts
open Verif.LocalShifts Verif.Correlation

/-- `normalize_image` of a whole stack (correlation.py:58-60). -/
noncomputable def normalizeStack (a : Arr3 ℝ) : Arr3 ℝ := ⟨a.d, a.h, a.w, fun k i j => normalize3 a.d a.w a.h (rowsOf a) i k j⟩

/-- `if norm_global: mat = normalize_image(mat)` (correlation.py:1053-1055, 1352-1354, 1621-1623). -/
noncomputable def globally (normGlobal : Bool) (a : Arr3 ℝ) : Arr3 ℝ := if normGlobal then normalizeStack a else a

/-- The x-shifts of `find_local_shifts(dim=1)` on the CPU with `norm_global` (correlation.py:1040-1065, 2547-2551); the shapes are checked first, but are
the same after the normalisation. -/
noncomputable def shiftsXG (normGlobal : Bool) (ref mat : Arr3 ℝ) (radi margin : ℕ) (chunkSize : Option ℤ) (norm : Bool) (method : Method ℝ) (size : Int) :
    Py (ℕ → ℕ → Py ℝ) :=
  shiftsX (globally normGlobal ref) (globally normGlobal mat) radi margin chunkSize norm method size

/-- Column `c` of the y-shifts of `find_local_shifts(dim=1)` on the CPU with `norm_global` (correlation.py:1040-1055, 1066-1076, 2552-2556). -/
noncomputable def shiftsYG (normGlobal : Bool) (ref mat : Arr3 ℝ) (c radi margin : ℕ) (chunkSize : Option ℤ) (norm : Bool) (method : Method ℝ) (size : Int) :
    Py (ℕ → Py ℝ) :=
  findLocalShiftsY (globally normGlobal ref) (globally normGlobal mat) c radi margin chunkSize norm method size

/-- The x-shifts of `find_local_shifts(dim=1, gpu=True)` with `norm_global` (correlation.py:1608-1632, 2577-2580). -/
noncomputable def shiftsXGpuG (normGlobal : Bool) (ref mat : Arr3 ℝ) (radi margin : ℕ) (chunkSize : Option ℤ) (block : ℕ × ℕ) (norm : Bool) :
    Py (ℕ → ℕ → Py ℝ) :=
  shiftsXGpu (globally normGlobal ref) (globally normGlobal mat) radi margin chunkSize block norm

/-- Column `c` of the y-shifts of `find_local_shifts(dim=1, gpu=True)` with `norm_global` (correlation.py:1608-1623, 1633-1641, 2581-2584). -/
noncomputable def shiftsYGpuG (normGlobal : Bool) (ref mat : Arr3 ℝ) (c radi margin : ℕ) (chunkSize : Option ℤ) (block : ℕ × ℕ) (norm : Bool) : Py (ℕ → Py ℝ) :=
  shiftsYGpu (globally normGlobal ref) (globally normGlobal mat) c radi margin chunkSize block norm

/-- `find_local_shifts(dim=2)` for stacks on the CPU with `norm_global` (correlation.py:1333-1363, 2558-2566). -/
noncomputable def shifts2dG (normGlobal : Bool) (ref mat : Arr3 ℝ) (radi margin : ℕ) (chunkSize : Option ℤ) (norm subPixel : Bool) (method : Method ℝ)
    (size : Int) : Py (ℕ → ℕ → Py (ℝ × ℝ)) :=
  findLocalShifts2d (globally normGlobal ref) (globally normGlobal mat) radi margin chunkSize norm subPixel method size

end Verif.GpuShifts
