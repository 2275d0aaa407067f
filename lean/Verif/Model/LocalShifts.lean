import Verif.Model.Peak
import Verif.Model.Chunks
import Mathlib.Data.Finset.Max

/-!
Model of the chunked local-shift search of algotom/util/correlation.py: lines 44-66, 876-898, 955-986, 1040-1076 (one
direction), 1236-1279, 1333-1363 (two directions), 3324-3386 (UMPA).  All of them split the rows with the same code.  CPU
branch; the per-pixel tasks are independent, so serial and joblib evaluation agree (C01).
-/

namespace Verif.LocalShifts
open Finset Verif.Correlation

/-- `chunk_size` clipping and `num_chunk` (correlation.py:1045-1049, 1338-1342, 3325-3329). -/
def numChunk (height : ℕ) (chunkSize : Option ℤ) : ℕ :=
  let cs : ℤ := match chunkSize with
    | none => (height : ℤ) + 1
    | some c => npClip c 1 height
  (npClip ((height : ℤ) / cs + 1) 1 height).toNat

/-- One chunk: rows `b-edge .. e+edge` are sliced, pre-processed (`norm`, which sees the slice only), and row `b + i'` of
the result is computed from the slice rows `i' .. i'+2*edge` (correlation.py:1243-1272, 1357-1360, 3050-3066, 3359-3376).
`α` is one row of the inputs, `β` one row of the result. -/
def chunkRow {α β : Type _} (edge : ℕ) (norm : ℕ → (ℕ → α) → ℕ → α) (pix : (ℕ → α) → β) (rows : ℕ → α)
    (b e i' : ℕ) : β :=
  let sl := norm (e + edge - (b - edge)) fun t => rows (b - edge + t)
  pix fun t => sl (i' + t)

/-- The chunk loop (correlation.py:1344-1363, 3333-3381): size check, `np.array_split(np.arange(edge, height-edge),
num_chunk)`, results stored in rows `bindex:eindex` of a zero array.  `edge = 0` makes the target `[.., 0:-0]` empty and
numpy refuses the assignment. -/
def localShifts {α β : Type _} (height edge : ℕ) (chunkSize : Option ℤ) (norm : ℕ → (ℕ → α) → ℕ → α)
    (pix : (ℕ → α) → β) (zero : β) (rows : ℕ → α) : Py (ℕ → β) := do
  if height < 2 * edge + 1 then .error .valueError
  else
    let bs ← chunkBounds edge (height - 2 * edge) (numChunk height chunkSize)
    if edge = 0 then .error .valueError
    else
      .ok (bs.foldl (fun out p i => if p.1 ≤ i ∧ i < p.2 then chunkRow edge norm pix rows p.1 p.2 (i - p.1) else out i)
        (fun _ => zero))

/-- The chunk loops of the full-image functions (correlation.py:1057-1075, 1625-1641, 2029-2043, 2224-2239, 2454-2469): `np.array_split(np.arange(a, a + n), k)`;
for each chunk the rows `bindex-edge .. eindex+edge` go to `F` together with their number, and its result is stored in the rows
`bindex .. eindex` of a zero array. -/
def chunkLoop {α β : Type _} (a n k edge : ℕ) (F : ℕ → (ℕ → α) → Py (ℕ → β)) (rows : ℕ → α) (zero : β) : Py (ℕ → β) := do
  let cs ← arraySplit (List.range' a n) k
  let rs ← cs.mapM fun pos => do
    let p ← chunkEnds pos
    let r ← F (p.2 + edge - (p.1 - edge)) fun t => rows (p.1 - edge + t)
    .ok (p, r)
  .ok (rs.foldl (fun out q i => if q.1.1 ≤ i ∧ i < q.1.2 then q.2 (i - q.1.1) else out i) fun _ => zero)

/-! ### The two-direction search -/

/-- One row of an image stack: image number, column. -/
abbrev Row := ℕ → ℕ → ℝ

/-- Rows of a stack. -/
def rowsOf (a : Arr3 ℝ) : ℕ → Row := fun i k j => a.get k i j

/-- `np.std` over a `(d, n, w)` block of rows. -/
noncomputable def stdRows (d w n : ℕ) (rows : ℕ → Row) : ℝ :=
  let f : ℕ → ℕ → ℕ → ℝ := fun k i j => rows i k j
  Real.sqrt (mean3 d n w fun k i j => (f k i j - mean3 d n w f) ^ 2)

/-- `np.min` over a `(d, n, w)` block. -/
noncomputable def minRows (d w n : ℕ) (f : ℕ → ℕ → ℕ → ℝ) : ℝ :=
  if h : ((range d ×ˢ range n ×ˢ range w).image fun c => f c.1 c.2.1 c.2.2).Nonempty then
    ((range d ×ˢ range n ×ˢ range w).image fun c => f c.1 c.2.1 c.2.2).min' h
  else 0

/-- `normalize_image` of a 3D array given by its rows (correlation.py:58-60). -/
noncomputable def normalize3 (d w n : ℕ) (rows : ℕ → Row) : ℕ → Row :=
  let mean := mean3 d n w fun k i j => rows i k j
  let std := stdRows d w n rows
  let low := minRows d w n fun k i j => (rows i k j - mean) / std
  fun i k j => (rows i k j - mean) / std - low

/-- The pre-processing of one chunk of (reference, sample) rows (correlation.py:1249-1251). -/
noncomputable def chunkNorm (d w : ℕ) (norm : Bool) (n : ℕ) (rows : ℕ → Row × Row) : ℕ → Row × Row :=
  if norm then fun i => (normalize3 d w n (fun t => (rows t).1) i, normalize3 d w n (fun t => (rows t).2) i)
  else rows

/-- `find_shift_based_correlation_map` for every column of one result row, from the `2*edge+1` rows around it
(correlation.py:1252-1272): reference block rows `0..2*edge`, sample block the central `2*radi+1` rows. -/
noncomputable def calcRow (d w radi margin : ℕ) (subPixel : Bool) (method : Method ℝ) (size : Int)
    (win : ℕ → Row × Row) : ℕ → Py (ℝ × ℝ) := fun j =>
  let start := radi + margin
  if start ≤ j ∧ j < w - start then
    findShift ⟨d, 2 * start + 1, 2 * start + 1, fun k p q => (win p).1 k (j - start + q)⟩
      ⟨d, 2 * radi + 1, 2 * radi + 1, fun k p q => (win (margin + p)).2 k (j - radi + q)⟩
      margin none subPixel method 2 size
  else .ok (0, 0)

/-- `find_local_shifts` with `dim=2` on 3D inputs, CPU (correlation.py:1236-1248, 1333-1363, 2558-2566); `norm_global`: Model/GlobalNormStack.  The width check
is made in the first chunk, after the height check of `localShifts`; both raise `ValueError`. -/
noncomputable def findLocalShifts2d (ref mat : Arr3 ℝ) (radi margin : ℕ) (chunkSize : Option ℤ) (norm subPixel : Bool)
    (method : Method ℝ) (size : Int) : Py (ℕ → ℕ → Py (ℝ × ℝ)) :=
  if ref.d ≠ mat.d ∨ ref.h ≠ mat.h ∨ ref.w ≠ mat.w then .error .valueError
  else if ref.w < 2 * radi + 1 + 2 * margin then .error .valueError
  else localShifts ref.h (margin + radi) chunkSize (chunkNorm ref.d ref.w norm)
    (calcRow ref.d ref.w radi margin subPixel method size) (fun _ => .ok (0, 0))
    fun i => (rowsOf ref i, rowsOf mat i)

/-! ### The one-direction search along y -/

/-- `mat / rlist / clist` of `normalize_image` for a 2D array of shape `(h, w)` (correlation.py:62-64). -/
noncomputable def divSums (h w : ℕ) (x : ℕ → ℕ → ℝ) : ℕ → ℕ → ℝ := fun k i =>
  x k i / (∑ p ∈ range h, x p i) / ∑ q ∈ range w, x k q

/-- `normalize_image` of a 2D array (correlation.py:62-65). -/
noncomputable def normalize2 (h w : ℕ) (x : ℕ → ℕ → ℝ) : ℕ → ℕ → ℝ := fun k i =>
  let y := divSums h w x
  let f : ℕ → ℕ → ℕ → ℝ := fun _ k i => y k i
  (y k i - mean3 1 h w f) / Real.sqrt (mean3 1 h w fun _ k i => (y k i - mean3 1 h w f) ^ 2)

/-- One row of one column of a stack: the values over the images. -/
abbrev Col := ℕ → ℝ

/-- Normalisation of one column of a chunk: array of shape `(depth, rows)` (correlation.py:888-890, 977-984). -/
noncomputable def colNorm (d : ℕ) (norm : Bool) (n : ℕ) (rows : ℕ → Col × Col) : ℕ → Col × Col :=
  if norm then fun i => (fun k => normalize2 d n (fun k i => (rows i).1 k) k i,
    fun k => normalize2 d n (fun k i => (rows i).2 k) k i)
  else rows

/-- `_get_1d_shift_single_row_2d_input` for one position, from the `2*edge+1` rows around it
(correlation.py:891-895). -/
noncomputable def pixCol (d radi margin : ℕ) (method : Method ℝ) (size : Int) (win : ℕ → Col × Col) : Py ℝ :=
  (findShift ⟨1, d, 2 * (radi + margin) + 1, fun _ k q => (win q).1 k⟩
    ⟨1, d, 2 * radi + 1, fun _ k q => (win (margin + q)).2 k⟩ margin (some 1) true method 1 size).map Prod.fst

/-- Column `c` of the y-shifts of `find_local_shifts(dim=1)` on the CPU (correlation.py:876-898, 974-985, 1045-1052, 1066-1076). -/
noncomputable def findLocalShiftsY (ref mat : Arr3 ℝ) (c radi margin : ℕ) (chunkSize : Option ℤ) (norm : Bool)
    (method : Method ℝ) (size : Int) : Py (ℕ → Py ℝ) :=
  let edge := margin + radi
  chunkLoop edge (ref.h - 2 * edge) (numChunk ref.h chunkSize) edge
    (fun n rows => if n < 2 * radi + 1 + 2 * margin then .error .valueError
      else .ok fun i => pixCol ref.d radi margin method size fun q => colNorm ref.d norm n rows (i + q))
    (fun i => (fun k => ref.get k i c, fun k => mat.get k i c)) (.ok 0)

end Verif.LocalShifts
