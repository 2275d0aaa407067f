import Verif.Model.StackDispatch
import Verif.Props.GlobalNormStack

/-! C168: the device of `find_local_shifts` on stacks. -/

set_option linter.unusedSectionVars false
set_option linter.unusedSimpArgs false

namespace Verif.StackDispatch
open Verif.Correlation Verif.LocalShifts Verif.GpuShifts Verif.GpuImage

theorem mapM_congr_mem {α β : Type} {f g : α → Py β} : ∀ {l : List α}, (∀ x ∈ l, f x = g x) → l.mapM f = l.mapM g
  | [], _ => rfl
  | x :: l, h => by
    rw [List.mapM_cons, List.mapM_cons, h x List.mem_cons_self, mapM_congr_mem fun y hy => h y (List.mem_cons_of_mem _ hy)]

theorem oneDirection_congr {w : ℕ} {X X' : Py (ℕ → ℕ → Py ℝ)} {Y Y' : ℕ → Py (ℕ → Py ℝ)} (hX : X = X') (hY : ∀ c < w, Y c = Y' c) :
    oneDirection w X Y = oneDirection w X' Y' := by
  unfold oneDirection
  rw [hX, mapM_congr_mem (l := List.range w) (f := Y) (g := Y') fun c hc => hY c (List.mem_range.1 hc)]

/-- **C168.** Without a GPU `gpu=True` is the search on the CPU, whatever the other arguments. -/
theorem no_gpu (a : Args) (ref mat : Arr3 ℝ) : findLocalShifts .on false a ref mat = findLocalShifts .off false a ref mat := rfl

/-- **C168.** One direction, method "diff": GPU and CPU give the same shifts or raise the same error, for every thread block, chunk size and normalisation. -/
theorem one_direction (available : Bool) (a : Args) (h1 : a.dim1 = true) (hd : a.method = .diff) (hm : 1 ≤ a.margin) (hb : 0 < a.block.1 ∧ 0 < a.block.2)
    (ref mat : Arr3 ℝ) : findLocalShifts .on available a ref mat = findLocalShifts .off available a ref mat := by
  cases available
  · rfl
  show onGpu a ref mat = onCpu a ref mat
  unfold onGpu onCpu
  rw [if_pos h1, if_pos h1, hd]
  have hw : ∀ x : Arr3 ℝ, (globally a.normGlobal x).w = x.w := by
    intro x; unfold globally; by_cases h : a.normGlobal = true
    · rw [if_pos h]; rfl
    · rw [if_neg h]
  refine oneDirection_congr ?_ fun c hc => ?_
  · exact gpu_1d_x hm hb
  · exact gpu_1d_y hm hb (by rw [hw]; exact hc)

/-- The stacks have the same shape, are large enough for the search, have no empty chunk and vary in every block of rows. -/
structure Proper (a : Args) (ref mat : Arr3 ℝ) : Prop where
  d : mat.d = ref.d
  h : mat.h = ref.h
  w : mat.w = ref.w
  margin : 1 ≤ a.margin
  high : 2 * (a.margin + a.radi) + 1 ≤ ref.h
  wide : 2 * (a.margin + a.radi) + 1 ≤ ref.w
  block : 0 < a.block.1 ∧ 0 < a.block.2
  chunks : numChunk ref.h a.chunkSize ≤ ref.h - 2 * (a.margin + a.radi)
  varied : Varied ref mat a.radi a.margin

theorem cpu_eq {a : Args} {ref mat : Arr3 ℝ} (hp : Proper a ref mat) (h2 : a.dim1 = false) :
    ∃ out c, onCpu a ref mat = .ok out ∧ findLocalShifts2d ref mat a.radi a.margin a.chunkSize a.norm true a.method a.size = .ok c ∧ ∀ i j, out i j = c i j := by
  obtain ⟨x, y, e1, e2, e3⟩ := global_2d a.normGlobal a.norm true ref mat (radi := a.radi) (margin := a.margin) (chunkSize := a.chunkSize) (method := a.method)
    (size := a.size) hp.d hp.h hp.w (by have := hp.margin; omega) hp.high hp.wide hp.chunks (fun i hi => (hp.varied i hi).1) (fun i hi => (hp.varied i hi).2)
  refine ⟨x, y, ?_, e2, e3⟩
  unfold onCpu
  rw [if_neg (by rw [h2]; decide)]
  exact e1

/-- **C168.** Two directions: "hybrid" gives the shifts of the CPU at every pixel, for every sub-pixel method and both kinds of normalisation. -/
theorem hybrid (available : Bool) (a : Args) (h2 : a.dim1 = false) (ref mat : Arr3 ℝ) (hp : Proper a ref mat) :
    ∃ c g, findLocalShifts .off available a ref mat = .ok c ∧ findLocalShifts .hybrid available a ref mat = .ok g ∧ ∀ i < ref.h, ∀ j < ref.w, g i j = c i j := by
  obtain ⟨out, c, e1, e2, e3⟩ := cpu_eq hp h2
  obtain ⟨c', g, f1, f2, f3⟩ := hybrid_2d_eq_cpu (csC := a.chunkSize) (csG := a.chunkSize) (block := a.block) (normC := a.norm) (norm := a.norm)
    (normGlobal := a.normGlobal) (method := a.method) (size := a.size) hp.d hp.h hp.w hp.margin hp.high hp.wide hp.block hp.chunks hp.chunks hp.varied
  rw [e2] at f1
  cases f1
  exact ⟨out, g, e1, f2, fun i hi j hj => (f3 i hi j hj).trans (e3 i j).symm⟩

/-- **C168.** Two directions, method "diff": the shifts of the GPU differ from those of the CPU by at most half a pixel. -/
theorem two_directions_partial (available : Bool) (a : Args) (h2 : a.dim1 = false) (hd : a.method = .diff) (ref mat : Arr3 ℝ) (hp : Proper a ref mat) :
    ∃ c g, findLocalShifts .off available a ref mat = .ok c ∧ findLocalShifts .on available a ref mat = .ok g ∧
      ∀ i < ref.h, ∀ j < ref.w, ∃ rc rg : ℝ × ℝ, c i j = .ok rc ∧ g i j = .ok rg ∧ |rc.1 - rg.1| ≤ 1 / 2 ∧ |rc.2 - rg.2| ≤ 1 / 2 := by
  obtain ⟨out, c, e1, e2, e3⟩ := cpu_eq hp h2
  obtain ⟨c', g, f1, f2, f3, -⟩ := gpu_2d_close_partial (csC := a.chunkSize) (csG := a.chunkSize) (block := a.block) (normC := a.norm) (norm := a.norm)
    (normGlobal := a.normGlobal) (size := a.size) hp.d hp.h hp.w hp.margin hp.high hp.wide hp.block hp.chunks hp.chunks hp.varied
  rw [hd] at e2
  rw [e2] at f1
  cases f1
  cases available
  · refine ⟨out, out, e1, e1, fun i hi j hj => ?_⟩
    obtain ⟨rc, rg, q1, q2, q3, q4⟩ := f3 i hi j hj
    exact ⟨rc, rc, (e3 i j).trans q1, (e3 i j).trans q1, by simp, by simp⟩
  · refine ⟨out, g, e1, ?_, fun i hi j hj => ?_⟩
    · show onGpu a ref mat = _
      unfold onGpu
      rw [if_neg (by rw [h2]; decide)]
      exact f2
    · obtain ⟨rc, rg, q1, q2, q3, q4⟩ := f3 i hi j hj
      exact ⟨rc, rg, (e3 i j).trans q1, q2, q3, q4⟩

/-- "hybrid" does not look at `dim`. -/
theorem hybrid_dim (available d : Bool) (a : Args) (ref mat : Arr3 ℝ) :
    findLocalShifts .hybrid available { a with dim1 := d } ref mat = findLocalShifts .hybrid available a ref mat := rfl

/-- Two images of three rows and columns; the rows are those of `exNRef`, `exNMat`. -/
def exDRef : Arr3 ℝ := ⟨2, 3, 3, fun k _ j => exNRef.get k 0 j⟩
def exDMat : Arr3 ℝ := ⟨2, 3, 3, fun k _ j => exNMat.get k 0 j⟩

/-- Arguments of the counterexample: `dim=1, win_size=1, margin=1, norm=False`. -/
noncomputable def exD : Args := ⟨true, 0, 1, .diff, 3, (16, 16), false, false, none⟩

/-- **C168**, refuted for "hybrid" with `dim=1`: the search runs in two directions whatever `dim`, so that the shift 1/2 found by the CPU (and the GPU) at
pixel 1 of the first row is returned as 0. -/
theorem hybrid_one_direction_refuted (available : Bool) : ∃ c g, findLocalShifts .off available exD exDRef exDMat = .ok c ∧
    findLocalShifts .hybrid available exD exDRef exDMat = .ok g ∧ c 0 1 = .ok (1 / 2, 0) ∧ g 0 1 = .ok (0, 0) := by
  have hn : numChunk 3 none ≤ 3 - 2 * (1 + 0) := by rw [numChunk_none (by norm_num)]
  obtain ⟨x, x1, x2⟩ := shifts_x (ref := exDRef) (mat := exDMat) (radi := 0) (margin := 1) (chunkSize := none) (norm := false) (method := .diff) (size := 3)
    ⟨rfl, rfl, rfl⟩ (by norm_num [exDRef]) (by norm_num [exDRef])
  have hy : ∀ c, ∃ out, findLocalShiftsY exDRef exDMat c 0 1 none false .diff 3 = .ok out ∧ out 0 = .ok 0 := by
    intro c
    obtain ⟨out, h1, -, h3⟩ := find_local_shifts_y_partial (ref := exDRef) (mat := exDMat) (c := c) (radi := 0) (margin := 1) (chunkSize := none)
      (method := .diff) (size := 3) (by norm_num [exDRef]) hn
    exact ⟨out, h1, h3 0 (Or.inl (by norm_num))⟩
  choose y y1 y2 using hy
  obtain ⟨g, g1, -, g3⟩ := shifts2d_spec (fin := finishHybrid 1 .diff 3) (ref := exDRef) (mat := exDMat) (radi := 0) (margin := 1) (chunkSize := none)
    (block := (16, 16)) (norm := false) (normGlobal := false) rfl rfl rfl (by norm_num) (by norm_num [exDRef]) (by norm_num [exDRef]) ⟨by norm_num, by norm_num⟩
    hn (by simp)
  have hc : onCpu exD exDRef exDMat = .ok fun i j => (x i j).bind fun a => ((([y 0, y 1, y 2] : List (ℕ → Py ℝ)).getD j fun _ => .ok 0) i).bind fun b => .ok (a, b) := by
    show oneDirection 3 (shiftsX exDRef exDMat 0 1 none false .diff 3) (fun c => findLocalShiftsY exDRef exDMat c 0 1 none false .diff 3) = _
    rw [x1, show (fun c => findLocalShiftsY exDRef exDMat c 0 1 none false .diff 3) = fun c => .ok (y c) from funext y1]
    rfl
  refine ⟨_, g, hc, g1, ?_, g3 0 1 (Or.inl (by norm_num))⟩
  have hx : x 0 1 = .ok (1 / 2) := by
    rw [(x2 0 (by norm_num [exDRef]) 1 (by norm_num [exDRef])).1 (by norm_num) (by norm_num [exDRef])]
    refine (pixCol_two _ ?_ ?_ ?_ 3).2 ?_ <;> norm_num [exDRef, exDMat, exNRef, exNMat, colNorm]
  show ((x 0 1).bind fun a => (y 1 0).bind fun b => .ok (a, b)) = _
  rw [hx, y2 1]
  rfl

/-- The hypotheses of `hybrid` and `two_directions_partial` are met by the stacks of the counterexample. -/
example : Proper { exD with dim1 := false } exDRef exDMat where
  d := rfl
  h := rfl
  w := rfl
  margin := by norm_num [exD]
  high := by norm_num [exD, exDRef]
  wide := by norm_num [exD, exDRef]
  block := ⟨by norm_num [exD], by norm_num [exD]⟩
  chunks := by show numChunk 3 none ≤ 3 - 2 * (1 + 0); rw [numChunk_none (by norm_num)]
  varied := by
    intro i hi
    have hi : i + 2 < 3 := hi
    refine ⟨⟨0, by norm_num [exDRef], 0, by norm_num [exDRef], 0, by norm_num [exDRef], 1, by norm_num [exDRef], i, i, ⟨le_refl _, by omega⟩, ⟨le_refl _, by omega⟩,
      by norm_num [exDRef, exNRef]⟩,
      ⟨0, by norm_num [exDMat], 0, by norm_num [exDMat], 0, by norm_num [exDMat], 1, by norm_num [exDMat], i, i, ⟨le_refl _, by omega⟩, ⟨le_refl _, by omega⟩,
      by norm_num [exDMat, exNMat]⟩⟩

end Verif.StackDispatch
