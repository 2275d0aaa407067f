import Verif.Model.GlobalNormStack
import Verif.Props.GpuShifts3
import Verif.Props.LocalShiftsY

/-! C165 — `norm_global` does not change the shifts found between stacks. -/

set_option linter.unusedSectionVars false
set_option linter.unusedSimpArgs false

namespace Verif.GpuShifts
open Finset Verif.Correlation Verif.LocalShifts

/-- Two pixels of the stack differ. -/
def NotFlat (a : Arr3 ℝ) : Prop := ∃ k < a.d, ∃ i < a.h, ∃ j < a.w, ∃ k' < a.d, ∃ i' < a.h, ∃ j' < a.w, a.get k i j ≠ a.get k' i' j'

theorem globally_affine (ng : Bool) (a : Arr3 ℝ) (h : ng = true → NotFlat a) :
    ∃ p q : ℝ, 0 < p ∧ globally ng a = ⟨a.d, a.h, a.w, fun k i j => p * a.get k i j + q⟩ := by
  cases ng with
  | false => exact ⟨1, 0, one_pos, by unfold globally; simp⟩
  | true =>
    obtain ⟨p, q, hp, hpq⟩ := normalize3_affine (d := a.d) (w := a.w) (n := a.h) (rows := rowsOf a) (by
      obtain ⟨k, hk, i, hi, j, hj, k', hk', i', hi', j', hj', hne⟩ := h rfl
      exact ⟨k, hk, i, hi, j, hj, k', hk', i', hi', j', hj', hne⟩)
    refine ⟨p, q, hp, ?_⟩
    unfold globally normalizeStack
    rw [if_pos rfl]
    congr 1
    funext k i j
    exact hpq i k j

theorem chunkLoop_map {α β : Type _} (T : α → α) (a n k edge : ℕ) (F : ℕ → (ℕ → α) → Py (ℕ → β)) (rows : ℕ → α) (zero : β) :
    chunkLoop a n k edge F (fun i => T (rows i)) zero = chunkLoop a n k edge (fun n r => F n fun t => T (r t)) rows zero := rfl

theorem pixCol_affine {d radi margin : ℕ} {method : Method ℝ} {size : Int} {win : ℕ → Col × Col} {p q p' q' : ℝ} (hp : 0 < p) (hp' : 0 < p') :
    pixCol d radi margin method size (fun t => (fun k => p * (win t).1 k + q, fun k => p' * (win t).2 k + q')) =
      pixCol d radi margin method size win := by
  unfold pixCol
  refine congrArg (Except.map Prod.fst) ?_
  exact findShift_affine (ref := ⟨1, d, 2 * (radi + margin) + 1, fun _ k q => (win q).1 k⟩) (mat := ⟨1, d, 2 * radi + 1, fun _ k q => (win (margin + q)).2 k⟩)
    (b := q) (b' := q') hp hp' (by rfl) (by rfl) (by rfl) (by rfl) (by rfl) (by rfl) (by intros; rfl) (by intros; rfl) _ _ _ _ _ _

/-- C165: along x on the CPU without the normalisation of rows, `norm_global` changes nothing: the calls give the same shifts or the same error. -/
theorem global_x (ng : Bool) (ref mat : Arr3 ℝ) (hr : ng = true → NotFlat ref) (hm : ng = true → NotFlat mat) (radi margin : ℕ) (chunkSize : Option ℤ)
    (method : Method ℝ) (size : Int) :
    shiftsXG ng ref mat radi margin chunkSize false method size = shiftsX ref mat radi margin chunkSize false method size := by
  obtain ⟨p, q, hp, e⟩ := globally_affine ng ref hr
  obtain ⟨p', q', hp', e'⟩ := globally_affine ng mat hm
  unfold shiftsXG
  rw [e, e']
  unfold shiftsX
  dsimp only
  by_cases hs : ref.d ≠ mat.d ∨ ref.h ≠ mat.h ∨ ref.w ≠ mat.w
  · rw [if_pos hs, if_pos hs]
  · rw [if_neg hs, if_neg hs]
    show chunkLoop 0 ref.h _ 0 _ (fun i => (fun (r : ℕ → Col × Col) (j : ℕ) => ((fun k => p * (r j).1 k + q, fun k => p' * (r j).2 k + q') : Col × Col))
      (linesOf ref mat i)) _ = _
    refine (chunkLoop_map (fun (r : ℕ → Col × Col) (j : ℕ) => ((fun k => p * (r j).1 k + q, fun k => p' * (r j).2 k + q') : Col × Col)) _ _ _ _ _ (linesOf ref mat) _).trans ?_
    congr 1
    funext n rows
    by_cases hw : ref.w < 2 * radi + 1 + 2 * margin
    · rw [if_pos hw, if_pos hw]
    · rw [if_neg hw, if_neg hw]
      congr 1
      funext i j
      unfold lineShifts colNorm
      simp only [Bool.false_eq_true, if_false]
      by_cases hj : margin + radi ≤ j ∧ j + (margin + radi) < ref.w
      · rw [if_pos hj, if_pos hj]
        exact pixCol_affine (win := fun q => rows i (j - (margin + radi) + q)) hp hp'
      · rw [if_neg hj, if_neg hj]

/-- C165: the same along y. -/
theorem global_y (ng : Bool) (ref mat : Arr3 ℝ) (hr : ng = true → NotFlat ref) (hm : ng = true → NotFlat mat) (c radi margin : ℕ) (chunkSize : Option ℤ)
    (method : Method ℝ) (size : Int) :
    shiftsYG ng ref mat c radi margin chunkSize false method size = findLocalShiftsY ref mat c radi margin chunkSize false method size := by
  obtain ⟨p, q, hp, e⟩ := globally_affine ng ref hr
  obtain ⟨p', q', hp', e'⟩ := globally_affine ng mat hm
  unfold shiftsYG
  rw [e, e']
  unfold findLocalShiftsY
  dsimp only
  show chunkLoop _ _ _ _ _ (fun i => (fun (r : Col × Col) => ((fun k => p * r.1 k + q, fun k => p' * r.2 k + q') : Col × Col))
    ((fun k => ref.get k i c, fun k => mat.get k i c))) _ = _
  refine (chunkLoop_map (fun (r : Col × Col) => ((fun k => p * r.1 k + q, fun k => p' * r.2 k + q') : Col × Col)) _ _ _ _ _
    (fun i => ((fun k => ref.get k i c, fun k => mat.get k i c) : Col × Col)) _).trans ?_
  congr 1
  funext n rows
  by_cases hw : n < 2 * radi + 1 + 2 * margin
  · rw [if_pos hw, if_pos hw]
  · rw [if_neg hw, if_neg hw]
    congr 1
    funext i
    unfold colNorm
    simp only [Bool.false_eq_true, if_false]
    exact pixCol_affine (win := fun q => rows (i + q)) hp hp'

/-- C165: the same on the GPU, in both directions. -/
theorem global_gpu (ng : Bool) (ref mat : Arr3 ℝ) (hr : ng = true → NotFlat ref) (hm : ng = true → NotFlat mat) (radi margin : ℕ) (hmargin : 1 ≤ margin)
    (chunkSize : Option ℤ) (block : ℕ × ℕ) (hb : 0 < block.1 ∧ 0 < block.2) :
    shiftsXGpuG ng ref mat radi margin chunkSize block false = shiftsXGpu ref mat radi margin chunkSize block false ∧
    ∀ c < ref.w, shiftsYGpuG ng ref mat c radi margin chunkSize block false = shiftsYGpu ref mat c radi margin chunkSize block false := by
  have hw : (globally ng ref).w = ref.w := by
    obtain ⟨p, q, hp, e⟩ := globally_affine ng ref hr
    rw [e]
  refine ⟨?_, fun c hc => ?_⟩
  · unfold shiftsXGpuG
    rw [gpu_1d_x (size := 3) hmargin hb, gpu_1d_x (size := 3) hmargin hb]
    exact global_x ng ref mat hr hm radi margin chunkSize .diff 3
  · unfold shiftsYGpuG
    rw [gpu_1d_y (size := 3) hmargin hb (by rw [hw]; exact hc), gpu_1d_y (size := 3) hmargin hb hc]
    exact global_y ng ref mat hr hm c radi margin chunkSize .diff 3

/-- C165 in two directions, with and without the normalisation of chunks: the two calls give the same shifts at every pixel (`VariedRows`: the stacks
vary in every block of rows). -/
theorem global_2d (ng norm subPixel : Bool) (ref mat : Arr3 ℝ) {radi margin : ℕ} {chunkSize : Option ℤ} {method : Method ℝ} {size : Int}
    (hd : mat.d = ref.d) (hmh : mat.h = ref.h) (hw : mat.w = ref.w) (he : 1 ≤ margin + radi)
    (hh : 2 * (margin + radi) + 1 ≤ ref.h) (hww : 2 * (margin + radi) + 1 ≤ ref.w)
    (hn : numChunk ref.h chunkSize ≤ ref.h - 2 * (margin + radi))
    (hr : ∀ i, i + 2 * (margin + radi) < ref.h → VariedRows ref i (i + 2 * (margin + radi) + 1))
    (hm : ∀ i, i + 2 * (margin + radi) < ref.h → VariedRows mat i (i + 2 * (margin + radi) + 1)) :
    ∃ with_ without, shifts2dG ng ref mat radi margin chunkSize norm subPixel method size = .ok with_ ∧
      findLocalShifts2d ref mat radi margin chunkSize norm subPixel method size = .ok without ∧
      ∀ i j, with_ i j = without i j := by
  have flat : ∀ a : Arr3 ℝ, a.h = ref.h → VariedRows a 0 (0 + 2 * (margin + radi) + 1) → NotFlat a := by
    rintro a ha ⟨k, hk, k', hk', j, hj, j', hj', i, i', hi, hi', hne⟩
    exact ⟨k, hk, i, by omega, j, hj, k', hk', i', by omega, j', hj', hne⟩
  obtain ⟨p, q, hp, e⟩ := globally_affine ng ref fun _ => flat ref rfl (hr 0 (by omega))
  obtain ⟨p', q', hp', e'⟩ := globally_affine ng mat fun _ => flat mat hmh (hm 0 (by omega))
  have varied : ∀ (a : Arr3 ℝ) (p q : ℝ), 0 < p → ∀ i0 i1, VariedRows a i0 i1 → VariedRows ⟨a.d, a.h, a.w, fun k i j => p * a.get k i j + q⟩ i0 i1 := by
    rintro a p q hp i0 i1 ⟨k, hk, k', hk', j, hj, j', hj', i, i', hi, hi', hne⟩
    refine ⟨k, hk, k', hk', j, hj, j', hj', i, i', hi, hi', fun hc => hne ?_⟩
    exact mul_left_cancel₀ hp.ne' (add_right_cancel hc)
  obtain ⟨o, h1, h2, h3⟩ := find_local_shifts_2d_partial (norm := norm) (subPixel := subPixel) (method := method) (size := size) hd hmh hw he hh hww hn hr hm
  obtain ⟨o', h1', h2', h3'⟩ := find_local_shifts_2d_partial (ref := ⟨ref.d, ref.h, ref.w, fun k i j => p * ref.get k i j + q⟩)
    (mat := ⟨mat.d, mat.h, mat.w, fun k i j => p' * mat.get k i j + q'⟩) (norm := norm) (subPixel := subPixel) (method := method) (size := size)
    hd hmh hw he hh hww hn (fun i hi => varied ref p q hp _ _ (hr i hi)) (fun i hi => varied mat p' q' hp' _ _ (hm i hi))
  refine ⟨o', o, ?_, h1, fun i j => ?_⟩
  · unfold shifts2dG
    rw [e, e']
    exact h1'
  · by_cases hin : margin + radi ≤ i ∧ i + (margin + radi) < ref.h ∧ margin + radi ≤ j ∧ j + (margin + radi) < ref.w
    · rw [h2 i j hin.1 hin.2.1 hin.2.2.1 hin.2.2.2, h2' i j hin.1 hin.2.1 hin.2.2.1 hin.2.2.2]
      exact findShift_affine (b := q) (b' := q') hp hp' (by rfl) (by rfl) (by rfl) (by rfl) (by rfl) (by rfl) (by intros; rfl) (by intros; rfl) _ _ _ _ _ _
    · rw [h3 i j (by omega), h3' i j (show i < margin + radi ∨ ref.h ≤ i + (margin + radi) ∨ j < margin + radi ∨ ref.w ≤ j + (margin + radi) by omega)]

/-! ### with the normalisation of rows -/

theorem normalize3_min {d w n : ℕ} {rows : ℕ → Row} (h : NonConstant d n w fun k i j => rows i k j) (m : ℝ)
    (hle : ∀ k < d, ∀ i < n, ∀ j < w, m ≤ rows i k j) (k0 i0 j0 : ℕ) (hk : k0 < d) (hi : i0 < n) (hj : j0 < w) (hm : rows i0 k0 j0 = m) :
    ∃ a : ℝ, 0 < a ∧ ∀ i k j, normalize3 d w n rows i k j = a * (rows i k j - m) := by
  have hs := std_pos h
  refine ⟨1 / stdRows d w n rows, one_div_pos.2 hs, fun i k j => ?_⟩
  have hmin : minRows d w n (fun k i j => (rows i k j - mean3 d n w fun k i j => rows i k j) / stdRows d w n rows) =
      (m - mean3 d n w fun k i j => rows i k j) / stdRows d w n rows := by
    unfold minRows
    have hne : ((range d ×ˢ range n ×ˢ range w).image fun c => (rows c.2.1 c.1 c.2.2 - mean3 d n w fun k i j => rows i k j) / stdRows d w n rows).Nonempty :=
      ⟨_, Finset.mem_image_of_mem _ (a := (k0, i0, j0)) (by simp [hk, hi, hj])⟩
    rw [dif_pos hne]
    apply le_antisymm
    · apply Finset.min'_le
      rw [Finset.mem_image]
      exact ⟨(k0, i0, j0), by simp [hk, hi, hj], by dsimp only; rw [hm]⟩
    · apply Finset.le_min'
      intro y hy
      rw [Finset.mem_image] at hy
      obtain ⟨⟨k, i, j⟩, hc, rfl⟩ := hy
      simp only [Finset.mem_product, Finset.mem_range] at hc
      apply div_le_div_of_nonneg_right _ hs.le
      have := hle k hc.1 i hc.2.1 j hc.2.2
      linarith
  unfold normalize3
  rw [hmin]
  field_simp
  ring

theorem divSums_scale (h w : ℕ) (x : ℕ → ℕ → ℝ) (a : ℝ) (ha : 0 < a) (k i : ℕ) : divSums h w (fun k i => a * x k i) k i = divSums h w x k i / a := by
  unfold divSums
  rw [← Finset.mul_sum, ← Finset.mul_sum, mul_div_mul_left _ _ ha.ne', ← div_div, div_right_comm]

/-- Two images of three pixels. -/
def exNRef : Arr3 ℝ := ⟨2, 1, 3, fun k _ j => if k = 0 then (if j = 0 then 9 else 1) else (if j = 0 then 1 else 9)⟩
def exNMat : Arr3 ℝ := ⟨2, 1, 3, fun k _ j => if k = 0 then (if j = 1 then 2 else 1) else (if j = 1 then 5 else 2)⟩

/-- C165, refuted with the default normalisation of rows: for the two stacks above (`win_size=1`, `margin=1`) the x-shift of the middle pixel is `1/2`
without `norm_global` and `-1` with it: dividing by the sums of rows and columns does not commute with subtracting the minimum. -/
theorem global_norm_refuted (size : Int) : ∃ with_ without, shiftsXG true exNRef exNMat 0 1 none true .diff size = .ok with_ ∧
    shiftsXG false exNRef exNMat 0 1 none true .diff size = .ok without ∧ without 0 1 = .ok (1 / 2) ∧ with_ 0 1 = .ok (-1) := by
  obtain ⟨o, h1, h2⟩ := shifts_x (ref := exNRef) (mat := exNMat) (radi := 0) (margin := 1) (chunkSize := none) (norm := true) (method := .diff) (size := size)
    ⟨rfl, rfl, rfl⟩ (by norm_num [exNRef]) (by norm_num [exNRef])
  obtain ⟨o', h1', h2'⟩ := shifts_x (ref := normalizeStack exNRef) (mat := normalizeStack exNMat) (radi := 0) (margin := 1) (chunkSize := none) (norm := true)
    (method := .diff) (size := size) ⟨rfl, rfl, rfl⟩ (by norm_num [exNRef, normalizeStack]) (by norm_num [exNRef, normalizeStack])
  refine ⟨o', o, h1', h1, ?_, ?_⟩
  · rw [(h2 0 (by norm_num [exNRef]) 1 (by norm_num [exNRef])).1 (by norm_num) (by norm_num [exNRef])]
    refine (pixCol_two _ ?_ ?_ ?_ size).2 ?_ <;>
      (show normalize2 2 3 _ _ _ < normalize2 2 3 _ _ _
       refine normalize2_lt (by norm_num) (by norm_num) (by norm_num) (by norm_num) ?_
       norm_num [divSums, Finset.sum_range_succ, exNRef, exNMat])
  · rw [(h2' 0 (by norm_num [exNRef, normalizeStack]) 1 (by norm_num [exNRef, normalizeStack])).1 (by norm_num) (by norm_num [exNRef, normalizeStack])]
    obtain ⟨a, ha, hna⟩ := normalize3_min (d := 2) (w := 3) (n := 1) (rows := rowsOf exNRef)
      ⟨0, by norm_num, 0, by norm_num, 0, by norm_num, 1, by norm_num, 0, by norm_num, 0, by norm_num, by norm_num [rowsOf, exNRef]⟩ 1
      (by intro k _ i _ j _; unfold rowsOf exNRef; dsimp only; split_ifs <;> norm_num) 0 0 1 (by norm_num) (by norm_num) (by norm_num) (by norm_num [rowsOf, exNRef])
    obtain ⟨b, hb, hnb⟩ := normalize3_min (d := 2) (w := 3) (n := 1) (rows := rowsOf exNMat)
      ⟨0, by norm_num, 0, by norm_num, 0, by norm_num, 1, by norm_num, 0, by norm_num, 0, by norm_num, by norm_num [rowsOf, exNMat]⟩ 1
      (by intro k _ i _ j _; unfold rowsOf exNMat; dsimp only; split_ifs <;> norm_num) 0 0 0 (by norm_num) (by norm_num) (by norm_num) (by norm_num [rowsOf, exNMat])
    have er : ∀ k j, (normalizeStack exNRef).get k 0 j = a * (exNRef.get k 0 j - 1) := fun k j => hna 0 k j
    have em : ∀ k j, (normalizeStack exNMat).get k 0 j = b * (exNMat.get k 0 j - 1) := fun k j => hnb 0 k j
    simp only [er, em]
    refine (pixCol_two _ ?_ ?_ ?_ size).1 ?_ <;>
      (show normalize2 2 3 _ _ _ < normalize2 2 3 _ _ _
       refine normalize2_lt (by norm_num) (by norm_num) (by norm_num) (by norm_num) ?_
       rw [divSums_scale _ _ _ _ (by assumption), divSums_scale _ _ _ _ (by assumption)]
       refine div_lt_div_of_pos_right ?_ (by assumption)
       norm_num [divSums, Finset.sum_range_succ, exNRef, exNMat])

/-- The stacks of the counterexample are not flat. -/
example : NotFlat exNRef ∧ NotFlat exNMat :=
  ⟨⟨0, by norm_num [exNRef], 0, by norm_num [exNRef], 0, by norm_num [exNRef], 1, by norm_num [exNRef], 0, by norm_num [exNRef], 0, by norm_num [exNRef],
    by norm_num [exNRef]⟩,
   ⟨0, by norm_num [exNMat], 0, by norm_num [exNMat], 0, by norm_num [exNMat], 1, by norm_num [exNMat], 0, by norm_num [exNMat], 0, by norm_num [exNMat],
    by norm_num [exNMat]⟩⟩

end Verif.GpuShifts
