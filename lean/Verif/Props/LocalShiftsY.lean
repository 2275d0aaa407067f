import Verif.Props.LocalShifts
import Verif.Props.ChunkLoop

/-!
C53, one-direction search along y: chunk independence without normalisation, and its failure with the default
normalisation.
-/

set_option linter.unusedSectionVars false
set_option linter.unusedSimpArgs false

namespace Verif.LocalShifts
open Finset Verif.Correlation

/-- **C53.** Without normalisation the y-shifts do not depend on the chunk size (whenever the chunks are not too many): row `i` is computed
from the `2*(margin+radi)+1` rows around it, and is zero near the border. -/
theorem find_local_shifts_y_partial {ref mat : Arr3 ℝ} {c radi margin : ℕ} {chunkSize : Option ℤ} {method : Method ℝ}
    {size : Int} (hh : 2 * (margin + radi) + 1 ≤ ref.h) (hn : numChunk ref.h chunkSize ≤ ref.h - 2 * (margin + radi)) :
    ∃ out, findLocalShiftsY ref mat c radi margin chunkSize false method size = .ok out ∧
      (∀ i, margin + radi ≤ i → i + (margin + radi) < ref.h → out i = pixCol ref.d radi margin method size fun q =>
        (fun k => ref.get k (i - (margin + radi) + q) c, fun k => mat.get k (i - (margin + radi) + q) c)) ∧
      ∀ i, (i < margin + radi ∨ ref.h ≤ i + (margin + radi)) → out i = .ok 0 := by
  obtain ⟨out, h1, h2, h3⟩ := chunkLoop_ok (a := margin + radi) (n := ref.h - 2 * (margin + radi)) (k := numChunk ref.h chunkSize)
    (edge := margin + radi) (F := fun n rows => if n < 2 * radi + 1 + 2 * margin then .error .valueError
      else .ok fun i => pixCol ref.d radi margin method size fun q => colNorm ref.d false n rows (i + q))
    (rows := fun i => (fun k => ref.get k i c, fun k => mat.get k i c)) (zero := (.ok 0 : Py ℝ)) (numChunk_pos (by omega) _) hn
    (fun b _ i => pixCol ref.d radi margin method size fun q =>
        (fun k => ref.get k (b - (margin + radi) + (i + q)) c, fun k => mat.get k (b - (margin + radi) + (i + q)) c))
    (fun b e hb he hz => by
      rw [if_neg (by omega)]
      rfl)
  refine ⟨out, h1, fun i hi1 hi2 => ?_, fun i hi => h3 i (by omega)⟩
  obtain ⟨b, e, g1, g2, g3, g4, g5⟩ := h2 i hi1 (by omega)
  rw [g5]
  have e1 : ∀ q, b - (margin + radi) + (i - b + q) = i - (margin + radi) + q := fun q => by omega
  simp only [e1]

/-! ### Counterexample with normalisation -/

theorem coef_two_pos {f g : ℕ → ℕ → ℕ → ℝ} (hf : f 0 1 0 < f 0 0 0) (hg : g 0 1 0 < g 0 0 0) :
    coefCpu 1 2 1 f g = 1 := by
  rw [coef_eq_one_iff]
  refine ⟨⟨0, by norm_num, 1, by norm_num, 0, by norm_num, 0, by norm_num, 0, by norm_num, 0, by norm_num, hg.ne⟩,
    (f 0 0 0 - f 0 1 0) / (g 0 0 0 - g 0 1 0), f 0 0 0 - (f 0 0 0 - f 0 1 0) / (g 0 0 0 - g 0 1 0) * g 0 0 0,
    div_pos (by linarith) (by linarith), ?_⟩
  intro i hi j hj k hk
  obtain rfl : i = 0 := by omega
  obtain rfl : k = 0 := by omega
  have hg' : g 0 0 0 - g 0 1 0 ≠ 0 := by linarith
  rcases (show j = 0 ∨ j = 1 by omega) with rfl | rfl
  · ring
  · field_simp; ring

theorem coef_two_neg {f g : ℕ → ℕ → ℕ → ℝ} (hf : f 0 0 0 < f 0 1 0) (hg : g 0 1 0 < g 0 0 0) :
    coefCpu 1 2 1 f g = -1 := by
  have hg' : g 0 0 0 - g 0 1 0 ≠ 0 := by linarith
  refine coef_eq_neg_one (a := (f 0 0 0 - f 0 1 0) / (g 0 0 0 - g 0 1 0))
    (b := f 0 0 0 - (f 0 0 0 - f 0 1 0) / (g 0 0 0 - g 0 1 0) * g 0 0 0)
    ⟨0, by norm_num, 1, by norm_num, 0, by norm_num, 0, by norm_num, 0, by norm_num, 0, by norm_num, hg.ne⟩
    (div_neg_of_neg_of_pos (by linarith) (by linarith)) ?_
  intro i hi j hj k hk
  obtain rfl : i = 0 := by omega
  obtain rfl : k = 0 := by omega
  rcases (show j = 0 ∨ j = 1 by omega) with rfl | rfl
  · ring
  · field_simp; ring

/-- The shift found for two images, a one-row window and margin 1, when the reference decreases (over the images) in
the first row and increases in the other two. -/
theorem pixCol_two (win : ℕ → Col × Col) (h0 : (win 0).1 1 < (win 0).1 0) (h1 : (win 1).1 0 < (win 1).1 1)
    (h2 : (win 2).1 0 < (win 2).1 1) (size : Int) :
    ((win 1).2 1 < (win 1).2 0 → pixCol 2 0 1 .diff size win = .ok (-1)) ∧
    ((win 1).2 0 < (win 1).2 1 → pixCol 2 0 1 .diff size win = .ok (1 / 2)) := by
  set R : Arr3 ℝ := ⟨1, 2, 3, fun _ k q => (win q).1 k⟩ with hR
  set T : Arr3 ℝ := ⟨1, 2, 1, fun _ k q => (win (1 + q)).2 k⟩ with hT
  have hpix : pixCol 2 0 1 .diff size win = (findShift R T 1 (some 1) true .diff 1 size).map Prod.fst := rfl
  have htem : template R T 1 (some 1) = (T, true) := by
    unfold template
    rw [if_neg (by rintro ⟨-, h⟩; exact absurd h (by norm_num [hR, hT]))]
  set M : Mat ℝ := ⟨1, 3, fun y x => coefCpu 1 2 1 T.get (patch R y x)⟩ with hM
  have hmap : correlationMap R T = .ok M := by
    unfold correlationMap
    rw [if_neg (by norm_num [hR, hT]), if_neg (by norm_num [hR, hT])]
    rfl
  have hfs : findShift R T 1 (some 1) true .diff 1 size =
      (locatePeak M true .diff 1 size true).map fun r => (r.1 - 1, 0) := by
    unfold findShift
    rw [htem]
    have e1 : ¬ ((R.w : ℤ) - 2 * (1 : ℕ) < (T.w : ℤ)) := by norm_num [hR, hT]
    dsimp only
    rw [decide_eq_false e1]
    simp only [Option.some.injEq, one_ne_zero, if_false, if_true, Bool.not_false, bind, Except.bind, hmap, reduceCtorEq]
    cases hl : locatePeak M true .diff 1 size true with
    | error e => rfl
    | ok r =>
      show Except.ok (r.1 - ((3 / 2 : ℕ) : ℝ), ((1 / 2 : ℕ) : ℝ) - ((1 / 2 : ℕ) : ℝ)) = Except.ok (r.1 - 1, 0)
      norm_num
  have g0 : patch R 0 0 0 1 0 < patch R 0 0 0 0 0 := h0
  have g1 : patch R 0 1 0 0 0 < patch R 0 1 0 1 0 := h1
  have g2 : patch R 0 2 0 0 0 < patch R 0 2 0 1 0 := h2
  constructor
  · intro ht
    have ht' : T.get 0 1 0 < T.get 0 0 0 := ht
    have c0 : M.get 0 0 = 1 := coef_two_pos ht' g0
    have c1 : M.get 0 1 = -1 := by
      show coefCpu 1 2 1 _ _ = _
      rw [coef_comm]; exact coef_two_neg g1 ht'
    have c2 : M.get 0 2 = -1 := by
      show coefCpu 1 2 1 _ _ = _
      rw [coef_comm]; exact coef_two_neg g2 ht'
    have hp : FirstMax2 M 0 0 := by
      refine ⟨by norm_num [hM], by norm_num [hM], ?_, ?_⟩
      · intro i hi j hj
        have hi : i < 1 := hi
        have hj : j < 3 := hj
        obtain rfl : i = 0 := by omega
        interval_cases j
        · exact le_refl _
        · rw [c0, c1]; norm_num
        · rw [c0, c2]; norm_num
      · intro i hi j hj hlt
        omega
    have hl : locatePeak M true .diff 1 size true = .ok (0, 0) := by
      unfold locatePeak flipPeak
      simp only [bind, Except.bind, if_true, argmax2_eq hp, Bool.true_eq_false, if_false]
      unfold peakInterior
      rw [if_neg (by omega)]
      simp only
      unfold peakRow
      rw [if_neg (by rintro ⟨-, -, h, -⟩; simp [Pos.val] at h)]
      simp only
      unfold peakCol
      rw [if_neg (by rintro ⟨-, -, h, -⟩; simp [Pos.val] at h)]
      simp [Pos.val]
    rw [hpix, hfs, hl]
    norm_num [Except.map]
  · intro ht
    have ht' : T.get 0 0 0 < T.get 0 1 0 := ht
    have c0 : M.get 0 0 = -1 := coef_two_neg ht' g0
    have up : ∀ g : ℕ → ℕ → ℕ → ℝ, g 0 0 0 < g 0 1 0 → coefCpu 1 2 1 T.get g = 1 := by
      intro g hg
      have hneg : AffineCopy 1 2 1 T.get (fun i j k => T.get i j k) 1 0 := fun i _ j _ k _ => by ring
      rw [coef_eq_one_iff]
      have hg' : g 0 0 0 - g 0 1 0 ≠ 0 := by linarith
      refine ⟨⟨0, by norm_num, 0, by norm_num, 0, by norm_num, 0, by norm_num, 1, by norm_num, 0, by norm_num, hg.ne⟩,
        (T.get 0 0 0 - T.get 0 1 0) / (g 0 0 0 - g 0 1 0),
        T.get 0 0 0 - (T.get 0 0 0 - T.get 0 1 0) / (g 0 0 0 - g 0 1 0) * g 0 0 0,
        div_pos_of_neg_of_neg (by linarith) (by linarith), ?_⟩
      intro i hi j hj k hk
      obtain rfl : i = 0 := by omega
      obtain rfl : k = 0 := by omega
      rcases (show j = 0 ∨ j = 1 by omega) with rfl | rfl
      · ring
      · field_simp; ring
    have c1 : M.get 0 1 = 1 := up _ g1
    have c2 : M.get 0 2 = 1 := up _ g2
    have hp : FirstMax2 M 0 1 := by
      refine ⟨by norm_num [hM], by norm_num [hM], ?_, ?_⟩
      · intro i hi j hj
        have hi : i < 1 := hi
        have hj : j < 3 := hj
        obtain rfl : i = 0 := by omega
        interval_cases j
        · rw [c0, c1]; norm_num
        · exact le_refl _
        · rw [c1, c2]
      · intro i hi j hj hlt
        obtain rfl : i = 0 := by omega
        obtain rfl : j = 0 := by omega
        rw [c0, c1]; norm_num
    have hw : M.w = 3 := rfl
    have hl : locatePeak M true .diff 1 size true = .ok (3 / 2, 0) := by
      unfold locatePeak flipPeak
      simp only [bind, Except.bind, if_true, argmax2_eq hp, Bool.true_eq_false, if_false]
      unfold peakInterior
      rw [if_neg (by omega)]
      simp only
      unfold peakRow
      rw [if_pos (by refine ⟨Or.inl (by simp [Pos.val]), ?_, ?_, ?_⟩ <;> norm_num [Pos.val, hw, winSize])]
      simp only [Pos.index, bind, Except.bind]
      have hfm : FirstMax 3 (fun k => M.get 0 (0 + k)) 1 := firstMax_row hp (by norm_num) (by norm_num) (by rw [hw])
      obtain ⟨r, hr, hv⟩ := locate1d_diff_interior hfm (by norm_num) (by norm_num)
      have hws : winSize (Method.diff : Method ℝ) size = 3 := rfl
      have hst : winStart 1 (3 / 2) M.w 3 = 0 := by rw [hw]; rfl
      rw [hws, hst, hr]
      have hv' : r.val = 3 / 2 := by
        rw [hv]
        norm_num [c0, c1, c2]
      have hadd : (r.add 0).val = 3 / 2 := by
        cases r with
        | int n => simpa [Pos.add, Pos.val] using hv'
        | flt v => simpa [Pos.add, Pos.val] using hv'
      simp only
      rw [peakCol_inside 3 _ (by rw [hadd, hw]; norm_num)]
      simp only [hadd]
      norm_num [Pos.val]
    rw [hpix, hfs, hl]
    norm_num [Except.map]

/-- `normalize_image` of a 2D array keeps the order of the row/column-divided values. -/
theorem normalize2_lt {h w : ℕ} {x : ℕ → ℕ → ℝ} {k k' i i' : ℕ} (hk : k < h) (hk' : k' < h) (hi : i < w) (hi' : i' < w)
    (hlt : divSums h w x k i < divSums h w x k' i') : normalize2 h w x k i < normalize2 h w x k' i' := by
  have hs := std_pos (d := 1) (n := h) (w := w) (rows := fun k _ i => divSums h w x k i)
    ⟨0, by norm_num, k, hk, i, hi, 0, by norm_num, k', hk', i', hi', hlt.ne⟩
  unfold stdRows at hs
  unfold normalize2
  dsimp only at hs ⊢
  exact div_lt_div_of_pos_right (by linarith) hs

/-- Two images, one column, four rows. -/
def exYRef : Arr3 ℝ := ⟨2, 4, 1, fun k i _ => if k = 0 then (if i = 0 ∨ i = 3 then 9 else 1) else (if i = 0 ∨ i = 3 then 1 else 9)⟩
def exYMat : Arr3 ℝ := ⟨2, 4, 1, fun k i _ => if k = 0 then (if i = 3 then 9 else 1) else (if i = 2 then 2 else 1)⟩

/-- **C53 refuted for the default normalisation along y.** On the stacks above (two images, `win_size=1`, `margin=1`, default
`norm=True`) row 1 of the y-shift is `1/2` computed in one chunk and `-1` with `chunk_size=4`, because each chunk is
divided by the sums over its own rows. -/
theorem find_local_shifts_y_norm_refuted (size : Int) :
    ∃ one two, findLocalShiftsY exYRef exYMat 0 0 1 none true .diff size = .ok one ∧
      findLocalShiftsY exYRef exYMat 0 0 1 (some 4) true .diff size = .ok two ∧
      one 1 = .ok (1 / 2) ∧ two 1 = .ok (-1) := by
  set rows : ℕ → Col × Col := fun i => (fun k => exYRef.get k i 0, fun k => exYMat.get k i 0) with hrows
  set nm := colNorm 2 true
  set pix := pixCol 2 0 1 (.diff : Method ℝ) size with hpix
  have c1 : arraySplit (List.range' 1 2) (numChunk 4 none) = .ok [[1, 2]] := by
    rw [numChunk_none (by norm_num)]; rfl
  have c2 : arraySplit (List.range' 1 2) (numChunk 4 (some 4)) = .ok [[1], [2]] := by
    have := numChunk_some (height := 4) (c := 4) (by norm_num) (by norm_num)
    norm_num at this
    rw [this]; rfl
  refine ⟨fun i => if 1 ≤ i ∧ i < 3 then chunkRow 1 nm pix rows 1 3 (i - 1) else .ok 0,
    fun i => if 2 ≤ i ∧ i < 3 then chunkRow 1 nm pix rows 2 3 (i - 2) else
      if 1 ≤ i ∧ i < 2 then chunkRow 1 nm pix rows 1 2 (i - 1) else .ok 0, ?_, ?_, ?_, ?_⟩
  · unfold findLocalShiftsY chunkLoop
    dsimp only
    have hb : arraySplit (List.range' (1 + 0) (exYRef.h - 2 * (1 + 0))) (numChunk exYRef.h none) = .ok [[1, 2]] := c1
    rw [hb]
    rfl
  · unfold findLocalShiftsY chunkLoop
    dsimp only
    have hb : arraySplit (List.range' (1 + 0) (exYRef.h - 2 * (1 + 0))) (numChunk exYRef.h (some 4)) = .ok [[1], [2]] := c2
    rw [hb]
    rfl
  · dsimp only
    rw [if_pos (by norm_num)]
    unfold chunkRow
    dsimp only
    rw [hpix]
    refine (pixCol_two _ ?_ ?_ ?_ size).2 ?_ <;>
      (show normalize2 2 4 _ _ _ < normalize2 2 4 _ _ _
       refine normalize2_lt (by norm_num) (by norm_num) (by norm_num) (by norm_num) ?_
       norm_num [divSums, Finset.sum_range_succ, hrows, exYRef, exYMat])
  · dsimp only
    rw [if_neg (by norm_num), if_pos (by norm_num)]
    unfold chunkRow
    dsimp only
    rw [hpix]
    refine (pixCol_two _ ?_ ?_ ?_ size).1 ?_ <;>
      (show normalize2 2 3 _ _ _ < normalize2 2 3 _ _ _
       refine normalize2_lt (by norm_num) (by norm_num) (by norm_num) (by norm_num) ?_
       norm_num [divSums, Finset.sum_range_succ, hrows, exYRef, exYMat])

end Verif.LocalShifts
