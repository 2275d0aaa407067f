import Verif.Props.GpuShifts3
import Verif.Props.LocalRecover

/-!
C72 for the GPU and hybrid searches: the local translation is recovered.
-/

set_option linter.unusedSectionVars false
set_option linter.unusedSimpArgs false

namespace Verif.GpuShifts
open Finset Verif.Correlation Verif.LocalShifts

/-- **C72.** The hybrid search recovers the translation of every window, like the CPU search. -/
theorem hybrid_recovers_partial {ref mat : Arr3 ℝ} {radi margin : ℕ} {chunkSize : Option ℤ} {block : ℕ × ℕ} {norm normGlobal : Bool}
    {method : Method ℝ} {size : Int} (hd : mat.d = ref.d) (hmh : mat.h = ref.h) (hw : mat.w = ref.w) (hm : 1 ≤ margin)
    (hh : 2 * (margin + radi) + 1 ≤ ref.h) (hww : 2 * (margin + radi) + 1 ≤ ref.w) (hb : 0 < block.1 ∧ 0 < block.2)
    (hn : numChunk ref.h chunkSize ≤ ref.h - 2 * (margin + radi)) (hv : Varied ref mat radi margin) :
    ∃ out, shifts2d (finishHybrid margin method size) ref mat radi margin chunkSize block norm normGlobal = .ok out ∧
      ∀ (i j : ℕ) (dy dx : ℤ), margin + radi ≤ i → i + (margin + radi) < ref.h → margin + radi ≤ j →
        j + (margin + radi) < ref.w → |dy| ≤ margin → |dx| ≤ margin → StackShift ref mat i j radi margin dy dx →
        ∃ v, out i j = .ok v ∧ Recovered true method 2 dy dx v := by
  obtain ⟨c, g, c1, g1, h⟩ := hybrid_2d_eq_cpu (csC := chunkSize) (csG := chunkSize) (normC := norm) (norm := norm) (normGlobal := normGlobal)
    (method := method) (size := size) hd hmh hw hm hh hww hb hn hn hv
  obtain ⟨c', c1', h'⟩ := find_local_shifts_recovers_partial (chunkSize := chunkSize) (norm := norm) (subPixel := true) (method := method) (size := size)
    hd hmh hw hm hh hww hn (fun i hi => (hv i hi).1) (fun i hi => (hv i hi).2)
  rw [c1] at c1'
  have e := Except.ok.inj c1'
  subst e
  refine ⟨g, g1, fun i j dy dx a1 a2 a3 a4 b1 b2 hs => ?_⟩
  rw [h i (by omega) j (by omega)]
  exact h' i j dy dx a1 a2 a3 a4 b1 b2 hs

/-- **C72.** The GPU search recovers the translation of every window to less than one pixel, and exactly where the translation reaches the margin. -/
theorem gpu_recovers_partial {ref mat : Arr3 ℝ} {radi margin : ℕ} {chunkSize : Option ℤ} {block : ℕ × ℕ} {norm normGlobal : Bool}
    (hd : mat.d = ref.d) (hmh : mat.h = ref.h) (hw : mat.w = ref.w) (hm : 1 ≤ margin)
    (hh : 2 * (margin + radi) + 1 ≤ ref.h) (hww : 2 * (margin + radi) + 1 ≤ ref.w) (hb : 0 < block.1 ∧ 0 < block.2)
    (hn : numChunk ref.h chunkSize ≤ ref.h - 2 * (margin + radi)) (hv : Varied ref mat radi margin) :
    ∃ out, shifts2d (finishGpu margin) ref mat radi margin chunkSize block norm normGlobal = .ok out ∧
      ∀ (i j : ℕ) (dy dx : ℤ), margin + radi ≤ i → i + (margin + radi) < ref.h → margin + radi ≤ j →
        j + (margin + radi) < ref.w → |dy| ≤ margin → |dx| ≤ margin → StackShift ref mat i j radi margin dy dx →
        ∃ v : ℝ × ℝ, out i j = .ok v ∧ (|v.1 - dx| < 1 ∧ |v.2 - dy| < 1) ∧ ((|dy| = margin ∨ |dx| = margin) → v = ((dx : ℝ), (dy : ℝ))) := by
  obtain ⟨c, g, c1, g1, -, h⟩ := gpu_2d_close_partial (csC := chunkSize) (csG := chunkSize) (normC := norm) (norm := norm) (normGlobal := normGlobal)
    (size := 3) hd hmh hw hm hh hww hb hn hn hv
  obtain ⟨c', c1', h'⟩ := find_local_shifts_recovers_partial (chunkSize := chunkSize) (norm := norm) (subPixel := true) (method := .diff) (size := 3)
    hd hmh hw hm hh hww hn (fun i hi => (hv i hi).1) (fun i hi => (hv i hi).2)
  rw [c1] at c1'
  have e := Except.ok.inj c1'
  subst e
  obtain ⟨w, w1, hw1⟩ := find_local_shifts_recovers_partial (chunkSize := chunkSize) (norm := norm) (subPixel := false) (method := .diff) (size := 3)
    hd hmh hw hm hh hww hn (fun i hi => (hv i hi).1) (fun i hi => (hv i hi).2)
  obtain ⟨w', w1', hw2, -⟩ := find_local_shifts_2d_partial (chunkSize := chunkSize) (norm := norm) (subPixel := false) (method := .diff) (size := 3)
    hd hmh hw (by omega) hh hww hn (fun i hi => (hv i hi).1) (fun i hi => (hv i hi).2)
  rw [w1] at w1'
  have e := Except.ok.inj w1'
  subst e
  refine ⟨g, g1, fun i j dy dx a1 a2 a3 a4 b1 b2 hs => ?_⟩
  have hmat : (⟨ref.d, 2 * radi + 1, 2 * radi + 1, fun k p q => mat.get k (i - radi + p) (j - radi + q)⟩ : Arr3 ℝ) = matWin mat radi i j := by
    unfold matWin; rw [hd]
  have hmh' : (cellMap (refWin ref radi margin i j) (matWin mat radi i j)).h = 2 * margin + 1 := by
    show 2 * (margin + radi) + 1 - (2 * radi + 1) + 1 = 2 * margin + 1; omega
  have hmw' : (cellMap (refWin ref radi margin i j) (matWin mat radi i j)).w = 2 * margin + 1 := by
    show 2 * (margin + radi) + 1 - (2 * radi + 1) + 1 = 2 * margin + 1; omega
  -- whole pixels: the maximum is at the translation
  obtain ⟨v, v1, v2, -, -⟩ := hw1 i j dy dx a1 a2 a3 a4 b1 b2 hs
  have v2 := v2 rfl
  have hf := hw2 i j a1 a2 a3 a4
  rw [hmat] at hf
  change w i j = findShift (refWin ref radi margin i j) (matWin mat radi i j) margin none false .diff 2 3 at hf
  rw [findShift_window (ref := refWin ref radi margin i j) (t := matWin mat radi i j) hm hd.symm
      (by show 2 * (margin + radi) + 1 = 2 * radi + 1 + 2 * margin; omega) (by show 2 * (margin + radi) + 1 = 2 * radi + 1 + 2 * margin; omega)
      false .diff 2 3, v1] at hf
  obtain ⟨y, x, -, hp⟩ := argmax2_spec (m := cellMap (refWin ref radi margin i j) (matWin mat radi i j)) (by omega) (by omega)
  have hl : locatePeak (cellMap (refWin ref radi margin i j) (matWin mat radi i j)) false .diff 2 3 true = .ok ((x : ℝ), (y : ℝ)) := by
    unfold locatePeak flipPeak
    simp only [bind, Except.bind, if_true, argmax2_eq hp]
  rw [hl, except_map_ok] at hf
  have hv3 := Except.ok.inj hf
  rw [v2] at hv3
  have ex : (dx : ℝ) = (x : ℝ) - margin := congrArg Prod.fst hv3
  have ey : (dy : ℝ) = (y : ℝ) - margin := congrArg Prod.snd hv3
  have ex' : dx = (x : ℤ) - margin := by exact_mod_cast ex
  have ey' : dy = (y : ℤ) - margin := by exact_mod_cast ey
  have hlt := hp.1
  have hlt2 := hp.2.1
  by_cases hin : (0 < y ∧ y < 2 * margin) ∧ 0 < x ∧ x < 2 * margin
  · obtain ⟨u, u1, -, u2, -⟩ := h' i j dy dx a1 a2 a3 a4 b1 b2 hs
    refine ⟨u, ((h i j y x a1 a2 a3 a4 hp).1 hin).trans u1, u2 rfl, fun hedge => ?_⟩
    exfalso
    rcases hedge with he | he
    · rcases abs_eq (Int.natCast_nonneg margin) |>.1 he with h1 | h1 <;> omega
    · rcases abs_eq (Int.natCast_nonneg margin) |>.1 he with h1 | h1 <;> omega
  · refine ⟨_, (h i j y x a1 a2 a3 a4 hp).2 hin, ?_, fun _ => ?_⟩
    · dsimp only
      rw [← ex, ← ey, sub_self, sub_self, abs_zero]
      exact ⟨one_pos, one_pos⟩
    · rw [ex, ey]

/-- The stacks of `exL_shift` (9 x 9, window 3, margin 1, pixel (4, 4)): the GPU search returns exactly `(-1, 1)`. -/
example : ∃ out, shifts2d (finishGpu 1) exLRef exLMat 1 1 none (32, 32) true false = .ok out ∧ out 4 4 = .ok (-1, 1) := by
  obtain ⟨out, h1, h2⟩ := gpu_recovers_partial (ref := exLRef) (mat := exLMat) (radi := 1) (margin := 1) (chunkSize := none) (block := (32, 32))
    (norm := true) (normGlobal := false) rfl rfl rfl le_rfl (by norm_num [exLRef]) (by norm_num [exLRef]) ⟨by norm_num, by norm_num⟩
    (by rw [numChunk_none (by norm_num [exLRef])]; norm_num [exLRef]) (fun i _ => exL_varied i)
  obtain ⟨v, v1, -, v2⟩ := h2 4 4 1 (-1) (by norm_num) (by norm_num [exLRef]) (by norm_num) (by norm_num [exLRef]) (by norm_num) (by norm_num) exL_shift
  refine ⟨out, h1, ?_⟩
  rw [v1, v2 (Or.inl (by norm_num))]
  norm_num

end Verif.GpuShifts
