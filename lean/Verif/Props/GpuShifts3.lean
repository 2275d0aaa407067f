import Verif.Props.GpuShifts2
import Verif.Props.LocalShiftsY

/-!
C113: the GPU and hybrid two-direction searches compared with the CPU search.
-/

set_option linter.unusedSectionVars false
set_option linter.unusedSimpArgs false

namespace Verif.GpuShifts
open Finset Verif.Correlation Verif.LocalShifts

theorem except_map_ok {α β : Type} (f : α → β) (a : α) : (Except.ok a : Py α).map f = .ok (f a) := rfl

/-- The CPU search, window by window, in the notation of `shifts2d_spec`. -/
theorem cpu_spec {ref mat : Arr3 ℝ} {radi margin : ℕ} {chunkSize : Option ℤ} {norm : Bool} {method : Method ℝ} {size : Int}
    (hd : mat.d = ref.d) (hmh : mat.h = ref.h) (hw : mat.w = ref.w) (hm : 1 ≤ margin) (hh : 2 * (margin + radi) + 1 ≤ ref.h)
    (hww : 2 * (margin + radi) + 1 ≤ ref.w) (hn : numChunk ref.h chunkSize ≤ ref.h - 2 * (margin + radi)) (hv : Varied ref mat radi margin) :
    ∃ out, findLocalShifts2d ref mat radi margin chunkSize norm true method size = .ok out ∧
      (∀ i j, margin + radi ≤ i → i + (margin + radi) < ref.h → margin + radi ≤ j → j + (margin + radi) < ref.w →
        out i j = (locatePeak (cellMap (refWin ref radi margin i j) (matWin mat radi i j)) true method 2 size true).map
          fun r => (r.1 - (margin : ℝ), r.2 - (margin : ℝ))) ∧
      ∀ i j, (i < margin + radi ∨ ref.h ≤ i + (margin + radi) ∨ j < margin + radi ∨ ref.w ≤ j + (margin + radi)) → out i j = .ok (0, 0) := by
  obtain ⟨out, h1, h2, h3⟩ := find_local_shifts_2d_partial (chunkSize := chunkSize) (norm := norm) (subPixel := true) (method := method) (size := size)
    hd hmh hw (by omega) hh hww hn (fun i hi => (hv i hi).1) (fun i hi => (hv i hi).2)
  refine ⟨out, h1, fun i j a b c e => ?_, h3⟩
  rw [h2 i j a b c e]
  have hmat : (⟨ref.d, 2 * radi + 1, 2 * radi + 1, fun k p q => mat.get k (i - radi + p) (j - radi + q)⟩ : Arr3 ℝ) = matWin mat radi i j := by
    unfold matWin; rw [hd]
  rw [hmat]
  exact findShift_window (ref := refWin ref radi margin i j) (t := matWin mat radi i j) hm hd.symm
    (by show 2 * (margin + radi) + 1 = 2 * radi + 1 + 2 * margin; omega) (by show 2 * (margin + radi) + 1 = 2 * radi + 1 + 2 * margin; omega) _ _ _ _

/-- **C113.** The hybrid search returns what the CPU search returns, pixel by pixel, for every sub-pixel method, every pair of chunk sizes, every
thread-block shape and every combination of the normalisation flags. -/
theorem hybrid_2d_eq_cpu {ref mat : Arr3 ℝ} {radi margin : ℕ} {csC csG : Option ℤ} {block : ℕ × ℕ} {normC norm normGlobal : Bool} {method : Method ℝ}
    {size : Int} (hd : mat.d = ref.d) (hmh : mat.h = ref.h) (hw : mat.w = ref.w) (hm : 1 ≤ margin) (hh : 2 * (margin + radi) + 1 ≤ ref.h)
    (hww : 2 * (margin + radi) + 1 ≤ ref.w) (hb : 0 < block.1 ∧ 0 < block.2) (hnC : numChunk ref.h csC ≤ ref.h - 2 * (margin + radi))
    (hnG : numChunk ref.h csG ≤ ref.h - 2 * (margin + radi)) (hv : Varied ref mat radi margin) :
    ∃ c g, findLocalShifts2d ref mat radi margin csC normC true method size = .ok c ∧
      shifts2d (finishHybrid margin method size) ref mat radi margin csG block norm normGlobal = .ok g ∧
      ∀ i < ref.h, ∀ j < ref.w, g i j = c i j := by
  obtain ⟨c, c1, c2, c3⟩ := cpu_spec (chunkSize := csC) (norm := normC) (method := method) (size := size) hd hmh hw hm hh hww hnC hv
  obtain ⟨g, g1, g2, g3⟩ := shifts2d_spec (fin := finishHybrid margin method size) (norm := norm) (normGlobal := normGlobal) hd hmh hw (by omega) hh hww hb hnG
    (fun _ => hv)
  refine ⟨c, g, c1, g1, fun i hi j hj => ?_⟩
  by_cases hin : margin + radi ≤ i ∧ i + (margin + radi) < ref.h ∧ margin + radi ≤ j ∧ j + (margin + radi) < ref.w
  · obtain ⟨a1, a2, a3, a4⟩ := hin
    rw [c2 i j a1 a2 a3 a4, g2 i j a1 a2 a3 a4]
    rfl
  · rw [c3 i j (by omega), g3 i j (by omega)]

/-- **C113.** The GPU search (which takes no `method`) agrees with the CPU search with method "diff" to half a pixel in each direction, and exactly
where the largest correlation coefficient is not at the edge of the searched area; at the edge the GPU returns the whole-pixel shift. -/
theorem gpu_2d_close_partial {ref mat : Arr3 ℝ} {radi margin : ℕ} {csC csG : Option ℤ} {block : ℕ × ℕ} {normC norm normGlobal : Bool}
    {size : Int} (hd : mat.d = ref.d) (hmh : mat.h = ref.h) (hw : mat.w = ref.w) (hm : 1 ≤ margin) (hh : 2 * (margin + radi) + 1 ≤ ref.h)
    (hww : 2 * (margin + radi) + 1 ≤ ref.w) (hb : 0 < block.1 ∧ 0 < block.2) (hnC : numChunk ref.h csC ≤ ref.h - 2 * (margin + radi))
    (hnG : numChunk ref.h csG ≤ ref.h - 2 * (margin + radi)) (hv : Varied ref mat radi margin) :
    ∃ c g, findLocalShifts2d ref mat radi margin csC normC true .diff size = .ok c ∧
      shifts2d (finishGpu margin) ref mat radi margin csG block norm normGlobal = .ok g ∧
      (∀ i < ref.h, ∀ j < ref.w, ∃ rc rg : ℝ × ℝ, c i j = .ok rc ∧ g i j = .ok rg ∧ |rc.1 - rg.1| ≤ 1 / 2 ∧ |rc.2 - rg.2| ≤ 1 / 2) ∧
      ∀ i j y x, margin + radi ≤ i → i + (margin + radi) < ref.h → margin + radi ≤ j → j + (margin + radi) < ref.w →
        FirstMax2 (cellMap (refWin ref radi margin i j) (matWin mat radi i j)) y x →
        ((0 < y ∧ y < 2 * margin) ∧ 0 < x ∧ x < 2 * margin → g i j = c i j) ∧
        (¬ ((0 < y ∧ y < 2 * margin) ∧ 0 < x ∧ x < 2 * margin) → g i j = .ok ((x : ℝ) - margin, (y : ℝ) - margin)) := by
  obtain ⟨c, c1, c2, c3⟩ := cpu_spec (chunkSize := csC) (norm := normC) (method := .diff) (size := size) hd hmh hw hm hh hww hnC hv
  obtain ⟨g, g1, g2, g3⟩ := shifts2d_spec (fin := finishGpu margin) (norm := norm) (normGlobal := normGlobal) hd hmh hw (by omega) hh hww hb hnG
    (fun _ => hv)
  have hsz : ∀ i j, (cellMap (refWin ref radi margin i j) (matWin mat radi i j)).h = 2 * margin + 1 ∧
      (cellMap (refWin ref radi margin i j) (matWin mat radi i j)).w = 2 * margin + 1 := by
    intro i j
    constructor <;> (show 2 * (margin + radi) + 1 - (2 * radi + 1) + 1 = 2 * margin + 1; omega)
  have key : ∀ i j, ∀ y x, FirstMax2 (cellMap (refWin ref radi margin i j) (matWin mat radi i j)) y x →
      finishGpu margin true (cellMap (refWin ref radi margin i j) (matWin mat radi i j)) =
        .ok ((peak2 (cellMap (refWin ref radi margin i j) (matWin mat radi i j)) y x).1 - margin,
          (peak2 (cellMap (refWin ref radi margin i j) (matWin mat radi i j)) y x).2 - margin) := by
    intro i j y x hp
    have hs := scan2_spec (m := cellMap (refWin ref radi margin i j) (matWin mat radi i j)) (by rw [(hsz i j).1]; omega) (by rw [(hsz i j).2]; omega)
    have e := (argmax2_eq hs).symm.trans (argmax2_eq hp)
    have e' : scan2 (cellMap (refWin ref radi margin i j) (matWin mat radi i j)) = (y, x) := Except.ok.inj e
    unfold finishGpu
    rw [if_pos rfl, e']
  refine ⟨c, g, c1, g1, fun i hi j hj => ?_, fun i j y x a1 a2 a3 a4 hp => ⟨fun hin => ?_, fun hin => ?_⟩⟩
  · by_cases hin : margin + radi ≤ i ∧ i + (margin + radi) < ref.h ∧ margin + radi ≤ j ∧ j + (margin + radi) < ref.w
    · obtain ⟨a1, a2, a3, a4⟩ := hin
      have hs := scan2_spec (m := cellMap (refWin ref radi margin i j) (matWin mat radi i j)) (by rw [(hsz i j).1]; omega) (by rw [(hsz i j).2]; omega)
      rw [c2 i j a1 a2 a3 a4, g2 i j a1 a2 a3 a4, key i j _ _ hs]
      generalize (scan2 (cellMap (refWin ref radi margin i j) (matWin mat radi i j))).1 = y at hs ⊢
      generalize (scan2 (cellMap (refWin ref radi margin i j) (matWin mat radi i j))).2 = x at hs ⊢
      generalize cellMap (refWin ref radi margin i j) (matWin mat radi i j) = m at hs ⊢
      by_cases hi2 : (0 < y ∧ y + 1 < m.h) ∧ 0 < x ∧ x + 1 < m.w
      · rw [peak2_interior hs hi2.1 hi2.2]
        refine ⟨_, _, rfl, rfl, ?_, ?_⟩ <;> (rw [sub_self, abs_zero]; norm_num)
      · obtain ⟨r, hr, b1, b2⟩ := peak_edge_half hs hi2 size
        rw [hr, peak2_edge hi2]
        refine ⟨_, _, rfl, rfl, ?_, ?_⟩
        · show |r.1 - (margin : ℝ) - ((x : ℝ) - margin)| ≤ 1 / 2
          rwa [show r.1 - (margin : ℝ) - ((x : ℝ) - margin) = r.1 - x by ring]
        · show |r.2 - (margin : ℝ) - ((y : ℝ) - margin)| ≤ 1 / 2
          rwa [show r.2 - (margin : ℝ) - ((y : ℝ) - margin) = r.2 - y by ring]
    · refine ⟨(0, 0), (0, 0), c3 i j (by omega), g3 i j (by omega), ?_, ?_⟩ <;> norm_num
  · rw [c2 i j a1 a2 a3 a4, g2 i j a1 a2 a3 a4, key i j y x hp]
    have h1 := (hsz i j).1
    have h2 := (hsz i j).2
    rw [peak2_interior hp ⟨hin.1.1, by omega⟩ ⟨hin.2.1, by omega⟩]
    rfl
  · rw [g2 i j a1 a2 a3 a4, key i j y x hp]
    have h1 := (hsz i j).1
    have h2 := (hsz i j).2
    rw [peak2_edge (by omega)]

/-! ### The two searches differ at the edge -/

/-- `locate_peak` refines a maximum in the first row along that row. -/
theorem locatePeak_top {m : Mat ℝ} {x : ℕ} (hp : FirstMax2 m 0 x) (hx : 0 < x ∧ x + 1 < m.w)
    (hd : m.get 0 (x + 1) + m.get 0 (x - 1) - 2 * m.get 0 x ≠ 0) (size : Int) :
    ∃ r, locatePeak m true .diff 2 size true = .ok r ∧
      r.1 = (x : ℝ) + -((m.get 0 (x + 1) - m.get 0 (x - 1)) / 2) / (m.get 0 (x + 1) + m.get 0 (x - 1) - 2 * m.get 0 x) := by
  unfold locatePeak flipPeak
  simp only [bind, Except.bind, if_true, argmax2_eq hp, Bool.true_eq_false, if_false]
  unfold peakInterior
  rw [if_neg (by omega)]
  simp only
  unfold peakRow
  have hws : winSize (Method.diff : Method ℝ) size = 3 := rfl
  rw [hws]
  have hin : ((Pos.int x : Pos ℝ).val < (m.w : ℝ) - 1 ∧ 0 < (Pos.int x : Pos ℝ).val) ↔ (0 < x ∧ x + 1 < m.w) := inside_iff
  rw [if_pos ⟨Or.inl (by simp [Pos.val]), (hin.2 hx).1, (hin.2 hx).2, by omega⟩]
  simp only [Pos.index, bind, Except.bind]
  have hst : winStart x (3 / 2) m.w 3 = x - 1 := by unfold winStart npClip; omega
  rw [hst]
  have hfm : FirstMax 3 (fun k => m.get 0 (x - 1 + k)) 1 := by
    have := firstMax_row hp (col := x - 1) (n := 3) (by omega) (by omega) (by omega)
    rwa [show x - (x - 1) = 1 by omega] at this
  obtain ⟨r, hr, hv⟩ := locate1d_diff_interior hfm (by norm_num) (by norm_num)
  rw [hr]
  simp only
  have e1 : x - 1 + (1 + 1) = x + 1 := by omega
  have e2 : x - 1 + (1 - 1) = x - 1 := by omega
  have e3 : x - 1 + 1 = x := by omega
  rw [e1, e2, e3] at hv
  have hval : (r.add (x - 1)).val = ((x - 1 : ℕ) : ℝ) + r.val := by
    cases r with
    | int n => simp [Pos.add, Pos.val]
    | flt v => rfl
  have hx1 : ((x - 1 : ℕ) : ℝ) = (x : ℝ) - 1 := by rw [Nat.cast_sub (by omega)]; norm_num
  obtain ⟨r', hr', hrr, -⟩ := locate1d_range 3 (fun k => m.get 0 (x - 1 + k)) (.diff : Method ℝ) hfm
  rw [hr] at hr'
  have er := Except.ok.inj hr'
  subst er
  have hins := pos_add_range (K := ℝ) (c := x - 1) (n := 3) (L := m.w) (x := x) (r := r) hx.1 hx.2 (by omega) (by omega)
    (by rw [show x - (x - 1) = 1 by omega]; exact hrr)
  rw [peakCol_inside 3 _ hins]
  refine ⟨_, rfl, ?_⟩
  show (r.add (x - 1)).val = _
  rw [hval, hv, hx1, if_neg hd]
  push_cast
  ring

/-- Reference and sample of the counterexample: two images of 3 x 3 pixels. -/
def exRef : Arr3 ℝ := ⟨2, 3, 3, fun k i j => if i = 0 ∧ ((j = 1 ∧ k = 1) ∨ (j = 2 ∧ k = 0)) then 1 else 0⟩
def exMat : Arr3 ℝ := ⟨2, 3, 3, fun k _ _ => if k = 1 then 1 else 0⟩

theorem exVaried : Varied exRef exMat 0 1 := by
  intro i hi
  have hi : i + 2 * (1 + 0) < 3 := hi
  obtain rfl : i = 0 := by omega
  refine ⟨⟨0, ?_, 1, ?_, 0, ?_, 1, ?_, 0, 0, ?_, ?_, ?_⟩, ⟨0, ?_, 1, ?_, 0, ?_, 0, ?_, 0, 0, ?_, ?_, ?_⟩⟩
  all_goals first | (show (_ : ℕ) < 2; norm_num) | (show (_ : ℕ) < 3; norm_num) | (simp [exRef, exMat]) | omega

/-- A reference that is the same in both images has coefficient 0. -/
theorem coef_flat {f g : ℕ → ℕ → ℕ → ℝ} (h : f 0 0 0 = f 1 0 0) : coefCpu 2 1 1 f g = 0 := by
  unfold coefCpu
  dsimp only
  simp only [sum3, mean3, Finset.sum_range_succ, Finset.sum_range_zero, zero_add]
  simp [h]
  try ring_nf
  try simp

/-- **C113.** The exact agreement fails at the edge of the searched area: here the GPU returns x-shift 0 and the CPU -1/6. -/
theorem gpu_2d_edge_refuted : ∃ c g, findLocalShifts2d exRef exMat 0 1 none false true .diff 3 = .ok c ∧
    shifts2d (finishGpu 1) exRef exMat 0 1 none (32, 32) false false = .ok g ∧ g 1 1 = .ok (0, -1) ∧ ∃ y, c 1 1 = .ok (-1 / 6, y) := by
  have hn : numChunk exRef.h none ≤ exRef.h - 2 * (1 + 0) := by rw [numChunk_none (by norm_num [exRef])]; norm_num [exRef]
  obtain ⟨c, c1, c2, -⟩ := cpu_spec (ref := exRef) (mat := exMat) (radi := 0) (margin := 1) (chunkSize := none) (norm := false) (method := .diff) (size := 3)
    rfl rfl rfl (le_refl _) (by norm_num [exRef]) (by norm_num [exRef]) hn exVaried
  obtain ⟨c', g, c1', g1, -, g3⟩ := gpu_2d_close_partial (ref := exRef) (mat := exMat) (radi := 0) (margin := 1) (csC := none) (csG := none) (normC := false)
    (norm := false) (normGlobal := false) (block := (32, 32)) (size := 3) rfl rfl rfl (le_refl _) (by norm_num [exRef]) (by norm_num [exRef])
    ⟨by norm_num, by norm_num⟩ hn hn exVaried
  have hc := c2 1 1 (by norm_num) (by norm_num [exRef]) (by norm_num) (by norm_num [exRef])
  have hg := g3 1 1 0 1 (by norm_num) (by norm_num [exRef]) (by norm_num) (by norm_num [exRef])
  set m := cellMap (refWin exRef 0 1 1 1) (matWin exMat 0 1 1) with hmdef
  have hmh : m.h = 3 := rfl
  have hmw : m.w = 3 := rfl
  have hget : ∀ i j, m.get i j = coefCpu 2 1 1 (matWin exMat 0 1 1).get (patch (refWin exRef 0 1 1 1) i j) := fun i j => cell_eq 2 1 1 _ _
  have z : ∀ i j, ¬ (i = 0 ∧ (j = 1 ∨ j = 2)) → m.get i j = 0 := by
    intro i j hij
    rw [hget, coef_comm]
    refine coef_flat ?_
    simp only [patch, refWin, exRef, add_zero, Nat.sub_self, zero_add]
    by_cases h0 : i = 0
    · have h1 : ¬ j = 1 := fun h => hij ⟨h0, Or.inl h⟩
      have h2 : ¬ j = 2 := fun h => hij ⟨h0, Or.inr h⟩
      simp [h1, h2]
    · simp [h0]
  have p1 : m.get 0 1 = 1 := by
    rw [hget]
    rw [coef_eq_one_iff]
    refine ⟨⟨0, by norm_num, 0, by norm_num, 0, by norm_num, 1, by norm_num, 0, by norm_num, 0, by norm_num, ?_⟩, 1, 0, one_pos, ?_⟩
    · simp [patch, refWin, exRef]
    · intro i hi j hj k hk
      obtain rfl : j = 0 := by omega
      obtain rfl : k = 0 := by omega
      simp [patch, refWin, exRef, matWin, exMat]
  have p2 : m.get 0 2 = -1 := by
    rw [hget]
    refine coef_eq_neg_one (a := -1) (b := 1) ⟨0, by norm_num, 0, by norm_num, 0, by norm_num, 1, by norm_num, 0, by norm_num, 0, by norm_num, ?_⟩ (by norm_num) ?_
    · simp [patch, refWin, exRef]
    · intro i hi j hj k hk
      obtain rfl : j = 0 := by omega
      obtain rfl : k = 0 := by omega
      rcases (show i = 0 ∨ i = 1 by omega) with rfl | rfl <;> simp [patch, refWin, exRef, matWin, exMat]
  have hp : FirstMax2 m 0 1 := by
    refine ⟨by rw [hmh]; norm_num, by rw [hmw]; norm_num, fun i hi j hj => ?_, fun i hi j hj hlt => ?_⟩
    · rw [p1]
      by_cases hij : i = 0 ∧ (j = 1 ∨ j = 2)
      · obtain ⟨rfl, rfl | rfl⟩ := hij
        · rw [p1]
        · rw [p2]; norm_num
      · rw [z i j hij]; norm_num
    · rw [p1, z i j (by omega)]; norm_num
  refine ⟨c, g, c1, g1, ?_, ?_⟩
  · have := (hg hp).2 (by norm_num)
    rw [this]
    norm_num
  · have z0 : m.get 0 (1 - 1) = 0 := z 0 0 (by norm_num)
    obtain ⟨r, hr, hr1⟩ := locatePeak_top hp ⟨one_pos, by rw [hmw]; norm_num⟩ (by rw [show (1 + 1 : ℕ) = 2 from rfl, p2, p1, z0]; norm_num) 3
    rw [hr] at hc
    refine ⟨r.2 - (1 : ℕ), ?_⟩
    rw [hc, except_map_ok, hr1, show (1 + 1 : ℕ) = 2 from rfl, p2, p1, z0]
    norm_num

end Verif.GpuShifts
