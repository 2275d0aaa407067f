import Verif.Model.GlobalGpu
import Verif.Props.GlobalShift
import Verif.Props.GpuShifts3

/-!
C140: the global shift computed on the GPU.
-/

set_option linter.unusedSectionVars false
set_option linter.unusedSimpArgs false

namespace Verif.GlobalGpu
open Verif.Correlation Verif.LocalShifts Verif.GpuShifts Verif.GlobalShift Verif.Post Verif.Sched

/-! ### The aggregations are monotone and 1-Lipschitz -/

section
variable {K : Type _} [Field K] [LinearOrder K] [IsStrictOrderedRing K] [FloorRing K]

/-- The number of entries below a bound, from a pointwise comparison. -/
theorem filter_le {l l' : List K} (h : List.Forall₂ (· ≤ ·) l l') (t : K) :
    (l'.filter fun x => decide (x ≤ t)).length ≤ (l.filter fun x => decide (x ≤ t)).length := by
  induction h with
  | nil => exact le_rfl
  | @cons a b l l' hab _ ih =>
    by_cases hb : b ≤ t
    · rw [List.filter_cons_of_pos (by simpa using hb), List.filter_cons_of_pos (by simpa using hab.trans hb), List.length_cons, List.length_cons]
      omega
    · rw [List.filter_cons_of_neg (by simpa using hb)]
      by_cases ha : a ≤ t
      · rw [List.filter_cons_of_pos (by simpa using ha), List.length_cons]; omega
      · rw [List.filter_cons_of_neg (by simpa using ha)]; exact ih

theorem sorted_le {l l' : List K} (h : List.Forall₂ (· ≤ ·) l l') (k : ℕ) (hk : k < l.length) : (sorted l).getD k 0 ≤ (sorted l').getD k 0 := by
  have hlen := h.length_eq
  have hs := sorted_length l
  have hs' := sorted_length l'
  by_contra hlt
  rw [not_le] at hlt
  generalize ht : (sorted l').getD k 0 = t at hlt
  have h1 : k + 1 ≤ ((sorted l').filter fun x => decide (x ≤ t)).length := by
    have e : ((sorted l').take (k + 1)).filter (fun x => decide (x ≤ t)) = (sorted l').take (k + 1) := by
      rw [List.filter_eq_self]
      intro x hx
      obtain ⟨i, hi', rfl⟩ := List.getElem_of_mem hx
      rw [List.length_take] at hi'
      rw [List.getElem_take, decide_eq_true_eq]
      have := sorted_mono l' i k (by omega) (by omega)
      rwa [ht, List.getD_eq_getElem _ _ (by omega)] at this
    have := ((List.take_sublist (k + 1) (sorted l')).filter fun x => decide (x ≤ t)).length_le
    rw [e, List.length_take] at this
    omega
  have h2 : ((sorted l).filter fun x => decide (x ≤ t)).length ≤ k := by
    have e : ((sorted l).drop k).filter (fun x => decide (x ≤ t)) = [] := by
      rw [List.filter_eq_nil_iff]
      intro x hx
      obtain ⟨i, hi', rfl⟩ := List.getElem_of_mem hx
      rw [List.length_drop] at hi'
      rw [List.getElem_drop, decide_eq_true_eq, not_le]
      refine lt_of_lt_of_le hlt ?_
      have := sorted_mono l k (k + i) (by omega) (by omega)
      rwa [List.getD_eq_getElem _ (n := k + i) _ (by omega)] at this
    have e2 := List.filter_append (p := fun x => decide (x ≤ t)) ((sorted l).take k) ((sorted l).drop k)
    rw [List.take_append_drop, e, List.append_nil] at e2
    rw [e2]
    refine (List.length_filter_le _ _).trans ?_
    rw [List.length_take]; omega
  have h3 := filter_le h t
  rw [← ((sorted_perm l).filter _).length_eq, ← ((sorted_perm l').filter _).length_eq] at h3
  omega

/-- **C54/C140.** If no local value gets larger, neither does the global one. -/
theorem global_value_mono (agg : Agg) {l l' : List K} (hl : l ≠ []) (h : List.Forall₂ (· ≤ ·) l l') : agg.value l ≤ agg.value l' := by
  have hlen := h.length_eq
  have hl' : l' ≠ [] := by rw [← List.length_pos_iff, ← hlen]; exact List.length_pos_iff.2 hl
  rw [value_eq agg l hl, value_eq agg l' hl', ← hlen]
  obtain ⟨h1, h2⟩ := window_ok agg (List.length_pos_iff.2 hl)
  unfold winMean
  gcongr with k hk
  exact sorted_le h _ (by have := Finset.mem_range.1 hk; omega)

/-- **C54/C140.** If no local value changes by more than `ε`, neither does the global one. -/
theorem global_value_lipschitz (agg : Agg) {l l' : List K} (hl : l ≠ []) {ε : K} (h : List.Forall₂ (fun x y => |x - y| ≤ ε) l l') :
    |agg.value l - agg.value l'| ≤ ε := by
  have hlen := h.length_eq
  have hl' : l' ≠ [] := by rw [← List.length_pos_iff, ← hlen]; exact List.length_pos_iff.2 hl
  have a1 := global_value_affine agg l hl 1 ε zero_le_one
  have a2 := global_value_affine agg l' hl' 1 ε zero_le_one
  have m1 : agg.value l ≤ agg.value (l'.map fun x => 1 * x + ε) := by
    refine global_value_mono agg hl (List.forall₂_map_right_iff.2 (h.imp fun x y hxy => ?_))
    have := abs_le.1 hxy
    linarith
  have m2 : agg.value l' ≤ agg.value (l.map fun x => 1 * x + ε) := by
    refine global_value_mono agg hl' (List.forall₂_map_right_iff.2 (h.flip.imp fun x y hxy => ?_))
    have hxy : |y - x| ≤ ε := hxy
    have := abs_le.1 hxy
    linarith
  rw [abs_le]
  constructor <;> linarith

end

/-! ### One point -/

/-- The reference window around `(i, j)`. -/
def refWin2 (ref : Mat ℝ) (radi margin i j : ℕ) : Arr3 ℝ :=
  ⟨1, 2 * radi + 1 + 2 * margin, 2 * radi + 1 + 2 * margin, fun _ p q => ref.get (i - (radi + margin) + p) (j - (radi + margin) + q)⟩

/-- The sample window around `(i, j)`. -/
def matWin2 (mat : Mat ℝ) (radi i j : ℕ) : Arr3 ℝ := ⟨1, 2 * radi + 1, 2 * radi + 1, fun _ p q => mat.get (i - radi + p) (j - radi + q)⟩

theorem crop_eq {m : Mat ℝ} {i j r : ℕ} (hi : r ≤ i) (hi' : i + r < m.h) (hj : r ≤ j) (hj' : j + r < m.w) {b d : ℤ} (hb : b = (i : ℤ) + r + 1)
    (hd : d = (j : ℤ) + r + 1) {a c : ℤ} (ha : a = (i : ℤ) - r) (hc : c = (j : ℤ) - r) :
    crop m a b c d = ⟨1, 2 * r + 1, 2 * r + 1, fun _ p q => m.get (i - r + p) (j - r + q)⟩ := by
  subst hb hd ha hc
  unfold crop pyBound
  rw [if_neg (by omega), if_neg (by omega), if_neg (by omega), if_neg (by omega),
    show min ((i : ℤ) - r).toNat m.h = i - r by omega,
    show min ((j : ℤ) - r).toNat m.w = j - r by omega,
    show min ((i : ℤ) + (r : ℤ) + 1).toNat m.h - (i - r) = 2 * r + 1 by omega,
    show min ((j : ℤ) + (r : ℤ) + 1).toNat m.w - (j - r) = 2 * r + 1 by omega]

section point
variable {ref mat : Mat ℝ} {i j radi margin : ℕ}

/-- The two searches look at the same coefficient map. -/
theorem pointShift_eq (hh : ref.h = mat.h) (hw : ref.w = mat.w) (hm : 1 ≤ margin) (hi : radi + margin ≤ i) (hi' : i + (radi + margin) < ref.h)
    (hj : radi + margin ≤ j) (hj' : j + (radi + margin) < ref.w) (subPixel : Bool) (method : Method ℝ) (size : ℤ) :
    pointShift ref mat radi margin subPixel method size i j =
      (locatePeak (cellMap (refWin2 ref radi margin i j) (matWin2 mat radi i j)) subPixel method 2 size true).map
        fun r => (r.1 - (margin : ℝ), r.2 - (margin : ℝ)) := by
  unfold pointShift
  dsimp only
  rw [crop_eq (r := radi + margin) hi hi' hj hj' (by push_cast; ring) (by push_cast; ring) (by push_cast; ring) (by push_cast; ring),
    crop_eq (m := mat) (i := i) (j := j) (r := radi) (by omega) (by omega) (by omega) (by omega) (by push_cast; ring) (by push_cast; ring) rfl rfl,
    show 2 * (radi + margin) + 1 = 2 * radi + 1 + 2 * margin by ring]
  exact findShift_window (ref := refWin2 ref radi margin i j) (t := matWin2 mat radi i j) hm rfl rfl rfl _ _ _ _

theorem gpuPoint_eq (hh : ref.h = mat.h) (hw : ref.w = mat.w) (hi : radi + margin ≤ i) (hi' : i + (radi + margin) < ref.h)
    (hj : radi + margin ≤ j) (hj' : j + (radi + margin) < ref.w) {y x : ℕ}
    (hp : FirstMax2 (cellMap (refWin2 ref radi margin i j) (matWin2 mat radi i j)) y x) :
    gpuPoint ref mat radi margin i j = ((peak2 (cellMap (refWin2 ref radi margin i j) (matWin2 mat radi i j)) y x).1 - (margin : ℝ),
      (peak2 (cellMap (refWin2 ref radi margin i j) (matWin2 mat radi i j)) y x).2 - (margin : ℝ)) := by
  unfold gpuPoint
  dsimp only
  rw [crop_eq (r := radi + margin) hi hi' hj hj' (by push_cast; ring) (by push_cast; ring) (by push_cast; ring) (by push_cast; ring),
    crop_eq (m := mat) (i := i) (j := j) (r := radi) (by omega) (by omega) (by omega) (by omega) (by push_cast; ring) (by push_cast; ring) rfl rfl,
    show 2 * (radi + margin) + 1 = 2 * radi + 1 + 2 * margin by ring]
  change (fun p : ℕ × ℕ => ((peak2 (cellMap (refWin2 ref radi margin i j) (matWin2 mat radi i j)) p.1 p.2).1 - (margin : ℝ),
      (peak2 (cellMap (refWin2 ref radi margin i j) (matWin2 mat radi i j)) p.1 p.2).2 - (margin : ℝ)))
      (scan2 (cellMap (refWin2 ref radi margin i j) (matWin2 mat radi i j))) = _
  have hs := scan2_spec (m := cellMap (refWin2 ref radi margin i j) (matWin2 mat radi i j)) (Nat.succ_pos _) (Nat.succ_pos _)
  have e := (argmax2_eq hs).symm.trans (argmax2_eq hp)
  have e' : scan2 (cellMap (refWin2 ref radi margin i j) (matWin2 mat radi i j)) = (y, x) := Except.ok.inj e
  rw [e']

/-- **C140.** One point: where the largest coefficient is not at the edge of the searched area, the GPU value is that of the CPU with sub-pixel
search and method "diff"; at the edge it is that of the CPU without sub-pixel search. -/
theorem gpuPoint_cases (hh : ref.h = mat.h) (hw : ref.w = mat.w) (hm : 1 ≤ margin) (hi : radi + margin ≤ i) (hi' : i + (radi + margin) < ref.h)
    (hj : radi + margin ≤ j) (hj' : j + (radi + margin) < ref.w) {y x : ℕ}
    (hp : FirstMax2 (cellMap (refWin2 ref radi margin i j) (matWin2 mat radi i j)) y x) (method : Method ℝ) (size : ℤ) :
    ((0 < y ∧ y < 2 * margin) ∧ 0 < x ∧ x < 2 * margin →
      pointShift ref mat radi margin true .diff size i j = .ok (gpuPoint ref mat radi margin i j)) ∧
    (¬ ((0 < y ∧ y < 2 * margin) ∧ 0 < x ∧ x < 2 * margin) →
      pointShift ref mat radi margin false method size i j = .ok (gpuPoint ref mat radi margin i j)) ∧
    ∃ r : ℝ × ℝ, pointShift ref mat radi margin true .diff size i j = .ok r ∧
      |r.1 - (gpuPoint ref mat radi margin i j).1| ≤ 1 / 2 ∧ |r.2 - (gpuPoint ref mat radi margin i j).2| ≤ 1 / 2 := by
  have h1 : (cellMap (refWin2 ref radi margin i j) (matWin2 mat radi i j)).h = 2 * margin + 1 := by
    show 2 * radi + 1 + 2 * margin - (2 * radi + 1) + 1 = _; omega
  have h2 : (cellMap (refWin2 ref radi margin i j) (matWin2 mat radi i j)).w = 2 * margin + 1 := by
    show 2 * radi + 1 + 2 * margin - (2 * radi + 1) + 1 = _; omega
  rw [gpuPoint_eq hh hw hi hi' hj hj' hp]
  rw [pointShift_eq hh hw hm hi hi' hj hj', pointShift_eq hh hw hm hi hi' hj hj']
  generalize cellMap (refWin2 ref radi margin i j) (matWin2 mat radi i j) = m at hp h1 h2 ⊢
  have hin : ((0 < y ∧ y < 2 * margin) ∧ 0 < x ∧ x < 2 * margin) ↔ ((0 < y ∧ y + 1 < m.h) ∧ 0 < x ∧ x + 1 < m.w) := by omega
  rw [hin]
  refine ⟨fun h => ?_, fun h => ?_, ?_⟩
  · rw [peak2_interior hp h.1 h.2]; rfl
  · rw [peak2_edge h]
    unfold locatePeak flipPeak
    simp only [bind, Except.bind, if_true, argmax2_eq hp]
    rfl
  · by_cases h : (0 < y ∧ y + 1 < m.h) ∧ 0 < x ∧ x + 1 < m.w
    · rw [peak2_interior hp h.1 h.2]
      refine ⟨_, rfl, ?_, ?_⟩ <;> (rw [sub_self, abs_zero]; norm_num)
    · obtain ⟨r, hr, b1, b2⟩ := peak_edge_half hp h size
      rw [hr, peak2_edge h]
      refine ⟨_, rfl, ?_, ?_⟩
      · show |r.1 - (margin : ℝ) - ((x : ℝ) - margin)| ≤ 1 / 2
        rwa [show r.1 - (margin : ℝ) - ((x : ℝ) - margin) = r.1 - x by ring]
      · show |r.2 - (margin : ℝ) - ((y : ℝ) - margin)| ≤ 1 / 2
        rwa [show r.2 - (margin : ℝ) - ((y : ℝ) - margin) = r.2 - y by ring]

/-- The best match of a translated window is at that translation. -/
theorem best_of_shift {dy dx : ℤ} (hh : ref.h = mat.h) (hw : ref.w = mat.w) (hm : 1 ≤ margin) (hi : radi + margin ≤ i)
    (hi' : i + (radi + margin) < ref.h) (hj : radi + margin ≤ j) (hj' : j + (radi + margin) < ref.w) (hy : |dy| ≤ margin) (hx : |dx| ≤ margin)
    (hs : WindowShift ref mat i j radi margin dy dx) {y x : ℕ}
    (hp : FirstMax2 (cellMap (refWin2 ref radi margin i j) (matWin2 mat radi i j)) y x) : (x : ℤ) = margin + dx ∧ (y : ℤ) = margin + dy := by
  obtain ⟨v0, hv0, hr0, -⟩ := point_shift hh hw hm hi hi' hj hj' hy hx hs false .diff 3
  have hr0 := hr0 rfl
  rw [pointShift_eq hh hw hm hi hi' hj hj'] at hv0
  unfold locatePeak flipPeak at hv0
  simp only [bind, Except.bind, if_true, argmax2_eq hp] at hv0
  have e2 : ((x : ℝ) - margin, (y : ℝ) - margin) = v0 := Except.ok.inj hv0
  rw [hr0] at e2
  have ex : (x : ℝ) - margin = dx := (Prod.ext_iff.1 e2).1
  have ey : (y : ℝ) - margin = dy := (Prod.ext_iff.1 e2).2
  have ex : (x : ℤ) - margin = dx := by exact_mod_cast ex
  have ey : (y : ℤ) - margin = dy := by exact_mod_cast ey
  omega

end point

/-! ### All points -/

/-- The image that is searched. -/
noncomputable def used (norm : Bool) (m : Mat ℝ) : Mat ℝ := if norm then normImage m else m

theorem used_shape (norm : Bool) (m : Mat ℝ) : (used norm m).h = m.h ∧ (used norm m).w = m.w := by
  unfold used; cases norm <;> exact ⟨rfl, rfl⟩

/-- The list of the CPU search, once the points are known. -/
theorem cpu_list {ref mat : Mat ℝ} {winSize margin : ℕ} {points : Option Points} {rnd cs : List (ℕ × ℕ)} {norm : Bool} (hh : ref.h = mat.h)
    (hw : ref.w = mat.w) (hsz : 2 * (winSize / 2 + margin) + 1 ≤ ref.h ∧ 2 * (winSize / 2 + margin) + 1 ≤ ref.w) (hcne : cs ≠ [])
    (hcs : usedPoints points rnd ref.h ref.w (winSize / 2 + margin) = .ok (cs.map fun p => (p.1 : ℤ), cs.map fun p => (p.2 : ℤ)))
    {subPixel : Bool} {method : Method ℝ} {size : ℤ} {g : ℕ × ℕ → ℝ × ℝ}
    (hg : ∀ c ∈ cs, pointShift (used norm ref) (used norm mat) (winSize / 2) margin subPixel method size c.1 c.2 = .ok (g c))
    {ncore : ℕ} {sched : List Ev} {r : Py (List ℝ × List ℝ)}
    (hr : localList ref mat winSize margin points rnd subPixel method size ncore norm sched = some r) :
    r = .ok (cs.map fun c => (g c).1, cs.map fun c => (g c).2) := by
  have key : localList ref mat winSize margin points rnd subPixel method size ncore norm sched
      = (allShifts cs.length ncore (fun k => pointShift (used norm ref) (used norm mat) (winSize / 2) margin subPixel method size
          (((cs.map fun p => (p.1 : ℤ))).getD k 0) ((cs.map fun p => (p.2 : ℤ)).getD k 0)) sched).map fun r => r.bind fun s =>
            if s.length = 0 then .error .indexError else .ok (s.map Prod.fst, s.map Prod.snd) := by
    unfold localList
    rw [if_neg (by omega)]
    dsimp only
    rw [show (2 * (winSize / 2) + 1) / 2 = winSize / 2 by omega, if_neg (by omega)]
    have e := used_shape norm ref
    unfold used at e ⊢
    rw [e.1, e.2, hcs]
    simp only [List.length_map]
  rw [key] at hr
  cases ha : allShifts cs.length ncore (fun k => pointShift (used norm ref) (used norm mat) (winSize / 2) margin subPixel method size
          (((cs.map fun p => (p.1 : ℤ))).getD k 0) ((cs.map fun p => (p.2 : ℤ)).getD k 0)) sched with
  | none => rw [ha] at hr; cases hr
  | some s =>
    have hsok : s = .ok ((List.range cs.length).map fun k => g (cs.getD k (0, 0))) := by
      refine allShifts_ok (fun k hk => ?_) ha
      have hm' : cs.getD k (0, 0) ∈ cs := by rw [List.getD_eq_getElem _ _ hk]; exact List.getElem_mem hk
      have := hg _ hm'
      rw [List.getD_eq_getElem _ _ (by rw [List.length_map]; exact hk), List.getD_eq_getElem _ _ (by rw [List.length_map]; exact hk),
        List.getElem_map, List.getElem_map]
      rw [List.getD_eq_getElem _ _ hk] at this ⊢
      exact this
    have hL : (List.range cs.length).map (fun k => g (cs.getD k (0, 0))) = cs.map g := by
      apply List.ext_getElem
      · simp
      · intro k h1 h2
        rw [List.length_map] at h2
        rw [List.getElem_map, List.getElem_map, List.getElem_range, List.getD_eq_getElem _ _ h2]
    rw [ha, hsok, hL] at hr
    rw [← Option.some.inj hr]
    dsimp only [Except.bind]
    rw [if_neg (by rw [List.length_map, List.length_eq_zero_iff]; exact hcne), List.map_map, List.map_map]
    rfl

/-- The list of the GPU search, once the points are known: every point has a thread. -/
theorem gpu_list {ref mat : Mat ℝ} {winSize margin : ℕ} {points : Option Points} {rnd cs : List (ℕ × ℕ)} {norm : Bool} (hh : ref.h = mat.h)
    (hw : ref.w = mat.w) (hsz : 2 * (winSize / 2 + margin) + 1 ≤ ref.h ∧ 2 * (winSize / 2 + margin) + 1 ≤ ref.w) (hcne : cs ≠ [])
    (hcs : usedPoints points rnd ref.h ref.w (winSize / 2 + margin) = .ok (cs.map fun p => (p.1 : ℤ), cs.map fun p => (p.2 : ℤ)))
    {block : ℕ} (hb : 0 < block) :
    gpuList ref mat winSize margin points rnd block norm =
      .ok (cs.map fun c => (gpuPoint (used norm ref) (used norm mat) (winSize / 2) margin c.1 c.2).1,
        cs.map fun c => (gpuPoint (used norm ref) (used norm mat) (winSize / 2) margin c.1 c.2).2) := by
  unfold gpuList
  rw [if_neg (by omega)]
  dsimp only
  rw [show (2 * (winSize / 2) + 1) / 2 = winSize / 2 by omega, if_neg (by omega)]
  have e := used_shape norm ref
  unfold used at e ⊢
  rw [e.1, e.2, hcs]
  simp only [Except.bind]
  rw [if_neg (by omega), if_neg (by rw [List.length_map, List.length_eq_zero_iff]; exact hcne)]
  generalize (if norm then normImage ref else ref) = R
  generalize (if norm then normImage mat else mat) = M
  have hL : (List.range (cs.map fun p => (p.1 : ℤ)).length).map (launch block (cs.map fun p => (p.1 : ℤ)).length fun k =>
      gpuPoint R M (winSize / 2) margin ((cs.map fun p => (p.1 : ℤ)).getD k 0) ((cs.map fun p => (p.2 : ℤ)).getD k 0))
      = cs.map fun c => gpuPoint R M (winSize / 2) margin c.1 c.2 := by
    apply List.ext_getElem
    · simp
    · intro k h1 h2
      rw [List.length_map] at h2
      rw [List.getElem_map, List.getElem_map, List.getElem_range, List.length_map]
      unfold launch
      rw [if_pos ⟨grid_covers hb h2, h2⟩]
      dsimp only
      rw [List.getD_eq_getElem _ _ (by rw [List.length_map]; exact h2),
        List.getD_eq_getElem _ _ (by rw [List.length_map]; exact h2), List.getElem_map, List.getElem_map]
  rw [hL, List.map_map, List.map_map]
  rfl

/-- No point is best matched at the edge of the searched area. -/
def AllInside (ref mat : Mat ℝ) (radi margin : ℕ) (points : Option Points) (rnd : List (ℕ × ℕ)) : Prop :=
  ∀ i j y x, Chosen points rnd i j → FirstMax2 (cellMap (refWin2 ref radi margin i j) (matWin2 mat radi i j)) y x →
    (0 < y ∧ y < 2 * margin) ∧ 0 < x ∧ x < 2 * margin

/-- **C140.** Along every schedule of the CPU pool: the GPU lists have the same length as those of the CPU search with method "diff", entry by entry
they differ by at most half a pixel, so does the global value for every aggregation, and if no point is best matched at the edge of the searched
area the results are equal. -/
theorem global_gpu_close {ref mat : Mat ℝ} {winSize margin : ℕ} {points : Option Points} {rnd : List (ℕ × ℕ)} {norm : Bool} {size : ℤ}
    {ncore block : ℕ} {sched : List Ev} (hh : ref.h = mat.h) (hw : ref.w = mat.w) (hm : 1 ≤ margin)
    (hsz : 2 * (winSize / 2 + margin) + 1 ≤ ref.h ∧ 2 * (winSize / 2 + margin) + 1 ≤ ref.w)
    (hpts : PointsOk points rnd ref.h ref.w (winSize / 2 + margin)) (hb : 0 < block) {r : Py (List ℝ × List ℝ)}
    (hr : localList ref mat winSize margin points rnd true .diff size ncore norm sched = some r) :
    ∃ c g : List ℝ × List ℝ, r = .ok c ∧ gpuList ref mat winSize margin points rnd block norm = .ok g ∧
      List.Forall₂ (fun x y => |x - y| ≤ 1 / 2) c.1 g.1 ∧ List.Forall₂ (fun x y => |x - y| ≤ 1 / 2) c.2 g.2 ∧
      (∀ agg : Agg, |agg.value c.1 - agg.value g.1| ≤ 1 / 2 ∧ |agg.value c.2 - agg.value g.2| ≤ 1 / 2) ∧
      (AllInside (used norm ref) (used norm mat) (winSize / 2) margin points rnd → g = c) := by
  obtain ⟨cs, hcne, hcin, hcs⟩ := points_used hpts
  obtain ⟨uh, uw⟩ := used_shape norm ref
  obtain ⟨vh, vw⟩ := used_shape norm mat
  have hloc : ∀ c ∈ cs, ∃ v : ℝ × ℝ, pointShift (used norm ref) (used norm mat) (winSize / 2) margin true .diff size c.1 c.2 = .ok v ∧
      |v.1 - (gpuPoint (used norm ref) (used norm mat) (winSize / 2) margin c.1 c.2).1| ≤ 1 / 2 ∧
      |v.2 - (gpuPoint (used norm ref) (used norm mat) (winSize / 2) margin c.1 c.2).2| ≤ 1 / 2 ∧
      (AllInside (used norm ref) (used norm mat) (winSize / 2) margin points rnd →
        v = gpuPoint (used norm ref) (used norm mat) (winSize / 2) margin c.1 c.2) := by
    intro c hc
    obtain ⟨h0, h1, h2, h3, h4⟩ := hcin c hc
    have hs := scan2_spec (m := cellMap (refWin2 (used norm ref) (winSize / 2) margin c.1 c.2) (matWin2 (used norm mat) (winSize / 2) c.1 c.2))
      (Nat.succ_pos _) (Nat.succ_pos _)
    obtain ⟨p1, -, v, hv, b1, b2⟩ := gpuPoint_cases (ref := used norm ref) (mat := used norm mat) (by rw [uh, vh, hh]) (by rw [uw, vw, hw]) hm h1
      (by rw [uh]; exact h2) h3 (by rw [uw]; exact h4) hs .diff size
    refine ⟨v, hv, b1, b2, fun hall => ?_⟩
    have := p1 (hall _ _ _ _ h0 hs)
    rw [hv] at this
    exact Except.ok.inj this
  choose! g hg1 hg2 hg3 hg4 using hloc
  have hc := cpu_list hh hw hsz hcne hcs hg1 hr
  have f1 : List.Forall₂ (fun x y => |x - y| ≤ 1 / 2) (cs.map fun c => (g c).1)
      (cs.map fun c => (gpuPoint (used norm ref) (used norm mat) (winSize / 2) margin c.1 c.2).1) := by
    rw [List.forall₂_map_left_iff, List.forall₂_map_right_iff, List.forall₂_same]
    exact hg2
  have f2 : List.Forall₂ (fun x y => |x - y| ≤ 1 / 2) (cs.map fun c => (g c).2)
      (cs.map fun c => (gpuPoint (used norm ref) (used norm mat) (winSize / 2) margin c.1 c.2).2) := by
    rw [List.forall₂_map_left_iff, List.forall₂_map_right_iff, List.forall₂_same]
    exact hg3
  refine ⟨_, _, hc, gpu_list hh hw hsz hcne hcs hb, f1, f2, fun agg => ⟨global_value_lipschitz agg (by simpa using hcne) f1,
    global_value_lipschitz agg (by simpa using hcne) f2⟩, fun hall => ?_⟩
  refine Prod.ext ?_ ?_ <;> exact List.map_congr_left fun c hc => by rw [hg4 c hc hall]

/-- **C140.** With the GPU, too, the global shift of windows that are all translated by `(dy, dx)` is that translation to less than one pixel, for
every aggregation and block size; exactly if the translation is at the edge of the searched area. -/
theorem global_gpu_recovers {ref mat : Mat ℝ} {winSize margin : ℕ} {points : Option Points} {rnd : List (ℕ × ℕ)} {dy dx : ℤ} {block : ℕ}
    (hh : ref.h = mat.h) (hw : ref.w = mat.w) (hm : 1 ≤ margin)
    (hsz : 2 * (winSize / 2 + margin) + 1 ≤ ref.h ∧ 2 * (winSize / 2 + margin) + 1 ≤ ref.w)
    (hpts : PointsOk points rnd ref.h ref.w (winSize / 2 + margin)) (hb : 0 < block) (hy : |dy| ≤ margin) (hx : |dx| ≤ margin)
    (hs : ∀ i j, Chosen points rnd i j → winSize / 2 + margin ≤ i → i + (winSize / 2 + margin) < ref.h →
      winSize / 2 + margin ≤ j → j + (winSize / 2 + margin) < ref.w → WindowShift ref mat i j (winSize / 2) margin dy dx)
    (agg : Agg) (o : Opts) (hg : o.gpu = true) (hc : o.cuda = true) (ho : o.block = block) (sched : List Ev) :
    ∃ v : ℝ × ℝ, findGlobal o ref mat winSize margin points rnd agg false sched = some (.ok v) ∧ |v.1 - dx| < 1 ∧ |v.2 - dy| < 1 ∧
      (|dy| = margin ∨ |dx| = margin → v = ((dx : ℝ), (dy : ℝ))) := by
  obtain ⟨cs, hcne, hcin, hcs⟩ := points_used hpts
  have hloc : ∀ c ∈ cs, ∃ v : ℝ × ℝ, v = gpuPoint ref mat (winSize / 2) margin c.1 c.2 ∧ |v.1 - dx| < 1 ∧ |v.2 - dy| < 1 ∧
      (|dy| = margin ∨ |dx| = margin → v = ((dx : ℝ), (dy : ℝ))) := by
    intro c hcc
    obtain ⟨h0, h1, h2, h3, h4⟩ := hcin c hcc
    have hwin := hs _ _ h0 h1 h2 h3 h4
    have hsc := scan2_spec (m := cellMap (refWin2 ref (winSize / 2) margin c.1 c.2) (matWin2 mat (winSize / 2) c.1 c.2))
      (Nat.succ_pos _) (Nat.succ_pos _)
    generalize (scan2 (cellMap (refWin2 ref (winSize / 2) margin c.1 c.2) (matWin2 mat (winSize / 2) c.1 c.2))).1 = y at hsc
    generalize (scan2 (cellMap (refWin2 ref (winSize / 2) margin c.1 c.2) (matWin2 mat (winSize / 2) c.1 c.2))).2 = x at hsc
    obtain ⟨p1, p2, -⟩ := gpuPoint_cases hh hw hm h1 h2 h3 h4 hsc .diff 3
    obtain ⟨v0, hv0, hr0, -⟩ := point_shift hh hw hm h1 h2 h3 h4 hy hx hwin false .diff 3
    obtain ⟨v1, hv1, -, hr1, -⟩ := point_shift hh hw hm h1 h2 h3 h4 hy hx hwin true .diff 3
    have hr0 := hr0 rfl
    by_cases hin : (0 < y ∧ y < 2 * margin) ∧ 0 < x ∧ x < 2 * margin
    · have e := p1 hin
      rw [hv1] at e
      have e := Except.ok.inj e
      refine ⟨v1, e, (hr1 rfl).1, (hr1 rfl).2, fun hedge => ?_⟩
      exfalso
      obtain ⟨ex, ey⟩ := best_of_shift hh hw hm h1 h2 h3 h4 hy hx hwin hsc
      rcases hedge with he | he
      · rcases abs_cases dy with ⟨h, -⟩ | ⟨h, -⟩ <;> omega
      · rcases abs_cases dx with ⟨h, -⟩ | ⟨h, -⟩ <;> omega
    · have e := p2 hin
      rw [hv0] at e
      have e := Except.ok.inj e
      refine ⟨v0, e, ?_, ?_, fun _ => hr0⟩ <;> (rw [hr0]; simp)
  choose! g hg0 hg1 hg2 hg3 using hloc
  have hL := gpu_list (norm := false) hh hw hsz hcne hcs hb
  have e0 : ∀ m : Mat ℝ, used false m = m := fun m => rfl
  rw [e0, e0] at hL
  have hf : findGlobal o ref mat winSize margin points rnd agg false sched = some (.ok
      (agg.value (cs.map fun c => (g c).1), agg.value (cs.map fun c => (g c).2))) := by
    unfold findGlobal shiftList
    rw [hg, hc, ho, hL]
    have q : ∀ c ∈ cs, gpuPoint ref mat (winSize / 2) margin c.1 c.2 = g c := fun c hc => (hg0 c hc).symm
    have q1 : (cs.map fun c => (gpuPoint ref mat (winSize / 2) margin c.1 c.2).1) = cs.map fun c => (g c).1 :=
      List.map_congr_left fun c hc => by rw [q c hc]
    have q2 : (cs.map fun c => (gpuPoint ref mat (winSize / 2) margin c.1 c.2).2) = cs.map fun c => (g c).2 :=
      List.map_congr_left fun c hc => by rw [q c hc]
    rw [q1, q2]
    rfl
  have strict : ∀ (l : List ℝ) (d : ℝ), l ≠ [] → (∀ x ∈ l, |x - d| < 1) → |agg.value l - d| < 1 := by
    intro l d hl hb
    have hmin := npMin_spec l hl
    have hmax := npMax_spec l hl
    obtain ⟨h1, h2⟩ := global_value_between agg l hl (npMin l) (npMax l) fun x hx => ⟨hmin.2 x hx, hmax.2 x hx⟩
    have h3 := abs_lt.1 (hb _ hmin.1)
    have h4 := abs_lt.1 (hb _ hmax.1)
    rw [abs_lt]
    constructor <;> linarith
  refine ⟨_, hf, strict _ _ (by simpa using hcne) ?_, strict _ _ (by simpa using hcne) ?_, fun hedge => ?_⟩
  · intro x hx
    obtain ⟨c, hc, rfl⟩ := List.mem_map.1 hx
    exact hg1 c hc
  · intro x hx
    obtain ⟨c, hc, rfl⟩ := List.mem_map.1 hx
    exact hg2 c hc
  · rw [global_value_const agg _ (by simpa using hcne) (dx : ℝ), global_value_const agg _ (by simpa using hcne) (dy : ℝ)]
    · intro x hx
      obtain ⟨c, hc, rfl⟩ := List.mem_map.1 hx
      rw [hg3 c hc hedge]
    · intro x hx
      obtain ⟨c, hc, rfl⟩ := List.mem_map.1 hx
      rw [hg3 c hc hedge]

/-- `AllInside` is met by windows that are translated by less than the margin. -/
theorem allInside_of_shift {ref mat : Mat ℝ} {radi margin : ℕ} {points : Option Points} {rnd : List (ℕ × ℕ)} {dy dx : ℤ} (hh : ref.h = mat.h)
    (hw : ref.w = mat.w) (hy : |dy| < margin) (hx : |dx| < margin)
    (hs : ∀ i j, Chosen points rnd i j → (radi + margin ≤ i ∧ i + (radi + margin) < ref.h) ∧ (radi + margin ≤ j ∧ j + (radi + margin) < ref.w) ∧
      WindowShift ref mat i j radi margin dy dx) : AllInside ref mat radi margin points rnd := by
  intro i j y x hc hp
  obtain ⟨⟨h1, h2⟩, ⟨h3, h4⟩, h5⟩ := hs i j hc
  have a1 := abs_nonneg dy
  obtain ⟨ex, ey⟩ := best_of_shift hh hw (by omega) h1 h2 h3 h4 hy.le hx.le h5 hp
  rw [abs_lt] at hy hx
  omega

/-- **C140.** Images of different shape or too small for window and margin, and points of which none is strictly inside, are refused with the same
error with and without GPU. -/
theorem global_gpu_errors {ref mat : Mat ℝ} {winSize margin : ℕ} {points : Option Points} {rnd : List (ℕ × ℕ)} {norm : Bool} {block : ℕ}
    (hb : 0 < block) (hp : points = none → rnd ≠ []) (e : PyErr) (he : gpuList ref mat winSize margin points rnd block norm = .error e)
    (subPixel : Bool) (method : Method ℝ) (size : ℤ) (ncore : ℕ) (sched : List Ev) :
    localList ref mat winSize margin points rnd subPixel method size ncore norm sched = some (.error e) ∧ e = .valueError := by
  unfold gpuList at he
  unfold localList
  by_cases h1 : ref.h ≠ mat.h ∨ ref.w ≠ mat.w
  · rw [if_pos h1] at he ⊢
    cases he
    exact ⟨rfl, rfl⟩
  rw [if_neg h1] at he ⊢
  dsimp only at he ⊢
  by_cases h2 : ref.w - 2 * ((2 * (winSize / 2) + 1) / 2 + margin) < 1 ∨ ref.h - 2 * ((2 * (winSize / 2) + 1) / 2 + margin) < 1
  · rw [if_pos h2] at he
    cases he
    rw [if_pos (by omega)]
    exact ⟨rfl, rfl⟩
  rw [if_neg h2] at he
  rw [if_neg (by omega)]
  generalize (if norm then normImage ref else ref) = R at he ⊢
  cases hu : usedPoints points rnd R.h R.w ((2 * (winSize / 2) + 1) / 2 + margin) with
  | error e' =>
    rw [hu] at he
    have : e' = e := by simpa [Except.bind] using he
    subst this
    refine ⟨rfl, ?_⟩
    unfold usedPoints at hu
    cases points with
    | none => cases hu
    | some p =>
      dsimp only at hu
      unfold getInputList at hu
      cases p <;> dsimp only at hu <;> (try split_ifs at hu) <;> cases hu <;> rfl
  | ok l =>
    rw [hu] at he
    simp only [Except.bind] at he
    rw [if_neg (by omega)] at he
    have hne : l.1.length ≠ 0 := by
      unfold usedPoints at hu
      cases points with
      | none =>
        have := Except.ok.inj hu
        rw [← this, List.length_map]
        have := List.length_pos_iff.2 (hp rfl)
        omega
      | some p =>
        dsimp only at hu
        unfold getInputList at hu
        cases p with
        | other => cases hu
        | point i j =>
          dsimp only at hu
          split_ifs at hu
          rw [← Except.ok.inj hu]; simp
        | lists li lj =>
          dsimp only at hu
          split_ifs at hu with _ h3
          rw [← Except.ok.inj hu, List.length_map]; exact h3
    rw [if_neg hne] at he
    cases he

/-- **C140.** Without a GPU the search is that of the CPU. -/
theorem global_gpu_fallback (o : Opts) (h : o.gpu = false ∨ o.cuda = false) (ref mat : Mat ℝ) (winSize margin : ℕ) (points : Option Points)
    (rnd : List (ℕ × ℕ)) (agg : Agg) (norm : Bool) (sched : List Ev) :
    findGlobal o ref mat winSize margin points rnd agg norm sched =
      globalShift ref mat winSize margin points rnd agg o.subPixel o.method o.size o.ncore norm sched := by
  have : (o.gpu && o.cuda) = false := by rcases h with h | h <;> simp [h]
  unfold findGlobal shiftList globalShift
  rw [this]
  rfl

/-! ### A concrete case: the bright pixel moved by `(1, -1)` of C54 -/

example (agg : Agg) (sched : List Ev) : ∃ v : ℝ × ℝ, findGlobal ⟨true, true, 32, true, .diff, 3, 1⟩ GlobalShift.exRef GlobalShift.exMat 3 1 (some (.point 4 4)) [] agg false sched
    = some (.ok v) ∧ v = (-1, 1) := by
  obtain ⟨v, hv, -, -, h⟩ := global_gpu_recovers (ref := GlobalShift.exRef) (mat := GlobalShift.exMat) (winSize := 3) (margin := 1) (points := some (.point 4 4)) (rnd := [])
    (dy := 1) (dx := -1) (block := 32) rfl rfl le_rfl (by norm_num [GlobalShift.exRef]) (by unfold PointsOk Inside; norm_num [GlobalShift.exRef]) (by norm_num) (by norm_num)
    (by norm_num) (by
      rintro i j ⟨h1, h2⟩ - - - -
      rw [show i = 4 by omega, show j = 4 by omega]
      exact exWindow) agg ⟨true, true, 32, true, .diff, 3, 1⟩ rfl rfl rfl sched
  refine ⟨v, hv, ?_⟩
  rw [h (Or.inl (by norm_num))]
  norm_num

example (r : Py (List ℝ × List ℝ)) (hr : localList GlobalShift.exRef GlobalShift.exMat 3 1 (some (.point 4 4)) [] true .diff 3 1 false [] = some r) :
    ∃ c g : List ℝ × List ℝ, r = .ok c ∧ gpuList GlobalShift.exRef GlobalShift.exMat 3 1 (some (.point 4 4)) [] 32 false = .ok g := by
  obtain ⟨c, g, h1, h2, -⟩ := global_gpu_close (ref := GlobalShift.exRef) (mat := GlobalShift.exMat) (winSize := 3) (margin := 1) (points := some (.point 4 4))
    (rnd := []) (block := 32) rfl rfl le_rfl (by norm_num [GlobalShift.exRef]) (by unfold PointsOk Inside; norm_num [GlobalShift.exRef])
    (by norm_num) hr
  exact ⟨c, g, h1, h2⟩

example : |Agg.mean.value ([1, 2, 3] : List ℚ) - Agg.mean.value ([2, 2, 2] : List ℚ)| ≤ 1 :=
  global_value_lipschitz _ (by simp) (by norm_num)

/-- Not enough room: a 4 x 4 image, window 3, margin 1. -/
example : gpuList ⟨4, 4, fun _ _ => 0⟩ ⟨4, 4, fun _ _ => 0⟩ 3 1 none [(2, 2)] 32 false = .error .valueError := by
  unfold gpuList; norm_num

theorem exWindow2 : WindowShift GlobalShift.exRef GlobalShift.exRef 4 4 1 1 0 0 := by
  refine ⟨⟨1, 0, one_pos, fun p q _ _ _ _ => by simp⟩, ⟨5, 3, 3, 3, by omega, by omega, by norm_num [GlobalShift.exRef]⟩, ?_⟩
  rintro ey ex hy hx ⟨a, b, ha, ht⟩
  rw [abs_le] at hy hx
  push_cast at hy hx
  have e1 := ht 5 3 (by omega) (by omega) (by omega) (by omega)
  have e2 := ht 4 4 (by omega) (by omega) (by omega) (by omega)
  have e3 := ht 4 3 (by omega) (by omega) (by omega) (by omega)
  change (1 : ℝ) = a * (if (((5 : ℕ) : ℤ) + ey).toNat = 5 ∧ (((3 : ℕ) : ℤ) + ex).toNat = 3 then 1 else 0) + b at e1
  change (0 : ℝ) = a * (if (((4 : ℕ) : ℤ) + ey).toNat = 5 ∧ (((4 : ℕ) : ℤ) + ex).toNat = 3 then 1 else 0) + b at e2
  change (0 : ℝ) = a * (if (((4 : ℕ) : ℤ) + ey).toNat = 5 ∧ (((3 : ℕ) : ℤ) + ex).toNat = 3 then 1 else 0) + b at e3
  by_contra hne
  rw [if_neg (by omega)] at e1
  split_ifs at e2 e3 <;> first | omega | linarith

example : AllInside GlobalShift.exRef GlobalShift.exRef 1 1 (some (.point 4 4)) [] := by
  refine allInside_of_shift (dy := 0) (dx := 0) rfl rfl (by norm_num) (by norm_num) ?_
  rintro i j ⟨h1, h2⟩
  rw [show i = 4 by omega, show j = 4 by omega]
  exact ⟨by norm_num [GlobalShift.exRef], by norm_num [GlobalShift.exRef], exWindow2⟩

end Verif.GlobalGpu
