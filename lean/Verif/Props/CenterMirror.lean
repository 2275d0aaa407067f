import Verif.Props.CenterMetric

/-! C132 — a mirrored detector with `dsp=True`, and a sinogram for which the mirrored centre is not returned. -/

set_option linter.unusedSectionVars false
set_option linter.unusedSimpArgs false

namespace Verif.CenterMetric
open Verif.Fourier Verif.Sched Verif.Center

/-- Down-sampling of the rows alone and mirroring commute. -/
theorem downsample_fliplr (m : Mat ℝ) (f0 : ℕ) (hw : 2 ≤ m.w) :
    (downsample m.fliplr f0 1).Eqv (downsample m f0 1).fliplr := by
  refine ⟨rfl, rfl, fun i hi j hj => ?_⟩
  unfold downsample Mat.fliplr at *
  dsimp only at hj ⊢
  have e : min (max 1 1) (m.w / 2) = 1 := by omega
  rw [e] at hj ⊢
  simp only [Nat.div_one, Finset.range_one, Finset.sum_singleton, Nat.mul_one, Nat.add_zero] at hj ⊢

/-- **C132.** `find_center_vo` with `dsp=True` of the mirrored sinogram over the mirrored interval, for a detector of at most 1000 columns and
any number of projections: it is the mirrored centre when both searches have a single best candidate and the best candidate of the fine search is
among the candidates of both calls and better than all of them.  (The two fine searches do not go over the same centres: both lie half a pixel
to the right of the centre found by the coarse search.) -/
theorem find_mirror_dsp_partial (S : Mat ℝ → ℝ → Mat ℝ) (hS : IsShift S) (g1 g2 : Mat ℝ → Mat ℝ) (hG1 : IsSmooth g1) (hG2 : IsSmooth g2)
    (o : Opts) (n' : ℕ) (m : Mat ℝ) (hh : 2 ≤ m.h) (hw : 2 ≤ m.w) (hw2 : m.w ≤ 1000)
    (a b : ℤ) (ha : 0 ≤ a) (hb : b ≤ (m.w : ℤ) - 1) (hab : a ≤ b)
    (step radius : ℝ) (raw c : ℝ)
    (hraw : OnlyBest (metricOf S o (downsample (g1 m) (if 1000 < m.h then m.h / 900 else 1) 1)) (coarseList m.w (a : ℝ) b) raw)
    (hc : OnlyBest (metricOf S o (g2 m)) (fineList m.w (raw + 1 / 2) (max radius 1) step) c)
    (hc' : OnlyBest (metricOf S o (g2 m)) ((fineList m.w ((m.w : ℝ) - 1 - raw + 1 / 2) (max radius 1) step).map fun x => (m.w : ℝ) - 1 - x) c)
    (sc1 sc2 sc1' sc2' : List Ev) (r r' : Py ℝ)
    (h : findCenterVo S g1 g2 o m (some (a : ℝ)) (some (b : ℝ)) step radius true sc1 sc2 = some r)
    (h' : findCenterVo S g1 g2 { o with ncore := n' } m.fliplr (some ((m.w : ℝ) - 1 - b)) (some ((m.w : ℝ) - 1 - a)) step radius
      true sc1' sc2' = some r') : r = .ok c ∧ r' = .ok ((m.w : ℝ) - 1 - c) := by
  have s1 := hG1.shape m
  have s2 := hG2.shape m
  have s2' : (g2 m.fliplr).w = m.w := (hG2.shape _).2
  set f0 : ℕ := if 1000 < m.h then m.h / 900 else 1 with hf0
  set D := downsample (g1 m) f0 1 with hD
  have dw : ∀ x : Mat ℝ, x.w = m.w → (downsample x f0 1).w = m.w := by
    intro x hx
    unfold downsample
    dsimp only
    rw [hx, show min (max 1 1) (m.w / 2) = 1 by omega, Nat.div_one]
  have sD : D.w = m.w := dw _ s1.2
  have sD' : (downsample (g1 m.fliplr) f0 1).w = m.w := dw _ (hG1.shape m.fliplr).2
  have pD := downsample_shape (g1 m) f0 1 (by omega) (by omega)
  have flo : ∀ z : ℤ, ((⌊(z : ℝ) / ((1 : ℕ) : ℝ)⌋ : ℤ) : ℝ) = z := by intro z; simp
  have cei : ∀ z : ℤ, ((⌈(z : ℝ) / ((1 : ℕ) : ℝ)⌉ : ℤ) : ℝ) = z := by intro z; simp
  have e1 : ((m.w : ℝ) - 1 - b) = (((m.w : ℤ) - 1 - b : ℤ) : ℝ) := by push_cast; ring
  have e2 : ((m.w : ℝ) - 1 - a) = (((m.w : ℤ) - 1 - a : ℤ) : ℝ) := by push_cast; ring
  have hn : ¬ 1000 < m.w := by omega
  unfold findCenterVo coarse fine at h h'
  dsimp only [Option.getD_some] at h h'
  have f1 : m.fliplr.h = m.h := rfl
  have f2 : m.fliplr.w = m.w := rfl
  rw [f1, f2] at h'
  rw [if_pos rfl, if_neg hn, ← hf0, ← hD, flo, cei, sD, s2.2] at h
  rw [if_pos rfl, if_neg hn, ← hf0, e1, e2, flo, cei, sD', s2', ← e1, ← e2] at h'
  have tr1 : ∀ cors sc, searchCor S { o with ncore := n' } (downsample (g1 m.fliplr) f0 1) cors sc =
      searchCor S { o with ncore := n' } D.fliplr cors sc := by
    intro cors sc
    rw [searchCor_def, searchCor_def]
    congr 1
    funext x
    rw [metric_congr S hS _ _ _ (downsample_congr _ _ f0 1 (hG1.fliplr m)) x]
    exact metric_congr S hS _ _ _ (downsample_fliplr (g1 m) f0 (by omega)) x
  have tr2 : ∀ cors sc, searchCor S { o with ncore := n' } (g2 m.fliplr) cors sc =
      searchCor S { o with ncore := n' } (g2 m).fliplr cors sc := by
    intro cors sc
    rw [searchCor_def, searchCor_def]
    congr 1
    funext x
    exact metric_congr S hS _ _ _ (hG2.fliplr m) x
  rw [tr1] at h'
  simp only [tr2] at h'
  cases hx : searchCor S o D (coarseList m.w (a : ℝ) b) sc1 with
  | none => rw [hx] at h; cases h
  | some x =>
    cases hx' : searchCor S { o with ncore := n' } D.fliplr (coarseList m.w ((m.w : ℝ) - 1 - b) ((m.w : ℝ) - 1 - a)) sc1' with
    | none => rw [hx'] at h'; cases h'
    | some x' =>
      have q := search_mirror S hS o n' D pD.1 pD.2 _ _
        (fun y => by rw [sD]; exact coarse_mirror m.w a b ha hb hab y) raw hraw sc1 sc1' x x' hx hx'
      rw [sD] at q
      rw [hx, q.1] at h
      rw [hx', q.2] at h'
      dsimp only at h h'
      have v1 : raw * ((1 : ℕ) : ℝ) + 0.5 * ((1 : ℕ) : ℝ) = raw + 1 / 2 := by push_cast; norm_num
      have v2 : ((m.w : ℝ) - 1 - raw) * ((1 : ℕ) : ℝ) + 0.5 * ((1 : ℕ) : ℝ) = (m.w : ℝ) - 1 - raw + 1 / 2 := by push_cast; norm_num
      rw [v1, Nat.cast_one] at h
      rw [v2, Nat.cast_one] at h'
      refine ⟨search_only _ _ _ _ _ c hc h, ?_⟩
      exact search_only _ _ _ _ _ _ (by
        refine ⟨?_, fun y hy hne => ?_⟩
        · obtain ⟨z, hz, e⟩ := List.mem_map.1 hc'.1
          rw [show (m.w : ℝ) - 1 - c = z by linarith]
          exact hz
        · have h3 := hc'.2 _ (List.mem_map.2 ⟨y, hy, rfl⟩) (fun e => hne (by rw [← e]; ring))
          have e1 := metric_mirror S hS o (g2 m) c (by omega) (by omega)
          have e2 := metric_mirror S hS o (g2 m) ((m.w : ℝ) - 1 - y) (by omega) (by omega)
          rw [s2.2] at e1 e2
          rw [sub_sub_cancel] at e2
          show metricOf S o (g2 m).fliplr ((m.w : ℝ) - 1 - c) < metricOf S o (g2 m).fliplr y
          rw [e1, e2]
          exact h3) h'

/-- The first entry of a list whose metrics are all equal is the one returned. -/
theorem search_flat (f : ℝ → ℝ) (hf : ∀ c, f c = 0) (x : ℝ) (l : List ℝ) (n : ℕ) (sc : List Ev) (r : Py ℝ)
    (h : search n id f (x :: l) sc = some r) : r = .ok x := by
  rw [search_eq _ _ _ _ _ h]
  unfold argmin
  rw [if_neg (by simp)]
  have : List.findIdx (fun x_1 => List.all (List.map f (x :: l)) fun y => decide (x_1 ≤ y)) (List.map f (x :: l)) = 0 := by
    rw [List.findIdx_eq (by simp)]
    refine ⟨?_, by simp⟩
    simp [hf]
  rw [this]
  rfl

/-- A sinogram that is the same everywhere. -/
def flat (h w : ℕ) (b : ℝ) : Mat ℝ := ⟨h, w, fun _ _ => b⟩

theorem metric_flat (S : Mat ℝ → ℝ → Mat ℝ) (hS : IsShift S) (g : Mat ℝ → Mat ℝ) (hg : IsSmooth g) (o : Opts) (h w : ℕ) (b c : ℝ) (hh : 0 < h)
    (hw : 0 < w) : metricOf S o (g (flat h w b)) c = 0 := by
  have e : flat h w b = aff 0 b (flat h w b) := by unfold flat aff; simp
  have s := hg.shape (flat h w b)
  rw [e, metric_congr S hS o _ _ (hg.affine _ 0 b), metric_affine S hS o _ 0 b c (by rw [s.1]; exact hh) (by rw [s.2]; exact hw)]
  simp

/-- **C132.** The claim on mirroring fails when candidates tie: a sinogram that is the same everywhere is its own mirror image and every candidate
is as good as the others; searched over an interval that is its own mirror image, `[2, 5]` on 8 columns, the call returns 1 and not the
mirrored 6 - for all numbers of workers and all orders in which they finish. -/
theorem find_mirror_refuted (S : Mat ℝ → ℝ → Mat ℝ) (hS : IsShift S) (g1 g2 : Mat ℝ → Mat ℝ) (hG1 : IsSmooth g1) (hG2 : IsSmooth g2)
    (o : Opts) (h : ℕ) (hh : 0 < h) (b : ℝ) (sc1 sc2 : List Ev) (r : Py ℝ)
    (hr : findCenterVo S g1 g2 o (flat h 8 b).fliplr (some (8 - 1 - 5)) (some (8 - 1 - 2)) 1 1 false sc1 sc2 = some r) :
    (flat h 8 b).fliplr = flat h 8 b ∧ r = .ok 1 ∧ r ≠ .ok (8 - 1 - 1) := by
  have key : r = .ok 1 := by
    have f : (flat h 8 b).fliplr = flat h 8 b := rfl
    rw [f] at hr
    unfold findCenterVo coarse fine at hr
    dsimp only [Option.getD_some] at hr
    rw [if_neg Bool.false_ne_true, (hG1.shape _).2, (hG2.shape _).2] at hr
    have e1 : coarseList (flat h 8 b).w ((8 : ℝ) - 1 - 5) (8 - 1 - 2) = [2, 3, 4, 5] := by
      have h2 : pyTrunc (min (max ((8 : ℝ) - 1 - 5) 0) (((8 : ℕ) : ℝ) - 1)) = 2 := by
        rw [max_eq_left (by norm_num), min_eq_left (by norm_num), show (8 : ℝ) - 1 - 5 = ((2 : ℤ) : ℝ) by norm_num]
        unfold pyTrunc
        split <;> simp
      have h5 : pyTrunc (min (max ((8 : ℝ) - 1 - 2) 0) (((8 : ℕ) : ℝ) - 1)) = 5 := by
        rw [max_eq_left (by norm_num), min_eq_left (by norm_num), show (8 : ℝ) - 1 - 2 = ((5 : ℤ) : ℝ) by norm_num]
        unfold pyTrunc
        split <;> simp
      show coarseList 8 _ _ = _
      unfold coarseList
      dsimp only
      rw [h2, h5, show ((5 : ℤ) + 1 - 2).toNat = 4 from rfl]
      norm_num [List.range_succ]
    rw [e1] at hr
    cases hx : searchCor S o (g1 (flat h 8 b)) [2, 3, 4, 5] sc1 with
    | none => rw [hx] at hr; cases hr
    | some x =>
      have := search_flat _ (fun c => metric_flat S hS g1 hG1 o h 8 b c hh (by norm_num)) _ _ _ _ _ hx
      rw [hx, this] at hr
      dsimp only at hr
      have e2 : fineList (flat h 8 b).w (2 : ℝ) 1 1 = [1, 2, 3] := by
        show fineList 8 (2 : ℝ) 1 1 = _
        unfold fineList
        have : ⌈((1 : ℝ) + 1 - -1) / 1⌉.toNat = 3 := by
          rw [show ((1 : ℝ) + 1 - -1) / 1 = ((3 : ℤ) : ℝ) by norm_num, Int.ceil_intCast]
          rfl
        rw [this]
        norm_num [List.range_succ]
      rw [e2] at hr
      exact search_flat _ (fun c => metric_flat S hS g2 hG2 o h 8 b c hh (by norm_num)) _ _ _ _ _ hr
  refine ⟨rfl, key, ?_⟩
  rw [key]
  intro e
  have := Except.ok.inj e
  norm_num at this

/-- Non-vacuity of the hypotheses on the fine search of `find_mirror_dsp_partial`, for a metric with its minimum at column 3 of 8. -/
example : OnlyBest (fun c => (c - 3) ^ 2) (fineList 8 ((3 : ℝ) + 1 / 2) (max 1 1) (1 / 2)) 3 ∧
    OnlyBest (fun c => (c - 3) ^ 2) ((fineList 8 ((8 : ℝ) - 1 - 3 + 1 / 2) (max 1 1) (1 / 2)).map fun x => (8 : ℝ) - 1 - x) 3 := by
  have hn : ⌈((1 : ℝ) + 1 / 2 - -1) / (1 / 2)⌉.toNat = 5 := by
    rw [show ((1 : ℝ) + 1 / 2 - -1) / (1 / 2) = ((5 : ℤ) : ℝ) by norm_num, Int.ceil_intCast]
    rfl
  have e1 : fineList 8 ((3 : ℝ) + 1 / 2) (max 1 1) (1 / 2) = [5 / 2, 3, 7 / 2, 4, 9 / 2] := by
    unfold fineList
    rw [max_self, hn]
    norm_num [List.range_succ]
  have e2 : fineList 8 ((8 : ℝ) - 1 - 3 + 1 / 2) (max 1 1) (1 / 2) = [7 / 2, 4, 9 / 2, 5, 11 / 2] := by
    unfold fineList
    rw [max_self, hn]
    norm_num [List.range_succ]
  rw [e1, e2]
  constructor
  · refine ⟨by simp, fun c' h1 h2 => ?_⟩
    simp only [List.mem_cons, List.not_mem_nil, or_false] at h1
    rcases h1 with rfl | rfl | rfl | rfl | rfl <;> first | exact absurd rfl h2 | norm_num
  · refine ⟨by norm_num, fun c' h1 h2 => ?_⟩
    simp only [List.map_cons, List.map_nil, List.mem_cons, List.not_mem_nil, or_false] at h1
    rcases h1 with rfl | rfl | rfl | rfl | rfl <;> first | (norm_num; done) | (norm_num at h2; done)

/-- Non-vacuity: the call of `find_mirror_refuted` returns, with one worker. -/
example (o : Opts) : findCenterVo linShift mean3 mean3 { o with ncore := 1 } (flat 4 8 3).fliplr (some (8 - 1 - 5)) (some (8 - 1 - 2)) 1 1 false [] []
    = some (.ok 1) := by
  have : ∃ r, findCenterVo linShift mean3 mean3 { o with ncore := 1 } (flat 4 8 3).fliplr (some (8 - 1 - 5)) (some (8 - 1 - 2)) 1 1 false [] []
      = some r := by
    unfold findCenterVo coarse fine searchCor search metricList
    simp only [if_true, Option.map_some, Bool.false_eq_true, if_false]
    split
    · rename_i h; cases h
    · exact ⟨_, rfl⟩
    · exact ⟨_, rfl⟩
  obtain ⟨r, hr⟩ := this
  rw [hr, (find_mirror_refuted linShift linShift_isShift mean3 mean3 mean3_isSmooth mean3_isSmooth _ 4 (by norm_num) 3 [] [] r hr).2.1]

end Verif.CenterMetric
