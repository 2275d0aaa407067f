import Verif.Model.DarkField
import Verif.Lemmas.Chunks
import Verif.Lemmas.Num
import Verif.Props.Center
import Verif.Props.Removal

/-! C38: transmission and dark-field extraction. -/

set_option linter.unusedSectionVars false
set_option linter.unusedSimpArgs false

namespace Verif.DarkField
open Sched

/-! ### specification -/

/-- The `(2r+1) × (2r+1)` window of an image around `(ci, cj)`, row by row. -/
def window (g : Nat → Nat → ℝ) (r : Nat) (ci cj : Int) : List ℝ :=
  (List.range (2 * r + 1)).flatMap fun a : Nat => (List.range (2 * r + 1)).map fun b : Nat => g (ci - r + a).toNat (cj - r + b).toNat

/-- Mean of a list. -/
noncomputable def average (l : List ℝ) : ℝ := l.sum / l.length

/-- Standard deviation of a list: the root of the mean square distance from the mean. -/
noncomputable def deviation (l : List ℝ) : ℝ := Real.sqrt ((l.map fun x => (x - average l) ^ 2).sum / l.length)

theorem mean_eq (l : List ℝ) : mean l = average l := rfl

theorem std_eq (l : List ℝ) : std l = deviation l := by
  unfold std deviation mean average
  rw [List.length_map]

/-- Transmission of a pair of windows: ratio of the means, 1 if one of them vanishes. -/
noncomputable def transmission (l1 l2 : List ℝ) : ℝ :=
  open Classical in if average l1 ≠ 0 ∧ average l2 ≠ 0 then average l2 / average l1 else 1

/-- Dark-field signal of a pair of windows: ratio of the relative standard deviations, 1 where not defined. -/
noncomputable def darkField (l1 l2 : List ℝ) : ℝ :=
  open Classical in
  if average l1 ≠ 0 ∧ average l2 ≠ 0 ∧ deviation l1 ≠ 0 then (deviation l2 / average l2) / (deviation l1 / average l1) else 1

/-- The value at pixel `(i, j)`: averages over the stack of the signals between the reference window around the pixel and the sample
window displaced by the rounded shift. -/
noncomputable def pixelSpec (ref sam : Arr3 ℝ) (xs ys : Nat → Nat → ℝ) (r i j : Nat) : ℝ × ℝ :=
  let W := fun k => window (ref.get k) r i j
  let V := fun k => window (sam.get k) r (i + npRound (ys i j)) (j + npRound (xs i j))
  (average ((List.range ref.d).map fun k => transmission (W k) (V k)), average ((List.range ref.d).map fun k => darkField (W k) (V k)))

/-- Nearest pixel that is at least `pad` away from the borders of an axis of length `n`. -/
def inset (pad n i : Nat) : Nat := max pad (min i (n - pad - 1))

/-! ### slices -/

theorem pySlice_range (n : Nat) (a b : Int) (ha : 0 ≤ a) (hab : a ≤ b) (hb : b ≤ n) :
    pySlice (List.range n) a b = List.range' a.toNat (b - a).toNat := by
  unfold pySlice pyBound
  rw [List.length_range, if_neg (by omega), if_neg (by omega), min_eq_left (by omega), min_eq_left (by omega), List.take_range, List.range_eq_range',
    List.drop_range']
  congr 1 <;> omega

theorem slice2_window (h w : Nat) (g : Nat → Nat → ℝ) (r : Nat) (ci cj : Int) (h1 : (r : Int) ≤ ci) (h2 : ci + r < h)
    (h3 : (r : Int) ≤ cj) (h4 : cj + r < w) : slice2 h w g (ci - r) (ci + r + 1) (cj - r) (cj + r + 1) = window g r ci cj := by
  unfold slice2 window
  rw [pySlice_range _ _ _ (by omega) (by omega) (by omega), pySlice_range _ _ _ (by omega) (by omega) (by omega),
    show (ci + r + 1 - (ci - r)).toNat = 2 * r + 1 by omega, show (cj + r + 1 - (cj - r)).toNat = 2 * r + 1 by omega,
    List.range'_eq_map_range, List.range'_eq_map_range, List.flatMap_map]
  congr 1
  funext a
  rw [List.map_map]
  apply List.map_congr_left
  intro b _
  simp only [Function.comp]
  congr 1 <;> omega

theorem window_ne_nil (g : Nat → Nat → ℝ) (r : Nat) (ci cj : Int) : window g r ci cj ≠ [] := by
  unfold window
  rw [List.range_succ_eq_map]
  simp

theorem tdValues_ok (l1 l2 : List ℝ) (h1 : l1 ≠ []) (h2 : l2 ≠ []) : tdValues l1 l2 = .ok (transmission l1 l2, darkField l1 l2) := by
  unfold tdValues transmission darkField
  simp only [mean_eq, std_eq]
  rw [if_neg (by simp [h1, h2])]
  by_cases hm : average l1 ≠ 0 ∧ average l2 ≠ 0
  · rw [if_pos hm, if_pos hm]
    by_cases hs : deviation l1 ≠ 0
    · rw [if_pos hs, if_pos ⟨hm.1, hm.2, hs⟩]
      congr 2
      have := hm.1
      have := hm.2
      field_simp
    · rw [if_neg hs, if_neg (fun h => hs h.2.2)]
  · rw [if_neg hm, if_neg hm, if_neg (fun h => hm ⟨h.1, h.2.1⟩)]

/-- A pixel all of whose windows are inside the images. -/
theorem pixel_ok (ref sam : Arr3 ℝ) (xs ys : Nat → Nat → ℝ) (r i j : Nat) (hh : sam.h = ref.h) (hw : sam.w = ref.w)
    (hi : r ≤ i ∧ i + r < ref.h) (hj : r ≤ j ∧ j + r < ref.w)
    (hi1 : (r : Int) ≤ i + npRound (ys i j) ∧ i + npRound (ys i j) + r < ref.h)
    (hj1 : (r : Int) ≤ j + npRound (xs i j) ∧ j + npRound (xs i j) + r < ref.w) :
    pixel ref sam xs ys r i j = .ok (pixelSpec ref sam xs ys r i j) := by
  unfold pixel
  dsimp only
  rw [Removal.mapM_all_ok _ (fun k => (transmission (window (ref.get k) r i j)
    (window (sam.get k) r (i + npRound (ys i j)) (j + npRound (xs i j))), darkField (window (ref.get k) r i j)
    (window (sam.get k) r (i + npRound (ys i j)) (j + npRound (xs i j)))))]
  · simp only [pixelSpec, bind, Except.bind, pure, Except.pure, List.map_map]
    rfl
  · intro k _
    rw [slice2_window _ _ _ _ _ _ (by omega) (by omega) (by omega) (by omega), hh, hw,
      slice2_window _ _ _ _ _ _ hi1.1 hi1.2 hj1.1 hj1.2]
    exact tdValues_ok _ _ (window_ne_nil _ _ _ _) (window_ne_nil _ _ _ _)

/-! ### assembling chunks -/

theorem assemble_foldl {α : Type _} (pad : Nat) : ∀ (l : List ((Nat × Nat) × Mat α)) (a z : Nat) (out : Nat → Nat → α),
    Consec a (l.map Prod.fst) z → pad ≤ a →
    (∀ p ∈ l, ∀ i j, p.1.1 - pad ≤ i → i < p.1.2 - pad →
      l.foldl (fun out p i j => if p.1.1 - pad ≤ i ∧ i < p.1.2 - pad then p.2.get (i - (p.1.1 - pad)) j else out i j) out i j =
        p.2.get (i - (p.1.1 - pad)) j) ∧
    (∀ i j, i < a - pad →
      l.foldl (fun out p i j => if p.1.1 - pad ≤ i ∧ i < p.1.2 - pad then p.2.get (i - (p.1.1 - pad)) j else out i j) out i j =
        out i j) := by
  intro l
  induction l with
  | nil => intro a z out _ _; exact ⟨fun p hp => (List.not_mem_nil hp).elim, fun i j _ => rfl⟩
  | cons q l ih =>
    intro a z out h ha
    obtain ⟨h0, h1, h2⟩ : q.1.1 = a ∧ q.1.1 < q.1.2 ∧ Consec q.1.2 (l.map Prod.fst) z := h
    obtain ⟨ih1, ih2⟩ := ih q.1.2 z (fun i j => if q.1.1 - pad ≤ i ∧ i < q.1.2 - pad then q.2.get (i - (q.1.1 - pad)) j
      else out i j) h2 (by omega)
    constructor
    · intro p hp i j hi1 hi2
      rw [List.foldl_cons]
      rcases List.mem_cons.1 hp with rfl | hp
      · rw [ih2 i j hi2, if_pos ⟨hi1, hi2⟩]
      · exact ih1 p hp i j hi1 hi2
    · intro i j hi
      rw [List.foldl_cons, ih2 i j (by omega), if_neg (by omega)]

theorem zip_map_range {α β : Type _} (l : List α) (d : α) (f : Nat → β) (t : Nat) (ht : t < l.length) :
    (l.getD t d, f t) ∈ l.zip ((List.range l.length).map f) := by
  rw [List.mem_iff_getElem]
  refine ⟨t, by simpa using ht, ?_⟩
  simp [List.getD_eq_getElem?_getD, List.getElem?_eq_getElem ht]

/-! ### C38 -/

/-- C38, provable part.  If the shifts do not exceed the margin (`|shift| ≤ margin` everywhere) then, for every number of processes and every
schedule of the workers, the result has the shape of the images and every pixel holds the signal of the true windows (those of the nearest
pixel whose windows fit, at the border): nothing outside the images is read and neither `ncore` nor the chunks matter. -/
theorem dark_field_correct_partial (ref sam : Arr3 ℝ) (xs ys : Nat → Nat → ℝ) (winSize mg ncore : Nat) (sched : List Ev)
    (hd : sam.d = ref.d) (hh : sam.h = ref.h) (hw : sam.w = ref.w)
    (hx : ∀ i < ref.h, ∀ j < ref.w, |xs i j| ≤ mg) (hy : ∀ i < ref.h, ∀ j < ref.w, |ys i j| ≤ mg)
    (hbh : 2 * (winSize / 2 + mg) < ref.h) (hbw : 2 * (winSize / 2 + mg) < ref.w) (hn : 1 ≤ ncore)
    (res : Option (Mat (Py (ℝ × ℝ)))) (hres : getSignal ref sam xs ys winSize (some mg) ncore sched = .ok res)
    (m : Mat (Py (ℝ × ℝ))) (hm : res = some m) :
    m.Eqv ⟨ref.h, ref.w, fun i j => .ok (pixelSpec ref sam xs ys (winSize / 2) (inset (winSize / 2 + mg) ref.h i)
      (inset (winSize / 2 + mg) ref.w j))⟩ := by
  have hround : ∀ x : ℝ, |x| ≤ mg → |npRound x| ≤ (mg : Int) := by
    intro x hx
    have h1 := npRound_abs x
    have h2 : |(npRound x : ℝ)| < mg + 1 := by
      calc |(npRound x : ℝ)| = |((npRound x : ℝ) - x) + x| := by ring_nf
        _ ≤ |(npRound x : ℝ) - x| + |x| := abs_add_le _ _
        _ < mg + 1 := by linarith
    have h3 : |npRound x| < (mg : Int) + 1 := by exact_mod_cast h2
    omega
  have hrad : (2 * (winSize / 2) + 1) / 2 = winSize / 2 := by omega
  have hsig : ∀ i2 j2, i2 < ref.h - 2 * (winSize / 2 + mg) → j2 < ref.w - 2 * (winSize / 2 + mg) →
      pixel ref sam xs ys (winSize / 2) (winSize / 2 + mg + i2) (winSize / 2 + mg + j2) =
        .ok (pixelSpec ref sam xs ys (winSize / 2) (winSize / 2 + mg + i2) (winSize / 2 + mg + j2)) := by
    intro i2 j2 hi2 hj2
    have b1 := abs_le.1 (hround _ (hx (winSize / 2 + mg + i2) (by omega) (winSize / 2 + mg + j2) (by omega)))
    have b2 := abs_le.1 (hround _ (hy (winSize / 2 + mg + i2) (by omega) (winSize / 2 + mg + j2) (by omega)))
    exact pixel_ok ref sam xs ys _ _ _ hh hw ⟨by omega, by omega⟩ ⟨by omega, by omega⟩
      ⟨by push_cast; omega, by push_cast; omega⟩ ⟨by push_cast; omega, by push_cast; omega⟩
  -- the inner part of the result, both branches
  have hfin : ∀ inner : Nat → Nat → Py (ℝ × ℝ),
      (∀ i2 j2, i2 < ref.h - 2 * (winSize / 2 + mg) → j2 < ref.w - 2 * (winSize / 2 + mg) → inner i2 j2 =
        .ok (pixelSpec ref sam xs ys (winSize / 2) (winSize / 2 + mg + i2) (winSize / 2 + mg + j2))) →
      (⟨ref.h, ref.w, fun i j => inner (min (i - (winSize / 2 + mg)) (ref.h - 2 * (winSize / 2 + mg) - 1))
        (min (j - (winSize / 2 + mg)) (ref.w - 2 * (winSize / 2 + mg) - 1))⟩ : Mat (Py (ℝ × ℝ))).Eqv
      ⟨ref.h, ref.w, fun i j => .ok (pixelSpec ref sam xs ys (winSize / 2) (inset (winSize / 2 + mg) ref.h i)
      (inset (winSize / 2 + mg) ref.w j))⟩ := by
    intro inner hin
    refine ⟨rfl, rfl, fun i hi j hj => ?_⟩
    dsimp only
    rw [hin _ _ (by omega) (by omega)]
    unfold inset
    congr 2 <;> omega
  unfold getSignal at hres
  simp only [Option.getD_some, hrad] at hres
  rw [if_neg (by omega), if_neg (by omega)] at hres
  split at hres
  · obtain rfl : _ = res := Except.ok.inj hres
    obtain rfl : _ = m := Option.some.inj hm
    apply hfin
    intro i2 j2 hi2 hj2
    simp only [signal, hrad]
    exact hsig i2 j2 hi2 hj2
  · rename_i hc
    have hnc : ncore ≤ ref.h - 2 * (winSize / 2 + mg) := by
      by_contra hlt
      rw [Nat.div_eq_of_lt (by omega)] at hc
      omega
    obtain ⟨bs, hb1, hb2, hb3, _⟩ := chunkBounds_ok (winSize / 2 + mg) (ref.h - 2 * (winSize / 2 + mg)) ncore (by omega) hnc
    rw [hb1] at hres
    dsimp only at hres
    split at hres
    · obtain rfl : _ = res := Except.ok.inj hres
      cases hm
    · rename_i out hp
      rw [Center.parMap_eq _ _ _ _ _ hp] at hres
      obtain rfl : _ = res := Except.ok.inj hres
      obtain rfl : _ = m := Option.some.inj hm
      apply hfin
      intro i2 j2 hi2 hj2
      obtain ⟨p, hp1, hp2, hp3⟩ := consec_cover _ _ _ hb2 (winSize / 2 + mg + i2) (by omega) (by omega)
      have hpb := consec_bounds _ _ _ hb2 p hp1
      obtain ⟨t, ht, hpt⟩ := List.getElem_of_mem hp1
      have hgd : bs.getD t (0, 0) = p := by rw [List.getD_eq_getElem?_getD, List.getElem?_eq_getElem ht, Option.getD_some, hpt]
      set task : Nat → Mat (Py (ℝ × ℝ)) := fun t =>
        signal (slab ref ((bs.getD t (0, 0)).1 - (winSize / 2 + mg)) ((bs.getD t (0, 0)).2 + (winSize / 2 + mg)))
          (slab sam ((bs.getD t (0, 0)).1 - (winSize / 2 + mg)) ((bs.getD t (0, 0)).2 + (winSize / 2 + mg)))
          (fun i j => xs ((bs.getD t (0, 0)).1 - (winSize / 2 + mg) + i) j)
          (fun i j => ys ((bs.getD t (0, 0)).1 - (winSize / 2 + mg) + i) j) (2 * (winSize / 2) + 1) mg with htask
      have hmem := zip_map_range bs (0, 0) task t ht
      rw [hgd] at hmem
      have hcs : Consec (winSize / 2 + mg) ((bs.zip ((List.range bs.length).map task)).map Prod.fst)
          (winSize / 2 + mg + (ref.h - 2 * (winSize / 2 + mg))) := by
        rw [List.map_fst_zip (by simp)]; exact hb2
      have := (assemble_foldl (winSize / 2 + mg) _ _ _ (fun _ _ => .ok (1, 1)) hcs le_rfl).1 _ hmem i2 j2 (by dsimp only; omega) (by dsimp only; omega)
      unfold assemble
      rw [this, htask]
      dsimp only
      rw [hgd]
      set off := p.1 - (winSize / 2 + mg) with hoff
      -- the pixel computed on the slab
      have b1 := abs_le.1 (hround _ (hx (winSize / 2 + mg + i2) (by omega) (winSize / 2 + mg + j2) (by omega)))
      have b2 := abs_le.1 (hround _ (hy (winSize / 2 + mg + i2) (by omega) (winSize / 2 + mg + j2) (by omega)))
      have hrow : off + (winSize / 2 + mg + (i2 - off)) = winSize / 2 + mg + i2 := by omega
      simp only [signal, hrad]
      have hpix := pixel_ok (slab ref off (p.2 + (winSize / 2 + mg))) (slab sam off (p.2 + (winSize / 2 + mg)))
        (fun i j => xs (off + i) j) (fun i j => ys (off + i) j) (winSize / 2) (winSize / 2 + mg + (i2 - off)) (winSize / 2 + mg + j2)
        rfl hw ⟨by omega, by simp only [slab]; omega⟩ ⟨by omega, by simp only [slab]; omega⟩
        ⟨by rw [hrow]; push_cast; omega, by rw [hrow]; simp only [slab]; push_cast; omega⟩
        ⟨by rw [hrow]; push_cast; omega, by rw [hrow]; simp only [slab]; push_cast; omega⟩
      rw [hpix]
      congr 1
      unfold pixelSpec
      dsimp only
      rw [hrow]
      have hW : ∀ k, window ((slab ref off (p.2 + (winSize / 2 + mg))).get k) (winSize / 2)
          ((winSize / 2 + mg + (i2 - off) : Nat) : Int) ((winSize / 2 + mg + j2 : Nat) : Int) =
          window (ref.get k) (winSize / 2) ((winSize / 2 + mg + i2 : Nat) : Int) ((winSize / 2 + mg + j2 : Nat) : Int) := by
        intro k
        unfold window slab
        apply List.flatMap_congr
        intro a _
        apply List.map_congr_left
        intro b _
        dsimp only
        congr 1
        omega
      have hV : ∀ k, window ((slab sam off (p.2 + (winSize / 2 + mg))).get k) (winSize / 2)
          (((winSize / 2 + mg + (i2 - off) : Nat) : Int) + npRound (ys (winSize / 2 + mg + i2) (winSize / 2 + mg + j2)))
          (((winSize / 2 + mg + j2 : Nat) : Int) + npRound (xs (winSize / 2 + mg + i2) (winSize / 2 + mg + j2))) =
          window (sam.get k) (winSize / 2)
          (((winSize / 2 + mg + i2 : Nat) : Int) + npRound (ys (winSize / 2 + mg + i2) (winSize / 2 + mg + j2)))
          (((winSize / 2 + mg + j2 : Nat) : Int) + npRound (xs (winSize / 2 + mg + i2) (winSize / 2 + mg + j2))) := by
        intro k
        unfold window slab
        apply List.flatMap_congr
        intro a _
        apply List.map_congr_left
        intro b _
        dsimp only
        congr 1
        omega
      simp only [hW, hV]
      rfl

/-- The call itself succeeds under these hypotheses. -/
theorem dark_field_no_error_partial (ref sam : Arr3 ℝ) (xs ys : Nat → Nat → ℝ) (winSize mg ncore : Nat) (sched : List Ev)
    (hbh : 2 * (winSize / 2 + mg) < ref.h) (hbw : 2 * (winSize / 2 + mg) < ref.w) (hn : 1 ≤ ncore) :
    ∃ res, getSignal ref sam xs ys winSize (some mg) ncore sched = .ok res := by
  have hrad : (2 * (winSize / 2) + 1) / 2 = winSize / 2 := by omega
  unfold getSignal
  simp only [Option.getD_some, hrad]
  rw [if_neg (by omega), if_neg (by omega)]
  split
  · exact ⟨_, rfl⟩
  · rename_i hc
    have hnc : ncore ≤ ref.h - 2 * (winSize / 2 + mg) := by
      by_contra hlt
      rw [Nat.div_eq_of_lt (by omega)] at hc
      omega
    obtain ⟨bs, hb1, _⟩ := chunkBounds_ok (winSize / 2 + mg) (ref.h - 2 * (winSize / 2 + mg)) ncore (by omega) hnc
    rw [hb1]
    dsimp only
    split <;> exact ⟨_, rfl⟩

/-- Full C38: for every shift field, default margin included, each pixel of the result is a number. -/
def DarkFieldTotal (margin : Option Nat) (ref sam : Arr3 ℝ) (xs ys : Nat → Nat → ℝ) (winSize ncore : Nat) (sched : List Ev) : Prop :=
  ∀ m, getSignal ref sam xs ys winSize margin ncore sched = .ok (some m) → ∀ i < m.h, ∀ j < m.w, ∃ v, m.get i j = .ok v

theorem maxAbs_const (h w : Nat) (c : ℝ) (hh : 0 < h) (hw : 0 < w) : maxAbs h w (fun _ _ => c) = |c| := by
  have hall : ∀ (l : List ℝ) (x : ℝ), (∀ y ∈ l, y = |c|) → x ≤ |c| → l.foldl max x ≤ |c| ∧ (l ≠ [] → l.foldl max x = |c|) := by
    intro l
    induction l with
    | nil => intro x _ hx; exact ⟨hx, fun h => (h rfl).elim⟩
    | cons a l ih =>
      intro x hl hx
      have ha : a = |c| := hl a (by simp)
      rw [List.foldl_cons]
      have hmax : max x a = |c| := by rw [ha]; exact max_eq_right hx
      rw [hmax]
      have := ih (|c|) (fun y hy => hl y (by simp [hy])) le_rfl
      refine ⟨this.1, fun _ => ?_⟩
      by_cases hn : l = []
      · rw [hn]; rfl
      · exact this.2 hn
  unfold maxAbs
  refine (hall _ 0 ?_ (abs_nonneg c)).2 ?_
  · intro y hy
    simp only [List.mem_flatMap, List.mem_map] at hy
    obtain ⟨_, _, _, _, rfl⟩ := hy
    rfl
  · obtain ⟨h', rfl⟩ : ∃ k, h = k + 1 := ⟨h - 1, by omega⟩
    obtain ⟨w', rfl⟩ : ∃ k, w = k + 1 := ⟨w - 1, by omega⟩
    rw [List.range_succ_eq_map, List.range_succ_eq_map]
    simp

/-- C38 is false of the code with the default margin: on images of any size, a uniform shift of -0.6 pixels in y makes the margin 0 while
the sample window starts at row -1. -/
theorem dark_field_margin_refuted (ref sam : Arr3 ℝ) (hh : 0 < ref.h) (hw : 0 < ref.w) (hd : 0 < ref.d) (hs : sam.h = ref.h) (sched : List Ev) :
    ¬ DarkFieldTotal none ref sam (fun _ _ => 0) (fun _ _ => -(3 / 5)) 1 1 sched := by
  intro H
  have hmg : defaultMargin ref.h ref.w (fun _ _ => (0 : ℝ)) (fun _ _ => -(3 / 5)) = 0 := by
    unfold defaultMargin
    rw [maxAbs_const _ _ _ hh hw, maxAbs_const _ _ _ hh hw, abs_zero, abs_neg, abs_of_pos (by norm_num), max_eq_right (by norm_num)]
    unfold pyTrunc
    rw [if_pos (by norm_num), show ⌊(3 / 5 : ℝ)⌋ = 0 by rw [Int.floor_eq_iff]; norm_num]
    rfl
  have hr : npRound (-(3 / 5) : ℝ) = -1 := by
    have hf : ⌊(-(3 / 5) : ℝ)⌋ = -1 := by rw [Int.floor_eq_iff]; norm_num
    unfold npRound
    rw [hf, if_pos (by norm_num)]
  set out := (⟨ref.h, ref.w, fun i j => (signal ref sam (fun _ _ => 0) (fun _ _ => -(3 / 5)) 1 0).get (min (i - 0) (ref.h - 2 * 0 - 1))
    (min (j - 0) (ref.w - 2 * 0 - 1))⟩ : Mat (Py (ℝ × ℝ))) with hout
  have hg : getSignal ref sam (fun _ _ => 0) (fun _ _ => -(3 / 5)) 1 none 1 sched = .ok (some out) := by
    unfold getSignal
    simp only [Option.getD_none, hmg]
    rw [if_neg (by omega), if_neg (by omega), if_pos (Or.inl (by trivial))]
  obtain ⟨v, hv⟩ := H out hg 0 hh 0 hw
  have : (signal ref sam (fun _ _ => 0) (fun _ _ => -(3 / 5)) 1 0).get 0 0 = .ok v := by
    rw [← hv, hout]; simp
  simp only [signal, pixel, hr] at this
  have hempty : ∀ g : Nat → Nat → ℝ, ∀ c d, slice2 sam.h sam.w g (((1 / 2 + 0 + 0 : Nat) : Int) + -1 - ((1 / 2 : Nat) : Int))
      (((1 / 2 + 0 + 0 : Nat) : Int) + -1 + ((1 / 2 : Nat) : Int) + 1) c d = [] := by
    intro g c d
    have hsl : pySlice (List.range sam.h) (-1) 0 = [] := by
      unfold pySlice pyBound
      simp
    unfold slice2
    rw [show (((1 / 2 + 0 + 0 : Nat) : Int) + -1 - ((1 / 2 : Nat) : Int)) = -1 by norm_num,
      show (((1 / 2 + 0 + 0 : Nat) : Int) + -1 + ((1 / 2 : Nat) : Int) + 1) = 0 by norm_num, hsl]
    rfl
  simp only [hempty] at this
  obtain ⟨d, hd'⟩ : ∃ d, ref.d = d + 1 := ⟨ref.d - 1, by omega⟩
  rw [hd', List.range_succ_eq_map, List.mapM_cons] at this
  simp [tdValues, bind, Except.bind] at this

/-- The hypotheses of the positive theorem are met by a 60 × 80 stack of three images with shifts up to 4 pixels and margin 5, on 2 cores. -/
example : ∃ res, getSignal ⟨3, 60, 80, fun k i j => k + i + 2 * j⟩ ⟨3, 60, 80, fun k i j => k + i * j⟩ (fun _ _ => 4) (fun i _ => if i < 30 then -3 else 7 / 2)
    7 (some 5) 2 [Ev.start 0, Ev.start 1, Ev.finish 1, Ev.finish 0] = .ok res :=
  dark_field_no_error_partial _ _ _ _ _ _ _ _ (by norm_num) (by norm_num) (by norm_num)

end Verif.DarkField
