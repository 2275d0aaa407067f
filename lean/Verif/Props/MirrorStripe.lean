import Verif.Props.StripeScale

/-! C172 — stripe removal treats left and right alike. -/

set_option linter.unusedSectionVars false
set_option linter.unusedSimpArgs false

namespace Verif.StripeFilters
open Verif.Sorting Verif.Removal Verif.Stripe

/-- `m'` is `m` with every row reversed. -/
def Mirrored {α : Type} (m m' : Mat α) : Prop := m'.h = m.h ∧ m'.w = m.w ∧ ∀ i, ∀ j < m.w, m'.get i j = m.get i (m.w - 1 - j)

/-- A filter on images that gives the mirrored result for the mirrored image. -/
def MirrorFilter (f : Mat ℝ → Mat ℝ) : Prop := ∀ m m', Mirrored m m' → Mirrored (f m) (f m') ∧ (f m).w = m.w

/-- A filter on lines of length `n` that gives the reversed result for the reversed line. -/
def MirrorLine (n : ℕ) (f : (ℕ → ℝ) → ℕ → ℝ) : Prop := ∀ g g', (∀ j < n, g' j = g (n - 1 - j)) → ∀ j < n, f g' j = f g (n - 1 - j)

/-- A method gives the mirrored result for the mirrored sinogram of width `w`, and raises for the one if and only if it raises for the other. -/
def MirrorFree (w : ℕ) (f : Mat ℝ → Py (Mat ℝ)) : Prop :=
  ∀ m m', m.w = w → Mirrored m m' →
    (∀ e, f m = .error e → f m' = .error e) ∧ ∀ out, f m = .ok out → out.w = w ∧ ∃ out', f m' = .ok out' ∧ Mirrored out out'

/-- The sorting algorithm depends on the values only, not on the column. -/
def Uniform {A : Type} [LE A] [Inhabited A] (as : Argsort A) : Prop := ∀ r r' l, as.run r l = as.run r' l

theorem ok_bind {α β : Type} (a : α) (f : α → Py β) : ((Except.ok a : Py α) >>= f) = f a := rfl

theorem range_reverse (n : ℕ) : (List.range n).reverse = (List.range n).map fun k => n - 1 - k := by
  apply List.ext_getElem
  · simp
  · intro k h1 h2
    simp

theorem perm_eq_sort {l l' : List ℝ} (h : l.Perm l') : l.mergeSort (fun a b => decide (a ≤ b)) = l'.mergeSort fun a b => decide (a ≤ b) := by
  have srt : ∀ l : List ℝ, (l.mergeSort fun a b => decide (a ≤ b)).Pairwise fun a b => a ≤ b := by
    intro l
    have := List.pairwise_mergeSort (le := fun a b : ℝ => decide (a ≤ b))
      (by intro a b c h1 h2; simp only [decide_eq_true_eq] at *; exact le_trans h1 h2)
      (by intro a b; simp only [Bool.or_eq_true, decide_eq_true_eq]; exact le_total _ _) l
    exact this.imp (fun h => by simpa using h)
  exact List.Perm.eq_of_pairwise (le := fun a b : ℝ => a ≤ b) (fun a b _ _ h h' => le_antisymm h h') (srt l) (srt l')
    ((List.mergeSort_perm _ _).trans (h.trans (List.mergeSort_perm _ _).symm))

theorem reflectIdx_mirror (n : ℕ) (hn : 0 < n) (x : ℤ) : reflectIdx n ((n : ℤ) - 1 - x) = n - 1 - reflectIdx n x := by
  unfold reflectIdx
  dsimp only
  have h0 : (0 : ℤ) < 2 * n := by positivity
  have a1 := Int.emod_nonneg x h0.ne'
  have a2 := Int.emod_lt_of_pos x h0
  have e : ((n : ℤ) - 1 - x) % (2 * n) = if x % (2 * n) < n then n - 1 - x % (2 * n) else 3 * n - 1 - x % (2 * n) := by
    have hx := Int.emod_add_mul_ediv x (2 * n)
    set r := x % (2 * n) with hr
    set q := x / (2 * n) with hq
    split
    · have : (n : ℤ) - 1 - x = (n - 1 - r) + 2 * n * (-q) := by rw [← hx]; ring
      rw [this, Int.add_mul_emod_self_left, Int.emod_eq_of_lt (by omega) (by omega)]
    · have : (n : ℤ) - 1 - x = (3 * n - 1 - r) + 2 * n * (-q - 1) := by rw [← hx]; ring
      rw [this, Int.add_mul_emod_self_left, Int.emod_eq_of_lt (by omega) (by omega)]
  rw [e]
  set r := x % (2 * n) with hr
  by_cases h : r < n
  · rw [if_pos h, if_pos (by omega), if_pos (by omega)]; omega
  · rw [if_neg h, if_neg (by omega), if_neg (by omega)]; omega

/-- The median filter of odd size treats left and right alike. -/
theorem median_mirror (size : ℕ) (hs : size % 2 = 1) : MirrorFilter (medianFilterRow size) := by
  rintro m m' ⟨h1, h2, h3⟩
  refine ⟨⟨h1, h2, fun i j hj => ?_⟩, rfl⟩
  have hj : j < m.w := hj
  show (((List.range size).map fun (k : ℕ) => m'.get i (reflectIdx m'.w ((j : ℤ) - ((size / 2 : ℕ) : ℤ) + (k : ℤ)))).mergeSort (fun a b => decide (a ≤ b))).getD (size / 2) default =
    (((List.range size).map fun (k : ℕ) => m.get i (reflectIdx m.w (((m.w - 1 - j : ℕ) : ℤ) - ((size / 2 : ℕ) : ℤ) + (k : ℤ)))).mergeSort (fun a b => decide (a ≤ b))).getD (size / 2) default
  congr 1
  apply perm_eq_sort
  have hlt : ∀ x, reflectIdx m.w x < m.w := by
    intro x
    unfold reflectIdx
    dsimp only
    have h0 : (0 : ℤ) < 2 * m.w := by omega
    have a1 := Int.emod_nonneg x h0.ne'
    have a2 := Int.emod_lt_of_pos x h0
    split <;> omega
  have e : ((List.range size).map fun (k : ℕ) => m'.get i (reflectIdx m'.w ((j : ℤ) - ((size / 2 : ℕ) : ℤ) + (k : ℤ)))) =
      ((List.range size).map fun (k : ℕ) => m.get i (reflectIdx m.w (((m.w - 1 - j : ℕ) : ℤ) - ((size / 2 : ℕ) : ℤ) + (k : ℤ)))).reverse := by
    rw [← List.map_reverse, range_reverse, List.map_map]
    apply List.map_congr_left
    intro k hk
    have hk : k < size := List.mem_range.1 hk
    show m'.get i (reflectIdx m'.w ((j : ℤ) - ((size / 2 : ℕ) : ℤ) + (k : ℤ))) = m.get i (reflectIdx m.w (((m.w - 1 - j : ℕ) : ℤ) - ((size / 2 : ℕ) : ℤ) + ((size - 1 - k : ℕ) : ℤ)))
    rw [h2, h3 i _ (hlt _), ← reflectIdx_mirror m.w (by omega)]
    congr 2
    omega
  rw [e]
  exact List.reverse_perm _

/-! ### sorting -/

theorem column_mirror {α : Type} [LinearOrder α] [Inhabited α] (m m' : Mat α) (h : Mirrored m m') (c : ℕ) (hc : c < m.w) : line m'.T c = line m.T (m.w - 1 - c) := by
  show (List.range m'.h).map (fun i => m'.get i c) = (List.range m.h).map fun i => m.get i (m.w - 1 - c)
  rw [h.1]
  exact List.map_congr_left fun i _ => h.2.2 i c hc

theorem sortForward_mirror (as1 : Argsort ℝ) (hu : Uniform as1) (m m' : Mat ℝ) (h : Mirrored m m') :
    Mirrored (sortForward as1 0 m).1 (sortForward as1 0 m').1 ∧ Mirrored (sortForward as1 0 m).2 (sortForward as1 0 m').2 := by
  have key : ∀ c < m.w, sortForwardLine (as1.run c) (line m'.T c) = sortForwardLine (as1.run (m.w - 1 - c)) (line m.T (m.w - 1 - c)) := by
    intro c hc
    rw [column_mirror m m' h c hc, show as1.run c = as1.run (m.w - 1 - c) from funext fun l => hu c (m.w - 1 - c) l]
  refine ⟨⟨h.1, h.2.1, fun i j hj => ?_⟩, ⟨h.1, h.2.1, fun i j hj => ?_⟩⟩
  · show (sortForwardLine (as1.run j) (line m'.T j)).1.getD i default = (sortForwardLine (as1.run (m.w - 1 - j)) (line m.T (m.w - 1 - j))).1.getD i default
    rw [key j hj]
  · show (sortForwardLine (as1.run j) (line m'.T j)).2.getD i 0 = (sortForwardLine (as1.run (m.w - 1 - j)) (line m.T (m.w - 1 - j))).2.getD i 0
    rw [key j hj]

theorem sortBackward_mirror (as2 : Argsort ℕ) (hu : Uniform as2) (f f' : Mat ℝ) (x x' : Mat ℕ) (hf : Mirrored f f') (hx : Mirrored x x') (hw : x.w = f.w) :
    Mirrored (sortBackward as2 0 f x) (sortBackward as2 0 f' x') := by
  refine ⟨hf.1, hf.2.1, fun i j hj => ?_⟩
  have hj : j < f.w := hj
  show (sortBackwardLine (as2.run j) (line f'.T j) ((List.range x'.h).map fun i => x'.get i j)).getD i default =
    (sortBackwardLine (as2.run (f.w - 1 - j)) (line f.T (f.w - 1 - j)) ((List.range x.h).map fun i => x.get i (f.w - 1 - j))).getD i default
  rw [column_mirror f f' hf j hj, show as2.run j = as2.run (f.w - 1 - j) from funext fun l => hu j (f.w - 1 - j) l, hx.1]
  congr 2
  exact List.map_congr_left fun i _ => by rw [hx.2.2 i j (by omega), hw]

theorem sorting_mirrored (as1 : Argsort ℝ) (hu1 : Uniform as1) (as2 : Argsort ℕ) (hu2 : Uniform as2) (filt : Mat ℝ → Mat ℝ) (hf : MirrorFilter filt) (m m' : Mat ℝ)
    (h : Mirrored m m') : Mirrored (removeStripeSorting as1 as2 filt m) (removeStripeSorting as1 as2 filt m') ∧ (removeStripeSorting as1 as2 filt m).w = m.w := by
  obtain ⟨h1, h2⟩ := sortForward_mirror as1 hu1 m m' h
  obtain ⟨h3, h4⟩ := hf _ _ h1
  exact ⟨sortBackward_mirror as2 hu2 _ _ _ _ h3 h2 h4.symm, h4⟩

/-- **C172.** `remove_stripe_based_sorting`. -/
theorem sorting_mirror (as1 : Argsort ℝ) (hu1 : Uniform as1) (as2 : Argsort ℕ) (hu2 : Uniform as2) (filt : Mat ℝ → Mat ℝ) (hf : MirrorFilter filt) (w : ℕ) :
    MirrorFree w fun m => .ok (removeStripeSorting as1 as2 filt m) := by
  intro m m' hw h
  refine ⟨fun e he => (by cases he), fun out ho => ?_⟩
  cases ho
  obtain ⟨h1, h2⟩ := sorting_mirrored as1 hu1 as2 hu2 filt hf m m' h
  exact ⟨h2.trans hw, _, rfl, h1⟩

/-! ### normalisation -/

theorem normalizeRows_mirror (filt : (ℕ → ℝ) → ℕ → ℝ) (w : ℕ) (hf : MirrorLine w filt) (numChunk : ℕ) : MirrorFree w (normalizeRows filt numChunk) := by
  intro m m' hw h
  unfold normalizeRows
  rw [h.1]
  cases chunkBounds 0 m.h numChunk with
  | error e => exact ⟨fun e' h => h, fun out h => by cases h⟩
  | ok bs =>
    refine ⟨fun e he => (by cases he), fun out ho => ?_⟩
    cases ho
    refine ⟨hw, _, rfl, rfl, h.2.1, ?_⟩
    have key : ∀ (bs : List (ℕ × ℕ)) (s s' : ℕ → ℕ → ℝ), (∀ i, ∀ j < w, s' i j = s i (w - 1 - j)) → ∀ i, ∀ j < w,
        bs.foldl (fun s p i => if p.1 ≤ i ∧ i < p.2 then (fun c => s i c + (filt (rowMean s p.1 p.2) c - rowMean s p.1 p.2 c)) else s i) s' i j =
        bs.foldl (fun s p i => if p.1 ≤ i ∧ i < p.2 then (fun c => s i c + (filt (rowMean s p.1 p.2) c - rowMean s p.1 p.2 c)) else s i) s i (w - 1 - j) := by
      intro bs
      induction bs with
      | nil => intro s s' hs; exact hs
      | cons p bs ih =>
        intro s s' hs
        simp only [List.foldl_cons]
        apply ih
        intro i j hj
        have hm : ∀ j < w, rowMean s' p.1 p.2 j = rowMean s p.1 p.2 (w - 1 - j) := by
          intro j hj
          unfold rowMean
          rw [Finset.sum_congr rfl fun i _ => hs i j hj]
        by_cases hp : p.1 ≤ i ∧ i < p.2
        · rw [if_pos hp, if_pos hp]
          show s' i j + (filt (rowMean s' p.1 p.2) j - rowMean s' p.1 p.2 j) = _
          rw [hs i j hj, hm j hj, hf _ _ hm j hj]
        · rw [if_neg hp, if_neg hp, hs i j hj]
    intro i j hj
    have hj : j < m.w := hj
    show _ = _
    rw [← hw] at key
    exact key bs m.get m'.get h.2.2 i j hj

/-- **C172.** `remove_stripe_based_normalization`. -/
theorem normalization_mirror (as1 : Argsort ℝ) (hu1 : Uniform as1) (as2 : Argsort ℕ) (hu2 : Uniform as2) (filt : (ℕ → ℝ) → ℕ → ℝ) (w : ℕ)
    (hf : MirrorLine w filt) (numChunk : ℕ) (sort : Bool) : MirrorFree w (removeNormalization as1 as2 filt numChunk sort) := by
  intro m m' hw h
  unfold removeNormalization
  cases sort with
  | false => exact normalizeRows_mirror filt w hf numChunk m m' hw h
  | true =>
    simp only [if_true]
    obtain ⟨h1, h2⟩ := sortForward_mirror as1 hu1 m m' h
    obtain ⟨k1, k2⟩ := normalizeRows_mirror filt w hf numChunk _ _ (show (sortForward as1 0 m).1.w = w from hw) h1
    cases hr : normalizeRows filt numChunk (sortForward as1 0 m).1 with
    | error e =>
      rw [k1 e hr]
      exact ⟨fun e' h => h, fun out h => by cases h⟩
    | ok r =>
      obtain ⟨hrw, r', hr', hm⟩ := k2 r hr
      rw [hr']
      refine ⟨fun e he => (by cases he), fun out ho => ?_⟩
      cases ho
      exact ⟨hrw, _, rfl, sortBackward_mirror as2 hu2 _ _ _ _ hm h2 (hw.trans hrw.symm)⟩

/-! ### detection -/

theorem npSort_perm {l l' : List ℝ} (h : l.Perm l') : npSort l = npSort l' := by
  unfold npSort
  exact List.Perm.eq_of_pairwise (le := fun a b : ℝ => a ≤ b) (fun a b _ _ h h' => le_antisymm h h') (List.pairwise_insertionSort _ _)
    (List.pairwise_insertionSort _ _) ((List.perm_insertionSort _ _).trans (h.trans (List.perm_insertionSort _ _).symm))

theorem detectStripe_reverse (l : List ℝ) (snr : ℝ) : detectStripe l.reverse snr = (detectStripe l snr).map List.reverse := by
  unfold detectStripe
  dsimp only
  rw [npSort_perm (List.reverse_perm l), List.length_reverse]
  split_ifs
  · rfl
  · rfl
  · show Except.ok _ = Except.ok _
    rw [List.map_reverse]

theorem detectStripe_length (l : List ℝ) (snr : ℝ) (d : List Bool) (h : detectStripe l snr = .ok d) : d.length = l.length := by
  unfold detectStripe at h
  dsimp only at h
  split_ifs at h
  cases h
  rw [List.length_map]

/-- The detector treats left and right alike. -/
theorem detectFn_mirror (n : ℕ) (snr : ℝ) (v v' : ℕ → ℝ) (hv : ∀ j < n, v' j = v (n - 1 - j)) :
    (∀ e, detectFn n snr v = .error e → detectFn n snr v' = .error e) ∧
    ∀ d, detectFn n snr v = .ok d → ∃ d', detectFn n snr v' = .ok d' ∧ ∀ j < n, d' j = d (n - 1 - j) := by
  have e : (List.range n).map v' = ((List.range n).map v).reverse := by
    rw [← List.map_reverse, range_reverse, List.map_map]
    exact List.map_congr_left fun j hj => hv j (List.mem_range.1 hj)
  unfold detectFn
  rw [e, detectStripe_reverse]
  cases hd : detectStripe ((List.range n).map v) snr with
  | error e => exact ⟨fun e' h => h, fun out h => by cases h⟩
  | ok d =>
    refine ⟨fun e he => (by cases he), fun out ho => ?_⟩
    cases ho
    refine ⟨_, rfl, fun j hj => ?_⟩
    have hl : d.length = n := by rw [detectStripe_length _ _ _ hd]; simp
    show d.reverse.getD j false = d.getD (n - 1 - j) false
    rw [List.getD_eq_getElem?_getD, List.getD_eq_getElem?_getD, List.getElem?_reverse (by omega), hl]

theorem dilate_mirror (n : ℕ) (d d' : ℕ → Bool) (h : ∀ j < n, d' j = d (n - 1 - j)) (j : ℕ) (hj : j < n) : dilate n d' j = dilate n d (n - 1 - j) := by
  unfold dilate
  rw [h j hj]
  have e1 : (decide (1 ≤ j) && d' (j - 1)) = (decide (n - 1 - j + 1 < n) && d (n - 1 - j + 1)) := by
    by_cases h1 : 1 ≤ j
    · rw [h (j - 1) (by omega), show n - 1 - (j - 1) = n - 1 - j + 1 by omega]
      have : n - 1 - j + 1 < n := by omega
      simp [h1, this]
    · have : ¬ n - 1 - j + 1 < n := by omega
      simp [h1, this]
  have e2 : (decide (j + 1 < n) && d' (j + 1)) = (decide (1 ≤ n - 1 - j) && d (n - 1 - j - 1)) := by
    by_cases h1 : j + 1 < n
    · rw [h (j + 1) h1, show n - 1 - (j + 1) = n - 1 - j - 1 by omega]
      have : 1 ≤ n - 1 - j := by omega
      simp [h1, this]
    · have : ¬ 1 ≤ n - 1 - j := by omega
      simp [h1, this]
  rw [e1, e2, Bool.or_assoc, Bool.or_comm (_ && _), ← Bool.or_assoc]

theorem zeroEdges_mirror (n : ℕ) (d d' : ℕ → Bool) (h : ∀ j < n, d' j = d (n - 1 - j)) (j : ℕ) (hj : j < n) : zeroEdges n d' j = zeroEdges n d (n - 1 - j) := by
  unfold zeroEdges
  by_cases hc : j < 2 ∨ n - 2 ≤ j
  · rw [if_pos hc, if_pos (by omega)]
  · rw [if_neg hc, if_neg (by omega), h j hj]

theorem count_mirror (n : ℕ) (d d' : ℕ → Bool) (h : ∀ j < n, d' j = d (n - 1 - j)) : ((List.range n).filter d').length = ((List.range n).filter d).length := by
  rw [← List.countP_eq_length_filter, ← List.countP_eq_length_filter, ← List.countP_reverse (l := List.range n) (p := d), range_reverse, List.countP_map]
  exact List.countP_congr fun j hj => by rw [h j (List.mem_range.1 hj)]; rfl

/-! ### large stripes -/

theorem rowMean_mirror (m m' : Mat ℝ) (h : Mirrored m m') (b e c : ℕ) (hc : c < m.w) : rowMean m'.get b e c = rowMean m.get b e (m.w - 1 - c) := by
  unfold rowMean
  rw [Finset.sum_congr rfl fun i _ => h.2.2 i c hc]

theorem largeFact_mirror (as1 : Argsort ℝ) (hu1 : Uniform as1) (smooth : Mat ℝ → Mat ℝ) (hs : MirrorFilter smooth) (ndrop : ℕ) (m m' : Mat ℝ) (h : Mirrored m m') (c : ℕ)
    (hc : c < m.w) : largeFact as1 smooth ndrop m' c = largeFact as1 smooth ndrop m (m.w - 1 - c) := by
  obtain ⟨h1, _⟩ := sortForward_mirror as1 hu1 m m' h
  obtain ⟨h3, h4⟩ := hs _ _ h1
  have hw : (sortForward as1 0 m).1.w = m.w := rfl
  unfold largeFact
  dsimp only
  rw [h.1, rowMean_mirror _ _ h1 _ _ c hc, rowMean_mirror _ _ h3 _ _ c (by rw [h4]; exact hc), h4, hw]

/-- **C172.** `remove_large_stripe`. -/
theorem large_mirror (as1 : Argsort ℝ) (hu1 : Uniform as1) (as2 : Argsort ℕ) (hu2 : Uniform as2) (smooth : Mat ℝ → Mat ℝ) (hs : MirrorFilter smooth) (snr : ℝ)
    (ndrop : ℕ) (norm : Bool) (w : ℕ) : MirrorFree w (removeLargeStripe as1 as2 smooth snr ndrop norm) := by
  intro m m' hw h
  have hfact := largeFact_mirror as1 hu1 smooth hs ndrop m m' h
  obtain ⟨k1, k2⟩ := detectFn_mirror m.w snr (largeFact as1 smooth ndrop m) (largeFact as1 smooth ndrop m') hfact
  unfold removeLargeStripe removeLarge largeMask
  dsimp only
  rw [h.2.1]
  cases hd : detectFn m.w snr (largeFact as1 smooth ndrop m) with
  | error e =>
    rw [k1 e hd]
    exact ⟨fun e' h => h, fun out h => by cases h⟩
  | ok d =>
    obtain ⟨d', hd', hdm⟩ := k2 d hd
    rw [hd']
    refine ⟨fun e he => (by cases he), fun out ho => ?_⟩
    cases ho
    refine ⟨hw, _, rfl, h.1, rfl, fun i j hj => ?_⟩
    have hj : j < m.w := hj
    obtain ⟨g1, g2⟩ := sorting_mirrored as1 hu1 as2 hu2 smooth hs m m' h
    have g3 := g1.2.2 i j (by rw [g2]; exact hj)
    rw [g2] at g3
    show (if dilate m.w d' j then (removeStripeSorting as1 as2 smooth m').get i j else if norm then m'.get i j / largeFact as1 smooth ndrop m' j else m'.get i j) =
      if dilate m.w d (m.w - 1 - j) then (removeStripeSorting as1 as2 smooth m).get i (m.w - 1 - j) else
        if norm then m.get i (m.w - 1 - j) / largeFact as1 smooth ndrop m (m.w - 1 - j) else m.get i (m.w - 1 - j)
    rw [dilate_mirror m.w d d' hdm j hj, g3, h.2.2 i j hj, hfact j hj]

/-! ### unresponsive stripes -/

theorem find_congr {α : Type} (l : List α) (p q : α → Bool) (h : ∀ a ∈ l, p a = q a) : l.find? p = l.find? q := by
  induction l with
  | nil => rfl
  | cons a l ih =>
    rw [List.find?_cons, List.find?_cons, h a (by simp), ih fun b hb => h b (by simp [hb])]

theorem nextGood_mirror (n : ℕ) (good good' : ℕ → Bool) (h : ∀ j < n, good' j = good (n - 1 - j)) (x : ℕ) (hx : x < n) :
    nextGood good n (n - 1 - x) = (prevGood good' x).map fun a => n - 1 - a := by
  unfold nextGood prevGood
  have e : (List.range n).drop (n - 1 - x + 1) = (List.range x).reverse.map fun a => n - 1 - a := by
    apply List.ext_getElem
    · simp; omega
    · intro k h1 h2
      simp at h1 h2 ⊢
      omega
  rw [e, List.find?_map]
  congr 1
  apply find_congr
  intro a ha
  have : a < x := by simpa using ha
  show good (n - 1 - a) = good' a
  rw [h a (by omega)]

theorem linInterp_mirror (n : ℕ) (good good' : ℕ → Bool) (h : ∀ j < n, good' j = good (n - 1 - j)) (f f' : ℕ → ℝ) (hf : ∀ j < n, f' j = f (n - 1 - j)) (x : ℕ)
    (hx : x < n) : linInterp good' n f' x = linInterp good n f (n - 1 - x) := by
  have h' : ∀ j < n, good j = good' (n - 1 - j) := by
    intro j hj
    rw [h (n - 1 - j) (by omega), show n - 1 - (n - 1 - j) = j by omega]
  have e1 := nextGood_mirror n good good' h x hx
  have e2 := nextGood_mirror n good' good h' (n - 1 - x) (by omega)
  rw [show n - 1 - (n - 1 - x) = x by omega] at e2
  unfold linInterp
  rw [e1, e2]
  cases ha : prevGood good' x with
  | none => cases prevGood good (n - 1 - x) <;> rfl
  | some a =>
    cases hb : prevGood good (n - 1 - x) with
    | none => rfl
    | some b =>
      have la : a < x := by
        have := List.mem_of_find?_eq_some ha
        simpa using this
      have lb : b < n - 1 - x := by
        have := List.mem_of_find?_eq_some hb
        simpa using this
      show Except.ok _ = Except.ok _
      congr 1
      rw [hf a (by omega), hf (n - 1 - b) (by omega), show n - 1 - (n - 1 - b) = b by omega]
      rw [Nat.cast_sub (by omega : b ≤ n - 1), Nat.cast_sub (by omega : x ≤ n - 1), Nat.cast_sub (by omega : a ≤ n - 1)]
      set N : ℝ := ((n - 1 : ℕ) : ℝ)
      have hne : N - b - a ≠ 0 := by
        have : (0 : ℝ) < N - b - a := by
          have : ((b + a : ℕ) : ℝ) < ((n - 1 : ℕ) : ℝ) := by exact_mod_cast (by omega : b + a < n - 1)
          push_cast at this
          show (0 : ℝ) < ((n - 1 : ℕ) : ℝ) - b - a
          linarith
        exact this.ne'
      have hne' : N - a - b ≠ 0 := by
        intro h0; apply hne; linarith
      have e3 : N - a - b = N - b - a := by ring
      rw [e3]
      field_simp
      ring

theorem fillLine_mirror (n : ℕ) (good good' miss miss' : ℕ → Bool) (hg : ∀ j < n, good' j = good (n - 1 - j)) (hm : ∀ j < n, miss' j = miss (n - 1 - j))
    (f f' : ℕ → ℝ) (hf : ∀ j < n, f' j = f (n - 1 - j)) :
    (∀ e, fillLine good miss n f = .error e → fillLine good' miss' n f' = .error e) ∧
    ∀ g, fillLine good miss n f = .ok g → ∃ g', fillLine good' miss' n f' = .ok g' ∧ ∀ j < n, g' j = g (n - 1 - j) := by
  have hall : ((List.range n).all fun j => !miss' j || (linInterp good' n f' j).isOk) = (List.range n).all fun j => !miss j || (linInterp good n f j).isOk := by
    rw [Bool.eq_iff_iff, List.all_eq_true, List.all_eq_true]
    constructor
    · intro H j hj
      have hj : j < n := List.mem_range.1 hj
      have := H (n - 1 - j) (List.mem_range.2 (by omega))
      rw [hm _ (by omega), linInterp_mirror n good good' hg f f' hf _ (by omega), show n - 1 - (n - 1 - j) = j by omega] at this
      exact this
    · intro H j hj
      have hj : j < n := List.mem_range.1 hj
      rw [hm j hj, linInterp_mirror n good good' hg f f' hf j hj]
      exact H (n - 1 - j) (List.mem_range.2 (by omega))
  unfold fillLine
  rw [hall]
  by_cases hc : ((List.range n).all fun j => !miss j || (linInterp good n f j).isOk) = true
  · rw [if_pos hc, if_pos hc]
    refine ⟨fun e he => (by cases he), fun g ho => ⟨_, rfl, fun j hj => ?_⟩⟩
    cases ho
    dsimp only
    rw [hm j hj, linInterp_mirror n good good' hg f f' hf j hj, hf j hj]
  · rw [if_neg hc, if_neg hc]
    exact ⟨fun e' h => h, fun out h => by cases h⟩

theorem fillMat_mirror (good good' miss miss' : ℕ → Bool) (m m' : Mat ℝ) (h : Mirrored m m') (hg : ∀ j < m.w, good' j = good (m.w - 1 - j))
    (hm : ∀ j < m.w, miss' j = miss (m.w - 1 - j)) :
    (∀ e, fillMat good miss m = .error e → fillMat good' miss' m' = .error e) ∧
    ∀ out, fillMat good miss m = .ok out → out.w = m.w ∧ ∃ out', fillMat good' miss' m' = .ok out' ∧ Mirrored out out' := by
  unfold fillMat
  rw [h.1, h.2.1, count_mirror m.w good good' hg]
  by_cases hc : m.h < 2 ∨ ((List.range m.w).filter good).length < 2
  · rw [if_pos hc, if_pos hc]
    exact ⟨fun e' h => h, fun out h => by cases h⟩
  · rw [if_neg hc, if_neg hc]
    have rows : ∀ l : List ℕ,
        (∀ e, (l.mapM fun i => fillLine good miss m.w (m.get i)) = .error e → (l.mapM fun i => fillLine good' miss' m.w (m'.get i)) = .error e) ∧
        ∀ r, (l.mapM fun i => fillLine good miss m.w (m.get i)) = .ok r → ∃ r', (l.mapM fun i => fillLine good' miss' m.w (m'.get i)) = .ok r' ∧
          r'.length = r.length ∧ ∀ i < r.length, ∀ j < m.w, ∀ a a', (r'.getD i a') j = (r.getD i a) (m.w - 1 - j) := by
      intro l
      induction l with
      | nil =>
        refine ⟨fun e h => h, fun r hr => ⟨[], rfl, ?_⟩⟩
        cases hr
        exact ⟨rfl, fun i hi => absurd hi (by simp)⟩
      | cons i l ih =>
        obtain ⟨k1, k2⟩ := fillLine_mirror m.w good good' miss miss' hg hm (m.get i) (m'.get i) (h.2.2 i)
        obtain ⟨i1, i2⟩ := ih
        rw [List.mapM_cons, List.mapM_cons]
        cases hg : fillLine good miss m.w (m.get i) with
        | error e =>
          rw [k1 e hg]
          exact ⟨fun e' h => h, fun out h => by cases h⟩
        | ok g =>
          obtain ⟨g', hg', hgm⟩ := k2 g hg
          rw [hg']
          cases hr : l.mapM fun i => fillLine good miss m.w (m.get i) with
          | error e =>
            have := i1 e hr
            refine ⟨fun e' h' => ?_, fun out h => by cases h⟩
            cases h'
            show (do let r ← l.mapM fun i => fillLine good' miss' m.w (m'.get i); _) = _
            rw [this]; rfl
          | ok r =>
            obtain ⟨r', hr', hlen, hrm⟩ := i2 r hr
            refine ⟨fun e he => (by cases he), fun out ho => ⟨g' :: r', ?_, ?_⟩⟩
            · show (do let r ← l.mapM fun i => fillLine good' miss' m.w (m'.get i); _) = _
              rw [hr']; rfl
            · cases ho
              refine ⟨by simp [hlen], fun q hq j hj a a' => ?_⟩
              cases q with
              | zero => exact hgm j hj
              | succ q =>
                have := hrm q (by simpa using hq) j hj a a'
                simpa using this
    obtain ⟨r1, r2⟩ := rows (List.range m.h)
    cases hr : (List.range m.h).mapM fun i => fillLine good miss m.w (m.get i) with
    | error e =>
      rw [r1 e hr]
      exact ⟨fun e' h => h, fun out h => by cases h⟩
    | ok r =>
      obtain ⟨r', hr', hlen, hrm⟩ := r2 r hr
      rw [hr']
      refine ⟨fun e he => (by cases he), fun out ho => ?_⟩
      cases ho
      refine ⟨rfl, _, rfl, rfl, rfl, fun i j hj => ?_⟩
      have hj : j < m.w := hj
      show (r'.getD i (m'.get i)) j = (r.getD i (m.get i)) (m.w - 1 - j)
      by_cases hi : i < r.length
      · exact hrm i hi j hj _ _
      · rw [List.getD_eq_default _ _ (by omega), List.getD_eq_default _ _ (by omega)]
        exact h.2.2 i j hj

theorem deadFact_mirror (unif med : ℕ → (ℕ → ℝ) → ℕ → ℝ) (m m' : Mat ℝ) (hm : MirrorLine m.w (med m.w)) (h : Mirrored m m') (c : ℕ) (hc : c < m.w) :
    deadFact unif med m' c = deadFact unif med m (m.w - 1 - c) := by
  unfold deadFact
  dsimp only
  rw [h.1, h.2.1]
  have e1 : ∀ c < m.w, ∑ i ∈ Finset.range m.h, |m'.get i c - unif m.h (fun i => m'.get i c) i| =
      ∑ i ∈ Finset.range m.h, |m.get i (m.w - 1 - c) - unif m.h (fun i => m.get i (m.w - 1 - c)) i| := by
    intro c hc
    have : (fun i => m'.get i c) = fun i => m.get i (m.w - 1 - c) := funext fun i => h.2.2 i c hc
    refine Finset.sum_congr rfl fun i _ => ?_
    rw [this, h.2.2 i c hc]
  have e2 := hm (fun c => ∑ i ∈ Finset.range m.h, |m.get i c - unif m.h (fun i => m.get i c) i|)
    (fun c => ∑ i ∈ Finset.range m.h, |m'.get i c - unif m.h (fun i => m'.get i c) i|) e1
  have e3 : ∑ c ∈ Finset.range m.w, |med m.w (fun c => ∑ i ∈ Finset.range m.h, |m'.get i c - unif m.h (fun i => m'.get i c) i|) c| =
      ∑ c ∈ Finset.range m.w, |med m.w (fun c => ∑ i ∈ Finset.range m.h, |m.get i c - unif m.h (fun i => m.get i c) i|) c| := by
    rw [← Finset.sum_range_reflect]
    refine Finset.sum_congr rfl fun c hc => ?_
    have hc : c < m.w := Finset.mem_range.1 hc
    rw [e2 _ (by omega), show m.w - 1 - (m.w - 1 - c) = c by omega]
  rw [e1 c hc, e2 c hc, e3]

/-- **C172.** `remove_dead_stripe`. -/
theorem dead_mirror (unif med : ℕ → (ℕ → ℝ) → ℕ → ℝ) (w : ℕ) (hm : MirrorLine w (med w)) (snr : ℝ) (large : Mat ℝ → Py (Mat ℝ)) (hl : MirrorFree w large)
    (residual : Bool) : MirrorFree w (removeDeadStripe unif med snr large residual) := by
  intro m m' hw h
  have hfact := deadFact_mirror unif med m m' (by rw [hw]; exact hm) h
  obtain ⟨k1, k2⟩ := detectFn_mirror m.w snr (deadFact unif med m) (deadFact unif med m') hfact
  unfold removeDeadStripe removeDead deadMask
  dsimp only
  rw [h.2.1]
  cases hd : detectFn m.w snr (deadFact unif med m) with
  | error e =>
    rw [k1 e hd]
    exact ⟨fun e' h => h, fun out h => by cases h⟩
  | ok d =>
    obtain ⟨d', hd', hdm⟩ := k2 d hd
    rw [hd']
    set mk := zeroEdges m.w (dilate m.w d) with hmk
    set mk' := zeroEdges m.w (dilate m.w d') with hmk'
    have hmm : ∀ j < m.w, mk' j = mk (m.w - 1 - j) := zeroEdges_mirror m.w _ _ (dilate_mirror m.w d d' hdm)
    obtain ⟨f1, f2⟩ := fillMat_mirror (fun j => !mk j) (fun j => !mk' j) mk mk' m m' h (fun j hj => by rw [hmm j hj]) hmm
    simp only [ok_bind]
    rw [← hmk, ← hmk']
    cases hf : fillMat (fun j => !mk j) mk m with
    | error e =>
      rw [f1 e hf]
      exact ⟨fun e' h => h, fun out h => by cases h⟩
    | ok f =>
      obtain ⟨hfw, f', hf', hfm⟩ := f2 f hf
      rw [hf']
      have hs : Mirrored (if ((List.range m.w).filter mk).length < m.w / 3 ∧ 0 < ((List.range m.w).filter mk).length then f else m)
          (if ((List.range m.w).filter mk').length < m.w / 3 ∧ 0 < ((List.range m.w).filter mk').length then f' else m') := by
        rw [count_mirror m.w mk mk' hmm]
        split
        · exact hfm
        · exact h
      have hsw : (if ((List.range m.w).filter mk).length < m.w / 3 ∧ 0 < ((List.range m.w).filter mk).length then f else m).w = w := by
        split
        · exact hfw.trans hw
        · exact hw
      cases residual with
      | true => exact hl _ _ hsw hs
      | false =>
        refine ⟨fun e he => (by cases he), fun out ho => ?_⟩
        cases ho
        exact ⟨hsw, _, rfl, hs⟩

/-- **C172.** `remove_all_stripe`. -/
theorem all_mirror (as1 : Argsort ℝ) (hu1 : Uniform as1) (as2 : Argsort ℕ) (hu2 : Uniform as2) (unif med : ℕ → (ℕ → ℝ) → ℕ → ℝ) (w : ℕ) (hm : MirrorLine w (med w))
    (smooth filt : Mat ℝ → Mat ℝ) (hs : MirrorFilter smooth) (hf : MirrorFilter filt) (snr : ℝ) (ndrop : ℕ) :
    MirrorFree w (removeAll as1 as2 unif med smooth filt snr ndrop) := by
  intro m m' hw h
  have hl := large_mirror as1 hu1 as2 hu2 smooth hs snr ndrop true w
  obtain ⟨a1, a2⟩ := dead_mirror unif med w hm snr (fun s => removeLargeStripe as1 as2 smooth snr ndrop true s) hl false m m' hw h
  unfold removeAll
  cases ha : removeDeadStripe unif med snr (fun s => removeLargeStripe as1 as2 smooth snr ndrop true s) false m with
  | error e =>
    rw [a1 e ha]
    exact ⟨fun e' h => h, fun out h => by cases h⟩
  | ok a =>
    obtain ⟨haw, a', ha', ham⟩ := a2 a ha
    rw [ha']
    obtain ⟨b1, b2⟩ := hl a a' haw ham
    simp only [ok_bind]
    cases hb : removeLargeStripe as1 as2 smooth snr ndrop true a with
    | error e =>
      rw [b1 e hb]
      exact ⟨fun e' h => h, fun out h => by cases h⟩
    | ok b =>
      obtain ⟨hbw, b', hb', hbm⟩ := b2 b hb
      rw [hb']
      exact sorting_mirror as1 hu1 as2 hu2 filt hf w b b' hbw hbm

/-! ### interpolation -/

theorem interpFact_mirror (smooth : Mat ℝ → Mat ℝ) (hs : MirrorFilter smooth) (ndrop : ℕ) (m m' : Mat ℝ) (h : Mirrored m m') (c : ℕ) (hc : c < m.w) :
    interpFact smooth ndrop m' c = interpFact smooth ndrop m (m.w - 1 - c) := by
  have h1 : Mirrored (sortCols m) (sortCols m') := by
    refine ⟨h.1, h.2.1, fun i j hj => ?_⟩
    show (npSort ((List.range m'.h).map fun i => m'.get i j)).getD i 0 = (npSort ((List.range m.h).map fun i => m.get i (m.w - 1 - j))).getD i 0
    rw [h.1, List.map_congr_left fun i _ => h.2.2 i j hj]
  obtain ⟨h3, h4⟩ := hs _ _ h1
  have hw : (sortCols m).w = m.w := rfl
  unfold interpFact
  dsimp only
  rw [h.1, rowMean_mirror _ _ h1 _ _ c hc, rowMean_mirror _ _ h3 _ _ c (by rw [h4]; exact hc), h4, hw]

/-- **C172.** `remove_stripe_based_interpolation`, for interpolations `sp` that treat left and right alike. -/
theorem interpolation_mirror (sp : ℕ → (ℕ → Bool) → ℕ → (ℕ → ℝ) → ℕ → ℝ) (w : ℕ)
    (hsp : ∀ d good good' f f', (∀ j < w, good' j = good (w - 1 - j)) → (∀ j < w, f' j = f (w - 1 - j)) → ∀ j < w, sp d good' w f' j = sp d good w f (w - 1 - j))
    (smooth : Mat ℝ → Mat ℝ) (hs : MirrorFilter smooth) (snr : ℝ) (ndrop : ℕ) (norm : Bool) (kind : Kind) :
    MirrorFree w (removeInterpolation sp smooth snr ndrop norm kind) := by
  intro m m' hw h
  have hfact := interpFact_mirror smooth hs ndrop m m' h
  obtain ⟨k1, k2⟩ := detectFn_mirror m.w snr (interpFact smooth ndrop m) (interpFact smooth ndrop m') hfact
  unfold removeInterpolation
  dsimp only
  rw [h.2.1]
  cases hd : detectFn m.w snr (interpFact smooth ndrop m) with
  | error e =>
    rw [k1 e hd]
    exact ⟨fun e' h => h, fun out h => by cases h⟩
  | ok d =>
    obtain ⟨d', hd', hdm⟩ := k2 d hd
    rw [hd']
    simp only [ok_bind]
    have hmm : ∀ j < m.w, zeroEdges m.w (dilate m.w d') j = zeroEdges m.w (dilate m.w d) (m.w - 1 - j) := zeroEdges_mirror m.w _ _ (dilate_mirror m.w d d' hdm)
    have hsm : Mirrored (if norm then (⟨m.h, m.w, fun i c => m.get i c / interpFact smooth ndrop m c⟩ : Mat ℝ) else m)
        (if norm then ⟨m'.h, m.w, fun i c => m'.get i c / interpFact smooth ndrop m' c⟩ else m') := by
      cases norm with
      | false => exact h
      | true =>
        refine ⟨h.1, rfl, fun i j hj => ?_⟩
        show m'.get i j / interpFact smooth ndrop m' j = m.get i (m.w - 1 - j) / interpFact smooth ndrop m (m.w - 1 - j)
        rw [h.2.2 i j hj, hfact j hj]
    have hsw : (if norm then (⟨m.h, m.w, fun i c => m.get i c / interpFact smooth ndrop m c⟩ : Mat ℝ) else m).w = m.w := by cases norm <;> rfl
    generalize (if norm then (⟨m.h, m.w, fun i c => m.get i c / interpFact smooth ndrop m c⟩ : Mat ℝ) else m) = s at hsm hsw ⊢
    generalize (if norm then (⟨m'.h, m.w, fun i c => m'.get i c / interpFact smooth ndrop m' c⟩ : Mat ℝ) else m') = s' at hsm ⊢
    unfold splineMat
    have hcount := count_mirror m.w (fun j => !zeroEdges m.w (dilate m.w d) j) (fun j => !zeroEdges m.w (dilate m.w d') j) (fun j hj => by rw [hmm j hj])
    rw [hsm.1, hsm.2.1, hsw, hcount]
    by_cases hcond : s.h < degRemoval kind + 1 ∨ ((List.range m.w).filter fun j => !zeroEdges m.w (dilate m.w d) j).length < degRemoval kind + 1
    · rw [if_pos hcond, if_pos hcond]
      exact ⟨fun e he => he, fun out ho => by cases ho⟩
    · rw [if_neg hcond, if_neg hcond]
      refine ⟨fun e he => (by cases he), fun out ho => ?_⟩
      cases ho
      refine ⟨hw, _, rfl, rfl, rfl, fun i j hj => ?_⟩
      have hj : j < m.w := hj
      have hline : ∀ j < w, s'.get i j = s.get i (w - 1 - j) := by
        intro j hj
        rw [hsm.2.2 i j (by omega), hsw, hw]
      show (if zeroEdges m.w (dilate m.w d') j then sp (degRemoval kind) (fun j => !zeroEdges m.w (dilate m.w d') j) m.w (s'.get i) j else s'.get i j) =
        if zeroEdges m.w (dilate m.w d) (m.w - 1 - j) then sp (degRemoval kind) (fun j => !zeroEdges m.w (dilate m.w d) j) m.w (s.get i) (m.w - 1 - j)
        else s.get i (m.w - 1 - j)
      rw [hmm j hj]
      rw [hw] at hmm hj ⊢
      rw [hline j hj, hsp _ (fun j => !zeroEdges w (dilate w d) j) (fun j => !zeroEdges w (dilate w d') j) _ _ (fun j hj => by rw [hmm j hj]) hline j hj]

/-! ### zingers -/

theorem rolled_mirror (m m' : Mat ℝ) (h : Mirrored m m') (i j : ℤ) (y x : ℕ) (hx : x < m.w) : rolled m' i j y x = rolled m i (-j) y (m.w - 1 - x) := by
  unfold rolled
  rw [h.1, h.2.1]
  have h0 : (0 : ℤ) < m.w := by omega
  have a1 := Int.emod_nonneg ((x : ℤ) - j) h0.ne'
  have a2 := Int.emod_lt_of_pos ((x : ℤ) - j) h0
  rw [h.2.2 _ _ (by omega)]
  congr 1
  have e : (((m.w - 1 - x : ℕ) : ℤ) - -j) % (m.w : ℤ) = m.w - 1 - ((x : ℤ) - j) % m.w := by
    have hx' := Int.emod_add_mul_ediv ((x : ℤ) - j) m.w
    set r := ((x : ℤ) - j) % m.w
    set q := ((x : ℤ) - j) / m.w
    have : (((m.w - 1 - x : ℕ) : ℤ) - -j) = (m.w - 1 - r) + m.w * (-q) := by
      have : ((m.w - 1 - x : ℕ) : ℤ) = m.w - 1 - x := by omega
      rw [this]
      linear_combination hx'
    rw [this, Int.add_mul_emod_self_left, Int.emod_eq_of_lt (by omega) (by omega)]
  rw [e]
  omega

theorem zingerAve_mirror (size : ℕ) (m m' : Mat ℝ) (h : Mirrored m m') (y x : ℕ) (hx : x < m.w) : zingerAve size m' y x = zingerAve size m y (m.w - 1 - x) := by
  by_cases hs : 1 ≤ size
  · have key : ((zingerOffsets size).map fun p => rolled m' p.1 p.2 y x).sum = ((zingerOffsets size).map fun p => rolled m p.1 p.2 y (m.w - 1 - x)).sum := by
      rw [zingerOffsets_eq size hs]
      simp only [List.map_cons, List.map_nil, List.sum_cons, List.sum_nil, rolled_mirror m m' h _ _ y x hx, neg_neg, neg_zero]
      ring
    unfold zingerAve
    dsimp only
    rw [key]
  · have : size = 0 := by omega
    subst this
    rfl

/-- **C172.** `remove_zinger`, for a choice of zinger clusters that treats left and right alike. -/
theorem zinger_mirror (sel : (ℕ → ℕ → Bool) → ℕ → ℕ → Bool) (w : ℕ)
    (hsel : ∀ k k' : ℕ → ℕ → Bool, (∀ y, ∀ x < w, k' y x = k y (w - 1 - x)) → ∀ y, ∀ x < w, sel k' y x = sel k y (w - 1 - x))
    (threshold : ℝ) (size : ℕ) (checkSize : Bool) : MirrorFree w fun m => removeZinger sel m threshold size checkSize := by
  intro m m' hw h
  dsimp only
  unfold removeZinger
  by_cases h0 : zingerOffsets size = []
  · rw [if_pos h0, if_pos h0]
    exact ⟨fun e he => he, fun out ho => by cases ho⟩
  · rw [if_neg h0, if_neg h0]
    refine ⟨fun e he => (by cases he), fun out ho => ?_⟩
    cases ho
    refine ⟨hw, _, rfl, h.1, h.2.1, fun y x hx => ?_⟩
    have hx : x < m.w := hx
    have hk : ∀ y, ∀ x < m.w, decide (m'.get y x / zingerAve size m' y x - 1 > threshold) =
        decide (m.get y (m.w - 1 - x) / zingerAve size m y (m.w - 1 - x) - 1 > threshold) := by
      intro y x hx
      rw [zingerAve_mirror size m m' h y x hx, h.2.2 y x hx]
    rw [← hw] at hsel
    cases checkSize with
    | false =>
      show (if decide (m'.get y x / zingerAve size m' y x - 1 > threshold) then zingerAve size m' y x else m'.get y x) = _
      rw [hk y x hx, zingerAve_mirror size m m' h y x hx, h.2.2 y x hx]
      rfl
    | true =>
      show (if sel (fun y x => decide (m'.get y x / zingerAve size m' y x - 1 > threshold)) y x then zingerAve size m' y x else m'.get y x) = _
      rw [hsel (fun y x => decide (m.get y x / zingerAve size m y x - 1 > threshold)) _ hk y x hx, zingerAve_mirror size m m' h y x hx, h.2.2 y x hx]
      rfl

/-! ### the hypotheses are met -/

/-- A one-dimensional median filter of odd size, as used for lines, treats left and right alike. -/
theorem medianLine_mirror (size : ℕ) (hs : size % 2 = 1) (n : ℕ) : MirrorLine n fun g => (medianFilterRow size ⟨1, n, fun _ j => g j⟩).get 0 := by
  intro g g' hg j hj
  have h : Mirrored (⟨1, n, fun _ j => g j⟩ : Mat ℝ) ⟨1, n, fun _ j => g' j⟩ := ⟨rfl, rfl, fun i j hj => hg j hj⟩
  exact (median_mirror size hs _ _ h).1.2.2 0 j hj

/-- There are sorting algorithms that depend on the values only. -/
theorem uniform_exists {A : Type} [LinearOrder A] [Inhabited A] : ∃ as : Argsort A, Uniform as := by
  obtain ⟨as⟩ := argsort_exists (A := A)
  exact ⟨⟨fun _ l => as.run 0 l, fun _ l => as.spec 0 l⟩, fun _ _ _ => rfl⟩

/-- The mirrored sinogram. -/
def mirror (m : Mat ℝ) : Mat ℝ := ⟨m.h, m.w, fun i j => m.get i (m.w - 1 - j)⟩

theorem mirror_mirrored (m : Mat ℝ) : Mirrored m (mirror m) := ⟨rfl, rfl, fun _ _ _ => rfl⟩

/-- C172 with the median filter itself: removal of all stripes with odd sizes. -/
example (as1 : Argsort ℝ) (hu1 : Uniform as1) (as2 : Argsort ℕ) (hu2 : Uniform as2) (unif : ℕ → (ℕ → ℝ) → ℕ → ℝ) (snr : ℝ) (ndrop : ℕ) (m out : Mat ℝ)
    (h : removeAll as1 as2 unif (fun n g => (medianFilterRow 31 ⟨1, n, fun _ j => g j⟩).get 0) (medianFilterRow 61) (medianFilterRow 21) snr ndrop m = .ok out) :
    ∃ out', removeAll as1 as2 unif (fun n g => (medianFilterRow 31 ⟨1, n, fun _ j => g j⟩).get 0) (medianFilterRow 61) (medianFilterRow 21) snr ndrop (mirror m) = .ok out' ∧
      Mirrored out out' :=
  ((all_mirror as1 hu1 as2 hu2 unif _ m.w (medianLine_mirror 31 rfl m.w) _ _ (median_mirror 61 rfl) (median_mirror 21 rfl) snr ndrop m (mirror m) rfl
    (mirror_mirrored m)).2 out h).2

/-- C172 refuted for even sizes: sorting-based removal with a window of two columns, for whatever sorting algorithm. -/
theorem sorting_mirror_refuted (as1 : Argsort ℝ) (as2 : Argsort ℕ) : ¬ MirrorFree 3 fun m => .ok (removeStripeSorting as1 as2 (medianFilterRow 2) m) := by
  intro hfree
  set m : Mat ℝ := ⟨1, 3, fun _ j => if j = 0 then 1 else 0⟩ with hm
  obtain ⟨_, out', h1, h2⟩ := (hfree m (mirror m) rfl (mirror_mirrored m)).2 _ rfl
  cases h1
  have one : ∀ (m : Mat ℝ), m.h = 1 → ∀ c, (sortForward as1 0 m).1.get 0 c = m.get 0 c ∧
      (removeStripeSorting as1 as2 (medianFilterRow 2) m).get 0 c = (medianFilterRow 2 (sortForward as1 0 m).1).get 0 c := by
    intro m h1 c
    obtain ⟨ρ, a1, _, a3, a4⟩ := mat_core0 as1 as2 m (medianFilterRow 2 (sortForward as1 0 m).1) rfl c
    have r0 : ρ 0 = 0 := by
      have := a1 0 (by omega)
      omega
    have b3 := a3 0 (by omega)
    have b4 := a4 0 (by omega)
    rw [r0] at b3 b4
    exact ⟨b3, b4⟩
  have val : ∀ (m : Mat ℝ), m.h = 1 → m.w = 3 → ((removeStripeSorting as1 as2 (medianFilterRow 2) m).get 0 1 ≤ 0 ↔ m.get 0 0 ≤ 0 ∧ m.get 0 1 ≤ 0) := by
    intro m h1 h3
    rw [(one m h1 1).2]
    show (((List.range 2).map fun (k : ℕ) => (sortForward as1 0 m).1.get 0 (reflectIdx m.w (((1 : ℕ) : ℤ) - ((2 / 2 : ℕ) : ℤ) + (k : ℤ)))).mergeSort (fun a b => decide (a ≤ b))).getD (2 / 2) default ≤ 0 ↔ _
    rw [mergeSort_getD_le_iff _ _ (by simp), h3]
    have e0 : reflectIdx 3 (((1 : ℕ) : ℤ) - ((2 / 2 : ℕ) : ℤ) + ((0 : ℕ) : ℤ)) = 0 := by decide
    have e1 : reflectIdx 3 (((1 : ℕ) : ℤ) - ((2 / 2 : ℕ) : ℤ) + ((1 : ℕ) : ℤ)) = 1 := by decide
    rw [show List.range 2 = [0, 1] from rfl]
    simp only [List.map_cons, List.map_nil]
    rw [e0, e1, (one m h1 0).1, (one m h1 1).1]
    by_cases p0 : m.get 0 0 ≤ 0 <;> by_cases p1 : m.get 0 1 ≤ 0 <;> simp [List.countP_cons, p0, p1]
  have h3 := h2.2.2 0 1 (by show 1 < 3; norm_num)
  have v1 := val m rfl rfl
  have v2 := val (mirror m) rfl rfl
  have : (removeStripeSorting as1 as2 (medianFilterRow 2) (mirror m)).get 0 1 ≤ 0 := by
    rw [v2]
    constructor <;> norm_num [mirror, hm]
  rw [h3] at this
  have h5 := v1.1 this
  norm_num [hm] at h5

end Verif.StripeFilters
