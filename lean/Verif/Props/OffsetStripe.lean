import Verif.Props.MonotoneStripe
import Verif.Props.Regularization
import Verif.Props.NdiGauss
import Verif.Props.Fourier2
import Mathlib.Tactic.LinearCombination

/-! C174 — offsets, and fluctuations of the beam, pass through stripe removal unchanged. -/

set_option linter.unusedSectionVars false
set_option linter.unusedSimpArgs false

namespace Verif.StripeFilters
open Verif.Sorting Verif.Removal Verif.Fourier Verif.Regularization Complex

/-- `m'` is `m` with `a i` added to row (projection) `i`. -/
structure Shifted (a : ℕ → ℝ) (m m' : Mat ℝ) : Prop where
  h : m'.h = m.h
  w : m'.w = m.w
  get : ∀ i < m.h, ∀ j < m.w, m'.get i j = m.get i j + a i

/-- `a i` added to row `i`. -/
def addRows (a : ℕ → ℝ) (m : Mat ℝ) : Mat ℝ := ⟨m.h, m.w, fun i j => m.get i j + a i⟩

/-- Adding `a i` to row `i` of the sinogram `m` adds `a i` to row `i` of the result of `f`, or both calls raise the same exception. -/
def PassesThrough (f : Mat ℝ → Py (Mat ℝ)) (a : ℕ → ℝ) (m : Mat ℝ) : Prop :=
  (∃ r r', f m = .ok r ∧ f (addRows a m) = .ok r' ∧ r.h = m.h ∧ r.w = m.w ∧ Shifted a r r') ∨ ∃ e, f m = .error e ∧ f (addRows a m) = .error e

/-- A filter on images that works row by row and commutes with adding a constant to a row. -/
def RowFilter (filt : Mat ℝ → Mat ℝ) : Prop :=
  (∀ m, (filt m).h = m.h ∧ (filt m).w = m.w) ∧ ∀ a m m', Shifted a m m' → Shifted a (filt m) (filt m')

/-- A filter on lines of length `w` that commutes with adding a constant. -/
def LineFilter (w : ℕ) (filt : (ℕ → ℝ) → ℕ → ℝ) : Prop := ∀ g g' b, (∀ c < w, g' c = g c + b) → ∀ c < w, filt g' c = filt g c + b

/-- The sorting algorithm compares values only: adding a constant changes nothing. -/
def OffsetOnly (as : Argsort ℝ) : Prop := ∀ (r : ℕ) (l : List ℝ) (b : ℝ), as.run r (l.map fun x => x + b) = as.run r l

theorem shifted_add (a : ℕ → ℝ) (m : Mat ℝ) : Shifted a m (addRows a m) := ⟨rfl, rfl, fun _ _ _ _ => rfl⟩

/-! ### filters -/

/-- The median filter along the rows is such a filter. -/
theorem median_rowFilter (size : ℕ) (hs : 0 < size) : RowFilter (medianFilterRow size) := by
  refine ⟨fun m => ⟨rfl, rfl⟩, fun a m m' s => ⟨s.h, s.w, fun i hi j hj => ?_⟩⟩
  have hi : i < m.h := hi
  have hj : j < m.w := hj
  exact median_mono size hs (fun x => x + a i) Set.univ (fun x _ y _ h => by simpa using h) m m' (fun _ _ _ _ => Set.mem_univ _) s.w i i j hi (by omega)
    fun c hc => s.get i hi c hc

/-- scipy's Gaussian filter on a line is such a filter. -/
theorem gauss_lineFilter (sigma : ℝ) (w : ℕ) : LineFilter w (Ndi.axis1 sigma w) := by
  intro g g' b h c hc
  rw [Ndi.axis1_congr sigma (g := fun r => 1 * g r + b) (fun r hr => by rw [h r hr, one_mul]) hc, Ndi.axis1_affine, one_mul]

/-! ### sorting -/

theorem zip_map_second (φ : ℝ → ℝ) (a : List ℕ) (l : List ℝ) : a.zip (l.map φ) = (a.zip l).map fun p => (p.1, φ p.2) := by
  induction a generalizing l with
  | nil => rfl
  | cons x xs ih =>
    cases l with
    | nil => rfl
    | cons y ys => simp [ih]

theorem getD_pair (φ : ℝ → ℝ) (comb : List (ℕ × ℝ)) (i : ℕ) (hi : i < comb.length) :
    (comb.map fun p => (p.1, φ p.2)).getD i default = ((comb.getD i default).1, φ (comb.getD i default).2) := by
  rw [List.getD_eq_getElem _ _ (by simpa using hi), List.getD_eq_getElem _ _ hi, List.getElem_map]

theorem argsort_lt {A : Type _} [LE A] [Inhabited A] (as : Argsort A) (r : ℕ) (l : List A) (i : ℕ) (hi : i ∈ as.run r l) : i < l.length :=
  List.mem_range.1 ((as.spec r l).1.mem_iff.1 hi)

theorem forwardLine_add (as : Argsort ℝ) (ho : OffsetOnly as) (r : ℕ) (b : ℝ) (l : List ℝ) :
    sortForwardLine (as.run r) (l.map fun x => x + b) =
      ((sortForwardLine (as.run r) l).1.map fun x => x + b, (sortForwardLine (as.run r) l).2) := by
  unfold sortForwardLine
  dsimp only
  rw [List.length_map, zip_map_second]
  have e : (((List.range l.length).zip l).map fun p : ℕ × ℝ => (p.1, p.2 + b)).map Prod.snd =
      (((List.range l.length).zip l).map Prod.snd).map fun x => x + b := by
    rw [List.map_map, List.map_map]; rfl
  rw [e, ho r _ b]
  have hlt : ∀ i ∈ as.run r (((List.range l.length).zip l).map Prod.snd), i < ((List.range l.length).zip l).length := by
    intro i hi
    simpa using argsort_lt as r _ i hi
  generalize (List.range l.length).zip l = comb at hlt ⊢
  refine Prod.ext ?_ ?_
  · simp only [List.map_map]
    refine List.map_congr_left fun i hi => ?_
    simp only [Function.comp, getD_pair (fun x => x + b) comb i (hlt i hi)]
  · simp only [List.map_map]
    refine List.map_congr_left fun i hi => ?_
    simp only [Function.comp, getD_pair (fun x => x + b) comb i (hlt i hi)]

theorem backwardLine_add (as : Argsort ℕ) (r : ℕ) (b : ℝ) (l : List ℝ) (idx : List ℕ) :
    sortBackwardLine (as.run r) (l.map fun x => x + b) idx = (sortBackwardLine (as.run r) l idx).map fun x => x + b := by
  unfold sortBackwardLine
  dsimp only
  rw [zip_map_second]
  have e : ((idx.zip l).map fun p : ℕ × ℝ => (p.1, p.2 + b)).map Prod.fst = (idx.zip l).map Prod.fst := by
    rw [List.map_map]; rfl
  rw [e]
  have hlt : ∀ i ∈ as.run r ((idx.zip l).map Prod.fst), i < (idx.zip l).length := by
    intro i hi
    simpa using argsort_lt as r _ i hi
  generalize idx.zip l = comb at hlt ⊢
  simp only [List.map_map]
  refine List.map_congr_left fun i hi => ?_
  simp only [Function.comp, getD_pair (fun x => x + b) comb i (hlt i hi)]

theorem column_add (b : ℝ) (m m' : Mat ℝ) (s : Shifted (fun _ => b) m m') (c : ℕ) (hc : c < m.w) : line m'.T c = (line m.T c).map fun x => x + b := by
  unfold line
  rw [List.map_map]
  show (List.range m'.h).map _ = (List.range m.h).map _
  rw [s.h]
  refine List.map_congr_left fun i hi => ?_
  exact s.get i (List.mem_range.1 hi) c hc

theorem forward_add (as : Argsort ℝ) (ho : OffsetOnly as) (b : ℝ) (m m' : Mat ℝ) (s : Shifted (fun _ => b) m m') :
    Shifted (fun _ => b) (sortForward as 0 m).1 (sortForward as 0 m').1 ∧
    (sortForward as 0 m').2.h = (sortForward as 0 m).2.h ∧ ∀ c < m.w, ∀ i, (sortForward as 0 m').2.get i c = (sortForward as 0 m).2.get i c := by
  refine ⟨⟨s.h, s.w, fun i hi c hc => ?_⟩, s.h, fun c hc i => ?_⟩
  · have hc : c < m.w := hc
    have hi : i < m.h := hi
    show ((sortForwardLine (as.run c) (line m'.T c)).1).getD i default = ((sortForwardLine (as.run c) (line m.T c)).1).getD i default + b
    rw [column_add b m m' s c hc, forwardLine_add as ho]
    exact getD_map' (fun x => x + b) _ i (by rw [(forward_len as c _).1, line_length]; exact hi)
  · show ((sortForwardLine (as.run c) (line m'.T c)).2).getD i 0 = ((sortForwardLine (as.run c) (line m.T c)).2).getD i 0
    rw [column_add b m m' s c hc, forwardLine_add as ho]

theorem backward_add (as2 : Argsort ℕ) (b : ℝ) (f f' : Mat ℝ) (x x' : Mat ℕ) (s : Shifted (fun _ => b) f f') (hx : x'.h = x.h)
    (hxe : ∀ c < f.w, ∀ i, x'.get i c = x.get i c) (hlen : ∀ c < f.w, (sortBackwardLine (as2.run c) (line f.T c) ((List.range x.h).map fun i => x.get i c)).length = f.h) :
    Shifted (fun _ => b) (sortBackward as2 0 f x) (sortBackward as2 0 f' x') := by
  refine ⟨s.h, s.w, fun i hi c hc => ?_⟩
  have hc : c < f.w := hc
  have hi : i < f.h := hi
  show (sortBackwardLine (as2.run c) (line f'.T c) ((List.range x'.h).map fun i => x'.get i c)).getD i default =
    (sortBackwardLine (as2.run c) (line f.T c) ((List.range x.h).map fun i => x.get i c)).getD i default + b
  have e : (fun i => x'.get i c) = fun i => x.get i c := by funext i; exact hxe c hc i
  rw [hx, e, column_add b f f' s c hc, backwardLine_add]
  exact getD_map' (fun x => x + b) _ i (by rw [hlen c hc]; exact hi)

theorem backward_len (as1 : Argsort ℝ) (as2 : Argsort ℕ) (m f : Mat ℝ) (hf : f.h = m.h) (c : ℕ) :
    (sortBackwardLine (as2.run c) (line f.T c) ((List.range (sortForward as1 0 m).2.h).map fun i => (sortForward as1 0 m).2.get i c)).length = f.h := by
  have hx : (sortForward as1 0 m).2.h = m.h := rfl
  unfold sortBackwardLine
  dsimp only
  rw [List.length_map, List.length_map, (as2.spec c _).1.length_eq, List.length_range, List.length_map, List.length_zip, List.length_map, List.length_range,
    line_length, hx]
  show min m.h f.h = f.h
  omega

/-- Sorting, a step that passes offsets on, and sorting back. -/
theorem sorted_step (as1 : Argsort ℝ) (ho : OffsetOnly as1) (as2 : Argsort ℕ) (b : ℝ) (m m' f f' : Mat ℝ) (s : Shifted (fun _ => b) m m')
    (hf : f.h = m.h) (hw : f.w = m.w) (sf : Shifted (fun _ => b) f f') :
    Shifted (fun _ => b) (sortBackward as2 0 f (sortForward as1 0 m).2) (sortBackward as2 0 f' (sortForward as1 0 m').2) := by
  obtain ⟨_, h2, h3⟩ := forward_add as1 ho b m m' s
  exact backward_add as2 b f f' _ _ sf h2 (fun c hc i => h3 c (by omega) i) fun c _ => backward_len as1 as2 m f hf c

/-- **C174.** `remove_stripe_based_sorting` and offsets. -/
theorem sorting_offset (as1 : Argsort ℝ) (ho : OffsetOnly as1) (as2 : Argsort ℕ) (filt : Mat ℝ → Mat ℝ) (hf : RowFilter filt) (b : ℝ) (m : Mat ℝ) :
    PassesThrough (fun m => .ok (removeStripeSorting as1 as2 filt m)) (fun _ => b) m := by
  have s := shifted_add (fun _ => b) m
  have h1 := (forward_add as1 ho b m _ s).1
  have k := sorted_step as1 ho as2 b m (addRows (fun _ => b) m) (filt (sortForward as1 0 m).1) (filt (sortForward as1 0 (addRows (fun _ => b) m)).1) s
    (hf.1 _).1 (hf.1 _).2 (hf.2 _ _ _ h1)
  exact .inl ⟨_, _, rfl, rfl, (hf.1 _).1, (hf.1 _).2, k⟩

/-! ### filtering -/

theorem signFilterLine_add (ncol pad : ℕ) (window : ℕ → ℝ) (f g : ℕ → ℝ) (j : ℕ) :
    signFilterLine ncol pad window (fun c => f c + g c) j = signFilterLine ncol pad window f j + signFilterLine ncol pad window g j := by
  unfold signFilterLine
  dsimp only
  rw [← Complex.add_re, ← add_mul, ← idft_add]
  congr 3
  funext q
  rw [← add_mul, ← dft_add]
  congr 2
  funext r
  push_cast
  ring

/-- The Gaussian window of `remove_stripe_based_filtering`. -/
noncomputable def gaussWin (sigma : ℝ) (n : ℕ) (k : ℕ) : ℝ :=
  Real.exp (-(((k : ℝ) - ((n + 2 * pad10 n : ℕ) - 1 : ℝ) / 2) ^ 2 / (2 * sigma ^ 2)))

/-- The smooth part into which `remove_stripe_based_filtering` separates the sinogram. -/
noncomputable def smoothPart (sigma : ℝ) (m : Mat ℝ) : Mat ℝ :=
  ⟨m.h, m.w, fun i j => signFilterLine m.h (pad10 m.h) (gaussWin sigma m.h) (fun r => m.get r j) i⟩

theorem filtering_eq (as1 : Argsort ℝ) (as2 : Argsort ℕ) (filt : Mat ℝ → Mat ℝ) (sigma : ℝ) (sort : Bool) (m : Mat ℝ) :
    removeFiltering as1 as2 filt sigma sort m = .ok ⟨m.h, m.w, fun i j =>
      (if sort then sortBackward as2 0 (filt (sortForward as1 0 (smoothPart sigma m)).1) (sortForward as1 0 (smoothPart sigma m)).2
        else filt (smoothPart sigma m)).get i j + (m.get i j - (smoothPart sigma m).get i j)⟩ := rfl

theorem smooth_profile (sigma : ℝ) (a : ℕ → ℝ) (m : Mat ℝ) :
    Shifted (signFilterLine m.h (pad10 m.h) (gaussWin sigma m.h) a) (smoothPart sigma m) (smoothPart sigma (addRows a m)) :=
  ⟨rfl, rfl, fun i _ j _ => signFilterLine_add _ _ _ (fun r => m.get r j) a i⟩

/-- **C174.** `remove_stripe_based_filtering` without sorting and fluctuations of the beam. -/
theorem filtering_profile (as1 : Argsort ℝ) (as2 : Argsort ℕ) (filt : Mat ℝ → Mat ℝ) (hf : RowFilter filt) (sigma : ℝ) (a : ℕ → ℝ) (m : Mat ℝ) :
    PassesThrough (removeFiltering as1 as2 filt sigma false) a m := by
  have s := smooth_profile sigma a m
  have t := hf.2 _ _ _ s
  refine .inl ⟨_, _, filtering_eq _ _ _ _ _ _, filtering_eq _ _ _ _ _ _, rfl, rfl, rfl, rfl, fun i hi j hj => ?_⟩
  have e1 := s.get i hi j hj
  have e2 := t.get i (by rw [(hf.1 _).1]; exact hi) j (by rw [(hf.1 _).2]; exact hj)
  show (filt (smoothPart sigma (addRows a m))).get i j + (m.get i j + a i - (smoothPart sigma (addRows a m)).get i j) =
    (filt (smoothPart sigma m)).get i j + (m.get i j - (smoothPart sigma m).get i j) + a i
  rw [e1, e2]; ring

/-- **C174.** `remove_stripe_based_filtering` with sorting and offsets, for an even number of projections. -/
theorem filtering_offset_partial (as1 : Argsort ℝ) (ho : OffsetOnly as1) (as2 : Argsort ℕ) (filt : Mat ℝ → Mat ℝ) (hf : RowFilter filt) (sigma : ℝ) (b : ℝ)
    (m : Mat ℝ) (heven : m.h % 2 = 0) : PassesThrough (removeFiltering as1 as2 filt sigma true) (fun _ => b) m := by
  have s0 := smooth_profile sigma (fun _ => b) m
  have s : Shifted (fun _ => gaussWin sigma m.h ((m.h + 2 * pad10 m.h) / 2) * b) (smoothPart sigma m) (smoothPart sigma (addRows (fun _ => b) m)) :=
    ⟨rfl, rfl, fun i hi j hj => by
      rw [s0.get i hi j hj, signFilterLine_const m.h (pad10 m.h) (gaussWin sigma m.h) (fun _ => b) b i hi (fun _ _ => rfl) heven]⟩
  have hh : (smoothPart sigma m).h = m.h := rfl
  have hw : (smoothPart sigma m).w = m.w := rfl
  have t := sorted_step as1 ho as2 _ (smoothPart sigma m) (smoothPart sigma (addRows (fun _ => b) m)) (filt (sortForward as1 0 (smoothPart sigma m)).1)
    (filt (sortForward as1 0 (smoothPart sigma (addRows (fun _ => b) m))).1) s (hf.1 _).1 (hf.1 _).2 (hf.2 _ _ _ (forward_add as1 ho _ _ _ s).1)
  refine .inl ⟨_, _, filtering_eq _ _ _ _ _ _, filtering_eq _ _ _ _ _ _, rfl, rfl, rfl, rfl, fun i hi j hj => ?_⟩
  have e1 := s.get i hi j hj
  have e2 := t.get i (by show i < (filt _).h; rw [(hf.1 _).1]; exact hi) j (by show j < (filt _).w; rw [(hf.1 _).2]; exact hj)
  simp only [if_true]
  rw [e2, e1]
  show _ + _ + (m.get i j + b - _) = _ + (m.get i j - _) + b
  ring

/-! ### the loops over chunks -/

theorem rowMean_add (s s' : ℕ → ℕ → ℝ) (a : ℕ → ℝ) (h w : ℕ) (hs : ∀ i < h, ∀ c < w, s' i c = s i c + a i) (b e c : ℕ) (he : e ≤ h) (hc : c < w) :
    rowMean s' b e c = rowMean s b e c + (∑ i ∈ Finset.Ico b e, a i) / ((e - b : ℕ) : ℝ) := by
  unfold rowMean
  rw [← add_div, ← Finset.sum_add_distrib]
  congr 1
  exact Finset.sum_congr rfl fun i hi => hs i (by have := (Finset.mem_Ico.1 hi).2; omega) c hc

/-- A loop that adds to every chunk of rows a correction of its mean which ignores constants. -/
theorem loop_shift (h w : ℕ) (F : (ℕ → ℝ) → ℕ → ℝ) (hF : ∀ g g' b, (∀ c < w, g' c = g c + b) → ∀ c < w, F g' c = F g c) (a : ℕ → ℝ) :
    ∀ (bs : List (ℕ × ℕ)), (∀ p ∈ bs, p.2 ≤ h) → ∀ s s' : ℕ → ℕ → ℝ, (∀ i < h, ∀ c < w, s' i c = s i c + a i) → ∀ i < h, ∀ c < w,
      bs.foldl (fun s p i => if p.1 ≤ i ∧ i < p.2 then (fun c => s i c + F (rowMean s p.1 p.2) c) else s i) s' i c =
      bs.foldl (fun s p i => if p.1 ≤ i ∧ i < p.2 then (fun c => s i c + F (rowMean s p.1 p.2) c) else s i) s i c + a i := by
  intro bs
  induction bs with
  | nil => intro _ s s' hs; exact hs
  | cons p bs ih =>
    intro hp s s' hs
    simp only [List.foldl_cons]
    refine ih (fun q hq => hp q (List.mem_cons_of_mem _ hq)) _ _ fun i hi c hc => ?_
    by_cases hin : p.1 ≤ i ∧ i < p.2
    · rw [if_pos hin, if_pos hin]
      rw [hs i hi c hc, hF (rowMean s p.1 p.2) (rowMean s' p.1 p.2) _
        (fun c hc => rowMean_add s s' a h w hs p.1 p.2 c (hp p (by simp)) hc) c hc]
      ring
    · rw [if_neg hin, if_neg hin]
      exact hs i hi c hc

theorem chunk_cases (n k : ℕ) : (∃ e, chunkBounds 0 n k = .error e) ∨ ∃ bs, chunkBounds 0 n k = .ok bs ∧ ∀ p ∈ bs, p.2 ≤ n := by
  rcases Nat.eq_zero_or_pos k with rfl | hk
  · exact .inl ⟨_, chunkBounds_zero 0 n⟩
  · by_cases hkn : k ≤ n
    · obtain ⟨bs, h1, h2, _⟩ := chunkBounds_ok 0 n k hk hkn
      exact .inr ⟨bs, h1, fun p hp => by have := consec_bounds _ _ _ h2 p hp; omega⟩
    · exact .inl ⟨_, chunkBounds_error 0 n k (by omega)⟩

/-- The result of a step on `m` and on `m'`: shifted, or the same exception. -/
def Both (a : ℕ → ℝ) (m : Mat ℝ) (x x' : Py (Mat ℝ)) : Prop :=
  (∃ r r', x = .ok r ∧ x' = .ok r' ∧ r.h = m.h ∧ r.w = m.w ∧ Shifted a r r') ∨ ∃ e, x = .error e ∧ x' = .error e

theorem normalizeRows_shift (filt : (ℕ → ℝ) → ℕ → ℝ) (numChunk : ℕ) (a : ℕ → ℝ) (m m' : Mat ℝ) (hf : LineFilter m.w filt) (s : Shifted a m m') :
    Both a m (normalizeRows filt numChunk m) (normalizeRows filt numChunk m') := by
  unfold normalizeRows
  rw [s.h, s.w]
  rcases chunk_cases m.h numChunk with ⟨e, he⟩ | ⟨bs, hb, hle⟩
  · rw [he]; exact .inr ⟨e, rfl, rfl⟩
  · rw [hb]
    exact .inl ⟨_, _, rfl, rfl, rfl, rfl, rfl, rfl, loop_shift m.h m.w (fun g c => filt g c - g c)
      (fun g g' b hg c hc => by rw [hf g g' b hg c hc, hg c hc]; ring) a bs hle m.get m'.get s.get⟩

theorem regRows_shift (alpha : ℝ) (numChunk : ℕ) (a : ℕ → ℝ) (m m' : Mat ℝ) (s : Shifted a m m') :
    Both a m (regRows alpha numChunk m) (regRows alpha numChunk m') := by
  unfold regRows
  rw [s.h, s.w]
  rcases chunk_cases m.h numChunk with ⟨e, he⟩ | ⟨bs, hb, hle⟩
  · rw [he]; exact .inr ⟨e, rfl, rfl⟩
  · rw [hb]
    simp only [ok_bind]
    by_cases hw : m.w < 2 ∧ bs ≠ []
    · rw [if_pos hw, if_pos hw]; exact .inr ⟨_, rfl, rfl⟩
    · rw [if_neg hw, if_neg hw]
      refine .inl ⟨_, _, rfl, rfl, rfl, rfl, rfl, rfl, ?_⟩
      by_cases h2 : 2 ≤ m.w
      · exact loop_shift m.h m.w (listCoe m.w alpha) (fun g g' b hg c hc => by
          rw [listCoe_congr h2 alpha g' (fun k => 1 * g k + 0 * g k + b) (fun k hk => by rw [hg k hk]; ring), listCoe_affine h2]; ring) a bs hle m.get m'.get s.get
      · have : bs = [] := by by_contra hne; exact hw ⟨by omega, hne⟩
        subst this
        exact s.get

/-- **C174.** `remove_stripe_based_normalization` without sorting and fluctuations of the beam. -/
theorem normalization_profile (as1 : Argsort ℝ) (as2 : Argsort ℕ) (filt : (ℕ → ℝ) → ℕ → ℝ) (numChunk : ℕ) (a : ℕ → ℝ) (m : Mat ℝ) (hf : LineFilter m.w filt) :
    PassesThrough (removeNormalization as1 as2 filt numChunk false) a m :=
  normalizeRows_shift filt numChunk a m _ hf (shifted_add a m)

/-- **C174.** `remove_stripe_based_normalization` with sorting and offsets. -/
theorem normalization_offset (as1 : Argsort ℝ) (ho : OffsetOnly as1) (as2 : Argsort ℕ) (filt : (ℕ → ℝ) → ℕ → ℝ) (numChunk : ℕ) (b : ℝ) (m : Mat ℝ)
    (hf : LineFilter m.w filt) : PassesThrough (removeNormalization as1 as2 filt numChunk true) (fun _ => b) m := by
  have s := shifted_add (fun _ => b) m
  unfold PassesThrough removeNormalization
  simp only [if_true]
  rcases normalizeRows_shift filt numChunk (fun _ => b) (sortForward as1 0 m).1 (sortForward as1 0 (addRows (fun _ => b) m)).1 hf
    (forward_add as1 ho b m _ s).1 with ⟨r, r', e1, e2, h1, h2, h3⟩ | ⟨e, e1, e2⟩
  · rw [e1, e2]
    exact .inl ⟨_, _, rfl, rfl, h1, h2, sorted_step as1 ho as2 b m _ r r' s h1 h2 h3⟩
  · rw [e1, e2]
    exact .inr ⟨e, rfl, rfl⟩

/-- **C174.** `remove_stripe_based_regularization` (apply_log=False) without sorting and fluctuations of the beam. -/
theorem regularization_profile (as1 : Argsort ℝ) (as2 : Argsort ℕ) (alpha : ℝ) (numChunk : ℕ) (a : ℕ → ℝ) (m : Mat ℝ) :
    PassesThrough (removeRegularization as1 as2 alpha numChunk false false) a m := by
  unfold PassesThrough removeRegularization
  simp only [Bool.false_eq_true, if_false]
  rcases regRows_shift alpha numChunk a m _ (shifted_add a m) with ⟨r, r', e1, e2, h⟩ | ⟨e, e1, e2⟩
  · rw [e1, e2]; exact .inl ⟨r, r', rfl, rfl, h⟩
  · rw [e1, e2]; exact .inr ⟨e, rfl, rfl⟩

/-- **C174.** `remove_stripe_based_regularization` (apply_log=False) with sorting and offsets. -/
theorem regularization_offset (as1 : Argsort ℝ) (ho : OffsetOnly as1) (as2 : Argsort ℕ) (alpha : ℝ) (numChunk : ℕ) (b : ℝ) (m : Mat ℝ) :
    PassesThrough (removeRegularization as1 as2 alpha numChunk false true) (fun _ => b) m := by
  have s := shifted_add (fun _ => b) m
  unfold PassesThrough removeRegularization
  simp only [Bool.false_eq_true, if_false, if_true]
  rcases regRows_shift alpha numChunk (fun _ => b) (sortForward as1 0 m).1 (sortForward as1 0 (addRows (fun _ => b) m)).1
    (forward_add as1 ho b m _ s).1 with ⟨r, r', e1, e2, h1, h2, h3⟩ | ⟨e, e1, e2⟩
  · rw [e1, e2]
    exact .inl ⟨_, _, rfl, rfl, h1, h2, sorted_step as1 ho as2 b m _ r r' s h1 h2 h3⟩
  · rw [e1, e2]
    exact .inr ⟨e, rfl, rfl⟩

/-! ### transmissions: factors instead of offsets -/

/-- Row `i` multiplied by `k i`. -/
def mulRows (k : ℕ → ℝ) (m : Mat ℝ) : Mat ℝ := ⟨m.h, m.w, fun i j => k i * m.get i j⟩

theorem regLog_shift (k : ℕ → ℝ) (hk : ∀ i, 0 < k i) (m : Mat ℝ) (hm : ∀ i < m.h, ∀ j < m.w, 0 < m.get i j) :
    Shifted (fun i => -Real.log (k i)) (regLog m) (regLog (mulRows k m)) := by
  refine ⟨rfl, rfl, fun i hi j hj => ?_⟩
  have hi : i < m.h := hi
  have hj : j < m.w := hj
  have h1 := hm i hi j hj
  have h2 : 0 < k i * m.get i j := mul_pos (hk i) h1
  show -Real.log (if k i * m.get i j ≤ 0 then _ else k i * m.get i j) = -Real.log (if m.get i j ≤ 0 then _ else m.get i j) + -Real.log (k i)
  rw [if_neg (not_le.2 h2), if_neg (not_le.2 h1), Real.log_mul (hk i).ne' h1.ne']
  ring

/-- **C174.** `remove_stripe_based_regularization` with the logarithm, without sorting: for positive transmissions a factor per projection passes through. -/
theorem regularization_factor (as1 : Argsort ℝ) (as2 : Argsort ℕ) (alpha : ℝ) (numChunk : ℕ) (k : ℕ → ℝ) (hk : ∀ i, 0 < k i) (m : Mat ℝ)
    (hm : ∀ i < m.h, ∀ j < m.w, 0 < m.get i j) :
    (∃ r r', removeRegularization as1 as2 alpha numChunk true false m = .ok r ∧ removeRegularization as1 as2 alpha numChunk true false (mulRows k m) = .ok r' ∧
      r'.h = r.h ∧ r'.w = r.w ∧ ∀ i < m.h, ∀ j < m.w, r'.get i j = k i * r.get i j) ∨
    ∃ e, removeRegularization as1 as2 alpha numChunk true false m = .error e ∧ removeRegularization as1 as2 alpha numChunk true false (mulRows k m) = .error e := by
  unfold removeRegularization
  simp only [Bool.false_eq_true, if_false, if_true]
  rcases regRows_shift alpha numChunk _ _ _ (regLog_shift k hk m hm) with ⟨r, r', e1, e2, h1, h2, h3⟩ | ⟨e, e1, e2⟩
  · rw [e1, e2]
    refine .inl ⟨_, _, rfl, rfl, h3.h, h3.w, fun i hi j hj => ?_⟩
    show Real.exp (-r'.get i j) = k i * Real.exp (-r.get i j)
    rw [h3.get i (by rw [h1]; exact hi) j (by rw [h2]; exact hj), neg_add, neg_neg, Real.exp_add, Real.exp_log (hk i), mul_comm]
  · rw [e1, e2]
    exact .inr ⟨e, rfl, rfl⟩

/-! ### wavelets -/

/-- `p` is the sum of `m` and `n`. -/
structure IsSum (m n p : Mat ℝ) : Prop where
  h1 : n.h = m.h
  w1 : n.w = m.w
  h2 : p.h = m.h
  w2 : p.w = m.w
  get : ∀ i j, p.get i j = m.get i j + n.get i j

/-- Sum of decompositions. -/
def IsSumData (d e s : Wavelet.WData (Mat ℝ)) : Prop :=
  IsSum d.approx e.approx s.approx ∧ ∃ l : List ((ℕ → Mat ℝ) × (ℕ → Mat ℝ) × (ℕ → Mat ℝ)),
    d.details = l.map (fun x => x.1) ∧ e.details = l.map (fun x => x.2.1) ∧ s.details = l.map (fun x => x.2.2) ∧ ∀ x ∈ l, ∀ c, IsSum (x.1 c) (x.2.1 c) (x.2.2 c)

theorem analyse_add (f : List ℝ) (n : ℕ) (x y : ℕ → ℝ) (o : ℕ) : Pywt.analyse f n (fun i => x i + y i) o = Pywt.analyse f n x o + Pywt.analyse f n y o := by
  unfold Pywt.analyse
  rw [← Finset.sum_add_distrib]
  exact Finset.sum_congr rfl fun t _ => by ring

theorem along0_sum (f : List ℝ) {m n p : Mat ℝ} (s : IsSum m n p) : IsSum (Pywt.along0 f m) (Pywt.along0 f n) (Pywt.along0 f p) := by
  refine ⟨by show Pywt.coefLen n.h _ = _; rw [s.h1]; rfl, s.w1, by show Pywt.coefLen p.h _ = _; rw [s.h2]; rfl, s.w2, fun o j => ?_⟩
  show Pywt.analyse f p.h (fun i => p.get i j) o = Pywt.analyse f m.h (fun i => m.get i j) o + Pywt.analyse f n.h (fun i => n.get i j) o
  rw [s.h1, s.h2, ← analyse_add]
  congr 1
  funext i
  exact s.get i j

theorem along1_sum (f : List ℝ) {m n p : Mat ℝ} (s : IsSum m n p) : IsSum (Pywt.along1 f m) (Pywt.along1 f n) (Pywt.along1 f p) := by
  refine ⟨s.h1, by show Pywt.coefLen n.w _ = _; rw [s.w1]; rfl, s.h2, by show Pywt.coefLen p.w _ = _; rw [s.w2]; rfl, fun i o => ?_⟩
  show Pywt.analyse f p.w (p.get i) o = Pywt.analyse f m.w (m.get i) o + Pywt.analyse f n.w (n.get i) o
  rw [s.w1, s.w2, ← analyse_add]
  congr 1
  funext j
  exact s.get i j

theorem wavedec_sum (b : Pywt.Bank) (L : ℕ) : ∀ {m n p : Mat ℝ}, IsSum m n p → IsSumData (Pywt.wavedec b L m) (Pywt.wavedec b L n) (Pywt.wavedec b L p) := by
  induction L with
  | zero => intro m n p s; exact ⟨s, [], rfl, rfl, rfl, fun x hx => by cases hx⟩
  | succ L ih =>
    intro m n p s
    have s1 : IsSum (Pywt.dwt2 b m).1 (Pywt.dwt2 b n).1 (Pywt.dwt2 b p).1 := along1_sum _ (along0_sum _ s)
    have s2 : ∀ c, IsSum ((Pywt.dwt2 b m).2 c) ((Pywt.dwt2 b n).2 c) ((Pywt.dwt2 b p).2 c) := by
      intro c
      unfold Pywt.dwt2
      dsimp only
      by_cases h0 : c = 0
      · rw [if_pos h0, if_pos h0, if_pos h0]; exact along1_sum _ (along0_sum _ s)
      · rw [if_neg h0, if_neg h0, if_neg h0]
        by_cases h1 : c = 1
        · rw [if_pos h1, if_pos h1, if_pos h1]; exact along1_sum _ (along0_sum _ s)
        · rw [if_neg h1, if_neg h1, if_neg h1]; exact along1_sum _ (along0_sum _ s)
    obtain ⟨a, l, e1, e2, e3, hl⟩ := ih s1
    refine ⟨a, l ++ [((Pywt.dwt2 b m).2, (Pywt.dwt2 b n).2, (Pywt.dwt2 b p).2)], ?_, ?_, ?_, ?_⟩
    · simp only [Pywt.wavedec, e1, List.map_append, List.map_cons, List.map_nil]
    · simp only [Pywt.wavedec, e2, List.map_append, List.map_cons, List.map_nil]
    · simp only [Pywt.wavedec, e3, List.map_append, List.map_cons, List.map_nil]
    · intro x hx c
      rcases List.mem_append.1 hx with hx | hx
      · exact hl x hx c
      · rw [List.mem_singleton] at hx
        subst hx
        exact s2 c

theorem dampDetail_sum (size : ℝ) (butter : Bool) {m n p : Mat ℝ} (s : IsSum m n p) :
    IsSum (Surface.dampDetail m size butter) (Surface.dampDetail n size butter) (Surface.dampDetail p size butter) := by
  refine ⟨s.h1, s.w1, s.h2, s.w2, fun i j => ?_⟩
  unfold Surface.dampDetail filter2
  dsimp only
  rw [s.h1, s.w1, s.h2, s.w2, ← Complex.add_re, ← idft2_add]
  congr 2
  funext k l
  rw [← add_mul, ← dft2_add]
  congr 2
  funext i j
  rw [s.get i j]
  push_cast
  rfl

theorem dampAll_sum (size : ℝ) (butter : Bool) {d e s : Wavelet.WData (Mat ℝ)} (h : IsSumData d e s) :
    IsSumData (dampAll size butter d) (dampAll size butter e) (dampAll size butter s) := by
  obtain ⟨a, l, e1, e2, e3, hl⟩ := h
  refine ⟨a, l.map fun x => (fun c => if c = 1 then Surface.dampDetail (x.1 1) size butter else x.1 c,
    fun c => if c = 1 then Surface.dampDetail (x.2.1 1) size butter else x.2.1 c, fun c => if c = 1 then Surface.dampDetail (x.2.2 1) size butter else x.2.2 c), ?_, ?_, ?_, ?_⟩
  · simp only [dampAll, e1, List.map_map]; rfl
  · simp only [dampAll, e2, List.map_map]; rfl
  · simp only [dampAll, e3, List.map_map]; rfl
  · intro y hy c
    obtain ⟨x, hx, rfl⟩ := List.mem_map.1 hy
    dsimp only
    by_cases h1 : c = 1
    · rw [if_pos h1, if_pos h1, if_pos h1]; exact dampDetail_sum size butter (hl x hx 1)
    · rw [if_neg h1, if_neg h1, if_neg h1]; exact hl x hx c

theorem synth_add (b : Pywt.Bank) (nc : ℕ) (ca cd ca' cd' : ℕ → ℝ) (n : ℕ) :
    Pywt.synth b nc (fun o => ca o + ca' o) (fun o => cd o + cd' o) n = Pywt.synth b nc ca cd n + Pywt.synth b nc ca' cd' n := by
  unfold Pywt.synth
  rw [← Finset.sum_add_distrib]
  exact Finset.sum_congr rfl fun o _ => by ring

theorem idwt2_sum (b : Pywt.Bank) {m n p : Mat ℝ} (s : IsSum m n p) {d e t : ℕ → Mat ℝ} (h : ∀ c, IsSum (d c) (e c) (t c)) :
    IsSum (Pywt.idwt2 b m d) (Pywt.idwt2 b n e) (Pywt.idwt2 b p t) := by
  unfold Pywt.idwt2 Pywt.back0 Pywt.back1
  dsimp only
  rw [(h 0).h1, (h 0).w1, (h 0).h2, (h 0).w2]
  refine ⟨rfl, rfl, rfl, rfl, fun i j => ?_⟩
  dsimp only
  rw [← synth_add]
  congr 1
  · funext o
    rw [← synth_add]
    congr 1
    · funext q; exact s.get o q
    · funext q; exact (h 1).get o q
  · funext o
    rw [← synth_add]
    congr 1
    · funext q; exact (h 0).get o q
    · funext q; exact (h 2).get o q

theorem waverec_sum (b : Pywt.Bank) {d e s : Wavelet.WData (Mat ℝ)} (h : IsSumData d e s) : IsSum (Pywt.waverec b d) (Pywt.waverec b e) (Pywt.waverec b s) := by
  obtain ⟨a, l, e1, e2, e3, hl⟩ := h
  unfold Pywt.waverec
  rw [e1, e2, e3]
  clear e1 e2 e3
  generalize d.approx = x at a
  generalize e.approx = y at a
  generalize s.approx = z at a
  induction l generalizing x y z with
  | nil => exact a
  | cons t l ih =>
    simp only [List.map_cons, List.foldl_cons]
    exact ih (fun q hq => hl q (List.mem_cons_of_mem _ hq)) _ _ _ (idwt2_sum b a fun c => hl t (by simp) c)

theorem dampAll_free (b : Pywt.Bank) (hs : b.decHi.sum = 0) (size : ℝ) (butter : Bool) (L H W : ℕ) (a : ℕ → ℝ) :
    dampAll size butter (Pywt.wavedec b L (stripeFree H W a)) = Pywt.wavedec b L (stripeFree H W a) := by
  have hfl := Pywt.wavedec_flat b hs L H W a
  generalize Pywt.wavedec b L (stripeFree H W a) = D at hfl ⊢
  rcases D with ⟨A, ds⟩
  unfold dampAll
  dsimp only at hfl ⊢
  congr 1
  conv_rhs => rw [← List.map_id ds]
  apply List.map_congr_left
  intro t ht
  funext c
  by_cases hc : c = 1
  · rw [if_pos hc, dampDetail_zero _ (hfl t ht), hc]; rfl
  · rw [if_neg hc]; rfl

theorem padMeanEdge_sum (a : ℕ → ℝ) (m m' : Mat ℝ) (s : Shifted a m m') (hw : 0 < m.w) (pad : ℕ) :
    IsSum (padMeanEdge m pad) (padMeanEdge (stripeFree m.h m.w a) pad) (padMeanEdge m' pad) := by
  refine ⟨rfl, rfl, by show m'.h + 2 * pad = _; rw [s.h]; rfl, by show m'.w + 2 * pad = _; rw [s.w]; rfl, fun i j => ?_⟩
  have he : edgeIdx m.w pad j < m.w := by unfold edgeIdx; omega
  show (if pad ≤ i ∧ i < pad + m'.h then m'.get (i - pad) (edgeIdx m'.w pad j) else (∑ r ∈ Finset.range m'.h, m'.get r (edgeIdx m'.w pad j)) / m'.h) =
    (if pad ≤ i ∧ i < pad + m.h then m.get (i - pad) (edgeIdx m.w pad j) else (∑ r ∈ Finset.range m.h, m.get r (edgeIdx m.w pad j)) / m.h) +
    (if pad ≤ i ∧ i < pad + m.h then a (i - pad) else (∑ r ∈ Finset.range m.h, a r) / m.h)
  rw [s.h, s.w]
  by_cases hi : pad ≤ i ∧ i < pad + m.h
  · rw [if_pos hi, if_pos hi, if_pos hi]
    exact s.get _ (by omega) _ he
  · rw [if_neg hi, if_neg hi, if_neg hi, ← add_div, ← Finset.sum_add_distrib]
    congr 1
    exact Finset.sum_congr rfl fun r hr => s.get r (Finset.mem_range.1 hr) _ he

theorem waveletCore_shift (b : Pywt.Bank) (hb : Pywt.PerfectReconstruction b) (hs : b.decHi.sum = 0) (level : Option ℤ) (size : ℝ) (butter : Bool) (a : ℕ → ℝ)
    (m m' : Mat ℝ) (s : Shifted a m m') :
    Both a m (waveletCore (Pywt.wavedec b) (Pywt.waverec b) level size butter m) (waveletCore (Pywt.wavedec b) (Pywt.waverec b) level size butter m') := by
  unfold waveletCore
  dsimp only
  rw [s.h, s.w]
  have e1 : (padMeanEdge m' (pad10 (min m.h m.w))).h = (padMeanEdge m (pad10 (min m.h m.w))).h := by
    show m'.h + _ = m.h + _; rw [s.h]
  have e2 : (padMeanEdge m' (pad10 (min m.h m.w))).w = (padMeanEdge m (pad10 (min m.h m.w))).w := by
    show m'.w + _ = m.w + _; rw [s.w]
  rw [e1, e2]
  generalize pad10 (min m.h m.w) = pad at e1 e2 ⊢
  cases Wavelet.levelUsed (padMeanEdge m pad).h (padMeanEdge m pad).w level with
  | error e => exact .inr ⟨e, rfl, rfl⟩
  | ok L =>
    refine .inl ⟨_, _, rfl, rfl, rfl, rfl, rfl, rfl, fun i hi j hj => ?_⟩
    have hi : i < m.h := hi
    have hj : j < m.w := hj
    have q := (waverec_sum b (dampAll_sum size butter (wavedec_sum b L (padMeanEdge_sum a m m' s (by omega) pad)))).get (pad + i) (pad + j)
    obtain ⟨c, hc, hac⟩ := padMeanEdge_free (stripeFree m.h m.w a) m.h m.w (by omega) a (equalCols_free m.h m.w a) pad
    rw [hc, dampAll_free b hs, (Pywt.pywt_good b hb hs).inverse L _ (pad + i) (by show _ < m.h + 2 * pad; omega) (pad + j) (by show _ < m.w + 2 * pad; omega)] at q
    have h3 : (stripeFree (m.h + 2 * pad) (m.w + 2 * pad) c).get (pad + i) (pad + j) = a i := hac i hi
    rw [h3] at q
    exact q

/-- **C174.** `remove_stripe_based_wavelet_fft` without sorting and fluctuations of the beam, for every wavelet with perfect reconstruction. -/
theorem wavelet_profile (as1 : Argsort ℝ) (as2 : Argsort ℕ) (b : Pywt.Bank) (hb : Pywt.PerfectReconstruction b) (hs : b.decHi.sum = 0) (level : Option ℤ)
    (size : ℝ) (butter : Bool) (a : ℕ → ℝ) (m : Mat ℝ) :
    PassesThrough (removeWavelet as1 as2 (Pywt.wavedec b) (Pywt.waverec b) level size butter false) a m :=
  waveletCore_shift b hb hs level size butter a m _ (shifted_add a m)

/-- **C174.** `remove_stripe_based_wavelet_fft` with sorting and offsets. -/
theorem wavelet_offset (as1 : Argsort ℝ) (ho : OffsetOnly as1) (as2 : Argsort ℕ) (b : Pywt.Bank) (hb : Pywt.PerfectReconstruction b) (hs : b.decHi.sum = 0)
    (level : Option ℤ) (size : ℝ) (butter : Bool) (v : ℝ) (m : Mat ℝ) :
    PassesThrough (removeWavelet as1 as2 (Pywt.wavedec b) (Pywt.waverec b) level size butter true) (fun _ => v) m := by
  have s := shifted_add (fun _ => v) m
  unfold PassesThrough removeWavelet
  simp only [if_true]
  rcases waveletCore_shift b hb hs level size butter (fun _ => v) (sortForward as1 0 m).1 (sortForward as1 0 (addRows (fun _ => v) m)).1
    (forward_add as1 ho v m _ s).1 with ⟨r, r', e1, e2, h1, h2, h3⟩ | ⟨e, e1, e2⟩
  · rw [e1, e2]
    exact .inl ⟨_, _, rfl, rfl, h1, h2, sorted_step as1 ho as2 v m _ r r' s h1 h2 h3⟩
  · rw [e1, e2]
    exact .inr ⟨e, rfl, rfl⟩

end Verif.StripeFilters
