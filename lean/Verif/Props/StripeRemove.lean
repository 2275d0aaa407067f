import Verif.Props.Stripe
import Mathlib.Tactic.NormNum

/-! C83–C85 — stripe removal by interpolation, normalisation factors, blob masks. -/

set_option linter.unusedSectionVars false
set_option linter.unusedSimpArgs false

namespace Verif.Stripe
open Verif.Removal Verif.Sorting

variable {K : Type _} [Field K] [LinearOrder K] [IsStrictOrderedRing K] [Inhabited K]

theorem detectFn_ok (n : Nat) (snr : K) (v : Nat → K) (d : Nat → Bool) (h : detectFn n snr v = .ok d) :
    ∃ m, detectStripe ((List.range n).map v) snr = .ok m ∧ d = fun j => m.getD j false := by
  unfold detectFn at h
  cases hd : detectStripe ((List.range n).map v) snr with
  | error e => rw [hd] at h; cases h
  | ok m =>
    rw [hd] at h
    exact ⟨m, rfl, (Except.ok.inj h).symm⟩

/-! ### C83 -/

/-- A spline through the good columns reproduces straight lines (all degrees ≥ 1); only used to show that the parameter of the
model can be instantiated: degree 1 is `linInterp`. -/
def linSpline (_ : Nat) (good : Nat → Bool) (n : Nat) (f : Nat → K) (j : Nat) : K := (linInterp good n f j).toOption.getD default

/-- The image handed to the interpolator: normalised or not. -/
def prepared (norm : Bool) (fact : Nat → K) (sino : Mat K) : Mat K :=
  if norm then ⟨sino.h, sino.w, fun i c => sino.get i c / fact c⟩ else sino

/-- C83: `remove_stripe_based_interpolation`, whatever the smoothing, the spline and the detected columns `d`: detected columns and
their direct neighbours (never the first and last two columns) are replaced by the spline through the remaining columns of
the same row; all others are unchanged (`norm=False`) or divided by their factor (`norm=True`). -/
theorem interpolation_columns (sp : Nat → (Nat → Bool) → Nat → (Nat → K) → Nat → K) (smooth : Mat K → Mat K) (snr : K) (ndrop : Nat)
    (norm : Bool) (kind : Kind) (sino : Mat K) (d : Nat → Bool) (hd : detectFn sino.w snr (interpFact smooth ndrop sino) = .ok d)
    (out : Mat K) (h : removeInterpolation sp smooth snr ndrop norm kind sino = .ok out) :
    out.h = sino.h ∧ out.w = sino.w ∧ ∀ i < sino.h, ∀ j < sino.w,
      (¬ InnerMasked sino.w (dilate sino.w d) j →
        out.get i j = if norm then sino.get i j / interpFact smooth ndrop sino j else sino.get i j) ∧
      (InnerMasked sino.w (dilate sino.w d) j →
        out.get i j = sp (degRemoval kind) (fun k => decide (¬ InnerMasked sino.w (dilate sino.w d) k)) sino.w
          (fun k => if norm then sino.get i k / interpFact smooth ndrop sino k else sino.get i k) j) := by
  unfold removeInterpolation at h
  rw [hd] at h
  simp only [bind, Except.bind] at h
  unfold splineMat at h
  have hz : ∀ k, zeroEdges sino.w (dilate sino.w d) k = decide (InnerMasked sino.w (dilate sino.w d) k) := by
    intro k
    rw [Bool.eq_iff_iff, zeroEdges_iff, decide_eq_true_eq]
  have hgood : (fun j => !zeroEdges sino.w (dilate sino.w d) j) = fun k => decide (¬ InnerMasked sino.w (dilate sino.w d) k) := by
    funext k
    rw [hz, decide_not]
  have hmask : ∀ k, zeroEdges sino.w (dilate sino.w d) k = true ↔ InnerMasked sino.w (dilate sino.w d) k := zeroEdges_iff _ _
  rw [hgood] at h
  cases norm with
  | false =>
    simp only [Bool.false_eq_true, if_false] at h ⊢
    split at h
    · cases h
    have h := (Except.ok.inj h).symm
    subst h
    refine ⟨rfl, rfl, fun i hi j hj => ⟨fun hn => ?_, fun hm => ?_⟩⟩
    · show (if zeroEdges sino.w (dilate sino.w d) j = true then _ else _) = _
      rw [if_neg (fun hc => hn ((hmask j).1 hc))]
    · show (if zeroEdges sino.w (dilate sino.w d) j = true then _ else _) = _
      rw [if_pos ((hmask j).2 hm)]
  | true =>
    simp only [if_true] at h ⊢
    split at h
    · cases h
    have h := (Except.ok.inj h).symm
    subst h
    refine ⟨rfl, rfl, fun i hi j hj => ⟨fun hn => ?_, fun hm => ?_⟩⟩
    · show (if zeroEdges sino.w (dilate sino.w d) j = true then _ else _) = _
      rw [if_neg (fun hc => hn ((hmask j).1 hc))]
    · show (if zeroEdges sino.w (dilate sino.w d) j = true then _ else _) = _
      rw [if_pos ((hmask j).2 hm)]

/-- C83, the default `kind="linear"` (the degree-1 spline is the chord between the nearest good columns): the masked columns get
the linear interpolation between the nearest unmasked columns of the same row, so they stay between their values. -/
theorem interpolation_linear (smooth : Mat K → Mat K) (snr : K) (ndrop : Nat) (norm : Bool) (sino : Mat K) (d : Nat → Bool)
    (hd : detectFn sino.w snr (interpFact smooth ndrop sino) = .ok d)
    (out : Mat K) (h : removeInterpolation linSpline smooth snr ndrop norm .linear sino = .ok out) :
    FilledOnly (InnerMasked sino.w (dilate sino.w d)) (prepared norm (interpFact smooth ndrop sino) sino) out := by
  obtain ⟨h1, h2, h3⟩ := interpolation_columns linSpline smooth snr ndrop norm .linear sino d hd out h
  have e : ∀ i k, (prepared norm (interpFact smooth ndrop sino) sino).get i k =
      if norm then sino.get i k / interpFact smooth ndrop sino k else sino.get i k := by
    intro i k
    cases norm <;> rfl
  have eh : (prepared norm (interpFact smooth ndrop sino) sino).h = sino.h := by cases norm <;> rfl
  have ew : (prepared norm (interpFact smooth ndrop sino) sino).w = sino.w := by cases norm <;> rfl
  refine ⟨h1.trans eh.symm, h2.trans ew.symm, ?_⟩
  rw [eh, ew]
  intro i hi j hj
  refine ⟨fun hn => ?_, fun hm => ?_⟩
  · rw [e, (h3 i hi j hj).1 hn]
  · have hz := zeroEdges_neighbours sino.w (dilate sino.w d) j hj ((zeroEdges_iff _ _ _).2 hm)
    have hb : ∀ k, decide (¬ InnerMasked sino.w (dilate sino.w d) k) = !zeroEdges sino.w (dilate sino.w d) k := by
      intro k
      rw [Bool.eq_iff_iff, decide_eq_true_eq, Bool.not_eq_true', ← Bool.not_eq_true, zeroEdges_iff]
    simp only [← hb] at hz
    obtain ⟨a, b, v, hv, c1, c2, c3, c4, c5, c6, c7, c8, c9, c10⟩ :=
      linInterp_spec (fun k => decide (¬ InnerMasked sino.w (dilate sino.w d) k)) sino.w
        ((prepared norm (interpFact smooth ndrop sino) sino).get i) j hz.1 hz.2
    have hout : out.get i j = v := by
      rw [(h3 i hi j hj).2 hm]
      have : (fun k => if norm then sino.get i k / interpFact smooth ndrop sino k else sino.get i k) =
          (prepared norm (interpFact smooth ndrop sino) sino).get i := by funext k; rw [e]
      rw [this]
      unfold linSpline
      rw [hv]
      rfl
    rw [hout]
    refine ⟨a, b, c1, c2, c3, of_decide_eq_true c4, of_decide_eq_true c5, ?_, ?_, c8, c9, c10⟩
    · intro k k1 k2
      exact of_decide_eq_false (c6 k k1 k2)
    · intro k k1 k2
      exact of_decide_eq_false (c7 k k1 k2)

/-- C83: the call fails only if the detector does or the image is too small for the spline. -/
theorem interpolation_succeeds (sp : Nat → (Nat → Bool) → Nat → (Nat → K) → Nat → K) (smooth : Mat K → Mat K) (snr : K) (ndrop : Nat)
    (norm : Bool) (kind : Kind) (sino : Mat K) (d : Nat → Bool) (hd : detectFn sino.w snr (interpFact smooth ndrop sino) = .ok d)
    (hh : degRemoval kind < sino.h) (hw : 4 ≤ sino.w) : ∃ out, removeInterpolation sp smooth snr ndrop norm kind sino = .ok out := by
  have hgood : 4 ≤ ((List.range sino.w).filter fun j => !zeroEdges sino.w (dilate sino.w d) j).length := by
    have hsub : ([0, 1, sino.w - 2, sino.w - 1] : List Nat) ⊆ (List.range sino.w).filter fun j => !zeroEdges sino.w (dilate sino.w d) j := by
      intro j hj
      rw [List.mem_filter, List.mem_range]
      simp only [List.mem_cons, List.not_mem_nil, or_false] at hj
      refine ⟨by omega, ?_⟩
      unfold zeroEdges
      rw [if_pos (by omega)]
      rfl
    have hnd : ([0, 1, sino.w - 2, sino.w - 1] : List Nat).Nodup := by
      simp only [List.nodup_cons, List.mem_cons, List.not_mem_nil, or_false, not_or, not_false_eq_true, List.nodup_nil, and_true]
      omega
    exact (List.subperm_of_subset hnd hsub).length_le
  have hk : degRemoval kind ≤ 2 := by cases kind <;> simp [degRemoval]
  unfold removeInterpolation
  rw [hd]
  simp only [bind, Except.bind]
  unfold splineMat
  rw [if_neg]
  · exact ⟨_, rfl⟩
  · have e1 : (if norm = true then (⟨sino.h, sino.w, fun i c => sino.get i c / interpFact smooth ndrop sino c⟩ : Mat K) else sino).h = sino.h := by
      cases norm <;> rfl
    have e2 : (if norm = true then (⟨sino.h, sino.w, fun i c => sino.get i c / interpFact smooth ndrop sino c⟩ : Mat K) else sino).w = sino.w := by
      cases norm <;> rfl
    rw [e1, e2]
    omega

/-- C83: a detector failure (for instance noise-free data) is passed on. -/
theorem interpolation_error (sp : Nat → (Nat → Bool) → Nat → (Nat → K) → Nat → K) (smooth : Mat K → Mat K) (snr : K) (ndrop : Nat)
    (norm : Bool) (kind : Kind) (sino : Mat K) (e : PyErr) (hd : detectFn sino.w snr (interpFact smooth ndrop sino) = .error e) :
    removeInterpolation sp smooth snr ndrop norm kind sino = .error e := by
  unfold removeInterpolation
  rw [hd]
  rfl

/-- C83: the normalisation of this method never divides by zero. -/
theorem interpolation_factor_ne_zero (smooth : Mat K → Mat K) (ndrop : Nat) (sino : Mat K) (c : Nat) : interpFact smooth ndrop sino c ≠ 0 := by
  unfold interpFact
  dsimp only
  split
  · rename_i h
    apply div_ne_zero _ h
    split
    · exact one_ne_zero
    · assumption
  · exact one_ne_zero

/-- What a user of `kind` relies on: three different interpolation orders. -/
def KindsDiffer (deg : Kind → Nat) : Prop := ∀ a b, deg a = deg b → a = b

/-- The `kind` option: `interpolate_inside_stripe` uses three different degrees, but `remove_stripe_based_interpolation` gives the same
result for "cubic" and "quintic", whatever the data and the spline; and "cubic" is of degree 2 in both. -/
theorem kind_refuted : KindsDiffer degInside ∧ ¬ KindsDiffer degRemoval ∧ degRemoval .cubic = 2 ∧ degInside .cubic = 2 ∧
    ∀ (sp : Nat → (Nat → Bool) → Nat → (Nat → K) → Nat → K) (smooth : Mat K → Mat K) (snr : K) (ndrop : Nat) (norm : Bool) (sino : Mat K),
      removeInterpolation sp smooth snr ndrop norm .cubic sino = removeInterpolation sp smooth snr ndrop norm .quintic sino := by
  refine ⟨?_, ?_, rfl, rfl, fun _ _ _ _ _ _ => rfl⟩
  · intro a b h
    cases a <;> cases b <;> simp_all [degInside]
  · intro h
    have := h .cubic .quintic rfl
    cases this

/-! ### C84: division by the normalisation factor in `remove_large_stripe` -/

/-- Full claim: `remove_large_stripe(norm=True)` never divides a column it keeps by zero. -/
def NeverDividesByZero (as1 : Argsort K) (smooth : Mat K → Mat K) (snr : K) (ndrop : Nat) (sino : Mat K) : Prop :=
  ∀ d, detectFn sino.w snr (largeFact as1 smooth ndrop sino) = .ok d → ∀ c < sino.w, dilate sino.w d c = false →
    largeFact as1 smooth ndrop sino c ≠ 0

/-- C84 (partial): it holds if the trimmed mean of every kept column is non-zero. -/
theorem large_factor_partial (as1 : Argsort K) (smooth : Mat K → Mat K) (snr : K) (ndrop : Nat) (sino : Mat K)
    (h : ∀ c < sino.w, rowMean (sortForward as1 0 sino).1.get ndrop (sino.h - ndrop) c ≠ 0) :
    NeverDividesByZero as1 smooth snr ndrop sino := by
  intro d _ c hc _
  unfold largeFact
  dsimp only
  split
  · rename_i h2
    exact div_ne_zero (h c hc) h2
  · exact one_ne_zero

/-- One projection row of eight pixels with a dead pixel. -/
def deadRow : Mat ℚ := ⟨1, 8, fun _ j => [7, 5, 7, 9, 0, 9, 6, 7].getD j 0⟩

theorem sort_one_row (as1 : Argsort ℚ) (c : Nat) : (sortForward as1 0 deadRow).1.get 0 c = deadRow.get 0 c := by
  have h := ((sort_forward_sorted as1 deadRow).1.2.2 c).2
  have h1 : line (sortForward as1 0 deadRow).1.T c = [(sortForward as1 0 deadRow).1.get 0 c] := rfl
  have h2 : line deadRow.T c = [deadRow.get 0 c] := rfl
  rw [h1, h2] at h
  have := h.mem_iff.1 (List.mem_singleton.2 rfl)
  exact List.mem_singleton.1 this

/-- C84 is false of the code: with the default median smoothing (size 3 here) and an `snr` at which the dead column is not detected, the
column of zeros is divided by a factor of zero (nan in the result). -/
theorem large_factor_refuted (as1 : Argsort ℚ) : ¬ NeverDividesByZero as1 (medianFilterRow 3) 1000 0 deadRow := by
  intro h
  have hmed : ∀ j, (medianFilterRow 3 (sortForward as1 0 deadRow).1).get 0 j = ((((List.range 3).map fun (k : Nat) =>
      deadRow.get 0 (reflectIdx 8 ((j : Int) - 1 + (k : Int)))).insertionSort (· ≤ ·)).getD 1 0) := by
    intro j
    show ((((List.range 3).map fun (k : Nat) => (sortForward as1 0 deadRow).1.get 0 (reflectIdx 8 ((j : Int) - 1 + (k : Int)))).mergeSort
      (fun a b => decide (a ≤ b))).getD 1 default) = _
    simp only [sort_one_row]
    rw [List.mergeSort_eq_insertionSort]
    rfl
  have hfact : ∀ c, largeFact as1 (medianFilterRow 3) 0 deadRow c =
      if (((List.range 3).map fun (k : Nat) => deadRow.get 0 (reflectIdx 8 ((c : Int) - 1 + (k : Int)))).insertionSort (· ≤ ·)).getD 1 0 ≠ 0
      then deadRow.get 0 c / (((List.range 3).map fun (k : Nat) => deadRow.get 0 (reflectIdx 8 ((c : Int) - 1 + (k : Int)))).insertionSort
        (· ≤ ·)).getD 1 0 else 1 := by
    intro c
    have r1 : ∀ f : Nat → Nat → ℚ, rowMean f 0 (deadRow.h - 0) c = f 0 c := by
      intro f
      unfold rowMean
      show (∑ i ∈ Finset.Ico 0 1, f i c) / ((1 : Nat) : ℚ) = f 0 c
      simp
    unfold largeFact
    dsimp only
    rw [r1, r1, hmed, sort_one_row]
  have hlist : ((List.range 8).map (largeFact as1 (medianFilterRow 3) 0 deadRow)) = [1, 5/7, 1, 9/7, 0, 3/2, 6/7, 1] := by
    rw [List.map_congr_left (fun c _ => hfact c)]
    decide +kernel
  have hdet : detectFn deadRow.w 1000 (largeFact as1 (medianFilterRow 3) 0 deadRow) = .ok fun j => (List.replicate 8 false).getD j false := by
    unfold detectFn
    rw [show deadRow.w = 8 from rfl, hlist]
    have : detectStripe [1, 5/7, 1, 9/7, 0, 3/2, 6/7, 1] (1000 : ℚ) = .ok (List.replicate 8 false) := by decide +kernel
    rw [this]
    rfl
  refine h _ hdet 4 (by decide) (by decide) ?_
  rw [hfact]
  decide +kernel

/-! ### C85: blob masks -/

/-- The normalised line `generate_blob_mask` analyses for row `i` of the median-filtered flat image. -/
def blobLine (med : Nat → (Nat → K) → Nat → K) (m : Mat K) (i j : Nat) : K :=
  m.get i j / (if med m.w (m.get i) j = 0 then (∑ j ∈ Finset.range m.w, med m.w (m.get i) j) / (m.w : K) else med m.w (m.get i) j)

/-- C85: if the detector accepts every row and reports `d i`, the mask has the image's shape and a pixel is set exactly if a
detected pixel, not among the first and last two, is at most one column away in the same row. -/
theorem blob_mask_spec (med2 : Mat K → Mat K) (med : Nat → (Nat → K) → Nat → K) (snr : K) (flat : Mat K) (d : Nat → Nat → Bool)
    (hd : ∀ i < (med2 flat).h, detectFn (med2 flat).w snr (blobLine med (med2 flat) i) = .ok (d i)) :
    ∃ out, generateBlobMask med2 med snr flat = .ok out ∧ out.h = (med2 flat).h ∧ out.w = (med2 flat).w ∧
      ∀ i < out.h, ∀ j < out.w, out.get i j = true ↔ ∃ k < out.w, d i k = true ∧ 2 ≤ k ∧ k + 2 < out.w ∧ k ≤ j + 1 ∧ j ≤ k + 1 := by
  have hm := mapM_all_ok (fun i => (do
      let d ← detectFn (med2 flat).w snr (blobLine med (med2 flat) i)
      (.ok (dilate (med2 flat).w (zeroEdges (med2 flat).w d)) : Py (Nat → Bool))))
    (fun i => dilate (med2 flat).w (zeroEdges (med2 flat).w (d i))) (List.range (med2 flat).h) (by
      intro i hi
      rw [hd i (List.mem_range.1 hi)]
      rfl)
  refine ⟨⟨(med2 flat).h, (med2 flat).w, fun i j => ((List.range (med2 flat).h).map fun i =>
    dilate (med2 flat).w (zeroEdges (med2 flat).w (d i))).getD i (fun _ => false) j⟩, ?_, rfl, rfl, ?_⟩
  · unfold generateBlobMask
    dsimp only
    have hm' := hm
    unfold blobLine at hm'
    rw [hm']
    rfl
  · intro i hi j hj
    show ((List.range (med2 flat).h).map fun i => dilate (med2 flat).w (zeroEdges (med2 flat).w (d i))).getD i (fun _ => false) j = true ↔ _
    rw [getD_map_range' _ _ hi, dilate_spec]
    simp only [zeroEdges_iff]
    unfold InnerMasked
    constructor
    · rintro (⟨a, b, c⟩ | ⟨k, rfl, a, b, c⟩ | ⟨e, a, b, c⟩)
      · exact ⟨j, hj, a, b, c, by omega, by omega⟩
      · refine ⟨k, ?_, a, b, c, by omega, by omega⟩
        show k < (med2 flat).w
        omega
      · exact ⟨j + 1, e, a, b, c, by omega, by omega⟩
    · rintro ⟨k, hk, a, b, c, e, f⟩
      have : k = j ∨ k + 1 = j ∨ k = j + 1 := by omega
      rcases this with rfl | h | rfl
      · exact Or.inl ⟨a, b, c⟩
      · exact Or.inr (Or.inl ⟨k, h, a, b, c⟩)
      · exact Or.inr (Or.inr ⟨hk, a, b, c⟩)

theorem mapM_error {α β : Type _} (f : α → Py β) (e : PyErr) :
    ∀ l : List α, (∀ x ∈ l, (∃ y, f x = .ok y) ∨ f x = .error e) → (∃ x ∈ l, f x = .error e) → l.mapM f = .error e := by
  intro l
  induction l with
  | nil => rintro _ ⟨x, hx, _⟩; cases hx
  | cons a l ih =>
    intro h1 h2
    rw [List.mapM_cons]
    rcases h1 a (by simp) with ⟨y, hy⟩ | hy
    · rw [hy]
      have : l.mapM f = .error e := by
        apply ih (fun x hx => h1 x (by simp [hx]))
        obtain ⟨x, hx, hfx⟩ := h2
        rcases List.mem_cons.1 hx with rfl | hx
        · rw [hy] at hfx; cases hfx
        · exact ⟨x, hx, hfx⟩
      rw [this]
      rfl
    · rw [hy]; rfl

theorem detect_errors (l : List K) (snr : K) (h : GoodSize l.length) :
    (∃ m, detectStripe l snr = .ok m) ∨ detectStripe l snr = .error .valueError := by
  rw [detect_eq l snr h]
  split
  · exact Or.inr rfl
  · exact Or.inl ⟨_, rfl⟩

/-- C85: one row of the (median-filtered) flat image with equal, non-zero values — for instance a saturated row — makes the whole call
raise `ValueError`; no mask is returned for the other rows. -/
theorem blob_mask_flat_row (med2 : Mat K → Mat K) (med : Nat → (Nat → K) → Nat → K)
    (hmed : ∀ n v c, (∀ j < n, v j = c) → ∀ j < n, med n v j = c) (snr : K) (flat : Mat K) (hg : GoodSize (med2 flat).w)
    (i : Nat) (hi : i < (med2 flat).h) (c : K) (hc : c ≠ 0) (hrow : ∀ j < (med2 flat).w, (med2 flat).get i j = c) :
    generateBlobMask med2 med snr flat = .error .valueError := by
  have hm : (List.range (med2 flat).h).mapM (fun i => (do
      let d ← detectFn (med2 flat).w snr (blobLine med (med2 flat) i)
      (.ok (dilate (med2 flat).w (zeroEdges (med2 flat).w d)) : Py (Nat → Bool)))) = .error .valueError := by
    apply mapM_error
    · intro k _
      unfold detectFn
      rcases detect_errors ((List.range (med2 flat).w).map (blobLine med (med2 flat) k)) snr (by simpa using hg) with ⟨m, h⟩ | h
      · rw [h]; exact Or.inl ⟨_, rfl⟩
      · rw [h]; exact Or.inr rfl
    · refine ⟨i, List.mem_range.2 hi, ?_⟩
      unfold detectFn
      rw [detect_rejects_flat ((List.range (med2 flat).w).map (blobLine med (med2 flat) i)) snr 1 (by simpa using hg)]
      · rfl
      · intro x hx
        obtain ⟨j, hj, rfl⟩ := List.mem_map.1 hx
        rw [List.mem_range] at hj
        unfold blobLine
        rw [hmed _ _ c hrow j hj, if_neg hc, hrow j hj, div_self hc]
  unfold generateBlobMask
  dsimp only
  unfold blobLine at hm
  rw [hm]
  rfl

/-- Non-vacuity: a 1×9 flat with one bright blob (identity filters). -/
example : (match generateBlobMask (K := ℚ) id (fun _ _ _ => 1) 3 ⟨1, 9, fun _ j => [3, 0, 1, 40, 5, 4, 2, 7, 6].getD j 0⟩ with
    | .ok out => (List.range 9).map (out.get 0)
    | .error _ => []) = [false, false, true, true, true, false, false, false, false] := by decide +kernel

end Verif.Stripe

namespace Verif.Stripe
open Verif.Removal Verif.Sorting

variable {K : Type _} [Field K] [LinearOrder K] [IsStrictOrderedRing K] [Inhabited K]

/-- C28 with the detector of the code: `remove_large_stripe` fails exactly with the detector's error on the column factors; otherwise
columns away from detected ones are only divided by their factor (`norm`) or kept. -/
theorem remove_large_stripe_own (as1 : Argsort K) (as2 : Argsort Nat) (smooth : Mat K → Mat K) (hshape : ∀ m, (smooth m).h = m.h)
    (snr : K) (ndrop : Nat) (norm : Bool) (sino : Mat K) :
    (∀ e, detectStripe ((List.range sino.w).map (largeFact as1 smooth ndrop sino)) snr = .error e →
      removeLargeStripe as1 as2 smooth snr ndrop norm sino = .error e) ∧
    (∀ m, detectStripe ((List.range sino.w).map (largeFact as1 smooth ndrop sino)) snr = .ok m →
      ∃ out, removeLargeStripe as1 as2 smooth snr ndrop norm sino = .ok out ∧ out.h = sino.h ∧ out.w = sino.w ∧
        ∀ c < sino.w, (∀ k < sino.w, m.getD k false = true → k + 1 < c ∨ c + 1 < k) → ∀ i,
          out.get i c = if norm then sino.get i c / largeFact as1 smooth ndrop sino c else sino.get i c) := by
  constructor
  · intro e he
    unfold removeLargeStripe removeLarge largeMask detectFn
    rw [he]
    rfl
  · intro m hm
    have hd : detectFn sino.w snr (largeFact as1 smooth ndrop sino) = .ok fun j => m.getD j false := by
      unfold detectFn
      rw [hm]
      rfl
    have hlen : m.length ≤ sino.w := by
      unfold detectStripe at hm
      dsimp only at hm
      split at hm
      · cases hm
      · split at hm
        · cases hm
        · rw [← Except.ok.inj hm]
          simp
    obtain ⟨out, h1, h2, h3, h4⟩ := remove_large_stripe_columns as1 as2 smooth hshape (detectFn sino.w snr) _ ndrop norm sino hd
    refine ⟨out, h1, h2, h3, ?_⟩
    intro c hc hfar i
    have hn : ¬ dilate sino.w (fun j => m.getD j false) c = true := by
      rw [dilate_spec]
      have hlt : ∀ k, m.getD k false = true → k < sino.w := by
        intro k hk
        by_contra hcon
        rw [List.getD_eq_default _ _ (by omega)] at hk
        cases hk
      rintro (h | ⟨k, hk, h⟩ | ⟨_, h⟩)
      · rcases hfar c hc h with h | h <;> omega
      · rcases hfar k (hlt k h) h with h | h <;> omega
      · rcases hfar (c + 1) (hlt _ h) h with h | h <;> omega
    obtain ⟨g1, g2, _⟩ := h4 c
    cases norm with
    | false => rw [g1 hn rfl i]; rfl
    | true => rw [g2 hn rfl i]; rfl

/-- C28 with the detector of the code: `remove_dead_stripe(residual=False)` fails with the detector's error; otherwise columns away
from detected ones are returned unchanged. -/
theorem remove_dead_stripe_own (unif med : Nat → (Nat → K) → Nat → K) (snr : K) (large : Mat K → Py (Mat K)) (sino : Mat K)
    (hh : 2 ≤ sino.h) (hw : 2 ≤ sino.w) :
    (∀ e, detectStripe ((List.range sino.w).map (deadFact unif med sino)) snr = .error e →
      removeDeadStripe unif med snr large false sino = .error e) ∧
    (∀ m, detectStripe ((List.range sino.w).map (deadFact unif med sino)) snr = .ok m →
      ∃ out, removeDeadStripe unif med snr large false sino = .ok out ∧
        ∀ i < sino.h, ∀ c < sino.w, (∀ k < sino.w, m.getD k false = true → k + 1 < c ∨ c + 1 < k) → out.get i c = sino.get i c) := by
  constructor
  · intro e he
    unfold removeDeadStripe removeDead deadMask detectFn
    simp only [he]
    rfl
  · intro m hm
    have hd : (fun s : Mat K => detectFn s.w snr (deadFact unif med s)) sino = .ok fun j => m.getD j false := by
      show detectFn sino.w snr (deadFact unif med sino) = _
      unfold detectFn
      rw [hm]
      rfl
    have hlen : m.length ≤ sino.w := by
      unfold detectStripe at hm
      dsimp only at hm
      split at hm
      · cases hm
      · split at hm
        · cases hm
        · rw [← Except.ok.inj hm]
          simp
    obtain ⟨out, h1, _, _, _, h4⟩ := remove_dead_stripe_good_columns (fun s : Mat K => detectFn s.w snr (deadFact unif med s)) (fun j => m.getD j false) large sino hd hh hw
    refine ⟨out, h1, ?_⟩
    intro i hi c hc hfar
    apply h4 i hi c hc
    rintro ⟨hmask, _, _⟩
    rw [dilate_spec] at hmask
    have hlt : ∀ k, m.getD k false = true → k < sino.w := by
      intro k hk
      by_contra hcon
      rw [List.getD_eq_default _ _ (by omega)] at hk
      cases hk
    rcases hmask with h | ⟨k, hk, h⟩ | ⟨_, h⟩
    · rcases hfar c hc h with h | h <;> omega
    · rcases hfar k (hlt k h) h with h | h <;> omega
    · rcases hfar (c + 1) (hlt _ h) h with h | h <;> omega

end Verif.Stripe
