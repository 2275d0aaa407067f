import Verif.Props.FittingScale
import Verif.Props.Pywt

/-! C170 — stripe removal does not depend on the unit of the data. -/

set_option linter.unusedSectionVars false
set_option linter.unusedSimpArgs false

namespace Verif.StripeFilters
open Verif.Sorting Verif.Removal Verif.Stripe Verif.Fourier Verif.Surface Verif.Wavelet Verif.Polar Complex

/-- A method commutes with every positive change of unit, exceptions included. -/
def UnitFree (f : Mat ℝ → Py (Mat ℝ)) : Prop := ∀ (k : ℝ), 0 < k → ∀ m, f (smulMat k m) = (f m).map (smulMat k)

/-- A filter on images that commutes with every positive change of unit. -/
def Homog (f : Mat ℝ → Mat ℝ) : Prop := ∀ (k : ℝ), 0 < k → ∀ m, f (smulMat k m) = smulMat k (f m)

/-- A filter on lines of a given length that commutes with every positive change of unit. -/
def HomogLine (f : (ℕ → ℝ) → ℕ → ℝ) : Prop := ∀ (k : ℝ), 0 < k → ∀ g j, f (fun c => k * g c) j = k * f g j

/-! ### filters -/

/-- The median filter is such a filter. -/
theorem median_homog (size : ℕ) : Homog (medianFilterRow size) := by
  intro k hk m
  unfold medianFilterRow smulMat
  dsimp only
  congr 1
  funext i j
  have e : ((List.range size).map fun (q : ℕ) => k * m.get i (reflectIdx m.w ((j : ℤ) - ((size / 2 : ℕ) : ℤ) + (q : ℤ)))) =
      ((List.range size).map fun (q : ℕ) => m.get i (reflectIdx m.w ((j : ℤ) - ((size / 2 : ℕ) : ℤ) + (q : ℤ)))).map fun x => k * x := by
    rw [List.map_map]; rfl
  rw [e]
  generalize (List.range size).map (fun (q : ℕ) => m.get i (reflectIdx m.w ((j : ℤ) - ((size / 2 : ℕ) : ℤ) + (q : ℤ)))) = l
  have h : (l.map fun x => k * x).mergeSort (fun a b => decide (a ≤ b)) = (l.mergeSort fun a b => decide (a ≤ b)).map fun x => k * x := by
    symm
    apply List.map_mergeSort
    intro a _ b _
    simp only [mul_le_mul_iff_right₀ hk]
  rw [h, getD_smul]

theorem signFilterLine_smul (ncol pad : ℕ) (window : ℕ → ℝ) (k : ℝ) (line : ℕ → ℝ) (j : ℕ) :
    signFilterLine ncol pad window (fun c => k * line c) j = k * signFilterLine ncol pad window line j := by
  unfold signFilterLine
  dsimp only
  have e : (fun q : ℕ => dft (ncol + 2 * pad) (fun j => ((k * line (reflectPadIdx ncol pad j) * (-1) ^ j : ℝ) : ℂ)) q * ((window q : ℝ) : ℂ)) =
      fun q => (k : ℂ) * (dft (ncol + 2 * pad) (fun j => ((line (reflectPadIdx ncol pad j) * (-1) ^ j : ℝ) : ℂ)) q * ((window q : ℝ) : ℂ)) := by
    funext q
    rw [← mul_assoc, ← dft_smul]
    congr 2
    funext j
    rw [← ofReal_mul]; congr 1; ring
  rw [e, idft_smul, mul_assoc, Complex.re_ofReal_mul]

/-- The Gaussian filter along a line (any window) is such a filter. -/
theorem signFilterLine_homog (ncol pad : ℕ) (window : ℕ → ℝ) : HomogLine (signFilterLine ncol pad window) :=
  fun k _ g j => signFilterLine_smul ncol pad window k g j

theorem filter2_smul (k : ℝ) (m : Mat ℝ) (mult : ℕ → ℕ → ℂ) : filter2 (smulMat k m) mult = smulMat k (filter2 m mult) := by
  unfold filter2 smulMat
  dsimp only
  congr 1
  funext i j
  have e : (fun q l => dft2 m.h m.w (fun i j => ((k * m.get i j : ℝ) : ℂ)) q l * mult q l) =
      fun q l => (k : ℂ) * (dft2 m.h m.w (fun i j => (m.get i j : ℂ)) q l * mult q l) := by
    funext q l
    rw [← mul_assoc, ← dft2_smul]
    congr 2
    funext i j
    push_cast; rfl
  rw [e, idft2_smul, Complex.re_ofReal_mul]

theorem gaussianFilter_smulMat (k : ℝ) (m : Mat ℝ) (sx sy : ℝ) (pad : ℕ) :
    gaussianFilter (smulMat k m) sx sy pad = smulMat k (gaussianFilter m sx sy pad) := by
  have : ∀ a b : Mat ℝ, a.h = b.h → a.w = b.w → (∀ i j, a.get i j = b.get i j) → a = b := by
    rintro ⟨h, w, f⟩ ⟨h', w', g⟩ rfl rfl hg
    congr 1; funext i j; exact hg i j
  exact this _ _ rfl rfl fun i j => gaussianFilter_smul m k sx sy pad i j

/-! ### sorting and filtering -/

theorem sorting_smul (as1 : Argsort ℝ) (ho : OrderOnly as1) (as2 : Argsort ℕ) (filt : Mat ℝ → Mat ℝ) (hf : Homog filt) (k : ℝ) (hk : 0 < k) (m : Mat ℝ) :
    removeStripeSorting as1 as2 filt (smulMat k m) = smulMat k (removeStripeSorting as1 as2 filt m) := by
  unfold removeStripeSorting
  dsimp only
  rw [sortForward_smul as1 ho k hk]
  dsimp only
  rw [hf k hk, sortBackward_smul]

/-- **C170.** `remove_stripe_based_sorting`. -/
theorem sorting_unit (as1 : Argsort ℝ) (ho : OrderOnly as1) (as2 : Argsort ℕ) (filt : Mat ℝ → Mat ℝ) (hf : Homog filt) :
    UnitFree fun m => .ok (removeStripeSorting as1 as2 filt m) := by
  intro k hk m
  show Except.ok _ = Except.ok _
  rw [sorting_smul as1 ho as2 filt hf k hk m]

/-- **C170.** `remove_stripe_based_filtering`. -/
theorem filtering_unit (as1 : Argsort ℝ) (ho : OrderOnly as1) (as2 : Argsort ℕ) (filt : Mat ℝ → Mat ℝ) (hf : Homog filt) (sigma : ℝ) (sort : Bool) :
    UnitFree (removeFiltering as1 as2 filt sigma sort) := by
  intro k hk m
  have e : ∃ s t : Mat ℝ, separateFrequency m true (.gaussian sigma) = .ok (s, t) ∧
      separateFrequency (smulMat k m) true (.gaussian sigma) = .ok (smulMat k s, smulMat k t) := by
    refine ⟨_, _, rfl, ?_⟩
    unfold separateFrequency
    simp only [if_true]
    show Except.ok (_, _) = Except.ok (_, _)
    congr 1
    congr 1
    · unfold Mat.T smulMat
      congr 1
      funext i j
      exact signFilterLine_smul _ _ _ k (fun q => m.get q j) i
    · unfold Mat.T smulMat
      congr 1
      funext i j
      show k * m.get i j - signFilterLine _ _ _ (fun q => k * m.get q j) i = k * (m.get i j - signFilterLine _ _ _ (fun q => m.get q j) i)
      rw [signFilterLine_smul]; ring
  obtain ⟨s, t, e1, e2⟩ := e
  unfold removeFiltering
  rw [e1, e2]
  show Except.ok _ = Except.ok _
  congr 1
  have e3 : (if sort then sortBackward as2 0 (filt (sortForward as1 0 (smulMat k s)).1) (sortForward as1 0 (smulMat k s)).2 else filt (smulMat k s)) =
      smulMat k (if sort then sortBackward as2 0 (filt (sortForward as1 0 s).1) (sortForward as1 0 s).2 else filt s) := by
    cases sort with
    | false => exact hf k hk s
    | true => exact sorting_smul as1 ho as2 filt hf k hk s
  dsimp only
  rw [e3]
  unfold smulMat
  dsimp only
  congr 1
  funext i j
  ring

/-- **C170.** `remove_stripe_based_2d_filtering_sorting`. -/
theorem filtering2d_unit (as1 : Argsort ℝ) (ho : OrderOnly as1) (as2 : Argsort ℕ) (filt : Mat ℝ → Mat ℝ) (hf : Homog filt) (sigma : ℝ) :
    UnitFree fun m => .ok (remove2dFilteringSorting as1 as2 filt sigma m) := by
  intro k hk m
  show Except.ok _ = Except.ok _
  congr 1
  unfold remove2dFilteringSorting
  dsimp only
  show (⟨m.h, m.w, _⟩ : Mat ℝ) = ⟨m.h, m.w, _⟩
  rw [gaussianFilter_smulMat]
  have e : (⟨(smulMat k m).h, (smulMat k m).w, fun i j => (smulMat k m).get i j - (smulMat k (gaussianFilter m sigma sigma (pad10 (min (smulMat k m).h (smulMat k m).w)))).get i j⟩ : Mat ℝ) =
      smulMat k ⟨m.h, m.w, fun i j => m.get i j - (gaussianFilter m sigma sigma (pad10 (min m.h m.w))).get i j⟩ := by
    unfold smulMat
    congr 1
    funext i j
    ring
  rw [e, sorting_smul as1 ho as2 filt hf k hk]
  congr 1
  funext i j
  show k * _ + k * _ = k * (_ + _)
  rw [← mul_add]
  rfl

/-! ### normalisation -/

theorem rowMean_smul (k : ℝ) (s : ℕ → ℕ → ℝ) (b e c : ℕ) : rowMean (fun i c => k * s i c) b e c = k * rowMean s b e c := by
  unfold rowMean
  rw [← Finset.mul_sum, mul_div_assoc]

theorem normalizeRows_unit (filt : (ℕ → ℝ) → ℕ → ℝ) (hf : HomogLine filt) (numChunk : ℕ) : UnitFree (normalizeRows filt numChunk) := by
  intro k hk m
  unfold normalizeRows
  show (do let bs ← chunkBounds 0 m.h numChunk; _) = _
  cases chunkBounds 0 m.h numChunk with
  | error e => rfl
  | ok bs =>
    show Except.ok _ = Except.ok _
    congr 1
    unfold smulMat
    dsimp only
    congr 1
    have key : ∀ (bs : List (ℕ × ℕ)) (s : ℕ → ℕ → ℝ),
        bs.foldl (fun s p i => if p.1 ≤ i ∧ i < p.2 then (fun c => s i c + (filt (rowMean s p.1 p.2) c - rowMean s p.1 p.2 c)) else s i) (fun i j => k * s i j) =
        fun i j => k * bs.foldl (fun s p i => if p.1 ≤ i ∧ i < p.2 then (fun c => s i c + (filt (rowMean s p.1 p.2) c - rowMean s p.1 p.2 c)) else s i) s i j := by
      intro bs
      induction bs with
      | nil => intro s; rfl
      | cons p bs ih =>
        intro s
        simp only [List.foldl_cons]
        rw [← ih]
        congr 1
        funext i j
        split
        · have e1 : rowMean (fun i j => k * s i j) p.1 p.2 = fun c => k * rowMean s p.1 p.2 c := by funext c; exact rowMean_smul k s _ _ c
          rw [e1]
          dsimp only
          rw [hf k hk]; ring
        · rfl
    exact key bs m.get

/-- **C170.** `remove_stripe_based_normalization`. -/
theorem normalization_unit (as1 : Argsort ℝ) (ho : OrderOnly as1) (as2 : Argsort ℕ) (filt : (ℕ → ℝ) → ℕ → ℝ) (hf : HomogLine filt) (numChunk : ℕ) (sort : Bool) :
    UnitFree (removeNormalization as1 as2 filt numChunk sort) := by
  intro k hk m
  unfold removeNormalization
  cases sort with
  | false => exact normalizeRows_unit filt hf numChunk k hk m
  | true =>
    simp only [if_true]
    rw [sortForward_smul as1 ho k hk]
    dsimp only
    rw [normalizeRows_unit filt hf numChunk k hk]
    cases normalizeRows filt numChunk (sortForward as1 0 m).1 with
    | error e => rfl
    | ok r =>
      show Except.ok (sortBackward as2 0 (smulMat k r) _) = Except.ok _
      rw [sortBackward_smul]

/-! ### large stripes, unresponsive stripes, interpolation -/

theorem largeFact_smul (as1 : Argsort ℝ) (ho : OrderOnly as1) (smooth : Mat ℝ → Mat ℝ) (hs : Homog smooth) (ndrop : ℕ) (k : ℝ) (hk : 0 < k) (m : Mat ℝ) :
    largeFact as1 smooth ndrop (smulMat k m) = largeFact as1 smooth ndrop m := by
  funext c
  unfold largeFact
  dsimp only
  rw [sortForward_smul as1 ho k hk]
  dsimp only
  rw [hs k hk]
  show (if rowMean (fun i c => k * (smooth (sortForward as1 0 m).1).get i c) ndrop (m.h - ndrop) c ≠ 0 then
    rowMean (fun i c => k * (sortForward as1 0 m).1.get i c) ndrop (m.h - ndrop) c / rowMean (fun i c => k * (smooth (sortForward as1 0 m).1).get i c) ndrop (m.h - ndrop) c
    else 1) = _
  rw [rowMean_smul, rowMean_smul]
  by_cases h : rowMean (smooth (sortForward as1 0 m).1).get ndrop (m.h - ndrop) c = 0
  · simp [h]
  · rw [if_pos (mul_ne_zero hk.ne' h), if_pos h, mul_div_mul_left _ _ hk.ne']

/-- **C170.** `remove_large_stripe`. -/
theorem large_unit (as1 : Argsort ℝ) (ho : OrderOnly as1) (as2 : Argsort ℕ) (smooth : Mat ℝ → Mat ℝ) (hs : Homog smooth) (snr : ℝ) (ndrop : ℕ) (norm : Bool) :
    UnitFree (removeLargeStripe as1 as2 smooth snr ndrop norm) := by
  intro k hk m
  unfold removeLargeStripe removeLarge largeMask
  rw [largeFact_smul as1 ho smooth hs ndrop k hk]
  show (do let mask ← (do let d ← detectFn m.w snr (largeFact as1 smooth ndrop m); .ok (dilate m.w d)); _) = _
  cases detectFn m.w snr (largeFact as1 smooth ndrop m) with
  | error e => rfl
  | ok d =>
    show Except.ok _ = Except.ok _
    congr 1
    unfold smulMat
    dsimp only
    congr 1
    funext i c
    have e : sortBackward as2 0 (smooth (sortForward as1 0 ⟨m.h, m.w, fun i j => k * m.get i j⟩).1) (sortForward as1 0 ⟨m.h, m.w, fun i j => k * m.get i j⟩).2 =
        smulMat k (sortBackward as2 0 (smooth (sortForward as1 0 m).1) (sortForward as1 0 m).2) := sorting_smul as1 ho as2 smooth hs k hk m
    rw [e]
    split
    · rfl
    · split
      · rw [mul_div_assoc]
      · rfl

theorem deadFact_smul (unif med : ℕ → (ℕ → ℝ) → ℕ → ℝ) (hu : ∀ n, HomogLine (unif n)) (hm : ∀ n, HomogLine (med n)) (k : ℝ) (hk : 0 < k) (m : Mat ℝ) :
    deadFact unif med (smulMat k m) = deadFact unif med m := by
  funext c
  unfold deadFact smulMat
  dsimp only
  have e1 : (fun c => ∑ i ∈ Finset.range m.h, |k * m.get i c - unif m.h (fun i => k * m.get i c) i|) =
      fun c => k * ∑ i ∈ Finset.range m.h, |m.get i c - unif m.h (fun i => m.get i c) i| := by
    funext c
    rw [Finset.mul_sum]
    refine Finset.sum_congr rfl fun i _ => ?_
    rw [hu m.h k hk, ← mul_sub, abs_mul, abs_of_pos hk]
  have e1c := congrFun e1 c
  rw [e1, e1c]
  set diff : ℕ → ℝ := fun c => ∑ i ∈ Finset.range m.h, |m.get i c - unif m.h (fun i => m.get i c) i| with hd
  have e2 : ∀ c, med m.w (fun c => k * diff c) c = k * med m.w diff c := fun c => hm m.w k hk diff c
  show k * diff c / (if med m.w (fun c => k * diff c) c = 0 then (∑ c ∈ Finset.range m.w, |med m.w (fun c => k * diff c) c|) / (m.w : ℝ) else med m.w (fun c => k * diff c) c) = _
  simp only [e2]
  by_cases h : med m.w diff c = 0
  · have : ∑ c ∈ Finset.range m.w, |k * med m.w diff c| = k * ∑ c ∈ Finset.range m.w, |med m.w diff c| := by
      rw [Finset.mul_sum]
      exact Finset.sum_congr rfl fun c _ => by rw [abs_mul, abs_of_pos hk]
    rw [if_pos (by rw [h, mul_zero]), if_pos h, this, mul_div_assoc k _ (m.w : ℝ), mul_div_mul_left _ _ hk.ne']
  · rw [if_neg (mul_ne_zero hk.ne' h), if_neg h, mul_div_mul_left _ _ hk.ne']

theorem linInterp_smul (k : ℝ) (good : ℕ → Bool) (n : ℕ) (f : ℕ → ℝ) (x : ℕ) :
    linInterp good n (fun j => k * f j) x = (linInterp good n f x).map fun v => k * v := by
  unfold linInterp
  cases prevGood good x with
  | none => rfl
  | some a =>
    cases nextGood good n x with
    | none => rfl
    | some b =>
      show Except.ok _ = Except.ok _
      congr 1
      rw [← mul_sub, mul_div_assoc]; ring

theorem fillLine_smul (k : ℝ) (good miss : ℕ → Bool) (n : ℕ) (f : ℕ → ℝ) :
    fillLine good miss n (fun j => k * f j) = (fillLine good miss n f).map fun g j => k * g j := by
  unfold fillLine
  have e : ∀ j, (linInterp good n (fun j => k * f j) j).isOk = (linInterp good n f j).isOk := by
    intro j; rw [linInterp_smul]; cases linInterp good n f j <;> rfl
  simp only [e]
  split
  · show Except.ok _ = Except.ok _
    congr 1
    funext j
    show (if miss j then (linInterp good n (fun j => k * f j) j).toOption.getD default else k * f j) =
      k * (if miss j then (linInterp good n f j).toOption.getD default else f j)
    by_cases hj : miss j
    · rw [if_pos hj, if_pos hj, linInterp_smul]
      cases linInterp good n f j with
      | error _ => show (0 : ℝ) = k * 0; ring
      | ok v => rfl
    · rw [if_neg hj, if_neg hj]
  · rfl

theorem fillMat_unit (good miss : ℕ → Bool) : UnitFree (fillMat good miss) := by
  intro k hk m
  unfold fillMat
  show (if m.h < 2 ∨ ((List.range m.w).filter good).length < 2 then _ else _) = _
  split
  · rfl
  · have e : ∀ l : List ℕ, (l.mapM fun i => fillLine good miss m.w ((smulMat k m).get i)) =
        (l.mapM fun i => fillLine good miss m.w (m.get i)).map fun rows => rows.map fun g j => k * g j := by
      intro l
      induction l with
      | nil => rfl
      | cons i l ih =>
        rw [List.mapM_cons, List.mapM_cons, ih, show fillLine good miss m.w ((smulMat k m).get i) = _ from fillLine_smul k good miss m.w (m.get i)]
        cases fillLine good miss m.w (m.get i) with
        | error _ => rfl
        | ok g => cases l.mapM fun i => fillLine good miss m.w (m.get i) <;> rfl
    rw [show (smulMat k m).w = m.w from rfl, show (smulMat k m).h = m.h from rfl, e]
    cases (List.range m.h).mapM fun i => fillLine good miss m.w (m.get i) with
    | error _ => rfl
    | ok rows =>
      show Except.ok _ = Except.ok _
      congr 1
      unfold smulMat
      dsimp only
      congr 1
      funext i j
      rw [List.getD_eq_getElem?_getD, List.getD_eq_getElem?_getD, List.getElem?_map]
      cases rows[i]? <;> rfl

/-- **C170.** `remove_dead_stripe`. -/
theorem dead_unit (unif med : ℕ → (ℕ → ℝ) → ℕ → ℝ) (hu : ∀ n, HomogLine (unif n)) (hm : ∀ n, HomogLine (med n)) (snr : ℝ)
    (large : Mat ℝ → Py (Mat ℝ)) (hl : UnitFree large) (residual : Bool) : UnitFree (removeDeadStripe unif med snr large residual) := by
  intro k hk m
  unfold removeDeadStripe removeDead deadMask
  dsimp only
  rw [deadFact_smul unif med hu hm k hk, show (smulMat k m).w = m.w from rfl]
  cases detectFn m.w snr (deadFact unif med m) with
  | error _ => rfl
  | ok d =>
    show (do let f ← fillMat (fun j => !zeroEdges m.w (dilate m.w d) j) (zeroEdges m.w (dilate m.w d)) (smulMat k m); _) = _
    rw [fillMat_unit _ _ k hk]
    show _ = Except.map (smulMat k) (do let f ← fillMat (fun j => !zeroEdges m.w (dilate m.w d) j) (zeroEdges m.w (dilate m.w d)) m; _)
    cases fillMat (fun j => !zeroEdges m.w (dilate m.w d) j) (zeroEdges m.w (dilate m.w d)) m with
    | error _ => rfl
    | ok f =>
      show (if residual then large (if _ then smulMat k f else smulMat k m) else Except.ok (if _ then smulMat k f else smulMat k m)) =
        Except.map (smulMat k) (if residual then large (if _ then f else m) else Except.ok (if _ then f else m))
      rw [← apply_ite (smulMat k)]
      cases residual with
      | false => rfl
      | true => exact hl k hk _

/-- **C170.** `remove_all_stripe`. -/
theorem all_unit (as1 : Argsort ℝ) (ho : OrderOnly as1) (as2 : Argsort ℕ) (unif med : ℕ → (ℕ → ℝ) → ℕ → ℝ) (hu : ∀ n, HomogLine (unif n))
    (hm : ∀ n, HomogLine (med n)) (smooth filt : Mat ℝ → Mat ℝ) (hs : Homog smooth) (hf : Homog filt) (snr : ℝ) (ndrop : ℕ) :
    UnitFree (removeAll as1 as2 unif med smooth filt snr ndrop) := by
  intro k hk m
  have hl := large_unit as1 ho as2 smooth hs snr ndrop true
  unfold removeAll
  rw [dead_unit unif med hu hm snr _ hl false k hk]
  cases removeDeadStripe unif med snr (fun s => removeLargeStripe as1 as2 smooth snr ndrop true s) false m with
  | error _ => rfl
  | ok a =>
    show (do let b ← removeLargeStripe as1 as2 smooth snr ndrop true (smulMat k a); _) = _
    rw [hl k hk]
    show _ = Except.map (smulMat k) (do let b ← removeLargeStripe as1 as2 smooth snr ndrop true a; _)
    cases removeLargeStripe as1 as2 smooth snr ndrop true a with
    | error _ => rfl
    | ok b =>
      show Except.ok _ = Except.ok _
      rw [sorting_smul as1 ho as2 filt hf k hk]

/-! ### interpolation -/

theorem npSort_smul (k : ℝ) (hk : 0 < k) (l : List ℝ) : npSort (l.map fun x => k * x) = (npSort l).map fun x => k * x := by
  unfold npSort
  symm
  apply List.map_insertionSort
  intro a _ b _
  rw [mul_le_mul_iff_right₀ hk]

theorem sortCols_smul (k : ℝ) (hk : 0 < k) (m : Mat ℝ) : sortCols (smulMat k m) = smulMat k (sortCols m) := by
  unfold sortCols smulMat
  dsimp only
  congr 1
  funext i c
  have e : ((List.range m.h).map fun i => k * m.get i c) = ((List.range m.h).map fun i => m.get i c).map fun x => k * x := by
    rw [List.map_map]; rfl
  rw [e, npSort_smul k hk]
  exact getD_smul k _ i

/-- Mean of the sorted column `c` without the `ndrop` smallest and largest values. -/
noncomputable def trimmedMean (ndrop : ℕ) (m : Mat ℝ) (c : ℕ) : ℝ := rowMean (sortCols m).get ndrop (m.h - ndrop) c

theorem interpFact_smul (smooth : Mat ℝ → Mat ℝ) (hs : Homog smooth) (ndrop : ℕ) (k : ℝ) (hk : 0 < k) (m : Mat ℝ) (c : ℕ) :
    interpFact smooth ndrop (smulMat k m) c =
      if trimmedMean ndrop m c = 0 ∧ rowMean (smooth (sortCols m)).get ndrop (m.h - ndrop) c ≠ 0 then interpFact smooth ndrop m c / k
      else interpFact smooth ndrop m c := by
  unfold interpFact trimmedMean
  dsimp only
  rw [sortCols_smul k hk, hs k hk]
  show (if rowMean (fun i c => k * (smooth (sortCols m)).get i c) ndrop (m.h - ndrop) c ≠ 0 then
    (if rowMean (fun i c => k * (sortCols m).get i c) ndrop (m.h - ndrop) c = 0 then 1 else rowMean (fun i c => k * (sortCols m).get i c) ndrop (m.h - ndrop) c) /
      rowMean (fun i c => k * (smooth (sortCols m)).get i c) ndrop (m.h - ndrop) c else 1) = _
  rw [rowMean_smul, rowMean_smul]
  by_cases h : rowMean (smooth (sortCols m)).get ndrop (m.h - ndrop) c = 0
  · simp [h]
  · by_cases h1 : rowMean (sortCols m).get ndrop (m.h - ndrop) c = 0
    · rw [if_pos (mul_ne_zero hk.ne' h), if_pos (by rw [h1, mul_zero]), if_pos ⟨h1, h⟩, if_pos h, if_pos h1, div_div, mul_comm]
    · rw [if_pos (mul_ne_zero hk.ne' h), if_neg (mul_ne_zero hk.ne' h1), if_neg (fun hh => h1 hh.1), if_pos h, if_neg h1, mul_div_mul_left _ _ hk.ne']

theorem detectFn_congr (n : ℕ) (snr : ℝ) (f g : ℕ → ℝ) (h : ∀ c < n, f c = g c) : detectFn n snr f = detectFn n snr g := by
  unfold detectFn
  rw [List.map_congr_left fun c hc => h c (List.mem_range.1 hc)]

/-- **C170 (partial).** `remove_stripe_based_interpolation`, for sinograms without a column whose trimmed mean is zero.  The interpolation `sp` is
homogeneous and reads columns of the sinogram only. -/
theorem interpolation_unit_partial (sp : ℕ → (ℕ → Bool) → ℕ → (ℕ → ℝ) → ℕ → ℝ)
    (hsp : ∀ (k : ℝ), 0 < k → ∀ d good n f g, (∀ c < n, g c = k * f c) → ∀ j, sp d good n g j = k * sp d good n f j)
    (smooth : Mat ℝ → Mat ℝ) (hs : Homog smooth) (snr : ℝ) (ndrop : ℕ) (norm : Bool) (kind : Kind) (m : Mat ℝ)
    (hz : ∀ c < m.w, trimmedMean ndrop m c ≠ 0) (k : ℝ) (hk : 0 < k) :
    (∀ e, removeInterpolation sp smooth snr ndrop norm kind m = .error e → removeInterpolation sp smooth snr ndrop norm kind (smulMat k m) = .error e) ∧
    ∀ out, removeInterpolation sp smooth snr ndrop norm kind m = .ok out →
      ∃ out', removeInterpolation sp smooth snr ndrop norm kind (smulMat k m) = .ok out' ∧ out'.h = out.h ∧ out'.w = out.w ∧
        ∀ i < m.h, ∀ j < m.w, out'.get i j = k * out.get i j := by
  have hf : ∀ c < m.w, interpFact smooth ndrop (smulMat k m) c = interpFact smooth ndrop m c := by
    intro c hc
    rw [interpFact_smul smooth hs ndrop k hk, if_neg (fun hh => hz c hc hh.1)]
  have hd : detectFn (smulMat k m).w snr (interpFact smooth ndrop (smulMat k m)) = detectFn m.w snr (interpFact smooth ndrop m) :=
    detectFn_congr m.w snr _ _ hf
  unfold removeInterpolation
  rw [hd]
  cases detectFn m.w snr (interpFact smooth ndrop m) with
  | error e => exact ⟨fun e' he => he, fun out ho => by cases ho⟩
  | ok d =>
    show (∀ e, splineMat sp (degRemoval kind) (zeroEdges m.w (dilate m.w d)) _ = .error e → splineMat sp (degRemoval kind) (zeroEdges m.w (dilate m.w d)) _ = .error e) ∧
      ∀ out, splineMat sp (degRemoval kind) (zeroEdges m.w (dilate m.w d)) _ = .ok out → ∃ out', splineMat sp (degRemoval kind) (zeroEdges m.w (dilate m.w d)) _ = .ok out' ∧ _
    set mk := zeroEdges m.w (dilate m.w d)
    set s : Mat ℝ := if norm then ⟨m.h, m.w, fun i c => m.get i c / interpFact smooth ndrop m c⟩ else m with hsdef
    set s' : Mat ℝ := if norm then ⟨(smulMat k m).h, (smulMat k m).w, fun i c => (smulMat k m).get i c / interpFact smooth ndrop (smulMat k m) c⟩ else smulMat k m with hsdef'
    have h1 : s.h = m.h ∧ s.w = m.w ∧ s'.h = m.h ∧ s'.w = m.w := by
      rw [hsdef, hsdef']; cases norm <;> exact ⟨rfl, rfl, rfl, rfl⟩
    have h2 : ∀ i, ∀ c < m.w, s'.get i c = k * s.get i c := by
      intro i c hc
      rw [hsdef, hsdef']
      cases norm with
      | false => rfl
      | true =>
        show k * m.get i c / interpFact smooth ndrop (smulMat k m) c = k * (m.get i c / interpFact smooth ndrop m c)
        rw [hf c hc, mul_div_assoc]
    unfold splineMat
    rw [h1.1, h1.2.1, h1.2.2.1, h1.2.2.2]
    by_cases hcond : m.h < degRemoval kind + 1 ∨ ((List.range m.w).filter fun j => !mk j).length < degRemoval kind + 1
    · rw [if_pos hcond, if_pos hcond]
      exact ⟨fun e he => he, fun out ho => by cases ho⟩
    · rw [if_neg hcond, if_neg hcond]
      refine ⟨fun e he => (by cases he), fun out ho => ⟨_, rfl, ?_⟩⟩
      cases ho
      refine ⟨rfl, rfl, ?_⟩
      intro i hi j hj
      dsimp only
      split
      · exact hsp k hk _ _ _ _ _ (fun c hc => h2 i c hc) j
      · exact h2 i j hj

/-- The first two columns are never interpolated: with `norm=True` they are divided by their factor. -/
theorem interpolation_first (sp : ℕ → (ℕ → Bool) → ℕ → (ℕ → ℝ) → ℕ → ℝ) (smooth : Mat ℝ → Mat ℝ) (snr : ℝ) (ndrop : ℕ) (kind : Kind) (m out : Mat ℝ)
    (ho : removeInterpolation sp smooth snr ndrop true kind m = .ok out) (i c : ℕ) (hc : c < 2) : out.get i c = m.get i c / interpFact smooth ndrop m c := by
  unfold removeInterpolation at ho
  cases hd : detectFn m.w snr (interpFact smooth ndrop m) with
  | error e => rw [hd] at ho; cases ho
  | ok d =>
    rw [hd] at ho
    change splineMat sp (degRemoval kind) (zeroEdges m.w (dilate m.w d)) ⟨m.h, m.w, fun i c => m.get i c / interpFact smooth ndrop m c⟩ = .ok out at ho
    unfold splineMat at ho
    split at ho
    · cases ho
    · cases ho
      dsimp only
      rw [if_neg]
      unfold zeroEdges
      rw [if_pos (Or.inl hc)]
      simp

/-- C170: what happens in a column with trimmed mean zero (one of the first two columns, which are never replaced): multiplying the data by `k`
multiplies the result there by `k * k`. -/
theorem interpolation_zero_mean (sp : ℕ → (ℕ → Bool) → ℕ → (ℕ → ℝ) → ℕ → ℝ) (smooth : Mat ℝ → Mat ℝ) (hs : Homog smooth) (snr : ℝ) (ndrop : ℕ) (kind : Kind)
    (m out out' : Mat ℝ) (k : ℝ) (hk : 0 < k) (c : ℕ) (hc : c < 2) (hz : trimmedMean ndrop m c = 0)
    (hz2 : rowMean (smooth (sortCols m)).get ndrop (m.h - ndrop) c ≠ 0)
    (ho : removeInterpolation sp smooth snr ndrop true kind m = .ok out) (ho' : removeInterpolation sp smooth snr ndrop true kind (smulMat k m) = .ok out') (i : ℕ) :
    out'.get i c = k * (k * out.get i c) := by
  rw [interpolation_first _ _ _ _ _ _ _ ho i c hc, interpolation_first _ _ _ _ _ _ _ ho' i c hc, interpFact_smul smooth hs ndrop k hk, if_pos ⟨hz, hz2⟩]
  show k * m.get i c / (interpFact smooth ndrop m c / k) = _
  rw [div_div_eq_mul_div]; ring

/-! ### FFT and wavelets -/

theorem padMeanEdge_smul (k : ℝ) (m : Mat ℝ) (pad : ℕ) : padMeanEdge (smulMat k m) pad = smulMat k (padMeanEdge m pad) := by
  unfold padMeanEdge smulMat
  dsimp only
  congr 1
  funext i j
  split
  · rfl
  · rw [← Finset.mul_sum, mul_div_assoc]

theorem stripeFft_smul (k : ℝ) (m : Mat ℝ) (u : ℝ) (v n i j : ℕ) : stripeFft (smulMat k m) u v n i j = (k : ℂ) * stripeFft m u v n i j := by
  unfold stripeFft smulMat
  dsimp only
  rw [← idft2_smul]
  congr 1
  funext q l
  rw [← mul_assoc, ← dft2_smul]
  congr 2
  funext i j
  push_cast; rfl

theorem fftCore_smul (k : ℝ) (hk : 0 < k) (m : Mat ℝ) (u : ℝ) (v n : ℕ) : fftCore (smulMat k m) u v n = smulMat k (fftCore m u v n) := by
  unfold fftCore
  dsimp only
  rw [padMeanEdge_smul]
  show (⟨m.h, m.w, _⟩ : Mat ℝ) = ⟨m.h, m.w, _⟩
  congr 1
  funext i j
  rw [stripeFft_smul, norm_mul, Complex.norm_real, Real.norm_of_nonneg hk.le]
  rfl

/-- **C170.** `remove_stripe_based_fft`. -/
theorem fft_unit (as1 : Argsort ℝ) (ho : OrderOnly as1) (as2 : Argsort ℕ) (u : ℝ) (n v : ℕ) (sort : Bool) :
    UnitFree fun m => .ok (removeFft as1 as2 u n v sort m) := by
  intro k hk m
  have key : removeFft as1 as2 u n v sort (smulMat k m) = smulMat k (removeFft as1 as2 u n v sort m) := by
   unfold removeFft
   cases sort with
   | false => exact fftCore_smul k hk m u v n
   | true =>
    simp only [if_true]
    rw [sortForward_smul as1 ho k hk]
    dsimp only
    rw [fftCore_smul k hk, sortBackward_smul]
  exact congrArg Except.ok key

/-- All components of a decomposition times `k`. -/
def smulData (k : ℝ) (d : WData (Mat ℝ)) : WData (Mat ℝ) := ⟨smulMat k d.approx, d.details.map fun t c => smulMat k (t c)⟩

theorem dampAll_smul (k size : ℝ) (butter : Bool) (d : WData (Mat ℝ)) : dampAll size butter (smulData k d) = smulData k (dampAll size butter d) := by
  unfold dampAll smulData
  dsimp only
  rw [List.map_map, List.map_map]
  congr 1
  apply List.map_congr_left
  intro t _
  funext c
  dsimp only [Function.comp]
  split
  · unfold dampDetail
    rw [filter2_smul]
    rfl
  · rfl

/-- **C170.** `remove_stripe_based_wavelet_fft`, for wavelet transforms that commute with a change of unit. -/
theorem wavelet_unit (as1 : Argsort ℝ) (ho : OrderOnly as1) (as2 : Argsort ℕ) (wavedec : ℕ → Mat ℝ → WData (Mat ℝ)) (waverec : WData (Mat ℝ) → Mat ℝ)
    (hd : ∀ L (k : ℝ), 0 < k → ∀ m, wavedec L (smulMat k m) = smulData k (wavedec L m)) (hr : ∀ (k : ℝ), 0 < k → ∀ d, waverec (smulData k d) = smulMat k (waverec d))
    (level : Option ℤ) (size : ℝ) (butter sort : Bool) : UnitFree (removeWavelet as1 as2 wavedec waverec level size butter sort) := by
  have core : UnitFree (waveletCore wavedec waverec level size butter) := by
    intro k hk m
    unfold waveletCore
    dsimp only
    rw [padMeanEdge_smul]
    show (do let L ← levelUsed (padMeanEdge m (pad10 (min m.h m.w))).h (padMeanEdge m (pad10 (min m.h m.w))).w level; _) = _
    cases levelUsed (padMeanEdge m (pad10 (min m.h m.w))).h (padMeanEdge m (pad10 (min m.h m.w))).w level with
    | error e => rfl
    | ok L =>
      show Except.ok (⟨m.h, m.w, fun i j => (waverec (dampAll size butter (wavedec L (smulMat k (padMeanEdge m (pad10 (min m.h m.w))))))).get _ _⟩ : Mat ℝ) = Except.ok _
      rw [hd L k hk, dampAll_smul, hr k hk]
      rfl
  intro k hk m
  unfold removeWavelet
  cases sort with
  | false => exact core k hk m
  | true =>
    simp only [if_true]
    rw [sortForward_smul as1 ho k hk]
    dsimp only
    rw [core k hk]
    cases waveletCore wavedec waverec level size butter (sortForward as1 0 m).1 with
    | error e => rfl
    | ok r =>
      show Except.ok (sortBackward as2 0 (smulMat k r) _) = Except.ok _
      rw [sortBackward_smul]

/-! ### witnesses -/

/-- A smoothing filter: moving average over three columns with repeated border. -/
noncomputable def avg3 (m : Mat ℝ) : Mat ℝ := ⟨m.h, m.w, fun i j => (m.get i (j - 1) + m.get i j + m.get i (min (j + 1) (m.w - 1))) / 3⟩

theorem avg3_homog : Homog avg3 := by
  intro k _ m
  unfold avg3 smulMat
  dsimp only
  congr 1
  funext i j
  ring

/-- A sinogram of two projections whose column 0 is `(-1, 1)`, the others being constant. -/
def zeroCol : Mat ℝ := ⟨2, 5, fun i j => match j with | 0 => if i = 0 then -1 else 1 | 2 => 3 | _ => 6⟩

theorem zeroCol_sorted (i j : ℕ) (hi : i < 2) : (sortCols zeroCol).get i j = zeroCol.get i j := by
  unfold sortCols zeroCol
  rcases j with _ | _ | _ | j <;> interval_cases i <;> simp [npSort, List.range_succ, List.insertionSort, List.orderedInsert]

theorem zeroCol_trim (c : ℕ) : trimmedMean 0 zeroCol c = match c with | 0 => 0 | 2 => 3 | _ => 6 := by
  unfold trimmedMean rowMean
  have : ∑ i ∈ Finset.Ico 0 (zeroCol.h - 0), (sortCols zeroCol).get i c = zeroCol.get 0 c + zeroCol.get 1 c := by
    show ∑ i ∈ Finset.Ico 0 2, (sortCols zeroCol).get i c = _
    rw [Finset.sum_Ico_succ_top (by norm_num), Finset.sum_Ico_succ_top (by norm_num), Finset.Ico_self, Finset.sum_empty, zeroCol_sorted 0 c (by norm_num),
      zeroCol_sorted 1 c (by norm_num), zero_add]
  rw [this]
  rcases c with _ | _ | _ | c <;> simp [zeroCol] <;> norm_num

theorem zeroCol_fact (c : ℕ) (hc : c < 5) : interpFact avg3 0 zeroCol c = ([1 / 2, 2, 3 / 5, 6 / 5, 1] : List ℝ).getD c 0 := by
  have h2 : rowMean (avg3 (sortCols zeroCol)).get 0 (zeroCol.h - 0) c =
      (trimmedMean 0 zeroCol (c - 1) + trimmedMean 0 zeroCol c + trimmedMean 0 zeroCol (min (c + 1) 4)) / 3 := by
    unfold trimmedMean rowMean avg3
    rw [show (sortCols zeroCol).w = 5 from rfl]
    dsimp only
    rw [← Finset.sum_div, Finset.sum_add_distrib, Finset.sum_add_distrib]
    ring
  unfold interpFact
  dsimp only
  rw [h2, show rowMean (sortCols zeroCol).get 0 (zeroCol.h - 0) c = trimmedMean 0 zeroCol c from rfl]
  simp only [zeroCol_trim]
  interval_cases c <;> norm_num

/-- A list of five facts as in the two witnesses is accepted by the detector. -/
theorem facts_ok (a : ℝ) (ha : a ≤ 3 / 5) : ∃ d, detectFn 5 3 (fun c => ([a, 2, 3 / 5, 6 / 5, 1] : List ℝ).getD c 0) = .ok d := by
  have hsort : npSort ([a, 2, 3 / 5, 6 / 5, 1] : List ℝ) = [a, 3 / 5, 1, 6 / 5, 2] := by
    unfold npSort
    have e : List.insertionSort (fun x y : ℝ => x ≤ y) [2, 3 / 5, 6 / 5, 1] = [3 / 5, 1, 6 / 5, 2] := by
      norm_num [List.insertionSort, List.orderedInsert]
    rw [List.insertionSort_cons, e]
    simp [List.orderedInsert, ha]
  unfold detectFn detectStripe
  rw [show (List.range 5).map (fun c => ([a, 2, 3 / 5, 6 / 5, 1] : List ℝ).getD c 0) = [a, 2, 3 / 5, 6 / 5, 1] from by simp [List.range_succ]]
  dsimp only
  rw [hsort, if_neg (by simp), if_neg]
  · exact ⟨_, rfl⟩
  · simp only [List.length_cons, List.length_nil]
    unfold polyfit1
    norm_num [Finset.sum_Ico_succ_top]
    try (rw [abs_of_pos] <;> norm_num)

/-- C170 refuted for `remove_stripe_based_interpolation` with `norm=True`: with a column of zero mean the result depends on the unit, whatever the
interpolator. -/
theorem interpolation_unit_refuted (sp : ℕ → (ℕ → Bool) → ℕ → (ℕ → ℝ) → ℕ → ℝ) : ¬ UnitFree (removeInterpolation sp avg3 3 0 true .linear) := by
  intro hu
  have ok : ∃ out, removeInterpolation sp avg3 3 0 true .linear zeroCol = .ok out := by
    obtain ⟨d, hd⟩ := facts_ok (1 / 2) (by norm_num)
    unfold removeInterpolation
    rw [detectFn_congr zeroCol.w 3 _ _ (fun c hc => zeroCol_fact c hc), show zeroCol.w = 5 from rfl, hd]
    show ∃ out, splineMat sp (degRemoval .linear) (zeroEdges 5 (dilate 5 d)) ⟨zeroCol.h, 5, _⟩ = .ok out
    unfold splineMat
    refine ⟨_, if_neg ?_⟩
    rintro (h | h)
    · revert h; decide
    · revert h
      have e : ∀ j, j < 2 → (!zeroEdges 5 (dilate 5 d) j) = true := by
        intro j hj
        unfold zeroEdges
        rw [if_pos (Or.inl hj)]; rfl
      show ¬ ((List.range 5).filter fun j => !zeroEdges 5 (dilate 5 d) j).length < 2
      have : (List.range 5) = 0 :: 1 :: [2, 3, 4] := rfl
      rw [this, List.filter_cons, if_pos (e 0 (by norm_num)), List.filter_cons, if_pos (e 1 (by norm_num))]
      simp
  obtain ⟨out, ho⟩ := ok
  have h2 := hu 2 (by norm_num) zeroCol
  rw [ho] at h2
  have h3 := interpolation_zero_mean sp avg3 avg3_homog 3 0 .linear zeroCol out (smulMat 2 out) 2 (by norm_num) 0 (by norm_num) (by rw [zeroCol_trim]; rfl) (by
    have := zeroCol_fact 0 (by norm_num)
    intro hh
    unfold interpFact at this
    dsimp only at this
    rw [hh] at this
    norm_num at this) ho h2 0
  have h4 : out.get 0 0 = -2 := by
    have key := interpolation_first sp avg3 3 0 .linear zeroCol out ho 0 0 (by norm_num)
    rw [key, zeroCol_fact 0 (by norm_num)]
    norm_num [zeroCol]
  have h5 : (smulMat 2 out).get 0 0 = 2 * out.get 0 0 := rfl
  rw [h5, h4] at h3
  norm_num at h3

end Verif.StripeFilters

namespace Verif.Pywt
open Verif.Wavelet Verif.StripeFilters Verif.Sorting

theorem analyse_smul (f : List ℝ) (n : ℕ) (k : ℝ) (x : ℕ → ℝ) (o : ℕ) : analyse f n (fun i => k * x i) o = k * analyse f n x o := by
  unfold analyse
  rw [Finset.mul_sum]
  exact Finset.sum_congr rfl fun t _ => by ring

theorem along0_smul (f : List ℝ) (k : ℝ) (m : Mat ℝ) : along0 f (smulMat k m) = smulMat k (along0 f m) := by
  unfold along0 smulMat
  dsimp only
  congr 1
  funext o j
  exact analyse_smul f m.h k (fun i => m.get i j) o

theorem along1_smul (f : List ℝ) (k : ℝ) (m : Mat ℝ) : along1 f (smulMat k m) = smulMat k (along1 f m) := by
  unfold along1 smulMat
  dsimp only
  congr 1
  funext i o
  exact analyse_smul f m.w k (m.get i) o

theorem wavedec_smul (b : Bank) (k : ℝ) (L : ℕ) : ∀ m, wavedec b L (smulMat k m) = smulData k (wavedec b L m) := by
  induction L with
  | zero => intro m; rfl
  | succ L ih =>
    intro m
    have e : dwt2 b (smulMat k m) = (smulMat k (dwt2 b m).1, fun c => smulMat k ((dwt2 b m).2 c)) := by
      unfold dwt2
      simp only [along0_smul, along1_smul]
      congr 1
      funext c
      split
      · rfl
      · split <;> rfl
    simp only [wavedec]
    rw [e]
    dsimp only
    rw [ih]
    unfold smulData
    simp only [List.map_append, List.map_cons, List.map_nil]

theorem synth_smul (b : Bank) (nc : ℕ) (k : ℝ) (ca cd : ℕ → ℝ) (n : ℕ) : synth b nc (fun o => k * ca o) (fun o => k * cd o) n = k * synth b nc ca cd n := by
  unfold synth
  rw [Finset.mul_sum]
  exact Finset.sum_congr rfl fun o _ => by ring

theorem waverec_smul (b : Bank) (k : ℝ) (d : WData (Mat ℝ)) : waverec b (smulData k d) = smulMat k (waverec b d) := by
  have step : ∀ (a : Mat ℝ) (t : ℕ → Mat ℝ), idwt2 b (smulMat k a) (fun c => smulMat k (t c)) = smulMat k (idwt2 b a t) := by
    intro a t
    unfold idwt2 back0 back1 smulMat
    dsimp only
    congr 1
    funext i j
    simp only [synth_smul]
  obtain ⟨a, l⟩ := d
  unfold waverec smulData
  dsimp only
  induction l generalizing a with
  | nil => rfl
  | cons t l ih =>
    simp only [List.map_cons, List.foldl_cons]
    rw [step]
    exact ih _

/-- **C170.** `remove_stripe_based_wavelet_fft` with PyWavelets' transforms, for every wavelet. -/
theorem pywt_unit (as1 : Argsort ℝ) (ho : OrderOnly as1) (as2 : Argsort ℕ) (b : Bank) (level : Option ℤ) (size : ℝ) (butter sort : Bool) :
    UnitFree (removeWavelet as1 as2 (wavedec b) (waverec b) level size butter sort) :=
  wavelet_unit as1 ho as2 _ _ (fun L k _ m => wavedec_smul b k L m) (fun k _ d => waverec_smul b k d) level size butter sort

end Verif.Pywt

namespace Verif.StripeFilters
open Verif.Sorting Verif.Removal Verif.Stripe

/-! ### zingers -/

/-- Mean of the neighbours that `remove_zinger` compares a pixel with. -/
noncomputable def neighbourMean (size : ℕ) (m : Mat ℝ) (y x : ℕ) : ℝ :=
  ((zingerOffsets size).map fun p => rolled m p.1 p.2 y x).sum / ((zingerOffsets size).length : ℝ)

theorem neighbourMean_smul (size : ℕ) (k : ℝ) (m : Mat ℝ) (y x : ℕ) : neighbourMean size (smulMat k m) y x = k * neighbourMean size m y x := by
  unfold neighbourMean
  have : ∀ l : List (ℤ × ℤ), (l.map fun p => rolled (smulMat k m) p.1 p.2 y x).sum = k * (l.map fun p => rolled m p.1 p.2 y x).sum := by
    intro l
    induction l with
    | nil => simp
    | cons p l ih =>
      simp only [List.map_cons, List.sum_cons]
      rw [ih, mul_add]
      rfl
  rw [this, mul_div_assoc]

theorem zingerAve_eq (size : ℕ) (m : Mat ℝ) (y x : ℕ) : zingerAve size m y x = if neighbourMean size m y x = 0 then 1 else neighbourMean size m y x := rfl

/-- **C170 (partial).** `remove_zinger`, for images without a pixel whose neighbours have mean zero. -/
theorem zinger_unit_partial (sel : (ℕ → ℕ → Bool) → ℕ → ℕ → Bool) (threshold : ℝ) (size : ℕ) (checkSize : Bool) (m : Mat ℝ)
    (hz : ∀ y x, neighbourMean size m y x ≠ 0) (k : ℝ) (hk : 0 < k) :
    removeZinger sel (smulMat k m) threshold size checkSize = (removeZinger sel m threshold size checkSize).map (smulMat k) := by
  have e : ∀ y x, zingerAve size (smulMat k m) y x = k * zingerAve size m y x := by
    intro y x
    rw [zingerAve_eq, zingerAve_eq, neighbourMean_smul, if_neg (mul_ne_zero hk.ne' (hz y x)), if_neg (hz y x)]
  unfold removeZinger
  split
  · rfl
  · have e2 : (fun y x => decide ((smulMat k m).get y x / zingerAve size (smulMat k m) y x - 1 > threshold)) =
        fun y x => decide (m.get y x / zingerAve size m y x - 1 > threshold) := by
      funext y x
      rw [e, show (smulMat k m).get y x = k * m.get y x from rfl, mul_div_mul_left _ _ hk.ne']
    dsimp only
    rw [e2]
    show Except.ok _ = Except.ok _
    congr 1
    unfold smulMat
    dsimp only
    congr 1
    funext y x
    have := e y x
    unfold smulMat at this
    rw [this, mul_ite]

/-- C170 refuted for `remove_zinger`: whatever the threshold (not negative) and the size, if some image has a positive pixel whose neighbours have
mean zero — e.g. a single bright pixel in an image of zeros — the result depends on the unit: below `1 + threshold` the pixel is kept, above it is
replaced by 1. -/
theorem zinger_unit_refuted (sel : (ℕ → ℕ → Bool) → ℕ → ℕ → Bool) (threshold : ℝ) (ht : 0 ≤ threshold) (size : ℕ) (hsz : zingerOffsets size ≠ []) (m : Mat ℝ) (y x : ℕ)
    (hz : neighbourMean size m y x = 0) (hv : 0 < m.get y x) : ¬ UnitFree fun m => removeZinger sel m threshold size false := by
  intro hu
  have key : ∀ c : ℝ, ∃ out, removeZinger sel (smulMat c m) threshold size false = .ok out ∧
      out.get y x = if c * m.get y x - 1 > threshold then 1 else c * m.get y x := by
    intro c
    unfold removeZinger
    rw [if_neg hsz]
    refine ⟨_, rfl, ?_⟩
    have e : zingerAve size (smulMat c m) y x = 1 := by rw [zingerAve_eq, neighbourMean_smul, hz, mul_zero, if_pos rfl]
    simp only [e, div_one, decide_eq_true_eq, if_false, Bool.false_eq_true]
    rfl
  set c : ℝ := (1 + threshold) / m.get y x with hc
  have hcv : c * m.get y x = 1 + threshold := by rw [hc, div_mul_cancel₀ _ hv.ne']
  obtain ⟨o1, h1, g1⟩ := key c
  obtain ⟨o2, h2, g2⟩ := key (2 * c)
  have h3 := hu 2 (by norm_num) (smulMat c m)
  have e : smulMat 2 (smulMat c m) = smulMat (2 * c) m := by
    unfold smulMat; congr 1; funext i j; ring
  rw [e] at h3
  dsimp only at h3
  rw [h1, h2] at h3
  have h4 : o2 = smulMat 2 o1 := Except.ok.inj h3
  rw [h4] at g2
  rw [hcv, if_neg (by linarith)] at g1
  rw [if_pos (by rw [mul_assoc, hcv]; linarith)] at g2
  have : 2 * o1.get y x = 1 := g2
  rw [g1] at this
  linarith

/-- A single bright pixel: an image to which `zinger_unit_refuted` applies, for every threshold that is not negative. -/
example (sel : (ℕ → ℕ → Bool) → ℕ → ℕ → Bool) (threshold : ℝ) (ht : 0 ≤ threshold) : ¬ UnitFree fun m => removeZinger sel m threshold 1 false := by
  have off : zingerOffsets 1 = [(-1, -1), (-1, 0), (-1, 1), (0, -1), (0, 1), (1, -1), (1, 0), (1, 1)] := by decide
  refine zinger_unit_refuted sel threshold ht 1 (by rw [off]; simp) ⟨5, 5, fun y x => if y = 2 ∧ x = 2 then 1 else 0⟩ 2 2 ?_ (by norm_num)
  unfold neighbourMean rolled
  rw [off]
  norm_num
  rw [if_neg (by decide), if_neg (by decide), if_neg (by decide)]
  norm_num

end Verif.StripeFilters
