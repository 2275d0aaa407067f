import Verif.Props.StripeScale

/-! C171 — methods that sort the columns do not depend on the order of the projections. -/

set_option linter.unusedSectionVars false
set_option linter.unusedSimpArgs false

namespace Verif.StripeFilters
open Verif.Sorting Verif.Removal Verif.Stripe Verif.Fourier Verif.Surface Verif.Wavelet Verif.Polar

/-- The projections in another order: row `i` of the new sinogram is row `σ i` of the old one. -/
def permRows (σ : ℕ → ℕ) (m : Mat ℝ) : Mat ℝ := ⟨m.h, m.w, fun i j => m.get (σ i) j⟩

/-- Column `c` contains no value twice. -/
def NoRepeat (m : Mat ℝ) (c : ℕ) : Prop := ∀ i < m.h, ∀ i' < m.h, m.get i c = m.get i' c → i = i'

/-- A method gives the same result for every order of the projections: it raises for one order as for the other, and otherwise its result
for the permuted sinogram is the permuted result, in every column for which `P` holds. -/
def OrderFree (P : Mat ℝ → ℕ → Prop) (f : Mat ℝ → Py (Mat ℝ)) : Prop :=
  ∀ (m : Mat ℝ) (σ : ℕ → ℕ), Set.BijOn σ (Set.Iio m.h) (Set.Iio m.h) →
    (∀ e, f m = .error e → f (permRows σ m) = .error e) ∧
    ∀ out, f m = .ok out → ∃ out', f (permRows σ m) = .ok out' ∧ out'.h = out.h ∧ out'.w = out.w ∧
      ∀ c < m.w, P m c → ∀ i < m.h, out'.get i c = out.get (σ i) c

/-! ### sorting -/

theorem range_map_perm (n : ℕ) (σ : ℕ → ℕ) (hσ : Set.BijOn σ (Set.Iio n) (Set.Iio n)) : ((List.range n).map σ).Perm (List.range n) := by
  rw [List.perm_ext_iff_of_nodup]
  · intro a
    simp only [List.mem_map, List.mem_range]
    constructor
    · rintro ⟨b, hb, rfl⟩
      exact hσ.1 hb
    · intro ha
      obtain ⟨b, hb, e⟩ := hσ.2.2 ha
      exact ⟨b, hb, e⟩
  · refine List.Nodup.map_on ?_ List.nodup_range
    intro a ha b hb e
    exact hσ.2.1 (List.mem_range.1 ha) (List.mem_range.1 hb) e
  · exact List.nodup_range

theorem column_perm (m : Mat ℝ) (σ : ℕ → ℕ) (hσ : Set.BijOn σ (Set.Iio m.h) (Set.Iio m.h)) (c : ℕ) :
    ((List.range m.h).map fun i => (permRows σ m).get i c).Perm ((List.range m.h).map fun i => m.get i c) := by
  have := (range_map_perm m.h σ hσ).map fun i => m.get i c
  rwa [List.map_map] at this

/-- The sorted sinogram does not depend on the order of the projections. -/
theorem sorted_perm (as1 : Argsort ℝ) (m : Mat ℝ) (σ : ℕ → ℕ) (hσ : Set.BijOn σ (Set.Iio m.h) (Set.Iio m.h)) :
    (sortForward as1 0 (permRows σ m)).1 = (sortForward as1 0 m).1 := by
  have key : ∀ c, (sortForwardLine (as1.run c) (line (permRows σ m).T c)).1 = (sortForwardLine (as1.run c) (line m.T c)).1 := by
    intro c
    have h1 := forward_line_sorted as1 c (line (permRows σ m).T c)
    have h2 := forward_line_sorted as1 c (line m.T c)
    refine List.Perm.eq_of_pairwise (le := fun a b : ℝ => a ≤ b) (fun a b _ _ h h' => le_antisymm h h') h1.1 h2.1 (h1.2.trans (List.Perm.trans ?_ h2.2.symm))
    exact column_perm m σ hσ c
  show (⟨m.h, m.w, fun i j => ((sortForwardLine (as1.run j) (line (permRows σ m).T j)).1).getD i default⟩ : Mat ℝ) =
    ⟨m.h, m.w, fun i j => ((sortForwardLine (as1.run j) (line m.T j)).1).getD i default⟩
  congr 1
  funext i j
  rw [key]

/-- Putting a matrix back into the order of the permuted sinogram permutes the result, in columns without repeated values. -/
theorem back_perm (as1 : Argsort ℝ) (as2 : Argsort ℕ) (m f : Mat ℝ) (hf : f.h = m.h) (σ : ℕ → ℕ) (hσ : Set.BijOn σ (Set.Iio m.h) (Set.Iio m.h)) (c : ℕ)
    (hc : NoRepeat m c) (i : ℕ) (hi : i < m.h) :
    (sortBackward as2 0 f (sortForward as1 0 (permRows σ m)).2).get i c = (sortBackward as2 0 f (sortForward as1 0 m).2).get (σ i) c := by
  obtain ⟨ρ, a1, a2, a3, a4⟩ := mat_core0 as1 as2 m f hf c
  obtain ⟨ρ', b1, b2, b3, b4⟩ := mat_core0 as1 as2 (permRows σ m) f hf c
  have hs : σ i < m.h := hσ.1 hi
  rw [b4 i hi, a4 _ hs]
  -- both positions hold the same value of the sorted column, which has no repeated value
  have e1 : (sortForward as1 0 m).1.get (ρ' i) c = (sortForward as1 0 m).1.get (ρ (σ i)) c := by
    rw [← sorted_perm as1 m σ hσ, b3 i hi, sorted_perm as1 m σ hσ, a3 _ hs]
    rfl
  -- ρ is onto
  have onto : ∀ q < m.h, ∃ p < m.h, ρ p = q := by
    have hinj : Set.InjOn ρ (Finset.range m.h : Set ℕ) := fun p hp p' hp' e =>
      a2 p (by simpa using hp) p' (by simpa using hp') e
    have hmaps : Set.MapsTo ρ (Finset.range m.h : Set ℕ) (Finset.range m.h : Set ℕ) := fun p hp => by
      have := a1 p (by simpa using hp); simpa using this
    have := Finset.surjOn_of_injOn_of_card_le ρ hmaps hinj le_rfl
    intro q hq
    obtain ⟨p, hp, e⟩ := this (show q ∈ (Finset.range m.h : Set ℕ) by simpa using hq)
    exact ⟨p, by simpa using hp, e⟩
  obtain ⟨p, hp, e⟩ := onto (ρ' i) (b1 i hi)
  rw [← e] at e1 ⊢
  rw [a3 p hp, a3 _ hs] at e1
  rw [hc p hp _ hs e1]

/-- Every method of the form "sort the columns, do anything, put everything back". -/
theorem sorted_order_free (as1 : Argsort ℝ) (as2 : Argsort ℕ) (core : Mat ℝ → Py (Mat ℝ)) (hcore : ∀ m r, core m = .ok r → r.h = m.h) :
    OrderFree NoRepeat (fun m => (do
      let r ← core (sortForward as1 0 m).1
      Except.ok (sortBackward as2 0 r (sortForward as1 0 m).2))) := by
  intro m σ hσ
  dsimp only
  rw [sorted_perm as1 m σ hσ]
  cases hr : core (sortForward as1 0 m).1 with
  | error e => exact ⟨fun e' h => h, fun out h => by cases h⟩
  | ok r =>
    refine ⟨fun e h => (by cases h), fun out h => ⟨_, rfl, ?_⟩⟩
    cases h
    exact ⟨rfl, rfl, fun c _ hc i hi => back_perm as1 as2 m r ((hcore _ _ hr).trans rfl) σ hσ c hc i hi⟩

/-- **C171.** `remove_stripe_based_sorting`. -/
theorem sorting_order (as1 : Argsort ℝ) (as2 : Argsort ℕ) (filt : Mat ℝ → Mat ℝ) (hf : ∀ m, (filt m).h = m.h) :
    OrderFree NoRepeat fun m => .ok (removeStripeSorting as1 as2 filt m) :=
  sorted_order_free as1 as2 (fun m => .ok (filt m)) (fun m r h => by cases h; exact hf m)

/-- **C171.** `remove_stripe_based_fft` with `sort=True`. -/
theorem fft_order (as1 : Argsort ℝ) (as2 : Argsort ℕ) (u : ℝ) (n v : ℕ) : OrderFree NoRepeat fun m => .ok (removeFft as1 as2 u n v true m) :=
  sorted_order_free as1 as2 (fun m => .ok (fftCore m u v n)) (fun m r h => by cases h; rfl)

/-- **C171.** `remove_stripe_based_wavelet_fft` with `sort=True`. -/
theorem wavelet_order (as1 : Argsort ℝ) (as2 : Argsort ℕ) (wavedec : ℕ → Mat ℝ → WData (Mat ℝ)) (waverec : WData (Mat ℝ) → Mat ℝ) (level : Option ℤ)
    (size : ℝ) (butter : Bool) : OrderFree NoRepeat (removeWavelet as1 as2 wavedec waverec level size butter true) := by
  have h : ∀ m r, waveletCore wavedec waverec level size butter m = .ok r → r.h = m.h := by
    intro m r h
    unfold waveletCore at h
    dsimp only at h
    cases hl : levelUsed (padMeanEdge m (pad10 (min m.h m.w))).h (padMeanEdge m (pad10 (min m.h m.w))).w level with
    | error e => rw [hl] at h; cases h
    | ok L => rw [hl] at h; cases h; rfl
  exact sorted_order_free as1 as2 (waveletCore wavedec waverec level size butter) h

/-- **C171.** `remove_stripe_based_normalization` with `sort=True`, any number of chunks. -/
theorem normalization_sort_order (as1 : Argsort ℝ) (as2 : Argsort ℕ) (filt : (ℕ → ℝ) → ℕ → ℝ) (numChunk : ℕ) :
    OrderFree NoRepeat (removeNormalization as1 as2 filt numChunk true) := by
  have h : ∀ m r, normalizeRows filt numChunk m = .ok r → r.h = m.h := by
    intro m r h
    unfold normalizeRows at h
    cases hl : chunkBounds 0 m.h numChunk with
    | error e => rw [hl] at h; cases h
    | ok L => rw [hl] at h; cases h; rfl
  exact sorted_order_free as1 as2 (normalizeRows filt numChunk) h

/-- **C171.** `remove_stripe_based_fitting` with `sort=True`. -/
theorem fitting_order (as1 : Argsort ℝ) (as2 : Argsort ℕ) (savgol : ℕ → ℕ → Mat ℝ → Mat ℝ) (user : Option (Mat ℝ → Mat ℝ)) (order : ℕ) (sigma : ℝ)
    (numChunk : ℕ) : OrderFree NoRepeat (removeFitting as1 as2 savgol user order sigma true numChunk) := by
  intro m σ hσ
  unfold removeFitting
  dsimp only
  rw [sorted_perm as1 m σ hσ]
  simp only [if_true]
  rw [show (permRows σ m).h = m.h from rfl, show (permRows σ m).w = m.w from rfl]
  cases fitLength m.h order numChunk with
  | error e => exact ⟨fun e' h => h, fun out h => by cases h⟩
  | ok L =>
    refine ⟨fun e h => (by cases h), fun out h => ⟨_, rfl, ?_⟩⟩
    cases h
    refine ⟨rfl, rfl, fun c _ hc i hi => ?_⟩
    apply back_perm as1 as2 m _ _ σ hσ c hc i hi
    rfl

/-- **C171.** `remove_stripe_based_normalization` with `sort=False` and one chunk, in all columns. -/
theorem normalization_order (as1 : Argsort ℝ) (as2 : Argsort ℕ) (filt : (ℕ → ℝ) → ℕ → ℝ) :
    OrderFree (fun _ _ => True) (removeNormalization as1 as2 filt 1 false) := by
  intro m σ hσ
  unfold removeNormalization normalizeRows
  simp only [Bool.false_eq_true, if_false]
  rw [show (permRows σ m).h = m.h from rfl, show (permRows σ m).w = m.w from rfl]
  have hb : chunkBounds 0 m.h 1 = if m.h = 0 then .error .indexError else .ok [(0, m.h)] := by
    unfold chunkBounds arraySplit
    rw [if_neg (by norm_num)]
    have : cutSizes (List.range' 0 m.h) (splitSizes (List.range' 0 m.h).length 1) = [List.range' 0 m.h] := by
      simp [splitSizes, cutSizes, Nat.mod_one]
    show (cutSizes (List.range' 0 m.h) (splitSizes (List.range' 0 m.h).length 1)).mapM chunkEnds = _
    rw [this]
    cases hh : m.h with
    | zero => rfl
    | succ n =>
      rw [if_neg (by omega)]
      have e : chunkEnds (List.range' 0 (n + 1)) = .ok (0, n + 1) := by
        unfold chunkEnds
        have h1 : (List.range' 0 (n + 1)).head? = some 0 := by simp [List.range'_succ]
        have h2 : (List.range' 0 (n + 1)).getLast? = some n := by simp [List.getLast?_range']
        rw [h1, h2]
      rw [List.mapM_cons, e]
      rfl
  rw [hb]
  by_cases h0 : m.h = 0
  · rw [if_pos h0]
    exact ⟨fun e' h => h, fun out h => by cases h⟩
  · rw [if_neg h0]
    refine ⟨fun e h => (by cases h), fun out h => ⟨_, rfl, ?_⟩⟩
    cases h
    refine ⟨rfl, rfl, fun c _ _ i hi => ?_⟩
    have hs : σ i < m.h := hσ.1 hi
    simp only [List.foldl_cons, List.foldl_nil]
    rw [if_pos ⟨Nat.zero_le _, hi⟩, if_pos ⟨Nat.zero_le _, hs⟩]
    have hm : rowMean (permRows σ m).get 0 m.h = rowMean m.get 0 m.h := by
      funext c
      unfold rowMean
      congr 1
      rw [← Finset.range_eq_Ico]
      refine Finset.sum_nbij σ (fun i hi => ?_) (fun i hi j hj e => ?_) (fun i hi => ?_) (fun i _ => rfl)
      · exact Finset.mem_range.2 (hσ.1 (Finset.mem_range.1 hi))
      · exact hσ.2.1 (show i < m.h by simpa using hi) (show j < m.h by simpa using hj) e
      · obtain ⟨j, hj, e⟩ := hσ.2.2 (show i < m.h by simpa using hi)
        exact ⟨j, by simpa using hj, e⟩
    rw [hm]
    rfl

/-- **C171.** `remove_large_stripe`. -/
theorem large_order (as1 : Argsort ℝ) (as2 : Argsort ℕ) (smooth : Mat ℝ → Mat ℝ) (hs : ∀ m, (smooth m).h = m.h) (snr : ℝ) (ndrop : ℕ) (norm : Bool) :
    OrderFree NoRepeat (removeLargeStripe as1 as2 smooth snr ndrop norm) := by
  intro m σ hσ
  have hf : largeFact as1 smooth ndrop (permRows σ m) = largeFact as1 smooth ndrop m := by
    funext c
    unfold largeFact
    dsimp only
    rw [sorted_perm as1 m σ hσ]
    rfl
  unfold removeLargeStripe removeLarge largeMask
  dsimp only
  rw [hf, sorted_perm as1 m σ hσ, show (permRows σ m).w = m.w from rfl]
  cases detectFn m.w snr (largeFact as1 smooth ndrop m) with
  | error e => exact ⟨fun e' h => h, fun out h => by cases h⟩
  | ok d =>
    refine ⟨fun e h => (by cases h), fun out h => ⟨_, rfl, ?_⟩⟩
    cases h
    refine ⟨rfl, rfl, fun c _ hc i hi => ?_⟩
    have := back_perm as1 as2 m (smooth (sortForward as1 0 m).1) (hs _) σ hσ c hc i hi
    dsimp only
    rw [this]
    rfl

/-- **C171.** `remove_stripe_based_interpolation`, in all columns. -/
theorem interpolation_order (sp : ℕ → (ℕ → Bool) → ℕ → (ℕ → ℝ) → ℕ → ℝ) (smooth : Mat ℝ → Mat ℝ) (snr : ℝ) (ndrop : ℕ) (norm : Bool) (kind : Kind) :
    OrderFree (fun _ _ => True) (removeInterpolation sp smooth snr ndrop norm kind) := by
  intro m σ hσ
  have hc : sortCols (permRows σ m) = sortCols m := by
    unfold sortCols
    show (⟨m.h, m.w, _⟩ : Mat ℝ) = ⟨m.h, m.w, _⟩
    congr 1
    funext i c
    congr 1
    unfold npSort
    refine List.Perm.eq_of_pairwise (le := fun a b : ℝ => a ≤ b) (fun a b _ _ h h' => le_antisymm h h') (List.pairwise_insertionSort _ _)
      (List.pairwise_insertionSort _ _) ?_
    exact (List.perm_insertionSort _ _).trans ((column_perm m σ hσ c).trans (List.perm_insertionSort _ _).symm)
  have hf : interpFact smooth ndrop (permRows σ m) = interpFact smooth ndrop m := by
    funext c
    unfold interpFact
    dsimp only
    rw [hc]
    rfl
  unfold removeInterpolation
  dsimp only
  rw [hf, show (permRows σ m).w = m.w from rfl]
  cases detectFn m.w snr (interpFact smooth ndrop m) with
  | error e => exact ⟨fun e' h => h, fun out h => by cases h⟩
  | ok d =>
    have hs : (if norm then (⟨m.h, m.w, fun i c => (permRows σ m).get i c / interpFact smooth ndrop m c⟩ : Mat ℝ) else permRows σ m) =
        permRows σ (if norm then ⟨m.h, m.w, fun i c => m.get i c / interpFact smooth ndrop m c⟩ else m) := by
      cases norm <;> rfl
    have hh : (if norm then (⟨m.h, m.w, fun i c => m.get i c / interpFact smooth ndrop m c⟩ : Mat ℝ) else m).h = m.h := by cases norm <;> rfl
    show (∀ e, splineMat sp _ _ _ = .error e → splineMat sp _ _ (if norm then (⟨m.h, m.w, fun i c => (permRows σ m).get i c / interpFact smooth ndrop m c⟩ : Mat ℝ) else permRows σ m) = .error e) ∧
      ∀ out, splineMat sp _ _ _ = .ok out → ∃ out', splineMat sp _ _ (if norm then (⟨m.h, m.w, fun i c => (permRows σ m).get i c / interpFact smooth ndrop m c⟩ : Mat ℝ) else permRows σ m) = .ok out' ∧ _
    rw [hs]
    generalize (if norm then (⟨m.h, m.w, fun i c => m.get i c / interpFact smooth ndrop m c⟩ : Mat ℝ) else m) = s at hh ⊢
    unfold splineMat
    rw [show (permRows σ s).h = s.h from rfl, show (permRows σ s).w = s.w from rfl]
    by_cases hcond : s.h < degRemoval kind + 1 ∨ ((List.range s.w).filter fun j => !zeroEdges m.w (dilate m.w d) j).length < degRemoval kind + 1
    · rw [if_pos hcond, if_pos hcond]
      exact ⟨fun e he => he, fun out ho => by cases ho⟩
    · rw [if_neg hcond, if_neg hcond]
      refine ⟨fun e he => (by cases he), fun out ho => ⟨_, rfl, ?_⟩⟩
      cases ho
      exact ⟨rfl, rfl, fun c _ _ i _ => rfl⟩

/-! ### why the columns must not contain a value twice -/

/-- Two projections with equal values in column 0. -/
def tied : Mat ℝ := ⟨2, 2, fun i j => if j = 0 then 0 else if i = 0 then 1 else 2⟩

/-- C171 refuted with repeated values: for whatever sorting algorithm, sorting-based removal of a sinogram with equal values in a column depends on the
order of the projections (here with the filter that adds the next column). -/
theorem sorting_order_refuted (as1 : Argsort ℝ) (as2 : Argsort ℕ) :
    ¬ OrderFree (fun _ _ => True) fun m => .ok (removeStripeSorting as1 as2 (fun m => ⟨m.h, m.w, fun i j => m.get i j + m.get i (j + 1)⟩) m) := by
  intro hfree
  set σ : ℕ → ℕ := fun i => 1 - i with hσd
  have hσ : Set.BijOn σ (Set.Iio tied.h) (Set.Iio tied.h) := by
    show Set.BijOn σ (Set.Iio 2) (Set.Iio 2)
    refine ⟨fun i _ => ?_, fun i hi j hj e => ?_, fun i hi => ⟨1 - i, ?_, ?_⟩⟩
    · show 1 - i < 2; omega
    · have e' : 1 - i = 1 - j := e
      have h1 : i < 2 := hi
      have h2 : j < 2 := hj
      omega
    · show 1 - i < 2; omega
    · show 1 - (1 - i) = i
      have h1 : i < 2 := hi
      omega
  set g : Mat ℝ → Mat ℝ := fun m => ⟨m.h, m.w, fun i j => m.get i j + m.get i (j + 1)⟩ with hg
  obtain ⟨out', h1, _, _, h4⟩ := (hfree tied σ hσ).2 _ rfl
  cases h1
  have hS := sorted_perm as1 tied σ hσ
  -- column 0 is the same list in both sinograms, so it is put back in the same way
  have same : ∀ i, (removeStripeSorting as1 as2 g (permRows σ tied)).get i 0 = (removeStripeSorting as1 as2 g tied).get i 0 := by
    intro i
    unfold removeStripeSorting
    dsimp only
    rw [hS]
    rfl
  have hne : (removeStripeSorting as1 as2 g tied).get 0 0 ≠ (removeStripeSorting as1 as2 g tied).get 1 0 := by
    obtain ⟨ρ, a1, a2, a3, a4⟩ := mat_core0 as1 as2 tied (g (sortForward as1 0 tied).1) rfl 0
    obtain ⟨τ, b1, b2, b3, b4⟩ := mat_core0 as1 as2 tied (g (sortForward as1 0 tied).1) rfl 1
    have r0 := a4 0 (by show 0 < 2; norm_num)
    have r1 := a4 1 (by show 1 < 2; norm_num)
    unfold removeStripeSorting
    dsimp only
    rw [r0, r1]
    show (sortForward as1 0 tied).1.get (ρ 0) 0 + (sortForward as1 0 tied).1.get (ρ 0) 1 ≠ (sortForward as1 0 tied).1.get (ρ 1) 0 + (sortForward as1 0 tied).1.get (ρ 1) 1
    rw [a3 0 (by show 0 < 2; norm_num), a3 1 (by show 1 < 2; norm_num)]
    have s0 := b3 0 (by show 0 < 2; norm_num)
    have s1 := b3 1 (by show 1 < 2; norm_num)
    have hρ : ρ 0 ≠ ρ 1 := fun e => absurd (a2 0 (by show 0 < 2; norm_num) 1 (by show 1 < 2; norm_num) e) (by norm_num)
    have hτ : τ 0 ≠ τ 1 := fun e => absurd (b2 0 (by show 0 < 2; norm_num) 1 (by show 1 < 2; norm_num) e) (by norm_num)
    have ρ0 : ρ 0 < 2 := a1 0 (by show 0 < 2; norm_num)
    have ρ1 : ρ 1 < 2 := a1 1 (by show 1 < 2; norm_num)
    have τ0 : τ 0 < 2 := b1 0 (by show 0 < 2; norm_num)
    have τ1 : τ 1 < 2 := b1 1 (by show 1 < 2; norm_num)
    have t0 : tied.get 0 0 = 0 := rfl
    have t1 : tied.get 1 0 = 0 := rfl
    have t2 : tied.get 0 1 = 1 := by norm_num [tied]
    have t3 : tied.get 1 1 = 2 := by norm_num [tied]
    rw [t2] at s0
    rw [t3] at s1
    rw [t0, t1]
    have cases2 : (ρ 0 = τ 0 ∧ ρ 1 = τ 1) ∨ (ρ 0 = τ 1 ∧ ρ 1 = τ 0) := by omega
    rcases cases2 with ⟨e0, e1⟩ | ⟨e0, e1⟩ <;> rw [e0, e1, s0, s1] <;> norm_num
  have h5 := h4 0 (by show 0 < 2; norm_num) trivial 0 (by show 0 < 2; norm_num)
  rw [same] at h5
  exact hne h5

/-- A sinogram without repeated values in any column, and a permutation of its projections. -/
example : (∀ c, NoRepeat ⟨3, 4, fun i j => (i : ℝ) * 2 + j⟩ c) ∧ Set.BijOn (fun i => if i = 0 then 2 else if i = 2 then 0 else i) (Set.Iio 3) (Set.Iio 3) := by
  refine ⟨fun c i _ i' _ e => ?_, fun i hi => ?_, fun i hi j hj e => ?_, fun i hi => ⟨if i = 0 then 2 else if i = 2 then 0 else i, ?_, ?_⟩⟩
  · have : (i : ℝ) * 2 + c = (i' : ℝ) * 2 + c := e
    exact_mod_cast (by linarith : (i : ℝ) = i')
  · have h : i < 3 := hi
    show (if i = 0 then 2 else if i = 2 then 0 else i) < 3
    split_ifs <;> omega
  · have h : i < 3 := hi
    have h' : j < 3 := hj
    have e' : (if i = 0 then 2 else if i = 2 then 0 else i) = if j = 0 then 2 else if j = 2 then 0 else j := e
    split_ifs at e' <;> omega
  · have h : i < 3 := hi
    show (if i = 0 then 2 else if i = 2 then 0 else i) < 3
    split_ifs <;> omega
  · have h : i < 3 := hi
    interval_cases i <;> rfl

end Verif.StripeFilters
