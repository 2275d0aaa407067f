import Verif.Props.MirrorStripe
import Verif.Props.RowOrder

/-! C173 — sorting-based stripe removal commutes with monotone changes of the grey values, such as the logarithm. -/

set_option linter.unusedSectionVars false
set_option linter.unusedSimpArgs false

namespace Verif.StripeFilters
open Verif.Sorting

/-- `φ` applied to every value. -/
def mapMat (φ : ℝ → ℝ) (m : Mat ℝ) : Mat ℝ := ⟨m.h, m.w, fun i j => φ (m.get i j)⟩

/-- All values of `m` lie in `S`. -/
def ValuesIn (S : Set ℝ) (m : Mat ℝ) : Prop := ∀ i < m.h, ∀ c < m.w, m.get i c ∈ S

/-- Column `c` of the sorted sinogram, as a list. -/
noncomputable def sortedCol (as1 : Argsort ℝ) (m : Mat ℝ) (c : ℕ) : List ℝ := line (sortForward as1 0 m).1.T c

theorem sortedCol_length (as1 : Argsort ℝ) (m : Mat ℝ) (c : ℕ) : (sortedCol as1 m c).length = m.h := line_length _ _

theorem sortedCol_get (as1 : Argsort ℝ) (m : Mat ℝ) (c r : ℕ) (hr : r < m.h) : (sortedCol as1 m c).getD r default = (sortForward as1 0 m).1.get r c :=
  line_getD (sortForward as1 0 m).1.T c r hr

theorem sortedCol_mem (as1 : Argsort ℝ) (m : Mat ℝ) (S : Set ℝ) (hS : ValuesIn S m) (c : ℕ) (hc : c < m.w) : ∀ a ∈ sortedCol as1 m c, a ∈ S := by
  intro a ha
  have hp := ((sort_forward_sorted as1 m).1.2.2 c).2
  have : a ∈ line m.T c := hp.mem_iff.1 ha
  simp only [line, List.mem_map, List.mem_range] at this
  obtain ⟨i, hi, rfl⟩ := this
  exact hS i hi c hc

theorem column_map (φ : ℝ → ℝ) (m : Mat ℝ) (c : ℕ) : line (mapMat φ m).T c = (line m.T c).map φ := by
  unfold line
  rw [List.map_map]
  rfl

theorem sorted_unique {l l' : List ℝ} (h : l.Pairwise fun a b => a ≤ b) (h' : l'.Pairwise fun a b => a ≤ b) (hp : l.Perm l') : l = l' :=
  List.Perm.eq_of_pairwise (le := fun a b : ℝ => a ≤ b) (fun _ _ _ _ h h' => le_antisymm h h') h h' hp

theorem map_sorted (φ : ℝ → ℝ) (S : Set ℝ) (hφ : StrictMonoOn φ S) (l : List ℝ) (hl : ∀ a ∈ l, a ∈ S) (h : l.Pairwise fun a b => a ≤ b) :
    (l.map φ).Pairwise fun a b => a ≤ b := by
  rw [List.pairwise_map]
  exact h.imp_of_mem fun ha hb hab => hφ.monotoneOn (hl _ ha) (hl _ hb) hab

theorem map_sorted_anti (φ : ℝ → ℝ) (S : Set ℝ) (hφ : StrictAntiOn φ S) (l : List ℝ) (hl : ∀ a ∈ l, a ∈ S) (h : l.Pairwise fun a b => a ≤ b) :
    (l.map φ).reverse.Pairwise fun a b => a ≤ b := by
  rw [List.pairwise_reverse, List.pairwise_map]
  exact h.imp_of_mem fun ha hb hab => hφ.antitoneOn (hl _ ha) (hl _ hb) hab

theorem sortedCol_mono (as1 : Argsort ℝ) (φ : ℝ → ℝ) (S : Set ℝ) (hφ : StrictMonoOn φ S) (m : Mat ℝ) (hS : ValuesIn S m) (c : ℕ) (hc : c < m.w) :
    sortedCol as1 (mapMat φ m) c = (sortedCol as1 m c).map φ := by
  obtain ⟨a1, a2⟩ := (sort_forward_sorted as1 m).1.2.2 c
  obtain ⟨b1, b2⟩ := (sort_forward_sorted as1 (mapMat φ m)).1.2.2 c
  refine sorted_unique b1 (map_sorted φ S hφ _ (sortedCol_mem as1 m S hS c hc) a1) (b2.trans ?_)
  rw [column_map]
  exact (a2.map φ).symm

theorem sortedCol_anti (as1 : Argsort ℝ) (φ : ℝ → ℝ) (S : Set ℝ) (hφ : StrictAntiOn φ S) (m : Mat ℝ) (hS : ValuesIn S m) (c : ℕ) (hc : c < m.w) :
    sortedCol as1 (mapMat φ m) c = ((sortedCol as1 m c).map φ).reverse := by
  obtain ⟨a1, a2⟩ := (sort_forward_sorted as1 m).1.2.2 c
  obtain ⟨b1, b2⟩ := (sort_forward_sorted as1 (mapMat φ m)).1.2.2 c
  refine sorted_unique b1 (map_sorted_anti φ S hφ _ (sortedCol_mem as1 m S hS c hc) a1) (b2.trans ?_)
  rw [column_map]
  exact (a2.map φ).symm.trans (List.reverse_perm _).symm

theorem getD_map' (φ : ℝ → ℝ) (l : List ℝ) (k : ℕ) (hk : k < l.length) : (l.map φ).getD k default = φ (l.getD k default) := by
  rw [List.getD_eq_getElem _ _ (by simpa using hk), List.getD_eq_getElem _ _ hk, List.getElem_map]

theorem getD_reverse' (l : List ℝ) (k : ℕ) (hk : k < l.length) : l.reverse.getD k default = l.getD (l.length - 1 - k) default := by
  rw [List.getD_eq_getElem _ _ (by simpa using hk), List.getD_eq_getElem _ _ (by omega), List.getElem_reverse]

theorem sorted_mono (as1 : Argsort ℝ) (φ : ℝ → ℝ) (S : Set ℝ) (hφ : StrictMonoOn φ S) (m : Mat ℝ) (hS : ValuesIn S m) (r c : ℕ) (hr : r < m.h) (hc : c < m.w) :
    (sortForward as1 0 (mapMat φ m)).1.get r c = φ ((sortForward as1 0 m).1.get r c) := by
  rw [← sortedCol_get as1 (mapMat φ m) c r hr, ← sortedCol_get as1 m c r hr, sortedCol_mono as1 φ S hφ m hS c hc,
    getD_map' _ _ _ (by rw [sortedCol_length]; exact hr)]

theorem sorted_anti (as1 : Argsort ℝ) (φ : ℝ → ℝ) (S : Set ℝ) (hφ : StrictAntiOn φ S) (m : Mat ℝ) (hS : ValuesIn S m) (r c : ℕ) (hr : r < m.h) (hc : c < m.w) :
    (sortForward as1 0 (mapMat φ m)).1.get r c = φ ((sortForward as1 0 m).1.get (m.h - 1 - r) c) := by
  rw [← sortedCol_get as1 (mapMat φ m) c r hr, ← sortedCol_get as1 m c (m.h - 1 - r) (by omega), sortedCol_anti as1 φ S hφ m hS c hc,
    getD_reverse' _ _ (by rw [List.length_map, sortedCol_length]; exact hr), List.length_map, sortedCol_length,
    getD_map' _ _ _ (by rw [sortedCol_length]; omega)]

theorem sorted_valuesIn (as1 : Argsort ℝ) (S : Set ℝ) (m : Mat ℝ) (hS : ValuesIn S m) : ValuesIn S (sortForward as1 0 m).1 := by
  intro r hr c hc
  have hr : r < m.h := hr
  rw [← sortedCol_get as1 m c r hr, List.getD_eq_getElem _ _ (by rw [sortedCol_length]; exact hr)]
  exact sortedCol_mem as1 m S hS c hc _ (List.getElem_mem _)

/-! ### the median filter -/

/-- The values in the window of the median filter. -/
def window (size : ℕ) (m : Mat ℝ) (i j : ℕ) : List ℝ :=
  (List.range size).map fun (k : ℕ) => m.get i (reflectIdx m.w ((j : ℤ) - ((size / 2 : ℕ) : ℤ) + (k : ℤ)))

theorem median_eq (size : ℕ) (m : Mat ℝ) (i j : ℕ) :
    (medianFilterRow size m).get i j = ((window size m i j).mergeSort fun a b => decide (a ≤ b)).getD (size / 2) default := rfl

theorem reflectIdx_lt (n : ℕ) (hn : 0 < n) (x : ℤ) : reflectIdx n x < n := by
  unfold reflectIdx
  dsimp only
  have h0 : (0 : ℤ) < 2 * n := by omega
  have a1 := Int.emod_nonneg x h0.ne'
  have a2 := Int.emod_lt_of_pos x h0
  split <;> omega

theorem mergeSort_sorted (l : List ℝ) : (l.mergeSort fun a b => decide (a ≤ b)).Pairwise fun a b => a ≤ b := by
  have := List.pairwise_mergeSort (le := fun a b : ℝ => decide (a ≤ b))
    (by intro a b c h1 h2; simp only [decide_eq_true_eq] at *; exact le_trans h1 h2)
    (by intro a b; simp only [Bool.or_eq_true, decide_eq_true_eq]; exact le_total _ _) l
  exact this.imp (fun h => by simpa using h)

theorem rank_mono (φ : ℝ → ℝ) (S : Set ℝ) (hφ : StrictMonoOn φ S) (l : List ℝ) (hl : ∀ a ∈ l, a ∈ S) (k : ℕ) (hk : k < l.length) :
    ((l.map φ).mergeSort fun a b => decide (a ≤ b)).getD k default = φ ((l.mergeSort fun a b => decide (a ≤ b)).getD k default) := by
  have hmem : ∀ a ∈ l.mergeSort (fun a b => decide (a ≤ b)), a ∈ S := fun a ha => hl a (List.mem_mergeSort.1 ha)
  have e : (l.map φ).mergeSort (fun a b => decide (a ≤ b)) = (l.mergeSort fun a b => decide (a ≤ b)).map φ :=
    sorted_unique (mergeSort_sorted _) (map_sorted φ S hφ _ hmem (mergeSort_sorted l))
      ((List.mergeSort_perm _ _).trans ((List.mergeSort_perm l _).map φ).symm)
  rw [e, getD_map' _ _ _ (by rw [List.length_mergeSort]; exact hk)]

theorem rank_anti (φ : ℝ → ℝ) (S : Set ℝ) (hφ : StrictAntiOn φ S) (l : List ℝ) (hl : ∀ a ∈ l, a ∈ S) (k : ℕ) (hk : k < l.length) :
    ((l.map φ).mergeSort fun a b => decide (a ≤ b)).getD k default = φ ((l.mergeSort fun a b => decide (a ≤ b)).getD (l.length - 1 - k) default) := by
  have hmem : ∀ a ∈ l.mergeSort (fun a b => decide (a ≤ b)), a ∈ S := fun a ha => hl a (List.mem_mergeSort.1 ha)
  have e : (l.map φ).mergeSort (fun a b => decide (a ≤ b)) = ((l.mergeSort fun a b => decide (a ≤ b)).map φ).reverse :=
    sorted_unique (mergeSort_sorted _) (map_sorted_anti φ S hφ _ hmem (mergeSort_sorted l))
      ((List.mergeSort_perm _ _).trans (((List.mergeSort_perm l _).map φ).symm.trans (List.reverse_perm _).symm))
  rw [e, getD_reverse' _ _ (by rw [List.length_map, List.length_mergeSort]; exact hk), List.length_map, List.length_mergeSort,
    getD_map' _ _ _ (by rw [List.length_mergeSort]; omega)]

theorem window_mem (size : ℕ) (m : Mat ℝ) (S : Set ℝ) (hS : ValuesIn S m) (i j : ℕ) (hi : i < m.h) (hw : 0 < m.w) : ∀ a ∈ window size m i j, a ∈ S := by
  intro a ha
  simp only [window, List.mem_map, List.mem_range] at ha
  obtain ⟨k, _, rfl⟩ := ha
  exact hS i hi _ (reflectIdx_lt _ hw _)

theorem median_mono (size : ℕ) (hs : 0 < size) (φ : ℝ → ℝ) (S : Set ℝ) (hφ : StrictMonoOn φ S) (m m' : Mat ℝ) (hS : ValuesIn S m) (hw' : m'.w = m.w) (i i' j : ℕ)
    (hi : i < m.h) (hw : 0 < m.w) (hm : ∀ c < m.w, m'.get i' c = φ (m.get i c)) : (medianFilterRow size m').get i' j = φ ((medianFilterRow size m).get i j) := by
  have e : window size m' i' j = (window size m i j).map φ := by
    unfold window
    rw [List.map_map, hw']
    exact List.map_congr_left fun k _ => hm _ (reflectIdx_lt _ hw _)
  rw [median_eq, median_eq, e, rank_mono φ S hφ _ (window_mem size m S hS i j hi hw) _ (by simp [window]; omega)]

theorem median_anti (size : ℕ) (hs : size % 2 = 1) (φ : ℝ → ℝ) (S : Set ℝ) (hφ : StrictAntiOn φ S) (m m' : Mat ℝ) (hS : ValuesIn S m) (hw' : m'.w = m.w) (i i' j : ℕ)
    (hi : i < m.h) (hw : 0 < m.w) (hm : ∀ c < m.w, m'.get i' c = φ (m.get i c)) : (medianFilterRow size m').get i' j = φ ((medianFilterRow size m).get i j) := by
  have e : window size m' i' j = (window size m i j).map φ := by
    unfold window
    rw [List.map_map, hw']
    exact List.map_congr_left fun k _ => hm _ (reflectIdx_lt _ hw _)
  have hl : (window size m i j).length = size := by simp [window]
  rw [median_eq, median_eq, e, rank_anti φ S hφ _ (window_mem size m S hS i j hi hw) _ (by rw [hl]; omega), hl,
    show size - 1 - size / 2 = size / 2 by omega]

/-! ### ranks -/

theorem sorted_inj (as1 : Argsort ℝ) (m : Mat ℝ) (c : ℕ) (hc : NoRepeat m c) (p q : ℕ) (hp : p < m.h) (hq : q < m.h)
    (e : (sortForward as1 0 m).1.get p c = (sortForward as1 0 m).1.get q c) : p = q := by
  have hn : (line m.T c).Nodup := by
    refine List.Nodup.map_on (fun i hi i' hi' e => ?_) List.nodup_range
    exact hc i (List.mem_range.1 hi) i' (List.mem_range.1 hi') e
  have hn' : (sortedCol as1 m c).Nodup := ((sort_forward_sorted as1 m).1.2.2 c).2.nodup_iff.2 hn
  rw [← sortedCol_get as1 m c p hp, ← sortedCol_get as1 m c q hq, List.getD_eq_getElem _ _ (by rw [sortedCol_length]; exact hp),
    List.getD_eq_getElem _ _ (by rw [sortedCol_length]; exact hq)] at e
  exact (List.Nodup.getElem_inj_iff hn').1 e

/-- What sorting-based removal does to column `c`, with the facts about the sorted sinogram separated from its definition. -/
theorem sorting_core (as1 : Argsort ℝ) (as2 : Argsort ℕ) (filt : Mat ℝ → Mat ℝ) (m s : Mat ℝ) (hs : s = (sortForward as1 0 m).1) (hh : (filt s).h = m.h) (c : ℕ) :
    ∃ ρ : ℕ → ℕ, (∀ i < m.h, ρ i < m.h) ∧ (∀ i < m.h, s.get (ρ i) c = m.get i c) ∧
      ∀ i < m.h, (removeStripeSorting as1 as2 filt m).get i c = (filt s).get (ρ i) c := by
  subst hs
  obtain ⟨ρ, a1, _, a3, a4⟩ := mat_core0 as1 as2 m (filt (sortForward as1 0 m).1) hh c
  exact ⟨ρ, a1, a3, a4⟩

/-- **C173.** Increasing changes of the grey values, every window size. -/
theorem sorting_increasing (as1 : Argsort ℝ) (as2 : Argsort ℕ) (size : ℕ) (hs : 0 < size) (φ : ℝ → ℝ) (S : Set ℝ) (hφ : StrictMonoOn φ S) (m : Mat ℝ)
    (hS : ValuesIn S m) (c : ℕ) (hc : c < m.w) (hn : NoRepeat m c) (i : ℕ) (hi : i < m.h) :
    (removeStripeSorting as1 as2 (medianFilterRow size) (mapMat φ m)).get i c = φ ((removeStripeSorting as1 as2 (medianFilterRow size) m).get i c) := by
  have hV := sorted_valuesIn as1 S m hS
  have hM := fun r c => sorted_mono as1 φ S hφ m hS r c
  have hI := sorted_inj as1 m c hn
  have hsh : (sortForward as1 0 m).1.h = m.h := rfl
  have hsw : (sortForward as1 0 m).1.w = m.w := rfl
  have hth : (sortForward as1 0 (mapMat φ m)).1.h = m.h := rfl
  have htw : (sortForward as1 0 (mapMat φ m)).1.w = m.w := rfl
  generalize hse : (sortForward as1 0 m).1 = s at hV hM hI hsh hsw
  generalize hte : (sortForward as1 0 (mapMat φ m)).1 = t at hM hth htw
  obtain ⟨ρ, a1, a3, a4⟩ := sorting_core as1 as2 (medianFilterRow size) m s hse.symm hsh c
  obtain ⟨ρ', b1, b3, b4⟩ := sorting_core as1 as2 (medianFilterRow size) (mapMat φ m) t hte.symm hth c
  have hr' : ρ' i < m.h := b1 i hi
  have e : ρ' i = ρ i := by
    apply hI _ _ hr' (a1 i hi)
    have h1 : t.get (ρ' i) c = φ (m.get i c) := b3 i hi
    rw [hM _ c hr' hc] at h1
    rw [a3 i hi]
    exact hφ.injOn (hV _ (by rw [hsh]; exact hr') c (by rw [hsw]; exact hc)) (hS i hi c hc) h1
  rw [a4 i hi, b4 i hi, e]
  exact median_mono size hs φ S hφ s t hV (htw.trans hsw.symm) _ _ _ (by rw [hsh]; exact a1 i hi) (by omega) fun c hc => hM _ c (a1 i hi) (by omega)

/-- **C173.** Decreasing changes of the grey values, such as the negative logarithm, odd window sizes. -/
theorem sorting_decreasing (as1 : Argsort ℝ) (as2 : Argsort ℕ) (size : ℕ) (hs : size % 2 = 1) (φ : ℝ → ℝ) (S : Set ℝ) (hφ : StrictAntiOn φ S) (m : Mat ℝ)
    (hS : ValuesIn S m) (c : ℕ) (hc : c < m.w) (hn : NoRepeat m c) (i : ℕ) (hi : i < m.h) :
    (removeStripeSorting as1 as2 (medianFilterRow size) (mapMat φ m)).get i c = φ ((removeStripeSorting as1 as2 (medianFilterRow size) m).get i c) := by
  have hV := sorted_valuesIn as1 S m hS
  have hM := fun r c => sorted_anti as1 φ S hφ m hS r c
  have hI := sorted_inj as1 m c hn
  have hsh : (sortForward as1 0 m).1.h = m.h := rfl
  have hsw : (sortForward as1 0 m).1.w = m.w := rfl
  have hth : (sortForward as1 0 (mapMat φ m)).1.h = m.h := rfl
  have htw : (sortForward as1 0 (mapMat φ m)).1.w = m.w := rfl
  generalize hse : (sortForward as1 0 m).1 = s at hV hM hI hsh hsw
  generalize hte : (sortForward as1 0 (mapMat φ m)).1 = t at hM hth htw
  obtain ⟨ρ, a1, a3, a4⟩ := sorting_core as1 as2 (medianFilterRow size) m s hse.symm hsh c
  obtain ⟨ρ', b1, b3, b4⟩ := sorting_core as1 as2 (medianFilterRow size) (mapMat φ m) t hte.symm hth c
  have hr' : ρ' i < m.h := b1 i hi
  have e : m.h - 1 - ρ' i = ρ i := by
    apply hI _ _ (by omega) (a1 i hi)
    have h1 : t.get (ρ' i) c = φ (m.get i c) := b3 i hi
    rw [hM _ c hr' hc] at h1
    rw [a3 i hi]
    exact hφ.injOn (hV _ (by rw [hsh]; omega) c (by rw [hsw]; exact hc)) (hS i hi c hc) h1
  rw [a4 i hi, b4 i hi]
  refine median_anti size hs φ S hφ s t hV (htw.trans hsw.symm) _ _ _ (by rw [hsh]; exact a1 i hi) (by omega) fun c hc => ?_
  rw [← e]
  exact hM _ c hr' (by omega)

/-- **C173.** The logarithm: removing the stripes from transmissions and taking the negative logarithm is the same as removing the stripes from
the attenuations. -/
theorem sorting_log (as1 : Argsort ℝ) (as2 : Argsort ℕ) (size : ℕ) (hs : size % 2 = 1) (m : Mat ℝ) (hpos : ∀ i < m.h, ∀ c < m.w, 0 < m.get i c)
    (c : ℕ) (hc : c < m.w) (hn : NoRepeat m c) (i : ℕ) (hi : i < m.h) :
    (removeStripeSorting as1 as2 (medianFilterRow size) (mapMat (fun v => -Real.log v) m)).get i c =
      -Real.log ((removeStripeSorting as1 as2 (medianFilterRow size) m).get i c) :=
  sorting_decreasing as1 as2 size hs (fun v => -Real.log v) (Set.Ioi 0)
    (fun a ha b _ hab => neg_lt_neg (Real.log_lt_log ha hab)) m hpos c hc hn i hi

/-- A sinogram of transmissions without repeated values. -/
example : (∀ i < 3, ∀ c < 4, (0 : ℝ) < (⟨3, 4, fun i j => 1 + (i : ℝ) * 2 + j⟩ : Mat ℝ).get i c) ∧ ∀ c, NoRepeat ⟨3, 4, fun i j => 1 + (i : ℝ) * 2 + j⟩ c := by
  refine ⟨fun i _ c _ => by positivity, fun c i _ i' _ e => ?_⟩
  have : 1 + (i : ℝ) * 2 + c = 1 + (i' : ℝ) * 2 + c := e
  exact_mod_cast (by linarith : (i : ℝ) = i')

end Verif.StripeFilters
