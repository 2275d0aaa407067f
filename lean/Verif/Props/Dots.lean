import Mathlib.Data.List.GetD
import Verif.Props.Blobs

/-!
C80 (binarised calibration images, distance between dots).
-/

set_option linter.unusedSectionVars false
set_option linter.unusedSimpArgs false

namespace Verif.Blobs

section
variable {K : Type} [Field K] [LinearOrder K] [IsStrictOrderedRing K] [FloorRing K]

/-! ### Specification -/

/-- Pixels of the image that satisfy a condition. -/
noncomputable def countSet (m : Mat K) (P : K → Prop) : Finset (ℕ × ℕ) := by
  classical
  exact (Finset.range m.h ×ˢ Finset.range m.w).filter fun q => P (m.get q.1 q.2)

/-- Number of pixels of the image that satisfy a condition. -/
noncomputable def count (m : Mat K) (P : K → Prop) : ℕ := (countSet m P).card

theorem mem_countSet (m : Mat K) (P : K → Prop) (q : ℕ × ℕ) :
    q ∈ countSet m P ↔ (q.1 < m.h ∧ q.2 < m.w) ∧ P (m.get q.1 q.2) := by
  classical
  unfold countSet
  rw [Finset.mem_filter, Finset.mem_product, Finset.mem_range, Finset.mem_range]

/-- The image is one connected dot. -/
def OneDot (m : Mat K) : Prop := (∃ p, Pix m p) ∧ ∀ p q, Pix m p → Pix m q → Connected m p q

/-- Mean row and column of the pixels of a 0/1 image. -/
noncomputable def centroid (m : Mat K) : K × K :=
  ((∑ q ∈ countSet m (· = 1), (q.1 : K)) / (count m (· = 1) : K), (∑ q ∈ countSet m (· = 1), (q.2 : K)) / (count m (· = 1) : K))

/-! ### Lemmas -/

theorem total_01 (m : Mat K) (h : Is01 m) : total m = (count m (· = 1) : K) := by
  classical
  unfold total count countSet
  rw [← Finset.sum_product' (f := fun i j => m.get i j), Finset.card_filter]
  push_cast
  apply Finset.sum_congr rfl
  rintro ⟨i, j⟩ hij
  rw [Finset.mem_product, Finset.mem_range, Finset.mem_range] at hij
  rcases h i hij.1 j hij.2 with h | h
  · rw [h, if_neg zero_ne_one]
  · rw [h, if_pos rfl]

theorem count_compl (m : Mat K) (P : K → Prop) : count m P + count m (fun x => ¬ P x) = m.h * m.w := by
  classical
  unfold count countSet
  rw [Finset.card_filter_add_card_filter_not, Finset.card_product, Finset.card_range, Finset.card_range]

theorem count_congr (m m' : Mat K) (hh : m.h = m'.h) (hw : m.w = m'.w) (P Q : K → Prop)
    (h : ∀ i < m.h, ∀ j < m.w, P (m.get i j) ↔ Q (m'.get i j)) : count m P = count m' Q := by
  classical
  unfold count countSet
  rw [← hh, ← hw]
  congr 1
  apply Finset.filter_congr
  rintro ⟨i, j⟩ hij
  rw [Finset.mem_product, Finset.mem_range, Finset.mem_range] at hij
  exact h i hij.1 j hij.2

theorem thresholded_01 (m : Mat K) (t : K) : Is01 (thresholded m t) := by
  intro i _ j _
  simp only [thresholded]
  split_ifs
  · exact Or.inr rfl
  · exact Or.inl rfl

theorem count_thresholded (m : Mat K) (t : K) : count (thresholded m t) (· = 1) = count m (fun x => t < x) := by
  apply count_congr
  · rfl
  · rfl
  · intro i _ j _
    simp only [thresholded]
    split_ifs with h
    · simpa using h
    · simpa using h

/-- What the image is before the holes are filled. -/
theorem invert_spec (m : Mat K) (t : K) (hh : 0 < m.h) (hw : 0 < m.w) :
    invertContrast (thresholded m t) (max01 (thresholded m t)) =
      if m.h * m.w < 2 * count m (fun x => t < x) then ⟨m.h, m.w, fun i j => 1 - (thresholded m t).get i j⟩ else thresholded m t := by
  have hpos : (0 : K) < (m.h : K) * m.w := by positivity
  have hiff : total (thresholded m t) / (((thresholded m t).h : K) * (thresholded m t).w) > 1 / 2 ↔
      m.h * m.w < 2 * count m (fun x => t < x) := by
    rw [total_01 _ (thresholded_01 m t), count_thresholded]
    show 1 / 2 < (count m (fun x => t < x) : K) / ((m.h : K) * m.w) ↔ _
    rw [lt_div_iff₀ hpos]
    constructor
    · intro h
      have : ((m.h * m.w : ℕ) : K) < ((2 * count m (fun x => t < x) : ℕ) : K) := by
        push_cast
        linarith
      exact_mod_cast this
    · intro h
      have : ((m.h * m.w : ℕ) : K) < ((2 * count m (fun x => t < x) : ℕ) : K) := by exact_mod_cast h
      push_cast at this
      linarith
  unfold invertContrast
  by_cases h : m.h * m.w < 2 * count m (fun x => t < x)
  · rw [if_pos (hiff.2 h), if_pos h]
    have hmax : max01 (thresholded m t) = 1 := by
      unfold max01
      rw [if_pos]
      by_contra hne
      push Not at hne
      have : count m (fun x => t < x) = 0 := by
        rw [← count_thresholded]
        unfold count
        refine Finset.card_eq_zero.2 (Finset.eq_empty_of_forall_notMem ?_)
        rintro ⟨i, j⟩ hij
        rw [mem_countSet] at hij
        exact hne i hij.1.1 j hij.1.2 hij.2
      rw [this] at h
      omega
    rw [hmax]
    rfl
  · rw [if_neg (fun hh => h (hiff.1 hh)), if_neg h]

/-! ### C80: binarisation -/

/-- C80: a given threshold is rejected exactly if it is outside the range of the (denoised, normalised) image. -/
theorem binarize_error (prep fill : Mat K → Mat K) (auto : Mat K → K) (m : Mat K) (hh : 0 < (prep m).h) (hw : 0 < (prep m).w)
    (t : K) (invert : Bool) :
    (∃ e, binarize prep fill auto m (some t) invert = .error e) ↔
      ¬ ((∃ i < (prep m).h, ∃ j < (prep m).w, (prep m).get i j ≤ t) ∧ ∃ i < (prep m).h, ∃ j < (prep m).w, t ≤ (prep m).get i j) := by
  unfold binarize
  dsimp only
  rw [if_neg (by omega)]
  by_cases h : (∀ i < (prep m).h, ∀ j < (prep m).w, t < (prep m).get i j) ∨ (∀ i < (prep m).h, ∀ j < (prep m).w, (prep m).get i j < t)
  · rw [if_pos h]
    refine ⟨fun _ => ?_, fun _ => ⟨_, rfl⟩⟩
    rintro ⟨⟨i, hi, j, hj, h1⟩, ⟨a, ha, b, hb, h2⟩⟩
    rcases h with h | h
    · exact absurd (h i hi j hj) (not_lt.2 h1)
    · exact absurd (h a ha b hb) (not_lt.2 h2)
  · rw [if_neg h]
    refine ⟨fun ⟨e, he⟩ => (by simp at he), fun hn => ?_⟩
    exfalso
    apply hn
    rw [not_or] at h
    push Not at h
    exact h

/-- C80: the image before the holes are filled: 1 for the pixels above the threshold (0 if those are more than half of the
image and `invert` is set), so that with `invert` at most half of the pixels are 1. -/
theorem binarize_spec (prep fill : Mat K → Mat K) (auto : Mat K → K) (m : Mat K) (hh : 0 < (prep m).h) (hw : 0 < (prep m).w)
    (threshold : Option K) (invert : Bool) (out : Mat K) (h : binarize prep fill auto m threshold invert = .ok out) :
    ∃ b : Mat K, out = fill b ∧ b.h = (prep m).h ∧ b.w = (prep m).w ∧ Is01 b ∧
      (∀ i < b.h, ∀ j < b.w,
        let t := threshold.getD (auto (prep m))
        (b.get i j = 1 ↔ if invert = true ∧ (prep m).h * (prep m).w < 2 * count (prep m) (fun x => t < x)
          then (prep m).get i j ≤ t else t < (prep m).get i j)) ∧
      (invert = true → 2 * count b (· = 1) ≤ b.h * b.w) := by
  unfold binarize at h
  dsimp only at h
  rw [if_neg (by omega)] at h
  generalize ht : threshold.getD (auto (prep m)) = t
  have hout : out = fill (if invert then invertContrast (thresholded (prep m) t) (max01 (thresholded (prep m) t))
      else thresholded (prep m) t) := by
    cases threshold with
    | none =>
      simp only [Option.getD_none] at ht
      simp only [ht, Except.ok.injEq] at h
      exact h.symm
    | some t' =>
      simp only [Option.getD_some] at ht
      subst ht
      by_cases hr : (∀ i < (prep m).h, ∀ j < (prep m).w, t' < (prep m).get i j) ∨ (∀ i < (prep m).h, ∀ j < (prep m).w, (prep m).get i j < t')
      · simp only [if_pos hr] at h
        cases h
      · simp only [if_neg hr, Except.ok.injEq] at h
        exact h.symm
  rw [invert_spec _ _ hh hw] at hout
  have h01 := thresholded_01 (prep m) t
  have hval : ∀ i j, (thresholded (prep m) t).get i j = if (prep m).get i j > t then 1 else 0 := fun _ _ => rfl
  cases invert with
  | false =>
    refine ⟨_, hout, rfl, rfl, ?_, ?_, ?_⟩
    · exact h01
    · intro i hi j hj
      simp only [Bool.false_eq_true, if_false, false_and]
      rw [hval]
      split_ifs with hgt
      · simpa using hgt
      · simpa using hgt
    · intro hf
      cases hf
  | true =>
    simp only [if_true] at hout
    by_cases hc : (prep m).h * (prep m).w < 2 * count (prep m) (fun x => t < x)
    · rw [if_pos hc] at hout
      refine ⟨_, hout, rfl, rfl, ?_, ?_, ?_⟩
      · intro i hi j hj
        dsimp only
        rw [hval]
        split_ifs <;> simp
      · intro i hi j hj
        dsimp only
        rw [if_pos ⟨rfl, hc⟩, hval]
        split_ifs with hgt
        · simpa using hgt
        · simpa using hgt
      · intro _
        have : count (⟨(prep m).h, (prep m).w, fun i j => 1 - (thresholded (prep m) t).get i j⟩ : Mat K) (· = 1) =
            count (prep m) (fun x => ¬ t < x) := by
          apply count_congr
          · rfl
          · rfl
          · intro i _ j _
            dsimp only
            rw [hval]
            split_ifs with hgt
            · simpa using hgt
            · simpa using hgt
        dsimp only
        rw [this]
        have := count_compl (prep m) (fun x => t < x)
        omega
    · rw [if_neg hc] at hout
      refine ⟨_, hout, rfl, rfl, h01, ?_, ?_⟩
      · intro i hi j hj
        dsimp only
        rw [if_neg (fun hh => hc hh.2), hval]
        split_ifs with hgt
        · simpa using hgt
        · simpa using hgt
      · intro _
        rw [count_thresholded]
        show _ ≤ (prep m).h * (prep m).w
        omega

/-- C80: inverting the contrast of the image (and of the threshold) does not change the result with `invert`, if no pixel is
equal to the threshold and the number of pixels above it is not exactly one half. -/
theorem binarize_contrast (fill : Mat K → Mat K) (auto : Mat K → K) (m : Mat K) (hh : 0 < m.h) (hw : 0 < m.w) (c t : K)
    (hne : ∀ i < m.h, ∀ j < m.w, m.get i j ≠ t) (hhalf : 2 * count m (fun x => t < x) ≠ m.h * m.w) :
    ∃ b b' : Mat K, (∀ out, binarize id fill auto m (some t) true = .ok out → out = fill b) ∧
      (∀ out, binarize id fill auto ⟨m.h, m.w, fun i j => c - m.get i j⟩ (some (c - t)) true = .ok out → out = fill b') ∧
      b.Eqv b' ∧ ((∃ e, binarize id fill auto m (some t) true = .error e) ↔
        ∃ e, binarize id fill auto ⟨m.h, m.w, fun i j => c - m.get i j⟩ (some (c - t)) true = .error e) := by
  set m' : Mat K := ⟨m.h, m.w, fun i j => c - m.get i j⟩ with hm'
  have hcnt : count m' (fun x => c - t < x) = count m (fun x => ¬ t < x) := by
    apply count_congr
    · rfl
    · rfl
    · intro i hi j hj
      show c - t < c - m.get i j ↔ _
      have := hne i hi j hj
      constructor
      · intro h
        exact not_lt.2 (by linarith)
      · intro h
        have := lt_of_le_of_ne (not_lt.1 h) this
        linarith
  have hsum := count_compl m (fun x => t < x)
  refine ⟨if m.h * m.w < 2 * count m (fun x => t < x) then ⟨m.h, m.w, fun i j => 1 - (thresholded m t).get i j⟩ else thresholded m t,
    if m.h * m.w < 2 * count m' (fun x => c - t < x) then ⟨m.h, m.w, fun i j => 1 - (thresholded m' (c - t)).get i j⟩
      else thresholded m' (c - t), ?_, ?_, ?_, ?_⟩
  · intro out h
    unfold binarize at h
    dsimp only [id] at h
    rw [if_neg (by omega)] at h
    rw [← invert_spec m t hh hw]
    by_cases hr : (∀ i < m.h, ∀ j < m.w, t < m.get i j) ∨ ∀ i < m.h, ∀ j < m.w, m.get i j < t
    · rw [if_pos hr] at h
      cases h
    · rw [if_neg hr] at h
      simp only [if_true, Except.ok.injEq] at h
      exact h.symm
  · intro out h
    unfold binarize at h
    dsimp only [id] at h
    rw [if_neg (by show ¬ (m.h = 0 ∨ m.w = 0); omega)] at h
    have := invert_spec m' (c - t) hh hw
    rw [show (m'.h) = m.h from rfl, show m'.w = m.w from rfl] at this
    rw [← this]
    by_cases hr : (∀ i < m'.h, ∀ j < m'.w, c - t < m'.get i j) ∨ ∀ i < m'.h, ∀ j < m'.w, m'.get i j < c - t
    · rw [if_pos hr] at h
      cases h
    · rw [if_neg hr] at h
      simp only [if_true, Except.ok.injEq] at h
      exact h.symm
  · have hv : ∀ i < m.h, ∀ j < m.w, (thresholded m' (c - t)).get i j = 1 - (thresholded m t).get i j := by
      intro i hi j hj
      show (if c - m.get i j > c - t then (1 : K) else 0) = 1 - (if m.get i j > t then 1 else 0)
      have := hne i hi j hj
      rcases lt_or_gt_of_ne this with h | h
      · rw [if_pos (by linarith), if_neg (by linarith)]
        ring
      · rw [if_neg (by linarith), if_pos h]
        ring
    by_cases h1 : m.h * m.w < 2 * count m (fun x => t < x)
    · rw [if_pos h1, if_neg (by omega)]
      exact ⟨rfl, rfl, fun i hi j hj => (hv i hi j hj).symm⟩
    · rw [if_neg h1, if_pos (by omega)]
      refine ⟨rfl, rfl, fun i hi j hj => ?_⟩
      show (thresholded m t).get i j = 1 - (thresholded m' (c - t)).get i j
      rw [hv i hi j hj]
      ring
  · rw [binarize_error id fill auto m hh hw, binarize_error id fill auto m' hh hw]
    show ¬ _ ↔ ¬ _
    rw [not_iff_not]
    show ((∃ i < m.h, ∃ j < m.w, m.get i j ≤ t) ∧ ∃ i < m.h, ∃ j < m.w, t ≤ m.get i j) ↔
      ((∃ i < m.h, ∃ j < m.w, c - m.get i j ≤ c - t) ∧ ∃ i < m.h, ∃ j < m.w, c - t ≤ c - m.get i j)
    simp only [sub_le_sub_iff_left]
    exact and_comm

/-! ### C80: sizes and distances -/

theorem dot_size_one (label : Mat K → (ℕ → ℕ → ℕ) × ℕ) (m : Mat K) (h01 : Is01 m) (hl : IsLabel m (label m).1 (label m).2)
    (h1 : OneDot m) : (label m).2 = 1 ∧ ∀ opt, getDotSize label m opt = .ok (count m (· = 1) : K) := by
  obtain ⟨⟨p, hp⟩, hc⟩ := h1
  have hnum : (label m).2 = 1 := by
    have hr := label_range m _ _ hl p hp
    by_contra hne
    obtain ⟨q, hq, hq2⟩ := label_pix m _ _ hl 1 (le_refl _) (by omega)
    obtain ⟨r, hr', hr2⟩ := label_pix m _ _ hl 2 (by omega) (by omega)
    have := (hl.conn q r hq hr').2 (hc q r hq hr')
    omega
  refine ⟨hnum, ?_⟩
  have hs : dotSums m (label m).1 (label m).2 = [(count m (· = 1) : K)] := by
    unfold dotSums
    rw [hnum]
    simp only [List.range_one, List.map_cons, List.map_nil, List.cons.injEq, and_true]
    rw [← total_01 m h01]
    unfold total
    apply Finset.sum_congr rfl
    intro i hi
    apply Finset.sum_congr rfl
    intro j hj
    rw [Finset.mem_range] at hi hj
    by_cases h0 : m.get i j = 0
    · rw [h0, ite_self]
    · rw [if_pos]
      have := label_range m _ _ hl (i, j) ⟨hi, hj, h0⟩
      simp only at this
      omega
  intro opt
  unfold getDotSize
  rw [hs]
  cases opt with
  | median => simp [medianSorted]
  | mean => simp
  | min => simp
  | max => simp

theorem select_one (label : Mat K → (ℕ → ℕ → ℕ) × ℕ) (m : Mat K) (h01 : Is01 m) (hl : IsLabel m (label m).1 (label m).2)
    (h1 : OneDot m) (ratio : K) (hr : 0 ≤ ratio) : (selectDot label m (count m (· = 1) : K) ratio).Eqv m := by
  classical
  have hsep : Separated m := fun p q hp hq _ => h1.2 p q hp hq
  obtain ⟨lo, hi', hlo, hhi, heq⟩ : ∃ lo hi : K, lo = max ((⌊(count m (· = 1) : K) - ratio * (count m (· = 1) : K)⌋ : ℤ) : K) 1 ∧
      hi = max ((⌊(count m (· = 1) : K) + ratio * (count m (· = 1) : K)⌋ : ℤ) : K) 1 ∧
      selectDot label m (count m (· = 1) : K) ratio = selectBoxes (fun s => checkDot s lo hi) m (label m).1 (label m).2 :=
    ⟨_, _, rfl, rfl, rfl⟩
  rw [heq]
  obtain ⟨g1, g2, _⟩ := selectBoxes_get (fun s => checkDot s lo hi') m (label m).1 (label m).2 0 0
  refine ⟨g1, g2, ?_⟩
  intro i hi j hj
  rw [g1] at hi
  rw [g2] at hj
  obtain ⟨e1, e2, e3⟩ := select_exact (fun s => checkDot s lo hi') m h01 hsep (label m).1 (label m).2 hl i j hi hj
  rcases h01 i hi j hj with h | h
  · rw [h]
    exact e3 h
  · rw [h]
    apply e1 h
    have hpix : Pix m (i, j) := ⟨hi, hj, by rw [h]; exact one_ne_zero⟩
    have hsize : regionSize m (i, j) = count m (· = 1) := by
      unfold regionSize count
      congr 1
      ext ⟨a, b⟩
      rw [mem_countSet, Finset.mem_filter, Finset.mem_product, Finset.mem_range, Finset.mem_range]
      refine and_congr_right fun hab => ?_
      constructor
      · rintro ⟨hp, _⟩
        rcases h01 a hab.1 b hab.2 with h | h
        · exact absurd h hp.2.2
        · exact h
      · intro h
        have hp : Pix m (a, b) := ⟨hab.1, hab.2, by show m.get a b ≠ 0; rw [show m.get a b = 1 from h]; exact one_ne_zero⟩
        exact ⟨hp, h1.2 _ _ hpix hp⟩
    have hpos : 1 ≤ count m (· = 1) := by
      rw [← hsize]
      unfold regionSize
      rw [Nat.one_le_iff_ne_zero, ← Nat.pos_iff_ne_zero, Finset.card_pos]
      refine ⟨(i, j), ?_⟩
      rw [Finset.mem_filter, Finset.mem_product, Finset.mem_range, Finset.mem_range]
      exact ⟨⟨hi, hj⟩, hpix, Relation.ReflTransGen.refl⟩
    rw [hsize, hlo, hhi]
    have hposK : (1 : K) ≤ (count m (· = 1) : K) := by exact_mod_cast hpos
    generalize hn : count m (· = 1) = n at hposK
    unfold checkDot
    simp only [Bool.and_eq_true, decide_eq_true_eq]
    constructor
    · apply max_le _ hposK
      have h2 : ⌊(n : K) - ratio * n⌋ ≤ (n : ℤ) := by
        have h3 : ⌊(n : K) - ratio * n⌋ ≤ ⌊(n : K)⌋ := Int.floor_mono (by nlinarith)
        simpa using h3
      exact_mod_cast (show ((⌊(n : K) - ratio * n⌋ : ℤ) : K) ≤ ((n : ℤ) : K) from Int.cast_le.2 h2)
    · apply le_max_of_le_left
      have h2 : (n : ℤ) ≤ ⌊(n : K) + ratio * n⌋ := by
        rw [Int.le_floor]
        push_cast
        nlinarith
      exact_mod_cast (show ((n : ℤ) : K) ≤ ((⌊(n : K) + ratio * n⌋ : ℤ) : K) from Int.cast_le.2 h2)

theorem total_congr (m m' : Mat K) (h : m.Eqv m') : total m = total m' := by
  unfold total
  rw [← h.1, ← h.2.1]
  refine Finset.sum_congr rfl fun i hi => Finset.sum_congr rfl fun j hj => h.2.2 i (Finset.mem_range.1 hi) j (Finset.mem_range.1 hj)

theorem center_congr (m m' : Mat K) (h : m.Eqv m') : centerOfMass m = centerOfMass m' := by
  unfold centerOfMass
  have e1 : (∑ i ∈ Finset.range m.h, ∑ j ∈ Finset.range m.w, (i : K) * m.get i j) =
      ∑ i ∈ Finset.range m'.h, ∑ j ∈ Finset.range m'.w, (i : K) * m'.get i j := by
    rw [← h.1, ← h.2.1]
    refine Finset.sum_congr rfl fun i hi => Finset.sum_congr rfl fun j hj => ?_
    rw [h.2.2 i (Finset.mem_range.1 hi) j (Finset.mem_range.1 hj)]
  have e2 : (∑ i ∈ Finset.range m.h, ∑ j ∈ Finset.range m.w, (j : K) * m.get i j) =
      ∑ i ∈ Finset.range m'.h, ∑ j ∈ Finset.range m'.w, (j : K) * m'.get i j := by
    rw [← h.1, ← h.2.1]
    refine Finset.sum_congr rfl fun i hi => Finset.sum_congr rfl fun j hj => ?_
    rw [h.2.2 i (Finset.mem_range.1 hi) j (Finset.mem_range.1 hj)]
  rw [total_congr m m' h, e1, e2]

theorem center_01 (m : Mat K) (h01 : Is01 m) (hpos : count m (· = 1) ≠ 0) : centerOfMass m = some (centroid m) := by
  classical
  have key : ∀ f : ℕ → ℕ → K, (∑ i ∈ Finset.range m.h, ∑ j ∈ Finset.range m.w, f i j * m.get i j) =
      ∑ q ∈ countSet m (· = 1), f q.1 q.2 := by
    intro f
    unfold countSet
    rw [← Finset.sum_product' (f := fun i j => f i j * m.get i j), Finset.sum_filter]
    apply Finset.sum_congr rfl
    rintro ⟨i, j⟩ hij
    rw [Finset.mem_product, Finset.mem_range, Finset.mem_range] at hij
    dsimp only
    rcases h01 i hij.1 j hij.2 with h | h
    · rw [h, if_neg zero_ne_one, mul_zero]
    · rw [h, if_pos rfl, mul_one]
  unfold centerOfMass
  rw [total_01 m h01, if_neg (by exact_mod_cast hpos), key (fun i _ => (i : K)), key (fun _ j => (j : K))]
  rfl

end

theorem binarize_valueError {K : Type} [Field K] [LinearOrder K] [IsStrictOrderedRing K] [FloorRing K]
    (prep fill : Mat K → Mat K) (auto : Mat K → K) (m : Mat K) (t : Option K) (invert : Bool) (e : PyErr)
    (h : binarize prep fill auto m t invert = .error e) : e = .valueError := by
  unfold binarize at h
  dsimp only at h
  split_ifs at h
  · exact (Except.error.inj h).symm
  all_goals
    cases t with
    | none => simp at h
    | some t =>
      dsimp only at h
      split_ifs at h <;> first | exact (Except.error.inj h).symm | cases h

theorem getDotSize_valueError {K : Type} [Field K] [LinearOrder K]
    (label : Mat K → (ℕ → ℕ → ℕ) × ℕ) (m : Mat K) (opt : SizeOpt) (e : PyErr)
    (h : getDotSize label m opt = .error e) : e = .valueError := by
  unfold getDotSize at h
  split at h
  · exact (Except.error.inj h).symm
  · cases opt <;> cases h

/-- C80: the distance does not depend on the order of the images. -/
theorem distance_symm (label : Mat ℝ → (ℕ → ℕ → ℕ) × ℕ) (prep fill : Mat ℝ → Mat ℝ) (auto : Mat ℝ → ℝ)
    (m1 m2 : Mat ℝ) (opt : SizeOpt) (t : Option ℝ) (invert : Bool) :
    calculateDistance label prep fill auto m1 m2 opt t invert = calculateDistance label prep fill auto m2 m1 opt t invert := by
  unfold calculateDistance
  simp only [bind, Except.bind, pure, Except.pure]
  cases h1 : binarize prep fill auto m1 t invert with
  | error e1 =>
    rw [binarize_valueError _ _ _ _ _ _ _ h1]
    cases h2 : binarize prep fill auto m2 t invert with
    | error e2 => rw [binarize_valueError _ _ _ _ _ _ _ h2]
    | ok b2 =>
      cases h4 : getDotSize label b2 opt with
      | error e4 => simp only; rw [h4, getDotSize_valueError _ _ _ _ h4]
      | ok s2 => simp only; rw [h4]
  | ok b1 =>
    simp only
    cases h3 : getDotSize label b1 opt with
    | error e3 =>
      rw [getDotSize_valueError _ _ _ _ h3]
      cases h2 : binarize prep fill auto m2 t invert with
      | error e2 => rw [binarize_valueError _ _ _ _ _ _ _ h2]
      | ok b2 =>
        cases h4 : getDotSize label b2 opt with
        | error e4 => simp only; rw [h4, getDotSize_valueError _ _ _ _ h4]
        | ok s2 => simp only; rw [h4]
    | ok s1 =>
      simp only
      cases h2 : binarize prep fill auto m2 t invert with
      | error e2 => rfl
      | ok b2 =>
        simp only
        cases h4 : getDotSize label b2 opt with
        | error e4 => rfl
        | ok s2 =>
          simp only
          cases hc1 : centerOfMass (selectDot label b1 s1 (1 / 100)) with
          | none => cases centerOfMass (selectDot label b2 s2 (1 / 100)) <;> rfl
          | some c1 =>
            cases hc2 : centerOfMass (selectDot label b2 s2 (1 / 100)) with
            | none => rfl
            | some c2 =>
              simp only
              congr 3
              ring

/-- C80: if both binarised images show one dot each, the result is the distance of their centroids, for every `size_opt`. -/
theorem distance_one_dot (label : Mat ℝ → (ℕ → ℕ → ℕ) × ℕ) (prep fill : Mat ℝ → Mat ℝ) (auto : Mat ℝ → ℝ)
    (m1 m2 b1 b2 : Mat ℝ) (opt : SizeOpt) (t : Option ℝ) (invert : Bool)
    (h1 : binarize prep fill auto m1 t invert = .ok b1) (h2 : binarize prep fill auto m2 t invert = .ok b2)
    (h01 : Is01 b1) (h01' : Is01 b2) (hl : IsLabel b1 (label b1).1 (label b1).2) (hl' : IsLabel b2 (label b2).1 (label b2).2)
    (hd : OneDot b1) (hd' : OneDot b2) :
    calculateDistance label prep fill auto m1 m2 opt t invert =
      .ok (some (Real.sqrt (((centroid b1).1 - (centroid b2).1) ^ 2 + ((centroid b1).2 - (centroid b2).2) ^ 2))) := by
  have hpos : ∀ b : Mat ℝ, Is01 b → OneDot b → count b (· = 1) ≠ 0 := by
    intro b hb ho
    obtain ⟨p, hp⟩ := ho.1
    unfold count
    rw [← Nat.pos_iff_ne_zero, Finset.card_pos]
    refine ⟨p, ?_⟩
    rw [mem_countSet]
    refine ⟨⟨hp.1, hp.2.1⟩, ?_⟩
    rcases hb p.1 hp.1 p.2 hp.2.1 with h | h
    · exact absurd h hp.2.2
    · exact h
  unfold calculateDistance
  rw [h1, h2]
  simp only [bind, Except.bind, pure, Except.pure]
  rw [(dot_size_one label b1 h01 hl hd).2 opt, (dot_size_one label b2 h01' hl' hd').2 opt]
  simp only
  rw [center_congr _ _ (select_one label b1 h01 hl hd (1 / 100) (by norm_num)),
    center_congr _ _ (select_one label b2 h01' hl' hd' (1 / 100) (by norm_num)),
    center_01 b1 h01 (hpos b1 h01 hd), center_01 b2 h01' (hpos b2 h01' hd')]

/-- C80: a dot moved by `(dy, dx)` inside the frame is at distance `sqrt (dy² + dx²)`. -/
theorem centroid_moved (b1 b2 : Mat ℝ) (dy dx : ℤ) (hne : count b1 (· = 1) ≠ 0)
    (h12 : ∀ i < b1.h, ∀ j < b1.w, b1.get i j = 1 → ∃ i' < b2.h, ∃ j' < b2.w, (i' : ℤ) = i + dy ∧ (j' : ℤ) = j + dx ∧ b2.get i' j' = 1)
    (h21 : ∀ i < b2.h, ∀ j < b2.w, b2.get i j = 1 → ∃ i' < b1.h, ∃ j' < b1.w, (i : ℤ) = i' + dy ∧ (j : ℤ) = j' + dx ∧ b1.get i' j' = 1) :
    Real.sqrt (((centroid b1).1 - (centroid b2).1) ^ 2 + ((centroid b1).2 - (centroid b2).2) ^ 2) =
      Real.sqrt ((dy : ℝ) ^ 2 + (dx : ℝ) ^ 2) := by
  classical
  set S1 := countSet b1 (· = 1) with hS1
  set S2 := countSet b2 (· = 1) with hS2
  let g : ℕ × ℕ → ℕ × ℕ := fun q => ((q.1 + dy : ℤ).toNat, (q.2 + dx : ℤ).toNat)
  have mem1 : ∀ q, q ∈ S1 ↔ q.1 < b1.h ∧ q.2 < b1.w ∧ b1.get q.1 q.2 = 1 := by
    intro q
    rw [hS1, mem_countSet, and_assoc]
  have mem2 : ∀ q, q ∈ S2 ↔ q.1 < b2.h ∧ q.2 < b2.w ∧ b2.get q.1 q.2 = 1 := by
    intro q
    rw [hS2, mem_countSet, and_assoc]
  have hg : ∀ q ∈ S1, g q ∈ S2 ∧ ((g q).1 : ℤ) = q.1 + dy ∧ ((g q).2 : ℤ) = q.2 + dx := by
    intro q hq
    obtain ⟨q1, q2, q3⟩ := (mem1 q).1 hq
    obtain ⟨i', hi', j', hj', e1, e2, hv⟩ := h12 q.1 q1 q.2 q2 q3
    have hgq : g q = (i', j') := by
      simp only [g]
      rw [← e1, ← e2]
      rfl
    rw [hgq]
    exact ⟨(mem2 _).2 ⟨hi', hj', hv⟩, e1, e2⟩
  have hinj : Set.InjOn g S1 := by
    intro a ha b hb hab
    obtain ⟨_, a1, a2⟩ := hg a ha
    obtain ⟨_, b1, b2⟩ := hg b hb
    rw [hab] at a1 a2
    ext <;> omega
  have himg : S1.image g = S2 := by
    ext q
    rw [Finset.mem_image]
    constructor
    · rintro ⟨a, ha, rfl⟩
      exact (hg a ha).1
    · intro hq
      obtain ⟨q1, q2, q3⟩ := (mem2 q).1 hq
      obtain ⟨i', hi', j', hj', e1, e2, hv⟩ := h21 q.1 q1 q.2 q2 q3
      refine ⟨(i', j'), (mem1 _).2 ⟨hi', hj', hv⟩, ?_⟩
      simp only [g]
      rw [← e1, ← e2]
      rfl
  have hcard : S2.card = S1.card := by rw [← himg, Finset.card_image_of_injOn hinj]
  have hc1 : (S1.card : ℝ) ≠ 0 := by
    have : S1.card ≠ 0 := hne
    exact_mod_cast this
  have e1 : (∑ q ∈ S2, (q.1 : ℝ)) = (∑ q ∈ S1, (q.1 : ℝ)) + S1.card * (dy : ℝ) := by
    rw [← himg, Finset.sum_image hinj, ← nsmul_eq_mul, ← Finset.sum_const, ← Finset.sum_add_distrib]
    apply Finset.sum_congr rfl
    intro q hq
    have := (hg q hq).2.1
    exact_mod_cast congrArg (fun z : ℤ => (z : ℝ)) this
  have e2 : (∑ q ∈ S2, (q.2 : ℝ)) = (∑ q ∈ S1, (q.2 : ℝ)) + S1.card * (dx : ℝ) := by
    rw [← himg, Finset.sum_image hinj, ← nsmul_eq_mul, ← Finset.sum_const, ← Finset.sum_add_distrib]
    apply Finset.sum_congr rfl
    intro q hq
    have := (hg q hq).2.2
    exact_mod_cast congrArg (fun z : ℤ => (z : ℝ)) this
  have c1 : (centroid b1).1 - (centroid b2).1 = -(dy : ℝ) := by
    show (∑ q ∈ S1, (q.1 : ℝ)) / (S1.card : ℝ) - (∑ q ∈ S2, (q.1 : ℝ)) / (S2.card : ℝ) = _
    rw [hcard, e1]
    field_simp
    ring
  have c2 : (centroid b1).2 - (centroid b2).2 = -(dx : ℝ) := by
    show (∑ q ∈ S1, (q.2 : ℝ)) / (S1.card : ℝ) - (∑ q ∈ S2, (q.2 : ℝ)) / (S2.card : ℝ) = _
    rw [hcard, e2]
    field_simp
    ring
  rw [c1, c2]
  congr 1
  ring

/-! ### Several dots -/

section
variable {K : Type} [Field K] [LinearOrder K] [IsStrictOrderedRing K] [FloorRing K]

theorem foldl_max (l : List K) (x : K) : l.foldl max x ∈ x :: l ∧ ∀ y ∈ x :: l, y ≤ l.foldl max x := by
  induction l generalizing x with
  | nil => simp
  | cons a l ih =>
    obtain ⟨h1, h2⟩ := ih (max x a)
    simp only [List.foldl_cons]
    have hx : x ≤ l.foldl max (max x a) := le_trans (le_max_left x a) (h2 _ (by simp))
    have ha : a ≤ l.foldl max (max x a) := le_trans (le_max_right x a) (h2 _ (by simp))
    constructor
    · rcases List.mem_cons.1 h1 with h | h
      · rw [h]
        rcases max_cases x a with ⟨h, _⟩ | ⟨h, _⟩ <;> rw [h] <;> simp
      · simp [h]
    · intro y hy
      rcases List.mem_cons.1 hy with rfl | hy
      · exact hx
      · rcases List.mem_cons.1 hy with rfl | hy
        · exact ha
        · exact h2 y (by simp [hy])

theorem foldl_min (l : List K) (x : K) : l.foldl min x ∈ x :: l ∧ ∀ y ∈ x :: l, l.foldl min x ≤ y := by
  induction l generalizing x with
  | nil => simp
  | cons a l ih =>
    obtain ⟨h1, h2⟩ := ih (min x a)
    simp only [List.foldl_cons]
    have hx : l.foldl min (min x a) ≤ x := le_trans (h2 _ (by simp)) (min_le_left x a)
    have ha : l.foldl min (min x a) ≤ a := le_trans (h2 _ (by simp)) (min_le_right x a)
    constructor
    · rcases List.mem_cons.1 h1 with h | h
      · rw [h]
        rcases min_cases x a with ⟨h, _⟩ | ⟨h, _⟩ <;> rw [h] <;> simp
      · simp [h]
    · intro y hy
      rcases List.mem_cons.1 hy with rfl | hy
      · exact hx
      · rcases List.mem_cons.1 hy with rfl | hy
        · exact ha
        · exact h2 y (by simp [hy])

/-- Half of the elements of a sorted list are not above its median, half not below. -/
theorem medianSorted_spec (l : List K) (hl : l ≠ []) (hs : l.Pairwise (· ≤ ·)) :
    l.length ≤ 2 * l.countP (fun x => decide (x ≤ medianSorted l)) ∧ l.length ≤ 2 * l.countP (fun x => decide (medianSorted l ≤ x)) := by
  have hn : 0 < l.length := List.length_pos_iff.2 hl
  have hsorted : ∀ a b, a ≤ b → (hb : b < l.length) → l.getD a 0 ≤ l.getD b 0 := by
    intro a b hab hb
    rw [List.getD_eq_getElem _ _ (by omega), List.getD_eq_getElem _ _ hb]
    rcases Nat.lt_or_eq_of_le hab with h | rfl
    · exact List.pairwise_iff_getElem.1 hs a b (by omega) hb h
    · exact le_refl _
  have key : ∀ (P : K → Bool) (k : ℕ), k ≤ l.length → (∀ a < k, P (l.getD a 0) = true) → k ≤ l.countP P := by
    intro P k hk h
    have h1 : (l.take k).countP P = k := by
      rw [List.countP_eq_length.2, List.length_take, min_eq_left hk]
      intro x hx
      obtain ⟨a, ha, rfl⟩ := List.getElem_of_mem hx
      rw [List.length_take] at ha
      have := h a (by omega)
      rw [List.getD_eq_getElem _ _ (by omega)] at this
      simpa using this
    calc k = (l.take k).countP P := h1.symm
      _ ≤ l.countP P := (List.take_sublist k l).countP_le
  have key2 : ∀ (P : K → Bool) (k : ℕ), k ≤ l.length → (∀ a, k ≤ a → a < l.length → P (l.getD a 0) = true) → l.length - k ≤ l.countP P := by
    intro P k hk h
    have h1 : (l.drop k).countP P = l.length - k := by
      rw [List.countP_eq_length.2, List.length_drop]
      intro x hx
      obtain ⟨a, ha, rfl⟩ := List.getElem_of_mem hx
      rw [List.length_drop] at ha
      have := h (k + a) (by omega) (by omega)
      rw [List.getD_eq_getElem _ _ (by omega)] at this
      simpa using this
    calc l.length - k = (l.drop k).countP P := h1.symm
      _ ≤ l.countP P := (List.drop_sublist k l).countP_le
  unfold medianSorted
  by_cases hodd : l.length % 2 = 1
  · rw [if_pos hodd]
    constructor
    · have := key (fun x => decide (x ≤ l.getD (l.length / 2) 0)) (l.length / 2 + 1) (by omega) (by
        intro a ha
        exact decide_eq_true (hsorted a _ (by omega) (by omega)))
      omega
    · have := key2 (fun x => decide (l.getD (l.length / 2) 0 ≤ x)) (l.length / 2) (by omega) (by
        intro a ha hb
        exact decide_eq_true (hsorted _ a (by omega) hb))
      omega
  · rw [if_neg hodd]
    have hmid : l.getD (l.length / 2 - 1) 0 ≤ l.getD (l.length / 2) 0 := hsorted _ _ (by omega) (by omega)
    constructor
    · have := key (fun x => decide (x ≤ (l.getD (l.length / 2 - 1) 0 + l.getD (l.length / 2) 0) / 2)) (l.length / 2) (by omega) (by
        intro a ha
        have := hsorted a (l.length / 2 - 1) (by omega) (by omega)
        exact decide_eq_true (by linarith))
      omega
    · have := key2 (fun x => decide ((l.getD (l.length / 2 - 1) 0 + l.getD (l.length / 2) 0) / 2 ≤ x)) (l.length / 2) (by omega) (by
        intro a ha hb
        have := hsorted (l.length / 2) a (by omega) hb
        exact decide_eq_true (by linarith))
      omega

/-- C80: `get_dot_size` returns the largest / smallest / mean / median size of the regions: `L` lists the sizes of all the
regions, one entry per region. -/
theorem dot_size_spec (label : Mat K → (ℕ → ℕ → ℕ) × ℕ) (m : Mat K) (h01 : Is01 m) (hl : IsLabel m (label m).1 (label m).2)
    (opt : SizeOpt) (s : K) (h : getDotSize label m opt = .ok s) :
    ∃ L : List K, L ≠ [] ∧ (∀ x ∈ L, ∃ p, Pix m p ∧ x = (regionSize m p : K)) ∧ (∀ p, Pix m p → (regionSize m p : K) ∈ L) ∧
      (∃ r : ℕ → ℕ × ℕ, (∀ k < L.length, Pix m (r k) ∧ L.getD k 0 = (regionSize m (r k) : K)) ∧
        (∀ a < L.length, ∀ b < L.length, a ≠ b → ¬ Connected m (r a) (r b)) ∧ ∀ p, Pix m p → ∃ k < L.length, Connected m (r k) p) ∧
      (opt = .max → s ∈ L ∧ ∀ x ∈ L, x ≤ s) ∧ (opt = .min → s ∈ L ∧ ∀ x ∈ L, s ≤ x) ∧ (opt = .mean → s = L.sum / (L.length : K)) ∧
      (opt = .median → L.length ≤ 2 * L.countP (fun x => decide (x ≤ s)) ∧ L.length ≤ 2 * L.countP (fun x => decide (s ≤ x))) := by
  classical
  have hsum : ∀ k, 1 ≤ k → k ≤ (label m).2 → ∀ p, Pix m p → (label m).1 p.1 p.2 = k →
      (∑ i ∈ Finset.range m.h, ∑ j ∈ Finset.range m.w, if (label m).1 i j = k then m.get i j else 0) = (regionSize m p : K) := by
    intro k h1 h2 p hp hk
    have := sum_count m h01 (fun q => (label m).1 q.1 q.2 = k)
    rw [this, regionSize_label m _ _ hl p hp, hk]
    congr 2
    apply Finset.filter_congr
    intro q hq
    rw [Finset.mem_product, Finset.mem_range, Finset.mem_range] at hq
    refine ⟨fun h => h.2, fun h => ⟨⟨hq.1, hq.2, fun h0 => ?_⟩, h⟩⟩
    have := (hl.zero q.1 hq.1 q.2 hq.2).2 h0
    omega
  have hlen : (dotSums m (label m).1 (label m).2).length = (label m).2 := by simp [dotSums]
  have hget : ∀ k < (label m).2, (dotSums m (label m).1 (label m).2).getD k 0 =
      ∑ i ∈ Finset.range m.h, ∑ j ∈ Finset.range m.w, if (label m).1 i j = k + 1 then m.get i j else 0 := by
    intro k hk
    simp [dotSums, hk]
  have hr : ∀ k, ∃ p, k < (label m).2 → Pix m p ∧ (label m).1 p.1 p.2 = k + 1 := by
    intro k
    by_cases hk : k < (label m).2
    · obtain ⟨p, hp⟩ := label_pix m _ _ hl (k + 1) (by omega) (by omega)
      exact ⟨p, fun _ => hp⟩
    · exact ⟨(0, 0), fun h => absurd h hk⟩
  choose r hr using hr
  refine ⟨dotSums m (label m).1 (label m).2, ?_, ?_, ?_, ⟨r, ?_, ?_, ?_⟩, ?_⟩
  · intro h0
    unfold getDotSize at h
    rw [h0] at h
    cases h
  · intro x hx
    obtain ⟨k, hk, rfl⟩ := List.mem_map.1 hx
    rw [List.mem_range] at hk
    obtain ⟨h1, h2⟩ := hr k hk
    exact ⟨r k, h1, hsum (k + 1) (by omega) (by omega) _ h1 h2⟩
  · intro p hp
    have hr' := label_range m _ _ hl p hp
    refine List.mem_map.2 ⟨(label m).1 p.1 p.2 - 1, List.mem_range.2 (by omega), ?_⟩
    exact hsum _ (by omega) (by omega) p hp (by omega)
  · intro k hk
    rw [hlen] at hk
    obtain ⟨h1, h2⟩ := hr k hk
    refine ⟨h1, ?_⟩
    rw [hget k hk]
    exact hsum (k + 1) (by omega) (by omega) _ h1 h2
  · intro a ha b hb hab hc
    rw [hlen] at ha hb
    have := (hl.conn (r a) (r b) (hr a ha).1 (hr b hb).1).2 hc
    rw [(hr a ha).2, (hr b hb).2] at this
    omega
  · intro p hp
    have hr' := label_range m _ _ hl p hp
    have hk : (label m).1 p.1 p.2 - 1 < (label m).2 := by omega
    refine ⟨(label m).1 p.1 p.2 - 1, by rw [hlen]; exact hk, ?_⟩
    refine (hl.conn _ p (hr _ hk).1 hp).1 ?_
    rw [(hr _ hk).2]
    omega
  · unfold getDotSize at h
    generalize dotSums m (label m).1 (label m).2 = L at h
    clear hsum hlen hget hr
    cases L with
    | nil => cases h
    | cons x l =>
      refine ⟨?_, ?_, ?_, ?_⟩ <;> rintro rfl
      · have h := (Except.ok.inj h).symm
        rw [h]
        exact foldl_max l x
      · have h := (Except.ok.inj h).symm
        rw [h]
        exact foldl_min l x
      · exact (Except.ok.inj h).symm
      · have h := (Except.ok.inj h).symm
        have hperm : ((x :: l).mergeSort fun a b => decide (a ≤ b)).Perm (x :: l) := List.mergeSort_perm _ _
        have hsort : ((x :: l).mergeSort fun a b => decide (a ≤ b)).Pairwise (· ≤ ·) := by
          have := List.pairwise_mergeSort (le := fun a b : K => decide (a ≤ b))
            (by intro a b c h1 h2; simp only [decide_eq_true_eq] at *; exact le_trans h1 h2)
            (by intro a b; simp only [Bool.or_eq_true, decide_eq_true_eq]; exact le_total a b) (x :: l)
          exact this.imp (by intro a b h; simpa using h)
        have hspec := medianSorted_spec _ (by
          intro h0
          have := hperm.length_eq
          rw [h0] at this
          simp at this) hsort
        rw [← h, hperm.length_eq, hperm.countP_eq, hperm.countP_eq] at hspec
        exact hspec

end

/-- One row: a dot of one pixel and a dot of four pixels. -/
noncomputable def exD : Mat ℝ := ⟨1, 6, fun _ j => if j = 1 then 0 else 1⟩

/-- Its labels. -/
def exDLab (_ j : ℕ) : ℕ := if j = 0 then 1 else if j = 1 then 0 else 2

theorem exD_pix (p : ℕ × ℕ) : Pix exD p ↔ p.1 < 1 ∧ p.2 < 6 ∧ p.2 ≠ 1 := by
  unfold Pix exD
  dsimp only
  refine and_congr_right fun _ => and_congr_right fun _ => ?_
  split_ifs with h
  · simpa using h
  · simpa using h

theorem exD_label : IsLabel exD exDLab 2 := by
  refine ⟨?_, ?_, ?_, ?_⟩
  · intro i _ j _
    unfold exDLab exD
    dsimp only
    split_ifs <;> simp_all
  · intro p q hp hq
    have hp' := (exD_pix p).1 hp
    have hq' := (exD_pix q).1 hq
    obtain ⟨i, j⟩ := p
    obtain ⟨a, b⟩ := q
    dsimp only at hp' hq' ⊢
    have hi : i = 0 := by omega
    have ha : a = 0 := by omega
    subst hi ha
    constructor
    · intro h
      have hcase : j = b ∨ (2 ≤ j ∧ 2 ≤ b) := by
        unfold exDLab at h
        split_ifs at h <;> omega
      rcases hcase with rfl | ⟨h1, h2⟩
      · exact Relation.ReflTransGen.refl
      · have c1 := conn_row exD 0 2 (j - 2) (fun x hx hx' => (exD_pix _).2 ⟨by simp, by dsimp only; omega, by dsimp only; omega⟩)
        have c2 := conn_row exD 0 2 (b - 2) (fun x hx hx' => (exD_pix _).2 ⟨by simp, by dsimp only; omega, by dsimp only; omega⟩)
        rw [show 2 + (j - 2) = j by omega] at c1
        rw [show 2 + (b - 2) = b by omega] at c2
        exact conn_trans _ _ _ _ (conn_symm _ _ _ c1) c2
    · intro h
      suffices ∀ r, Connected exD (0, j) r → exDLab 0 j = exDLab r.1 r.2 from this _ h
      intro r hr
      unfold Connected at hr
      induction hr with
      | refl => rfl
      | tail h1 h2 ih =>
        rename_i x y
        have hx := (exD_pix x).1 h2.1
        have hy := (exD_pix y).1 h2.2.1
        have ht := h2.2.2
        rw [ih]
        unfold Touch at ht
        unfold exDLab
        split_ifs <;> omega
  · intro i _ j _
    unfold exDLab
    split_ifs <;> omega
  · intro k h1 h2
    have : k = 1 ∨ k = 2 := by omega
    rcases this with rfl | rfl
    · exact ⟨0, by simp [exD], 0, by simp [exD], by decide⟩
    · exact ⟨0, by simp [exD], 2, by simp [exD], by decide⟩

/-- C80 is false for images with several dots of different sizes and `size_opt="mean"` (or `"median"`): the size lies between
those of the dots, no dot is within 1% of it, nothing is selected, and the distance is `nan`. -/
theorem distance_mean_refuted (label : Mat ℝ → (ℕ → ℕ → ℕ) × ℕ) (hlab : label exD = (exDLab, 2)) (fill : Mat ℝ → Mat ℝ)
    (hf : fill (thresholded exD (1 / 2)) = exD) (auto : Mat ℝ → ℝ) (opt : SizeOpt) (hopt : opt = .mean ∨ opt = .median) :
    IsLabel exD (label exD).1 (label exD).2 ∧
    calculateDistance label id fill auto exD exD opt (some (1 / 2)) false = .ok none := by
  refine ⟨by rw [hlab]; exact exD_label, ?_⟩
  have hb : binarize id fill auto exD (some (1 / 2)) false = .ok exD := by
    unfold binarize
    dsimp only [id]
    rw [if_neg (by simp [exD]), if_neg]
    · simp only [Bool.false_eq_true, if_false, hf]
    · rintro (h | h)
      · have := h 0 (by simp [exD]) 1 (by simp [exD])
        norm_num [exD] at this
      · have := h 0 (by simp [exD]) 0 (by simp [exD])
        norm_num [exD] at this
  have hsums : dotSums exD exDLab 2 = [1, 4] := by
    unfold dotSums exD exDLab
    simp [List.range_succ, Finset.sum_range_succ]
    norm_num
  have hsize : getDotSize label exD opt = .ok (5 / 2) := by
    unfold getDotSize
    rw [hlab, hsums]
    rcases hopt with rfl | rfl
    · norm_num
    · simp only
      congr 1
      have : ([1, 4] : List ℝ).mergeSort (fun a b => decide (a ≤ b)) = [1, 4] := by
        apply List.mergeSort_of_pairwise
        simp
      rw [this]
      norm_num [medianSorted]
  have hbox1 : boxSum exD exDLab 1 = 1 := by
    unfold boxSum
    show (∑ i ∈ Finset.range 1, ∑ j ∈ Finset.range 6, if InBox 1 6 exDLab 1 i j then exD.get i j else 0) = 1
    simp only [Finset.sum_range_succ, Finset.sum_range_zero]
    rw [if_pos (by decide), if_neg (by decide), if_neg (by decide), if_neg (by decide), if_neg (by decide), if_neg (by decide)]
    norm_num [exD]
  have hbox2 : boxSum exD exDLab 2 = 4 := by
    unfold boxSum
    show (∑ i ∈ Finset.range 1, ∑ j ∈ Finset.range 6, if InBox 1 6 exDLab 2 i j then exD.get i j else 0) = 4
    simp only [Finset.sum_range_succ, Finset.sum_range_zero]
    rw [if_neg (by decide), if_neg (by decide), if_pos (by decide), if_pos (by decide), if_pos (by decide), if_pos (by decide)]
    norm_num [exD]
  have hsel : ∀ i j, (selectDot label exD (5 / 2) (1 / 100)).get i j = 0 := by
    intro i j
    classical
    unfold selectDot
    dsimp only
    rw [hlab, (selectBoxes_get _ exD exDLab 2 i j).2.2, if_neg]
    have f1 : (⌊(5 / 2 : ℝ) - 1 / 100 * (5 / 2)⌋ : ℤ) = 2 := by
      rw [Int.floor_eq_iff]
      norm_num
    have f2 : (⌊(5 / 2 : ℝ) + 1 / 100 * (5 / 2)⌋ : ℤ) = 2 := by
      rw [Int.floor_eq_iff]
      norm_num
    rw [f1, f2]
    rintro ⟨k, ⟨h1, h2⟩, hok, _⟩
    have : k = 1 ∨ k = 2 := by omega
    rcases this with rfl | rfl
    · rw [hbox1] at hok
      norm_num [checkDot] at hok
    · rw [hbox2] at hok
      norm_num [checkDot] at hok
  have hcom : centerOfMass (selectDot label exD (5 / 2) (1 / 100)) = none := by
    unfold centerOfMass
    rw [if_pos]
    unfold total
    apply Finset.sum_eq_zero
    intro i _
    apply Finset.sum_eq_zero
    intro j _
    exact hsel i j
  unfold calculateDistance
  rw [hb]
  simp only [bind, Except.bind, pure, Except.pure]
  rw [hsize]
  simp only
  rw [hcom]

/-- `fill` is the identity here (no holes). -/
example : (thresholded exD (1 / 2)) = exD := by
  unfold thresholded exD
  congr 1
  funext i j
  by_cases h : j = 1
  · simp [h]
  · simp only [if_neg h]
    norm_num

/-- An image with one dot. -/
example : OneDot (⟨1, 2, fun _ _ => 1⟩ : Mat ℝ) ∧ Is01 (⟨1, 2, fun _ _ => 1⟩ : Mat ℝ) := by
  refine ⟨⟨⟨(0, 0), by simp [Pix]⟩, ?_⟩, fun _ _ _ _ => Or.inr rfl⟩
  rintro ⟨i, j⟩ ⟨a, b⟩ hp hq
  have h1 : i < 1 ∧ j < 2 := ⟨hp.1, hp.2.1⟩
  have h2 : a < 1 ∧ b < 2 := ⟨hq.1, hq.2.1⟩
  have hi : i = 0 := by omega
  have ha : a = 0 := by omega
  subst hi ha
  have hrow := conn_row (⟨1, 2, fun _ _ => 1⟩ : Mat ℝ) 0 0 1 (fun x _ hx => ⟨by simp, by dsimp only; omega, by simp⟩)
  have hj : j = 0 ∨ j = 1 := by omega
  have hb : b = 0 ∨ b = 1 := by omega
  rcases hj with rfl | rfl <;> rcases hb with rfl | rfl
  · exact Relation.ReflTransGen.refl
  · exact hrow
  · exact conn_symm _ _ _ hrow
  · exact Relation.ReflTransGen.refl

end Verif.Blobs
