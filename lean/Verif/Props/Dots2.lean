import Verif.Props.Dots

/-! C80 — images with several dots: the largest or smallest dot is selected; dots of one size are all kept. -/

set_option linter.unusedSectionVars false
set_option linter.unusedSimpArgs false

namespace Verif.Blobs
open Verif

/-- The image that shows only the dot of pixel `p`. -/
noncomputable def dotOnly (m : Mat ℝ) (p : ℕ × ℕ) : Mat ℝ := by
  classical
  exact ⟨m.h, m.w, fun i j => if Pix m (i, j) ∧ Connected m p (i, j) then 1 else 0⟩

theorem regionSize_pos (m : Mat ℝ) (p : ℕ × ℕ) (hp : Pix m p) : 1 ≤ regionSize m p := by
  classical
  unfold regionSize
  rw [Nat.one_le_iff_ne_zero, ← Nat.pos_iff_ne_zero, Finset.card_pos]
  refine ⟨p, ?_⟩
  rw [Finset.mem_filter, Finset.mem_product, Finset.mem_range, Finset.mem_range]
  exact ⟨⟨hp.1, hp.2.1⟩, hp, Relation.ReflTransGen.refl⟩

theorem getDotSize_ok (label : Mat ℝ → (ℕ → ℕ → ℕ) × ℕ) (m : Mat ℝ) (hl : IsLabel m (label m).1 (label m).2) (p : ℕ × ℕ) (hp : Pix m p)
    (opt : SizeOpt) : ∃ s, getDotSize label m opt = .ok s := by
  have hr := label_range m _ _ hl p hp
  unfold getDotSize
  cases e : dotSums m (label m).1 (label m).2 with
  | nil =>
    have := congrArg List.length e
    unfold dotSums at this
    simp at this
    omega
  | cons x l => cases opt <;> exact ⟨_, rfl⟩

/-- What is kept: the dots whose size is within the bounds. -/
theorem select_dots (label : Mat ℝ → (ℕ → ℕ → ℕ) × ℕ) (m : Mat ℝ) (h01 : Is01 m) (hl : IsLabel m (label m).1 (label m).2) (hs : Separated m) (n : ℕ) (hn : 1 ≤ n)
    (keep : ℕ × ℕ → Prop) (hk : ∀ q, Pix m q → (keep q → regionSize m q = n) ∧ (¬ keep q → 100 * (regionSize m q + 1) ≤ 99 * n ∨ 101 * n < 100 * regionSize m q))
    (out : Mat ℝ) (ho : out.h = m.h ∧ out.w = m.w ∧ ∀ i < m.h, ∀ j < m.w, (Pix m (i, j) ∧ keep (i, j) → out.get i j = 1) ∧ (¬ (Pix m (i, j) ∧ keep (i, j)) → out.get i j = 0)) :
    (selectDot label m (n : ℝ) (1 / 100)).Eqv out := by
  obtain ⟨lo, hi', hlo, hhi, heq⟩ : ∃ lo hi : ℝ, lo = max ((⌊(n : ℝ) - 1 / 100 * (n : ℝ)⌋ : ℤ) : ℝ) 1 ∧
      hi = max ((⌊(n : ℝ) + 1 / 100 * (n : ℝ)⌋ : ℤ) : ℝ) 1 ∧
      selectDot label m (n : ℝ) (1 / 100) = selectBoxes (fun s => checkDot s lo hi) m (label m).1 (label m).2 :=
    ⟨_, _, rfl, rfl, rfl⟩
  have hnR : (1 : ℝ) ≤ n := by exact_mod_cast hn
  have l1 : lo ≤ n := by
    rw [hlo]
    refine max_le ?_ hnR
    exact (Int.floor_le _).trans (by linarith)
  have l2 : (n : ℝ) ≤ hi' := by
    rw [hhi]
    refine le_max_of_le_left ?_
    have : (n : ℤ) ≤ ⌊(n : ℝ) + 1 / 100 * n⌋ := by
      rw [Int.le_floor]
      push_cast
      linarith
    exact_mod_cast this
  have l3 : ∀ a : ℕ, 100 * (a + 1) ≤ 99 * n → (a : ℝ) < lo := by
    intro a ha
    rw [hlo]
    refine lt_max_of_lt_left ?_
    have h1 : (100 : ℝ) * (a + 1) ≤ 99 * n := by exact_mod_cast ha
    have h2 : ((a : ℤ) + 1) ≤ ⌊(n : ℝ) - 1 / 100 * n⌋ := by
      rw [Int.le_floor]
      push_cast
      linarith
    have h3 : (a : ℤ) < ⌊(n : ℝ) - 1 / 100 * n⌋ := by omega
    exact_mod_cast h3
  have l4 : ∀ a : ℕ, 101 * n < 100 * a → hi' < a := by
    intro a ha
    rw [hhi]
    have h1 : (101 : ℝ) * n < 100 * a := by exact_mod_cast ha
    refine max_lt ((Int.floor_le _).trans_lt (by linarith)) (by linarith)
  rw [heq]
  obtain ⟨g1, g2, _⟩ := selectBoxes_get (fun s => checkDot s lo hi') m (label m).1 (label m).2 0 0
  refine ⟨g1.trans ho.1.symm, g2.trans ho.2.1.symm, ?_⟩
  intro i hi j hj
  rw [g1] at hi
  rw [g2] at hj
  obtain ⟨e1, e2, e3⟩ := select_exact (fun s => checkDot s lo hi') m h01 hs (label m).1 (label m).2 hl i j hi hj
  obtain ⟨o1, o2⟩ := ho.2.2 i hi j hj
  rcases h01 i hi j hj with h | h
  · rw [e3 h, o2 fun hh => hh.1.2.2 h]
  · have hpix : Pix m (i, j) := ⟨hi, hj, by rw [h]; exact one_ne_zero⟩
    by_cases hkeep : keep (i, j)
    · rw [o1 ⟨hpix, hkeep⟩]
      apply e1 h
      rw [(hk _ hpix).1 hkeep]
      unfold checkDot
      simp only [Bool.and_eq_true, decide_eq_true_eq]
      exact ⟨l1, l2⟩
    · rw [o2 fun hh => hkeep hh.2]
      apply e2 h
      unfold checkDot
      rw [Bool.and_eq_false_iff]
      rcases (hk _ hpix).2 hkeep with h1 | h1
      · left
        simp only [decide_eq_false_iff_not, not_le, ge_iff_le]
        exact l3 _ h1
      · right
        simp only [decide_eq_false_iff_not, not_le]
        exact l4 _ h1

/-- The dot of pixel `p` differs in size from all others, in the direction given by the option. -/
def Extreme (m : Mat ℝ) (opt : SizeOpt) (p : ℕ × ℕ) : Prop :=
  Pix m p ∧ ((opt = .max ∧ ∀ q, Pix m q → ¬ Connected m p q → 100 * (regionSize m q + 1) ≤ 99 * regionSize m p) ∨
    (opt = .min ∧ ∀ q, Pix m q → ¬ Connected m p q → 101 * regionSize m p < 100 * regionSize m q))

theorem select_extreme (label : Mat ℝ → (ℕ → ℕ → ℕ) × ℕ) (m : Mat ℝ) (h01 : Is01 m) (hl : IsLabel m (label m).1 (label m).2) (hs : Separated m) (opt : SizeOpt)
    (p : ℕ × ℕ) (hp : Extreme m opt p) :
    ∃ s, getDotSize label m opt = .ok s ∧ centerOfMass (selectDot label m s (1 / 100)) = some (centroid (dotOnly m p)) := by
  classical
  obtain ⟨s, hsz⟩ := getDotSize_ok label m hl p hp.1 opt
  refine ⟨s, hsz, ?_⟩
  obtain ⟨L, hL, hmem, hall, _, hmax, hmin, _, _⟩ := dot_size_spec label m h01 hl opt s hsz
  have hsp : s = (regionSize m p : ℝ) := by
    rcases hp.2 with ⟨ho, hq⟩ | ⟨ho, hq⟩
    · obtain ⟨h1, h2⟩ := hmax ho
      obtain ⟨q, hq1, hq2⟩ := hmem s h1
      by_cases hc : Connected m p q
      · rw [hq2, regionSize_congr m p q hc]
      · have h3 := h2 _ (hall p hp.1)
        rw [hq2, Nat.cast_le] at h3
        have := hq q hq1 hc
        omega
    · obtain ⟨h1, h2⟩ := hmin ho
      obtain ⟨q, hq1, hq2⟩ := hmem s h1
      by_cases hc : Connected m p q
      · rw [hq2, regionSize_congr m p q hc]
      · have h3 := h2 _ (hall p hp.1)
        rw [hq2, Nat.cast_le] at h3
        have := hq q hq1 hc
        omega
  have hd01 : Is01 (dotOnly m p) := by
    intro i _ j _
    show (if Pix m (i, j) ∧ Connected m p (i, j) then (1 : ℝ) else 0) = 0 ∨ (if Pix m (i, j) ∧ Connected m p (i, j) then (1 : ℝ) else 0) = 1
    by_cases h : Pix m (i, j) ∧ Connected m p (i, j)
    · right
      rw [if_pos h]
    · left
      rw [if_neg h]
  have hpos : count (dotOnly m p) (· = 1) ≠ 0 := by
    unfold count
    rw [← Nat.pos_iff_ne_zero, Finset.card_pos]
    refine ⟨p, ?_⟩
    rw [mem_countSet]
    refine ⟨⟨hp.1.1, hp.1.2.1⟩, ?_⟩
    show (if Pix m (p.1, p.2) ∧ Connected m p (p.1, p.2) then (1 : ℝ) else 0) = 1
    rw [if_pos ⟨hp.1, Relation.ReflTransGen.refl⟩]
  rw [hsp, center_congr _ _ (select_dots label m h01 hl hs (regionSize m p) (regionSize_pos m p hp.1) (fun q => Connected m p q) ?_ (dotOnly m p)
    ⟨rfl, rfl, fun i _ j _ => ⟨fun h => if_pos h, fun h => if_neg h⟩⟩), center_01 _ hd01 hpos]
  intro q hq
  refine ⟨fun h => (regionSize_congr m p q h).symm, fun h => ?_⟩
  rcases hp.2 with ⟨_, hh⟩ | ⟨_, hh⟩
  · exact .inl (hh q hq h)
  · exact .inr (hh q hq h)

/-- **C80.** Several dots, `size_opt="max"` or `"min"`: if one dot of each image is more than one percent (and one pixel) larger (smaller) than the others
and the bounding boxes of the dots do not reach into each other, the result is the distance of the centroids of these two dots. -/
theorem distance_extreme (label : Mat ℝ → (ℕ → ℕ → ℕ) × ℕ) (prep fill : Mat ℝ → Mat ℝ) (auto : Mat ℝ → ℝ)
    (m1 m2 b1 b2 : Mat ℝ) (opt : SizeOpt) (t : Option ℝ) (invert : Bool)
    (h1 : binarize prep fill auto m1 t invert = .ok b1) (h2 : binarize prep fill auto m2 t invert = .ok b2)
    (h01 : Is01 b1) (h01' : Is01 b2) (hl : IsLabel b1 (label b1).1 (label b1).2) (hl' : IsLabel b2 (label b2).1 (label b2).2)
    (hs : Separated b1) (hs' : Separated b2) (p1 p2 : ℕ × ℕ) (hp1 : Extreme b1 opt p1) (hp2 : Extreme b2 opt p2) :
    calculateDistance label prep fill auto m1 m2 opt t invert =
      .ok (some (Real.sqrt (((centroid (dotOnly b1 p1)).1 - (centroid (dotOnly b2 p2)).1) ^ 2 +
        ((centroid (dotOnly b1 p1)).2 - (centroid (dotOnly b2 p2)).2) ^ 2))) := by
  obtain ⟨s1, e1, c1⟩ := select_extreme label b1 h01 hl hs opt p1 hp1
  obtain ⟨s2, e2, c2⟩ := select_extreme label b2 h01' hl' hs' opt p2 hp2
  unfold calculateDistance
  rw [h1, h2]
  simp only [bind, Except.bind, pure, Except.pure]
  rw [e1, e2]
  simp only
  rw [c1, c2]

/-- There are dots, and all have `n` pixels. -/
def OneSize (m : Mat ℝ) (n : ℕ) : Prop := (∃ p, Pix m p) ∧ ∀ p, Pix m p → regionSize m p = n

theorem select_one_size (label : Mat ℝ → (ℕ → ℕ → ℕ) × ℕ) (m : Mat ℝ) (h01 : Is01 m) (hl : IsLabel m (label m).1 (label m).2) (hs : Separated m) (opt : SizeOpt)
    (n : ℕ) (hn : OneSize m n) : ∃ s, getDotSize label m opt = .ok s ∧ centerOfMass (selectDot label m s (1 / 100)) = some (centroid m) := by
  classical
  obtain ⟨⟨p, hp⟩, hsz⟩ := hn
  obtain ⟨s, hs'⟩ := getDotSize_ok label m hl p hp opt
  refine ⟨s, hs', ?_⟩
  obtain ⟨L, hL, hmem, hall, _, hmax, hmin, hmean, hmed⟩ := dot_size_spec label m h01 hl opt s hs'
  have hLn : ∀ x ∈ L, x = (n : ℝ) := by
    intro x hx
    obtain ⟨q, hq, e⟩ := hmem x hx
    rw [e, hsz q hq]
  have hlen : L.length ≠ 0 := by
    intro h
    exact hL (List.length_eq_zero_iff.1 h)
  have hsn : s = (n : ℝ) := by
    cases opt with
    | max => exact hLn s (hmax rfl).1
    | min => exact hLn s (hmin rfl).1
    | mean =>
      rw [hmean rfl, List.eq_replicate_of_mem hLn, List.sum_replicate, List.length_replicate, nsmul_eq_mul]
      exact mul_div_cancel_left₀ _ (by exact_mod_cast hlen)
    | median =>
      obtain ⟨a, b⟩ := hmed rfl
      rw [List.eq_replicate_of_mem hLn, List.countP_replicate, List.length_replicate] at a b
      refine le_antisymm ?_ ?_
      · by_contra h
        rw [if_neg (by simpa using h)] at b
        omega
      · by_contra h
        rw [if_neg (by simpa using h)] at a
        omega
  have hpos : count m (· = 1) ≠ 0 := by
    unfold count
    rw [← Nat.pos_iff_ne_zero, Finset.card_pos]
    refine ⟨p, ?_⟩
    rw [mem_countSet]
    refine ⟨⟨hp.1, hp.2.1⟩, ?_⟩
    rcases h01 p.1 hp.1 p.2 hp.2.1 with h | h
    · exact absurd h hp.2.2
    · exact h
  rw [hsn, center_congr _ _ (select_dots label m h01 hl hs n (by rw [← hsz p hp]; exact regionSize_pos m p hp) (fun _ => True)
    (fun q hq => ⟨fun _ => hsz q hq, fun h => absurd trivial h⟩) m ⟨rfl, rfl, fun i hi j hj => ⟨fun h => ?_, fun h => ?_⟩⟩), center_01 m h01 hpos]
  · rcases h01 i hi j hj with e | e
    · exact absurd e h.1.2.2
    · exact e
  · by_contra hne
    exact h ⟨⟨hi, hj, hne⟩, trivial⟩

/-- **C80.** Several dots of one size (it may differ between the images): for every `size_opt` all dots are kept, and the result is the distance between the
mean positions of the dot pixels. -/
theorem distance_one_size (label : Mat ℝ → (ℕ → ℕ → ℕ) × ℕ) (prep fill : Mat ℝ → Mat ℝ) (auto : Mat ℝ → ℝ)
    (m1 m2 b1 b2 : Mat ℝ) (opt : SizeOpt) (t : Option ℝ) (invert : Bool)
    (h1 : binarize prep fill auto m1 t invert = .ok b1) (h2 : binarize prep fill auto m2 t invert = .ok b2)
    (h01 : Is01 b1) (h01' : Is01 b2) (hl : IsLabel b1 (label b1).1 (label b1).2) (hl' : IsLabel b2 (label b2).1 (label b2).2)
    (hs : Separated b1) (hs' : Separated b2) (n1 n2 : ℕ) (hn1 : OneSize b1 n1) (hn2 : OneSize b2 n2) :
    calculateDistance label prep fill auto m1 m2 opt t invert =
      .ok (some (Real.sqrt (((centroid b1).1 - (centroid b2).1) ^ 2 + ((centroid b1).2 - (centroid b2).2) ^ 2))) := by
  obtain ⟨s1, e1, c1⟩ := select_one_size label b1 h01 hl hs opt n1 hn1
  obtain ⟨s2, e2, c2⟩ := select_one_size label b2 h01' hl' hs' opt n2 hn2
  unfold calculateDistance
  rw [h1, h2]
  simp only [bind, Except.bind, pure, Except.pure]
  rw [e1, e2]
  simp only
  rw [c1, c2]

/-! ### the hypotheses are met: dots of one and four pixels -/

theorem exD_conn (p q : ℕ × ℕ) (hp : Pix exD p) (hq : Pix exD q) : Connected exD p q ↔ exDLab p.1 p.2 = exDLab q.1 q.2 := (exD_label.conn p q hp hq).symm

theorem exD_size (p : ℕ × ℕ) (hp : Pix exD p) : regionSize exD p = if p.2 = 0 then 1 else 4 := by
  classical
  have hp' := (exD_pix p).1 hp
  have : regionSize exD p = ((Finset.range 1 ×ˢ Finset.range 6).filter fun q : ℕ × ℕ => q.2 ≠ 1 ∧ exDLab p.1 p.2 = exDLab q.1 q.2).card := by
    unfold regionSize
    congr 1
    refine Finset.filter_congr fun q hq => ?_
    rw [Finset.mem_product, Finset.mem_range, Finset.mem_range] at hq
    constructor
    · rintro ⟨h1, h2⟩
      exact ⟨((exD_pix q).1 h1).2.2, (exD_conn p q hp h1).1 h2⟩
    · rintro ⟨h1, h2⟩
      have hq' : Pix exD q := (exD_pix q).2 ⟨hq.1, hq.2, h1⟩
      exact ⟨hq', (exD_conn p q hp hq').2 h2⟩
  rw [this]
  obtain ⟨i, j⟩ := p
  dsimp only at hp' ⊢
  obtain ⟨h1, h2, h3⟩ := hp'
  have hi : i = 0 := by omega
  subst hi
  interval_cases j
  · decide
  · exact absurd rfl h3
  all_goals decide

theorem exD_separated : Separated exD := by
  intro p q hp hq hr
  rw [exD_conn p q hp hq]
  have hp' := (exD_pix p).1 hp
  have hq' := (exD_pix q).1 hq
  obtain ⟨_, _, ⟨a, ha, hca, hla⟩, ⟨b, hb, hcb, hlb⟩⟩ := hr
  rw [exD_conn p a hp ha] at hca
  rw [exD_conn p b hp hb] at hcb
  have ha' := (exD_pix a).1 ha
  have hb' := (exD_pix b).1 hb
  unfold exDLab at *
  split_ifs at * <;> omega

/-- With `size_opt="max"` the dot of four pixels is selected. -/
example (label : Mat ℝ → (ℕ → ℕ → ℕ) × ℕ) (hlab : label exD = (exDLab, 2)) (prep fill : Mat ℝ → Mat ℝ) (auto : Mat ℝ → ℝ)
    (m1 m2 : Mat ℝ) (t : Option ℝ) (invert : Bool) (h1 : binarize prep fill auto m1 t invert = .ok exD) (h2 : binarize prep fill auto m2 t invert = .ok exD) :
    calculateDistance label prep fill auto m1 m2 .max t invert =
      .ok (some (Real.sqrt (((centroid (dotOnly exD (0, 2))).1 - (centroid (dotOnly exD (0, 2))).1) ^ 2 +
        ((centroid (dotOnly exD (0, 2))).2 - (centroid (dotOnly exD (0, 2))).2) ^ 2))) := by
  have h01 : Is01 exD := by
    intro i _ j _
    unfold exD
    dsimp only
    split_ifs
    · exact .inl rfl
    · exact .inr rfl
  have hl : IsLabel exD (label exD).1 (label exD).2 := by rw [hlab]; exact exD_label
  have hpix : Pix exD (0, 2) := (exD_pix _).2 ⟨by norm_num, by norm_num, by norm_num⟩
  have he : Extreme exD .max (0, 2) := by
    refine ⟨hpix, .inl ⟨rfl, fun q hq hc => ?_⟩⟩
    rw [exD_conn _ q hpix hq] at hc
    have hq' := (exD_pix q).1 hq
    have : q.2 = 0 := by
      by_contra h
      refine hc ?_
      unfold exDLab
      rw [if_neg h, if_neg hq'.2.2, if_neg (by norm_num), if_neg (by norm_num)]
    rw [exD_size q hq, exD_size _ hpix, if_pos this, if_neg (by norm_num)]
    norm_num
  exact distance_extreme label prep fill auto m1 m2 exD exD .max t invert h1 h2 h01 h01 hl hl exD_separated exD_separated _ _ he he

end Verif.Blobs
