import Verif.Model.Blobs
import Mathlib.Logic.Relation
import Mathlib.Algebra.BigOperators.Ring.Finset
import Mathlib.Algebra.BigOperators.Field
import Mathlib.Algebra.Order.BigOperators.Group.Finset
import Mathlib.Tactic.Linarith
import Mathlib.Tactic.Ring
import Mathlib.Tactic.FieldSimp
import Mathlib.Tactic.NormNum
import Mathlib.Tactic.Positivity
import Mathlib.Tactic.Push
import Mathlib.Tactic.LinearCombination
import Mathlib.Tactic.IntervalCases

/-!
C79 (selection of small connected regions) and C80 (dots and their distance).
-/

set_option linter.unusedSectionVars false
set_option linter.unusedSimpArgs false

namespace Verif.Blobs

section
variable {K : Type} [Field K] [LinearOrder K] [IsStrictOrderedRing K]

/-! ### Specification -/

/-- A non-zero pixel of the image. -/
def Pix (m : Mat K) (p : ℕ × ℕ) : Prop := p.1 < m.h ∧ p.2 < m.w ∧ m.get p.1 p.2 ≠ 0

/-- Neighbours: a common edge. -/
def Touch (p q : ℕ × ℕ) : Prop :=
  (p.1 = q.1 ∧ (p.2 + 1 = q.2 ∨ q.2 + 1 = p.2)) ∨ (p.2 = q.2 ∧ (p.1 + 1 = q.1 ∨ q.1 + 1 = p.1))

/-- Connected by a path of non-zero pixels. -/
def Connected (m : Mat K) (p q : ℕ × ℕ) : Prop :=
  Relation.ReflTransGen (fun a b => Pix m a ∧ Pix m b ∧ Touch a b) p q

/-- What `ndi.label` returns: zero on the background, equal numbers exactly within a connected region, numbers `1..num`. -/
structure IsLabel (m : Mat K) (lab : ℕ → ℕ → ℕ) (num : ℕ) : Prop where
  zero : ∀ i < m.h, ∀ j < m.w, (lab i j = 0 ↔ m.get i j = 0)
  conn : ∀ p q, Pix m p → Pix m q → (lab p.1 p.2 = lab q.1 q.2 ↔ Connected m p q)
  le : ∀ i < m.h, ∀ j < m.w, lab i j ≤ num
  onto : ∀ k, 1 ≤ k → k ≤ num → ∃ i < m.h, ∃ j < m.w, lab i j = k

/-- Pixel `q` lies in the bounding rectangle of the region of `p`. -/
def InRect (m : Mat K) (p q : ℕ × ℕ) : Prop :=
  (∃ a, Pix m a ∧ Connected m p a ∧ a.1 ≤ q.1) ∧ (∃ a, Pix m a ∧ Connected m p a ∧ q.1 ≤ a.1) ∧
  (∃ a, Pix m a ∧ Connected m p a ∧ a.2 ≤ q.2) ∧ (∃ a, Pix m a ∧ Connected m p a ∧ q.2 ≤ a.2)

/-- Number of pixels of the region of `p`. -/
noncomputable def regionSize (m : Mat K) (p : ℕ × ℕ) : ℕ := by
  classical
  exact ((Finset.range m.h ×ˢ Finset.range m.w).filter fun q => Pix m q ∧ Connected m p q).card

/-- Number of non-zero pixels in the bounding rectangle of the region of `p`. -/
noncomputable def rectCount (m : Mat K) (p : ℕ × ℕ) : ℕ := by
  classical
  exact ((Finset.range m.h ×ˢ Finset.range m.w).filter fun q => Pix m q ∧ InRect m p q).card

/-- A 0/1 image. -/
def Is01 (m : Mat K) : Prop := ∀ i < m.h, ∀ j < m.w, m.get i j = 0 ∨ m.get i j = 1

/-! ### Lemmas -/

theorem fold_boxes (m : Mat K) (lab : ℕ → ℕ → ℕ) (l : List ℕ) (o : Mat K) (i j : ℕ) :
    (l.foldl (fun out k => (⟨out.h, out.w, fun i j => if InBox m.h m.w lab k i j then m.get i j else out.get i j⟩ : Mat K)) o).h = o.h ∧
    (l.foldl (fun out k => (⟨out.h, out.w, fun i j => if InBox m.h m.w lab k i j then m.get i j else out.get i j⟩ : Mat K)) o).w = o.w ∧
    (l.foldl (fun out k => (⟨out.h, out.w, fun i j => if InBox m.h m.w lab k i j then m.get i j else out.get i j⟩ : Mat K)) o).get i j =
      if ∃ k ∈ l, InBox m.h m.w lab k i j then m.get i j else o.get i j := by
  induction l generalizing o with
  | nil => simp
  | cons k l ih =>
    obtain ⟨h1, h2, h3⟩ := ih ⟨o.h, o.w, fun i j => if InBox m.h m.w lab k i j then m.get i j else o.get i j⟩
    rw [List.foldl_cons]
    refine ⟨h1, h2, ?_⟩
    rw [h3]
    dsimp only
    by_cases ha : ∃ k ∈ l, InBox m.h m.w lab k i j
    · rw [if_pos ha, if_pos]
      obtain ⟨k', hk, hb⟩ := ha
      exact ⟨k', by simp [hk], hb⟩
    · rw [if_neg ha]
      by_cases hb : InBox m.h m.w lab k i j
      · rw [if_pos hb, if_pos ⟨k, by simp, hb⟩]
      · rw [if_neg hb, if_neg]
        rintro ⟨k', hk, hb'⟩
        rcases List.mem_cons.1 hk with rfl | hk
        · exact hb hb'
        · exact ha ⟨k', hk, hb'⟩

open Classical in
theorem selectBoxes_get (ok : K → Bool) (m : Mat K) (lab : ℕ → ℕ → ℕ) (num i j : ℕ) :
    (selectBoxes ok m lab num).h = m.h ∧ (selectBoxes ok m lab num).w = m.w ∧
    (selectBoxes ok m lab num).get i j =
      if ∃ k, (1 ≤ k ∧ k ≤ num) ∧ ok (boxSum m lab k) = true ∧ InBox m.h m.w lab k i j then m.get i j else 0 := by
  unfold selectBoxes
  dsimp only
  obtain ⟨h1, h2, h3⟩ := fold_boxes m lab (((List.range num).map (· + 1)).filter fun k => ok (boxSum m lab k)) ⟨m.h, m.w, fun _ _ => 0⟩ i j
  refine ⟨h1, h2, ?_⟩
  rw [h3]
  refine if_congr ?_ rfl rfl
  constructor
  · rintro ⟨k, hk, hb⟩
    simp only [List.mem_filter, List.mem_map, List.mem_range] at hk
    obtain ⟨⟨a, ha, rfl⟩, hok⟩ := hk
    exact ⟨a + 1, ⟨by omega, by omega⟩, hok, hb⟩
  · rintro ⟨k, ⟨h1, h2⟩, hok, hb⟩
    refine ⟨k, ?_, hb⟩
    simp only [List.mem_filter, List.mem_map, List.mem_range]
    exact ⟨⟨k - 1, by omega, by omega⟩, hok⟩

theorem conn_symm (m : Mat K) (p q : ℕ × ℕ) (h : Connected m p q) : Connected m q p := by
  unfold Connected at h ⊢
  induction h with
  | refl => exact Relation.ReflTransGen.refl
  | tail h1 h2 ih =>
    refine Relation.ReflTransGen.head ⟨h2.2.1, h2.1, ?_⟩ ih
    have h3 := h2.2.2
    unfold Touch at h3 ⊢
    omega

theorem conn_trans (m : Mat K) (p q r : ℕ × ℕ) (h : Connected m p q) (h2 : Connected m q r) : Connected m p r :=
  Relation.ReflTransGen.trans h h2

/-- Label boxes are bounding rectangles of regions. -/
theorem inBox_iff (m : Mat K) (lab : ℕ → ℕ → ℕ) (num : ℕ) (hl : IsLabel m lab num) (p : ℕ × ℕ) (hp : Pix m p) (i j : ℕ) :
    InBox m.h m.w lab (lab p.1 p.2) i j ↔ InRect m p (i, j) := by
  have key : ∀ P : ℕ → ℕ → Prop, (∃ a < m.h, ∃ b < m.w, lab a b = lab p.1 p.2 ∧ P a b) ↔
      ∃ a, Pix m a ∧ Connected m p a ∧ P a.1 a.2 := by
    intro P
    constructor
    · rintro ⟨a, ha, b, hb, he, hP⟩
      have hpx : Pix m (a, b) := by
        refine ⟨ha, hb, ?_⟩
        intro h0
        have h1 := (hl.zero a ha b hb).2 h0
        rw [h1] at he
        exact hp.2.2 ((hl.zero p.1 hp.1 p.2 hp.2.1).1 he.symm)
      exact ⟨(a, b), hpx, (hl.conn p (a, b) hp hpx).1 he.symm, hP⟩
    · rintro ⟨a, ha, hc, hP⟩
      exact ⟨a.1, ha.1, a.2, ha.2.1, ((hl.conn p a hp ha).2 hc).symm, hP⟩
  unfold InBox InRect
  rw [key fun a _ => a ≤ i, key fun a _ => i ≤ a, key fun _ b => b ≤ j, key fun _ b => j ≤ b]

theorem sum_count (m : Mat K) (h01 : Is01 m) (P : ℕ × ℕ → Prop) [DecidablePred P] [DecidablePred fun q => Pix m q ∧ P q] :
    (∑ i ∈ Finset.range m.h, ∑ j ∈ Finset.range m.w, if P (i, j) then m.get i j else 0) =
      (((Finset.range m.h ×ˢ Finset.range m.w).filter fun q => Pix m q ∧ P q).card : K) := by
  rw [Finset.card_filter, ← Finset.sum_product' (f := fun i j => if P (i, j) then m.get i j else 0)]
  push_cast
  apply Finset.sum_congr rfl
  rintro ⟨i, j⟩ hij
  rw [Finset.mem_product, Finset.mem_range, Finset.mem_range] at hij
  have hpix : Pix m (i, j) ↔ m.get i j ≠ 0 := ⟨fun h => h.2.2, fun h => ⟨hij.1, hij.2, h⟩⟩
  by_cases hP : P (i, j)
  · rw [if_pos hP]
    rcases h01 i hij.1 j hij.2 with h | h
    · rw [h, if_neg]
      rintro ⟨h1, _⟩
      exact hpix.1 h1 h
    · rw [h, if_pos ⟨hpix.2 (by rw [h]; exact one_ne_zero), hP⟩]
  · rw [if_neg hP, if_neg (fun h => hP h.2)]

theorem boxSum_eq (m : Mat K) (h01 : Is01 m) (lab : ℕ → ℕ → ℕ) (num : ℕ) (hl : IsLabel m lab num) (p : ℕ × ℕ) (hp : Pix m p) :
    boxSum m lab (lab p.1 p.2) = (rectCount m p : K) := by
  classical
  unfold boxSum rectCount
  simp only [inBox_iff m lab num hl p hp]
  exact sum_count m h01 (fun q => InRect m p q)

theorem label_range (m : Mat K) (lab : ℕ → ℕ → ℕ) (num : ℕ) (hl : IsLabel m lab num) (p : ℕ × ℕ) (hp : Pix m p) :
    1 ≤ lab p.1 p.2 ∧ lab p.1 p.2 ≤ num := by
  refine ⟨?_, hl.le p.1 hp.1 p.2 hp.2.1⟩
  have : lab p.1 p.2 ≠ 0 := fun h => hp.2.2 ((hl.zero p.1 hp.1 p.2 hp.2.1).1 h)
  omega

theorem label_pix (m : Mat K) (lab : ℕ → ℕ → ℕ) (num : ℕ) (hl : IsLabel m lab num) (k : ℕ) (h1 : 1 ≤ k) (h2 : k ≤ num) :
    ∃ p, Pix m p ∧ lab p.1 p.2 = k := by
  obtain ⟨i, hi, j, hj, h⟩ := hl.onto k h1 h2
  refine ⟨(i, j), ⟨hi, hj, ?_⟩, h⟩
  intro h0
  have := (hl.zero i hi j hj).2 h0
  omega

/-- What the common loop keeps: the pixels in the bounding rectangle of an accepted region. -/
theorem select_spec (ok : K → Bool) (m : Mat K) (h01 : Is01 m) (lab : ℕ → ℕ → ℕ) (num : ℕ) (hl : IsLabel m lab num) (i j : ℕ) :
    ((∃ p, Pix m p ∧ ok (rectCount m p : K) = true ∧ InRect m p (i, j)) → (selectBoxes ok m lab num).get i j = m.get i j) ∧
    ((¬ ∃ p, Pix m p ∧ ok (rectCount m p : K) = true ∧ InRect m p (i, j)) → (selectBoxes ok m lab num).get i j = 0) := by
  have hiff : (∃ k, (1 ≤ k ∧ k ≤ num) ∧ ok (boxSum m lab k) = true ∧ InBox m.h m.w lab k i j) ↔
      ∃ p, Pix m p ∧ ok (rectCount m p : K) = true ∧ InRect m p (i, j) := by
    constructor
    · rintro ⟨k, ⟨h1, h2⟩, hok, hb⟩
      obtain ⟨p, hp, rfl⟩ := label_pix m lab num hl k h1 h2
      rw [boxSum_eq m h01 lab num hl p hp] at hok
      exact ⟨p, hp, hok, (inBox_iff m lab num hl p hp i j).1 hb⟩
    · rintro ⟨p, hp, hok, hb⟩
      refine ⟨lab p.1 p.2, label_range m lab num hl p hp, ?_, (inBox_iff m lab num hl p hp i j).2 hb⟩
      rw [boxSum_eq m h01 lab num hl p hp]
      exact hok
  rw [(selectBoxes_get ok m lab num i j).2.2]
  constructor
  · intro h
    rw [if_pos (hiff.2 h)]
  · intro h
    rw [if_neg (fun hh => h (hiff.1 hh))]

theorem inRect_self (m : Mat K) (p q : ℕ × ℕ) (hq : Pix m q) (h : Connected m p q) : InRect m p q :=
  ⟨⟨q, hq, h, le_refl _⟩, ⟨q, hq, h, le_refl _⟩, ⟨q, hq, h, le_refl _⟩, ⟨q, hq, h, le_refl _⟩⟩

theorem regionSize_le_rectCount (m : Mat K) (p : ℕ × ℕ) : regionSize m p ≤ rectCount m p := by
  classical
  unfold regionSize rectCount
  apply Finset.card_le_card
  intro q hq
  rw [Finset.mem_filter] at hq ⊢
  exact ⟨hq.1, hq.2.1, inRect_self m p q hq.2.1 hq.2.2⟩

theorem regionSize_congr (m : Mat K) (p q : ℕ × ℕ) (h : Connected m p q) : regionSize m p = regionSize m q := by
  classical
  unfold regionSize
  congr 1
  apply Finset.filter_congr
  intro r _
  exact and_congr_right fun _ => ⟨fun h1 => conn_trans m q p r (conn_symm m p q h) h1, fun h1 => conn_trans m p q r h h1⟩

/-- No pixel of another region in the bounding rectangle of a region. -/
def Separated (m : Mat K) : Prop := ∀ p q, Pix m p → Pix m q → InRect m p q → Connected m p q

theorem rectCount_sep (m : Mat K) (hs : Separated m) (p : ℕ × ℕ) (hp : Pix m p) : rectCount m p = regionSize m p := by
  classical
  refine le_antisymm ?_ (regionSize_le_rectCount m p)
  unfold regionSize rectCount
  apply Finset.card_le_card
  intro q hq
  rw [Finset.mem_filter] at hq ⊢
  exact ⟨hq.1, hq.2.1, hs p q hp hq.2.1 hq.2.2⟩

theorem select_exact (ok : K → Bool) (m : Mat K) (h01 : Is01 m) (hs : Separated m) (lab : ℕ → ℕ → ℕ) (num : ℕ)
    (hl : IsLabel m lab num) (i j : ℕ) (hi : i < m.h) (hj : j < m.w) :
    (m.get i j = 1 → ok (regionSize m (i, j) : K) = true → (selectBoxes ok m lab num).get i j = 1) ∧
    (m.get i j = 1 → ok (regionSize m (i, j) : K) = false → (selectBoxes ok m lab num).get i j = 0) ∧
    (m.get i j = 0 → (selectBoxes ok m lab num).get i j = 0) := by
  obtain ⟨s1, s2⟩ := select_spec ok m h01 lab num hl i j
  have hpix : m.get i j = 1 → Pix m (i, j) := fun h => ⟨hi, hj, by rw [h]; exact one_ne_zero⟩
  refine ⟨?_, ?_, ?_⟩
  · intro h hok
    rw [s1, h]
    refine ⟨(i, j), hpix h, ?_, inRect_self m _ _ (hpix h) Relation.ReflTransGen.refl⟩
    rw [rectCount_sep m hs _ (hpix h)]
    exact hok
  · intro h hok
    apply s2
    rintro ⟨p, hp, hok', hr⟩
    have hc := hs p (i, j) hp (hpix h) hr
    rw [rectCount_sep m hs p hp, regionSize_congr m p (i, j) hc, hok] at hok'
    cases hok'
  · intro h
    by_cases hex : ∃ p, Pix m p ∧ ok (rectCount m p : K) = true ∧ InRect m p (i, j)
    · rw [s1 hex, h]
    · exact s2 hex

/-! ### C79 -/

/-- C79: the result has the shape of the mask and never gains a pixel; a pixel that is kept lies in the bounding rectangle of
a region, and that rectangle has at most `max_size` pixels set. -/
theorem select_zinger_spec (label : Mat K → (ℕ → ℕ → ℕ) × ℕ) (m : Mat K) (h01 : Is01 m)
    (hl : IsLabel m (label m).1 (label m).2) (maxSize : K) (i j : ℕ) (hi : i < m.h) (hj : j < m.w) :
    (selectZinger label m maxSize).h = m.h ∧ (selectZinger label m maxSize).w = m.w ∧
    ((selectZinger label m maxSize).get i j = 0 ∨ (selectZinger label m maxSize).get i j = m.get i j) ∧
    ((selectZinger label m maxSize).get i j = 1 ↔
      m.get i j = 1 ∧ ∃ p, Pix m p ∧ InRect m p (i, j) ∧ (rectCount m p : K) ≤ maxSize) := by
  obtain ⟨s1, s2⟩ := select_spec (fun s => checkZinger s maxSize) m h01 _ _ hl i j
  obtain ⟨g1, g2, _⟩ := selectBoxes_get (fun s => checkZinger s maxSize) m (label m).1 (label m).2 i j
  refine ⟨g1, g2, ?_, ?_⟩
  · by_cases hex : ∃ p, Pix m p ∧ checkZinger (rectCount m p : K) maxSize = true ∧ InRect m p (i, j)
    · exact Or.inr (s1 hex)
    · exact Or.inl (s2 hex)
  · by_cases hex : ∃ p, Pix m p ∧ checkZinger (rectCount m p : K) maxSize = true ∧ InRect m p (i, j)
    · have := s1 hex
      unfold selectZinger
      rw [this]
      obtain ⟨p, hp, hok, hr⟩ := hex
      exact ⟨fun h => ⟨h, p, hp, hr, of_decide_eq_true hok⟩, fun h => h.1⟩
    · have := s2 hex
      unfold selectZinger
      rw [this]
      constructor
      · intro h
        exact absurd h zero_ne_one
      · rintro ⟨_, p, hp, hr, hle⟩
        exact absurd ⟨p, hp, decide_eq_true hle, hr⟩ hex

/-- C79: if no region reaches into the bounding rectangle of another, exactly the pixels of the regions with at most
`max_size` pixels are kept. -/
theorem select_zinger_partial (label : Mat K → (ℕ → ℕ → ℕ) × ℕ) (m : Mat K) (h01 : Is01 m) (hs : Separated m)
    (hl : IsLabel m (label m).1 (label m).2) (maxSize : K) (i j : ℕ) (hi : i < m.h) (hj : j < m.w) :
    (selectZinger label m maxSize).get i j = 1 ↔ m.get i j = 1 ∧ (regionSize m (i, j) : K) ≤ maxSize := by
  obtain ⟨e1, e2, e3⟩ := select_exact (fun s => checkZinger s maxSize) m h01 hs _ _ hl i j hi hj
  constructor
  · intro h
    rcases h01 i hi j hj with h0 | h1
    · unfold selectZinger at h
      rw [e3 h0] at h
      exact absurd h zero_ne_one
    · refine ⟨h1, ?_⟩
      by_contra hle
      unfold selectZinger at h
      rw [e2 h1 (decide_eq_false hle)] at h
      exact absurd h zero_ne_one
  · rintro ⟨h1, hle⟩
    exact e1 h1 (decide_eq_true hle)

/-- C79: a region too big for the limit never selects its own rectangle: only pixels in the rectangle of another region stay. -/
theorem select_zinger_big (label : Mat K → (ℕ → ℕ → ℕ) × ℕ) (m : Mat K) (h01 : Is01 m)
    (hl : IsLabel m (label m).1 (label m).2) (maxSize : K) (i j : ℕ) (hi : i < m.h) (hj : j < m.w)
    (hbig : maxSize < (regionSize m (i, j) : K)) (hkept : (selectZinger label m maxSize).get i j = 1) :
    ∃ p, Pix m p ∧ ¬ Connected m p (i, j) ∧ InRect m p (i, j) := by
  obtain ⟨_, p, hp, hr, hle⟩ := (select_zinger_spec label m h01 hl maxSize i j hi hj).2.2.2.1 hkept
  refine ⟨p, hp, ?_, hr⟩
  intro hc
  rw [← regionSize_congr m p (i, j) hc] at hbig
  have : (regionSize m p : K) ≤ (rectCount m p : K) := by exact_mod_cast regionSize_le_rectCount m p
  linarith

theorem regionSize_label (m : Mat K) (lab : ℕ → ℕ → ℕ) (num : ℕ) (hl : IsLabel m lab num) (p : ℕ × ℕ) (hp : Pix m p) :
    regionSize m p = ((Finset.range m.h ×ˢ Finset.range m.w).filter fun q => lab q.1 q.2 = lab p.1 p.2).card := by
  classical
  unfold regionSize
  congr 1
  apply Finset.filter_congr
  intro q hq
  rw [Finset.mem_product, Finset.mem_range, Finset.mem_range] at hq
  constructor
  · rintro ⟨h1, h2⟩
    exact ((hl.conn p q hp h1).2 h2).symm
  · intro h
    have hpq : Pix m q := by
      refine ⟨hq.1, hq.2, fun h0 => ?_⟩
      have h1 := (hl.zero q.1 hq.1 q.2 hq.2).2 h0
      have h2 := label_range m lab num hl p hp
      omega
    exact ⟨hpq, (hl.conn p q hp hpq).1 h.symm⟩

/-- The result does not depend on the numbering. -/
theorem select_zinger_label (label label' : Mat K → (ℕ → ℕ → ℕ) × ℕ) (m : Mat K) (h01 : Is01 m)
    (hl : IsLabel m (label m).1 (label m).2) (hl' : IsLabel m (label' m).1 (label' m).2) (maxSize : K) (i j : ℕ)
    (hi : i < m.h) (hj : j < m.w) :
    (selectZinger label m maxSize).get i j = 1 ↔ (selectZinger label' m maxSize).get i j = 1 := by
  rw [(select_zinger_spec label m h01 hl maxSize i j hi hj).2.2.2, (select_zinger_spec label' m h01 hl' maxSize i j hi hj).2.2.2]

/-- A horizontal run is connected. -/
theorem conn_row (m : Mat K) (i a n : ℕ) (h : ∀ j, a ≤ j → j ≤ a + n → Pix m (i, j)) : Connected m (i, a) (i, a + n) := by
  induction n with
  | zero => exact Relation.ReflTransGen.refl
  | succ n ih =>
    refine Relation.ReflTransGen.tail (ih fun j h1 h2 => h j h1 (by omega)) ⟨h _ (by omega) (by omega), h _ (by omega) (by omega), ?_⟩
    left
    exact ⟨rfl, Or.inl rfl⟩

/-- A vertical run is connected. -/
theorem conn_col (m : Mat K) (j a n : ℕ) (h : ∀ i, a ≤ i → i ≤ a + n → Pix m (i, j)) : Connected m (a, j) (a + n, j) := by
  induction n with
  | zero => exact Relation.ReflTransGen.refl
  | succ n ih =>
    refine Relation.ReflTransGen.tail (ih fun j h1 h2 => h j h1 (by omega)) ⟨h _ (by omega) (by omega), h _ (by omega) (by omega), ?_⟩
    right
    exact ⟨rfl, Or.inl rfl⟩

end

/-! ### Two regions whose rectangles overlap -/

/-- An L of five pixels and a line of seven pixels. -/
def exM : Mat ℚ := ⟨3, 9, fun i j => if j = 0 ∨ (i = 2 ∧ j < 3) ∨ (i = 0 ∧ 2 ≤ j) then 1 else 0⟩

/-- Its labels. -/
def exLab (i j : ℕ) : ℕ := if j = 0 ∨ (i = 2 ∧ j < 3) then 1 else if i = 0 ∧ 2 ≤ j then 2 else 0

theorem ex01 : Is01 exM := by
  intro i _ j _
  simp only [exM]
  split_ifs
  · exact Or.inr rfl
  · exact Or.inl rfl

instance (p : ℕ × ℕ) : Decidable (Pix exM p) := by
  unfold Pix
  infer_instance

instance (p q : ℕ × ℕ) : Decidable (Touch p q) := by
  unfold Touch
  infer_instance

theorem ex_pix (p : ℕ × ℕ) : Pix exM p ↔ p.1 < 3 ∧ p.2 < 9 ∧ (p.2 = 0 ∨ (p.1 = 2 ∧ p.2 < 3) ∨ (p.1 = 0 ∧ 2 ≤ p.2)) := by
  unfold Pix exM
  dsimp only
  refine and_congr_right fun _ => and_congr_right fun _ => ?_
  split_ifs with h
  · simpa using h
  · simpa using h

theorem ex_root (p : ℕ × ℕ) (hp : Pix exM p) :
    (exLab p.1 p.2 = 1 → Connected exM (2, 0) p) ∧ (exLab p.1 p.2 = 2 → Connected exM (0, 2) p) := by
  have hp' := (ex_pix p).1 hp
  obtain ⟨i, j⟩ := p
  dsimp only at hp' ⊢
  constructor
  · intro h
    have h1 : j = 0 ∨ (i = 2 ∧ j < 3) := by
      by_contra h1
      unfold exLab at h
      rw [if_neg h1] at h
      split_ifs at h
      omega
    rcases h1 with rfl | h1
    · have := conn_col exM 0 i (2 - i) (by
        intro a h1 h2
        exact (ex_pix _).2 ⟨by dsimp only; omega, by simp, by simp⟩)
      rw [show i + (2 - i) = 2 by omega] at this
      exact conn_symm _ _ _ this
    · obtain ⟨rfl, h1⟩ := h1
      have := conn_row exM 2 0 j (by
        intro a h2 h3
        exact (ex_pix _).2 ⟨by simp, by dsimp only; omega, by dsimp only; omega⟩)
      simpa using this
  · intro h
    have h2 : i = 0 ∧ 2 ≤ j := by
      by_contra h2
      unfold exLab at h
      rw [if_neg h2] at h
      split_ifs at h
      omega
    obtain ⟨rfl, h2⟩ := h2
    have := conn_row exM 0 2 (j - 2) (by
      intro a h3 h4
      exact (ex_pix _).2 ⟨by simp, by dsimp only; omega, by dsimp only; omega⟩)
    rwa [show 2 + (j - 2) = j by omega] at this

theorem ex_label : IsLabel exM exLab 2 := by
  refine ⟨?_, ?_, ?_, ?_⟩
  · decide +kernel
  · intro p q hp hq
    constructor
    · intro h
      have h12 : exLab p.1 p.2 = 1 ∨ exLab p.1 p.2 = 2 := by
        have hp' := (ex_pix p).1 hp
        unfold exLab
        split_ifs with h1 h2
        · exact Or.inl rfl
        · exact Or.inr rfl
        · omega
      rcases h12 with h1 | h1
      · exact conn_trans _ _ _ _ (conn_symm _ _ _ ((ex_root p hp).1 h1)) ((ex_root q hq).1 (h ▸ h1))
      · exact conn_trans _ _ _ _ (conn_symm _ _ _ ((ex_root p hp).2 h1)) ((ex_root q hq).2 (h ▸ h1))
    · intro h
      unfold Connected at h
      induction h with
      | refl => rfl
      | tail h1 h2 ih =>
        rename_i b c
        have hb := (ex_pix b).1 h2.1
        have hc := (ex_pix c).1 h2.2.1
        rw [ih h2.1]
        have ht := h2.2.2
        unfold Touch at ht
        unfold exLab
        split_ifs <;> omega
  · decide +kernel
  · intro k h1 h2
    interval_cases k
    · exact ⟨0, by decide, 0, by decide, by decide⟩
    · exact ⟨0, by decide, 2, by decide, by decide⟩

/-- C79 is false if rectangles overlap, whatever the numbering of the regions: with limit 6, one pixel of the line of seven
pixels is kept (its neighbour is not); with limit 5, the L of five pixels is removed. -/
theorem select_zinger_refuted (label : Mat ℚ → (ℕ → ℕ → ℕ) × ℕ) (hl : IsLabel exM (label exM).1 (label exM).2) :
    (regionSize exM (0, 2) = 7 ∧ Connected exM (0, 2) (0, 3) ∧ (selectZinger label exM 6).get 0 2 = 1 ∧
      (selectZinger label exM 6).get 0 3 = 0) ∧
    (regionSize exM (0, 0) = 5 ∧ exM.get 0 0 = 1 ∧ (selectZinger label exM 5).get 0 0 = 0) := by
  have hsel := fun (t : ℚ) i (hi : i < 3) j (hj : j < 9) =>
    select_zinger_label label (fun _ => (exLab, 2)) exM ex01 hl ex_label t i j hi hj
  have h0 := fun (t : ℚ) i (hi : i < 3) j (hj : j < 9) => (select_zinger_spec label exM ex01 hl t i j hi hj).2.2.1
  refine ⟨⟨?_, ?_, ?_, ?_⟩, ?_, ?_, ?_⟩
  · rw [regionSize_label exM exLab 2 ex_label _ (by decide +kernel)]
    decide +kernel
  · exact conn_row exM 0 2 1 (by
      intro a h3 h4
      exact (ex_pix _).2 ⟨by simp, by dsimp only; omega, by dsimp only; omega⟩)
  · rw [hsel 6 0 (by decide) 2 (by decide)]
    decide +kernel
  · have h1 : ¬ (selectZinger label exM 6).get 0 3 = 1 := by
      rw [hsel 6 0 (by decide) 3 (by decide)]
      decide +kernel
    rcases h0 6 0 (by decide) 3 (by decide) with h | h
    · exact h
    · exact absurd (h.trans (by decide +kernel)) h1
  · rw [regionSize_label exM exLab 2 ex_label _ (by decide +kernel)]
    decide +kernel
  · decide +kernel
  · have h1 : ¬ (selectZinger label exM 5).get 0 0 = 1 := by
      rw [hsel 5 0 (by decide) 0 (by decide)]
      decide +kernel
    rcases h0 5 0 (by decide) 0 (by decide) with h | h
    · exact h
    · exact absurd (h.trans (by decide +kernel)) h1

/-- Concrete labels of an actual image exist (`select_zinger_spec`, `select_zinger_big`). -/
example : IsLabel exM exLab 2 ∧ Is01 exM := ⟨ex_label, ex01⟩

end Verif.Blobs
