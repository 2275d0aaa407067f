import Verif.Model.Stacks
import Verif.Props.Masks
import Verif.Props.Io
import Verif.Props.Reslice
import Mathlib.Data.List.GetD
import Mathlib.Data.List.Count
import Mathlib.Tactic.Linarith
import Mathlib.Tactic.Ring
import Mathlib.Tactic.NormNum

/-!
C98 (reference and sample stacks of one kind of scan), C99 (the other stack loaders agree with each other), C100 (tif emulator).
-/

set_option linter.unusedSectionVars false
set_option linter.unusedSimpArgs false
set_option linter.unusedVariables false

namespace Verif.Stacks
open Verif.Io

variable {K : Type _} [Field K] [DecidableEq K]

/-! ### Specification -/

/-- Mean of the images of a scan that carry image key `v`, at pixel `(y, x)`. -/
def keyMean (s : Scan K) (v : Int) (y x : ℕ) : K :=
  (∑ p ∈ (Finset.range s.data.d).filter (fun p => s.keys[p]? = some v), s.data.get p y x) /
    (((Finset.range s.data.d).filter (fun p => s.keys[p]? = some v)).card : K)

/-- The dark image that belongs to a scan: the given one, else the mean of its own images with key 2, else zero. -/
def darkOf (dark : Option (Mat K)) (s : Scan K) (y x : ℕ) : K :=
  match dark with
  | some d => d.get y x
  | none => if 2 ∈ s.keys then keyMean s 2 y x else 0

/-- The given dark field, or zero. -/
def givenDark (dark : Option (Mat K)) (y x : ℕ) : K :=
  match dark with
  | some d => d.get y x
  | none => 0

/-- Correction of an image at pixel `(r, c)` of the window: minus dark, divided by flat minus dark (its mean where it is zero). -/
def corrected (flat : Option (Mat K)) (dk : ℕ → ℕ → K) (b : Box) (img : ℕ → ℕ → K) (r c : ℕ) : K :=
  match flat with
  | none => img (b.top + r) (b.left + c) - dk (b.top + r) (b.left + c)
  | some f =>
    let d : ℕ → ℕ → K := fun r c => f.get (b.top + r) (b.left + c) - dk (b.top + r) (b.left + c)
    (img (b.top + r) (b.left + c) - dk (b.top + r) (b.left + c)) /
      (if d r c = 0 then (∑ r ∈ Finset.range b.h, ∑ c ∈ Finset.range b.w, d r c) / ((b.h * b.w : ℕ) : K) else d r c)

/-- The images of the scan with key `v` form one block of at least two images, `[a, c)`. -/
def IsBlock (s : Scan K) (v : Int) (a c : ℕ) : Prop := a + 2 ≤ c ∧ ∀ p, s.keys[p]? = some v ↔ a ≤ p ∧ p < c

/-- Position `p` is the `k`-th (from 0) position with key `v`. -/
def IsKth (s : Scan K) (v : Int) (k p : ℕ) : Prop := s.keys[p]? = some v ∧ (s.keys.take p).count v = k

/-! ### index lists -/

theorem mem_whereKey (keys : List Int) (v : Int) (p : ℕ) : p ∈ whereKey keys v ↔ keys[p]? = some v := by
  unfold whereKey
  rw [List.mem_filter, List.mem_range, beq_iff_eq]
  constructor
  · exact fun h => h.2
  · intro h
    refine ⟨?_, h⟩
    by_contra hc
    rw [List.getElem?_eq_none (by omega)] at h
    cases h

theorem whereKey_sorted (keys : List Int) (v : Int) : (whereKey keys v).Pairwise (· < ·) :=
  List.Pairwise.filter _ List.pairwise_lt_range

theorem filter_range_length (keys : List Int) (v : Int) : ∀ n ≤ keys.length,
    ((List.range n).filter fun p => keys[p]? == some v).length = (keys.take n).count v := by
  intro n
  induction n with
  | zero => intro _; simp
  | succ n ih =>
    intro hn
    rw [List.range_succ, List.filter_append, List.length_append, ih (by omega), List.take_add_one, List.count_append]
    congr 1
    rw [List.getElem?_eq_getElem (by omega)]
    simp only [List.filter_cons, List.getElem?_eq_getElem (show n < keys.length by omega), List.filter_nil, Option.toList_some,
      List.count_singleton]
    by_cases h : keys[n] = v
    · simp [h]
    · simp [h]

theorem whereKey_length (keys : List Int) (v : Int) : (whereKey keys v).length = keys.count v := by
  unfold whereKey
  rw [filter_range_length keys v _ le_rfl, List.take_length]

theorem whereKey_getElem (keys : List Int) (v : Int) (k : ℕ) (hk : k < (whereKey keys v).length) :
    keys[(whereKey keys v)[k]]? = some v ∧ (keys.take (whereKey keys v)[k]).count v = k := by
  set p := (whereKey keys v)[k] with hp
  have hmem : p ∈ whereKey keys v := List.getElem_mem hk
  have hv := (mem_whereKey keys v p).1 hmem
  refine ⟨hv, ?_⟩
  have hpl : p < keys.length := by by_contra hc; rw [List.getElem?_eq_none (by omega)] at hv; cases hv
  rw [← filter_range_length keys v p hpl.le]
  have hsplit : whereKey keys v = ((List.range p).filter fun p => keys[p]? == some v) ++
      p :: ((List.range' (p + 1) (keys.length - p - 1)).filter fun p => keys[p]? == some v) := by
    unfold whereKey
    have : List.range keys.length = List.range p ++ p :: List.range' (p + 1) (keys.length - p - 1) := by
      have h1 : p :: List.range' (p + 1) (keys.length - p - 1) = List.range' p (keys.length - p) := by
        rw [show keys.length - p = (keys.length - p - 1) + 1 by omega, List.range'_succ]
        simp
      rw [h1, List.range_eq_range', List.range_eq_range']
      have := List.range'_append_1 (s := 0) (m := p) (n := keys.length - p)
      rw [Nat.zero_add] at this
      rw [this]
      congr 1
      omega
    rw [this, List.filter_append, List.filter_cons, if_pos (by simpa using hv)]
  set A := (List.range p).filter fun p => keys[p]? == some v with hA
  have hnd : (whereKey keys v).Nodup := (whereKey_sorted keys v).imp (fun h => ne_of_lt h)
  have hAl : A.length < (whereKey keys v).length := by rw [hsplit, List.length_append, List.length_cons]; omega
  have hget : (whereKey keys v)[A.length] = p := by
    have : (whereKey keys v)[A.length]? = some p := by rw [hsplit]; simp
    rw [List.getElem?_eq_getElem hAl] at this
    exact Option.some.inj this
  exact (List.Nodup.getElem_inj_iff hnd).1 (hget.trans hp)

theorem isKth_unique (keys : List Int) (v : Int) (k p : ℕ) (h1 : keys[p]? = some v) (h2 : (keys.take p).count v = k) :
    ∃ hk : k < (whereKey keys v).length, (whereKey keys v)[k] = p := by
  have hmem := (mem_whereKey keys v p).2 h1
  obtain ⟨k', hk', he⟩ := List.getElem_of_mem hmem
  have := (whereKey_getElem keys v k' hk').2
  rw [he, h2] at this
  subst this
  exact ⟨hk', he⟩

theorem head_of_sorted (l : List ℕ) (h : l.Pairwise (· < ·)) (a : ℕ) (ha : a ∈ l) (hm : ∀ x ∈ l, a ≤ x) : l.headD 0 = a := by
  cases l with
  | nil => cases ha
  | cons x l =>
    rw [List.pairwise_cons] at h
    show x = a
    rcases List.mem_cons.1 ha with h1 | h1
    · exact h1.symm
    · have := h.1 a h1
      have := hm x (List.mem_cons_self ..)
      omega

theorem last_of_sorted (l : List ℕ) (h : l.Pairwise (· < ·)) (a : ℕ) (ha : a ∈ l) (hm : ∀ x ∈ l, x ≤ a) : l.getLast? = some a := by
  have hne : l ≠ [] := List.ne_nil_of_mem ha
  rw [List.getLast?_eq_some_getLast hne]
  congr 1
  have h1 := hm _ (List.getLast_mem hne)
  obtain ⟨k, hk, he⟩ := List.getElem_of_mem ha
  rw [List.getLast_eq_getElem] at h1 ⊢
  rcases Nat.lt_or_ge k (l.length - 1) with hlt | hge
  · have := List.pairwise_iff_getElem.1 h k (l.length - 1) hk (by omega) hlt
    omega
  · have : k = l.length - 1 := by omega
    subst this
    exact he

theorem block_head_last (s : Scan K) (v : Int) (a c : ℕ) (h : IsBlock s v a c) :
    (whereKey s.keys v).headD 0 = a ∧ (whereKey s.keys v).getLastD 0 + 1 = c ∧ 2 ≤ (whereKey s.keys v).length := by
  obtain ⟨h1, h2⟩ := h
  have hm : ∀ p, p ∈ whereKey s.keys v ↔ a ≤ p ∧ p < c := fun p => (mem_whereKey _ _ _).trans (h2 p)
  refine ⟨head_of_sorted _ (whereKey_sorted _ _) a ((hm a).2 ⟨le_rfl, by omega⟩) fun x hx => ((hm x).1 hx).1, ?_, ?_⟩
  · have := last_of_sorted _ (whereKey_sorted s.keys v) (c - 1) ((hm (c - 1)).2 ⟨by omega, by omega⟩) fun x hx => by
      have := (hm x).1 hx
      omega
    rw [List.getLastD_eq_getLast?, this]
    show c - 1 + 1 = c
    omega
  · have ha := (hm a).2 ⟨le_rfl, by omega⟩
    have ha1 := (hm (a + 1)).2 ⟨by omega, by omega⟩
    by_contra hc
    match hl : whereKey s.keys v, hc with
    | [], _ => rw [hl] at ha; cases ha
    | [x], _ =>
      rw [hl, List.mem_singleton] at ha ha1
      omega
    | _ :: _ :: _, hc => simp at hc

theorem keyMean_block (s : Scan K) (hl : s.keys.length = s.data.d) (v : Int) (a c : ℕ) (h : IsBlock s v a c) (y x : ℕ) :
    keyMean s v y x = (∑ k ∈ Finset.Ico a c, s.data.get k y x) / ((c - a : ℕ) : K) := by
  have : (Finset.range s.data.d).filter (fun p => s.keys[p]? = some v) = Finset.Ico a c := by
    ext p
    rw [Finset.mem_filter, Finset.mem_range, Finset.mem_Ico, h.2 p]
    constructor
    · exact fun h => h.2
    · intro hp
      refine ⟨?_, hp⟩
      have := (h.2 p).2 hp
      rw [← hl]
      by_contra hc
      rw [List.getElem?_eq_none (by omega)] at this
      cases this
  unfold keyMean
  rw [this, Nat.card_Ico]

/-! ### selection of the images of a file -/

/-- The selection of a file in which no kind of image occurs exactly once. -/
def goodSel (s : Scan K) : Sel :=
  ⟨if 0 ∈ s.keys then some (whereKey s.keys 0) else none, if 1 ∈ s.keys then some (whereKey s.keys 1) else none,
    if 2 ∈ s.keys then some (whereKey s.keys 2) else none, s.keys.count 0⟩

theorem whereKey_nil (keys : List Int) (v : Int) : whereKey keys v = [] ↔ v ∉ keys := by
  rw [← List.length_eq_zero_iff, whereKey_length, List.count_eq_zero]

theorem pickKey_eq (keys : List Int) (v : Int) :
    pickKey keys v = if keys.count v = 1 then .error .valueError else .ok (if v ∈ keys then some (whereKey keys v) else none) := by
  unfold pickKey
  have hl := whereKey_length keys v
  have hn := whereKey_nil keys v
  match h : whereKey keys v with
  | [] =>
    rw [h] at hl
    rw [if_neg (by rw [← hl]; simp), if_neg (hn.1 h)]
  | [x] =>
    rw [h] at hl
    rw [if_pos (by rw [← hl]; rfl)]
  | x :: y :: l =>
    rw [h] at hl
    have : v ∈ keys := by by_contra hc; rw [hn.2 hc] at h; cases h
    rw [if_neg (by rw [← hl]; simp), if_pos this]

theorem selOf_dataset (s : Scan K) : selOf .dataset s =
    if s.keys.count 0 = 1 ∨ s.keys.count 1 = 1 ∨ s.keys.count 2 = 1 then .error .valueError else .ok (goodSel s) := by
  unfold selOf
  simp only [pickKey_eq]
  by_cases h0 : s.keys.count 0 = 1
  · rw [if_pos h0, if_pos (Or.inl h0)]; rfl
  by_cases h1 : s.keys.count 1 = 1
  · rw [if_neg h0, if_pos h1, if_pos (Or.inr (Or.inl h1))]; rfl
  by_cases h2 : s.keys.count 2 = 1
  · rw [if_neg h0, if_neg h1, if_pos h2, if_pos (Or.inr (Or.inr h2))]; rfl
  rw [if_neg h0, if_neg h1, if_neg h2, if_neg (not_or.2 ⟨h0, not_or.2 ⟨h1, h2⟩⟩), whereKey_length]
  rfl

/-! ### the index check -/

theorem foldl_min_spec (l : List Int) : ∀ x : Int, l.foldl min x ∈ x :: l ∧ ∀ y ∈ x :: l, l.foldl min x ≤ y := by
  induction l with
  | nil => intro x; simp
  | cons a l ih =>
    intro x
    obtain ⟨h1, h2⟩ := ih (min x a)
    rw [List.foldl_cons]
    constructor
    · rcases List.mem_cons.1 h1 with h | h
      · rw [h]
        rcases min_choice x a with e | e <;> rw [e] <;> simp
      · exact List.mem_cons_of_mem _ (List.mem_cons_of_mem _ h)
    · intro y hy
      have hm := h2 (min x a) (List.mem_cons_self ..)
      rcases List.mem_cons.1 hy with h | h
      · rw [h]; exact hm.trans (min_le_left _ _)
      · rcases List.mem_cons.1 h with h | h
        · rw [h]; exact hm.trans (min_le_right _ _)
        · exact h2 y (List.mem_cons_of_mem _ h)

theorem foldl_max_spec (l : List Int) : ∀ x : Int, l.foldl max x ∈ x :: l ∧ ∀ y ∈ x :: l, y ≤ l.foldl max x := by
  induction l with
  | nil => intro x; simp
  | cons a l ih =>
    intro x
    obtain ⟨h1, h2⟩ := ih (max x a)
    rw [List.foldl_cons]
    constructor
    · rcases List.mem_cons.1 h1 with h | h
      · rw [h]
        rcases max_choice x a with e | e <;> rw [e] <;> simp
      · exact List.mem_cons_of_mem _ (List.mem_cons_of_mem _ h)
    · intro y hy
      have hm := h2 (max x a) (List.mem_cons_self ..)
      rcases List.mem_cons.1 hy with h | h
      · rw [h]; exact (le_max_left _ _).trans hm
      · rcases List.mem_cons.1 h with h | h
        · rw [h]; exact (le_max_right _ _).trans hm
        · exact h2 y (List.mem_cons_of_mem _ h)

/-- The index check accepts `k` iff it is not negative, smaller than every number of projections, and no first position plus `k` exceeds a last
position. -/
theorem checkIndex_iff (k : Int) (sels : List Sel) : checkIndex k sels = .ok () ↔
    0 ≤ k ∧ sels.filterMap (·.sam) ≠ [] ∧ (∀ s ∈ sels, k < s.numProj) ∧
    ∀ l ∈ sels.filterMap (·.sam), ∀ l' ∈ sels.filterMap (·.sam),
      k + (l.headD 0 : Int) ≤ lastInt l' := by
  unfold checkIndex
  set sams := sels.filterMap (·.sam) with hs
  cases hsels : sels with
  | nil =>
    rw [hsels] at hs
    simp only [List.map_nil, foldInt]
    constructor
    · intro h; cases h
    · rintro ⟨_, h, _⟩; exact absurd hs h
  | cons s0 rest =>
    cases hsams : sams with
    | nil =>
      simp only [List.map_nil, List.map_cons, foldInt]
      constructor
      · intro h; cases h
      · rintro ⟨_, h, _⟩; exact absurd rfl h
    | cons l0 ls =>
      simp only [List.map_cons, foldInt]
      obtain ⟨a1, a2⟩ := foldl_min_spec (rest.map fun s => (s.numProj : Int)) (s0.numProj : Int)
      obtain ⟨b1, b2⟩ := foldl_max_spec (ls.map fun l => (l.headD 0 : Int)) (l0.headD 0 : Int)
      obtain ⟨c1, c2⟩ := foldl_min_spec (ls.map lastInt)
        (lastInt l0)
      simp only [pure, Except.pure, bind, Except.bind]
      set N := (rest.map fun s => (s.numProj : Int)).foldl min (s0.numProj : Int)
      set S := (ls.map fun l => (l.headD 0 : Int)).foldl max (l0.headD 0 : Int)
      set E := (ls.map lastInt).foldl min
        (lastInt l0)
      rw [← List.map_cons (f := fun s : Sel => (s.numProj : Int))] at a1 a2
      rw [← List.map_cons (f := fun l : List ℕ => (l.headD 0 : Int))] at b1 b2
      rw [← List.map_cons (f := lastInt)] at c1 c2
      have hN : k < N ↔ ∀ s ∈ s0 :: rest, k < s.numProj := by
        constructor
        · intro h s hs'
          exact lt_of_lt_of_le h (a2 _ (List.mem_map_of_mem hs'))
        · intro h
          obtain ⟨s, hs', he⟩ := List.mem_map.1 a1
          rw [← he]; exact h s hs'
      have hSE : k + S ≤ E ↔ ∀ l ∈ l0 :: ls, ∀ l' ∈ l0 :: ls, k + (l.headD 0 : Int) ≤
          lastInt l' := by
        constructor
        · intro h l hl l' hl'
          have h1 := b2 _ (List.mem_map_of_mem (f := fun l : List ℕ => (l.headD 0 : Int)) hl)
          have h2 := c2 _ (List.mem_map_of_mem (f := lastInt) hl')
          linarith
        · intro h
          obtain ⟨l, hl, he⟩ := List.mem_map.1 b1
          obtain ⟨l', hl', he'⟩ := List.mem_map.1 c1
          rw [← he, ← he']; exact h l hl l' hl'
      rw [← hN, ← hSE]
      have key : (¬ (k + S > (if E - S + 1 > N then S + N - 1 else E) ∨ k + S < S)) ↔ (0 ≤ k ∧ k < N ∧ k + S ≤ E) := by
        split_ifs <;> omega
      by_cases hc : k + S > (if E - S + 1 > N then S + N - 1 else E) ∨ k + S < S
      · rw [if_pos hc]
        constructor
        · intro h; cases h
        · rintro ⟨h1, _, h2, h3⟩
          exact absurd hc (key.2 ⟨h1, h2, h3⟩)
      · rw [if_neg hc]
        have := key.1 hc
        exact ⟨fun _ => ⟨this.1, by simp, this.2.1, this.2.2⟩, fun _ => rfl⟩

/-! ### C98: the stacks -/

theorem meanImages_get (a : Arr3 K) (lo hi : ℕ) (b : Box) (r c : ℕ) : (meanImages a lo hi b).get r c =
    (∑ k ∈ Finset.Ico lo hi, a.get k (b.top + r) (b.left + c)) / ((hi - lo : ℕ) : K) := rfl

/-- `correct` on cropped images is the specification. -/
theorem correct_eq (flat : Option (Mat K)) (dk : ℕ → ℕ → K) (b : Box) (img : ℕ → ℕ → K) (r c : ℕ) :
    (correct (flat.map fun f => b.cut f.get) (b.cut dk) (b.cut img)).get r c = corrected flat dk b img r c := by
  cases flat <;> rfl

/-- Either no used file has images with key `v`, or each has one block of at least two. -/
def Uniform (used : List (Scan K)) (v : Int) : Prop := (∀ s ∈ used, v ∉ s.keys) ∨ (∀ s ∈ used, ∃ a c, IsBlock s v a c)

theorem block_count (s : Scan K) (v : Int) (a c : ℕ) (h : IsBlock s v a c) : v ∈ s.keys ∧ s.keys.count v ≠ 1 := by
  have h1 := (block_head_last s v a c h).2.2
  rw [whereKey_length] at h1
  refine ⟨?_, by omega⟩
  by_contra hc
  rw [List.count_eq_zero.2 hc] at h1
  omega

theorem filterMap_all {α β : Type _} (l : List α) (f : α → Option β) (g : α → β) (h : ∀ x ∈ l, f x = some (g x)) :
    l.filterMap f = l.map g := by
  induction l with
  | nil => rfl
  | cons a l ih =>
    rw [List.filterMap_cons, h a (List.mem_cons_self ..), List.map_cons, ih fun x hx => h x (List.mem_cons_of_mem _ hx)]

theorem filterMap_none {α β : Type _} (l : List α) (f : α → Option β) (h : ∀ x ∈ l, f x = none) : l.filterMap f = [] := by
  induction l with
  | nil => rfl
  | cons a l ih => rw [List.filterMap_cons, h a (List.mem_cons_self ..), ih fun x hx => h x (List.mem_cons_of_mem _ hx)]

theorem getIdx_map {α β : Type _} (l : List α) (g : α → β) (i : ℕ) (x : α) (h : l[i]? = some x) : getIdx (l.map g) i = .ok (g x) := by
  unfold getIdx
  rw [List.getElem?_map, h]
  rfl

theorem uniform_ref (used : List (Scan K)) (h : Uniform used 1) :
    ((used.map goodSel).filterMap (·.ref) = [] ∧ ∀ s ∈ used, 1 ∉ s.keys) ∨
    ((used.map goodSel).filterMap (·.ref) = used.map (fun s => whereKey s.keys 1) ∧ ∀ s ∈ used, ∃ a c, IsBlock s 1 a c) := by
  rw [List.filterMap_map]
  rcases h with h | h
  · exact Or.inl ⟨filterMap_none _ _ fun s hs => by simp [goodSel, h s hs], h⟩
  · refine Or.inr ⟨filterMap_all _ _ _ fun s hs => ?_, h⟩
    obtain ⟨a, c, hb⟩ := h s hs
    simp [goodSel, (block_count s 1 a c hb).1]

theorem uniform_dark (used : List (Scan K)) (h : Uniform used 2) :
    ((used.map goodSel).filterMap (·.dark) = [] ∧ ∀ s ∈ used, 2 ∉ s.keys) ∨
    ((used.map goodSel).filterMap (·.dark) = used.map (fun s => whereKey s.keys 2) ∧ ∀ s ∈ used, ∃ a c, IsBlock s 2 a c) := by
  rw [List.filterMap_map]
  rcases h with h | h
  · exact Or.inl ⟨filterMap_none _ _ fun s hs => by simp [goodSel, h s hs], h⟩
  · refine Or.inr ⟨filterMap_all _ _ _ fun s hs => ?_, h⟩
    obtain ⟨a, c, hb⟩ := h s hs
    simp [goodSel, (block_count s 2 a c hb).1]

theorem darkFor_eq (used : List (Scan K)) (h : Uniform used 2) (dark : Option (Mat K)) (b : Box) (i : ℕ) (s : Scan K) (hi : used[i]? = some s)
    (hl : s.keys.length = s.data.d) :
    darkFor (used.map goodSel) dark b s i = .ok (b.cut (darkOf dark s)) := by
  have hs : s ∈ used := List.mem_of_getElem? hi
  unfold darkFor
  cases dark with
  | some d => rfl
  | none =>
    dsimp only
    rcases uniform_dark used h with ⟨h1, h2⟩ | ⟨h1, h2⟩
    · rw [h1]
      simp only [List.isEmpty_nil, if_true]
      unfold Box.cut darkOf
      simp only [if_neg (h2 s hs)]
    · obtain ⟨a, c, hb⟩ := h2 s hs
      obtain ⟨e1, e2, _⟩ := block_head_last s 2 a c hb
      have hne : ((used.map goodSel).filterMap (·.dark)).isEmpty = false := by
        rw [h1]
        cases used with
        | nil => cases hs
        | cons _ _ => rfl
      rw [hne, if_neg (by simp), h1, getIdx_map used _ i s hi]
      unfold Except.map
      dsimp only
      rw [e1, e2]
      unfold meanImages
      congr 2
      funext y x
      unfold darkOf
      rw [if_pos (block_count s 2 a c hb).1, keyMean_block s hl 2 a c hb]

theorem refFor_eq (used : List (Scan K)) (h : Uniform used 1) (flat : Option (Mat K)) (dk : ℕ → ℕ → K) (b : Box) (i : ℕ) (s : Scan K)
    (hi : used[i]? = some s) (hl : s.keys.length = s.data.d) :
    refFor (used.map goodSel) (flat.map fun f => b.cut f.get) (b.cut dk) b s i =
      .ok (if 1 ∈ s.keys then some (correct (flat.map fun f => b.cut f.get) (b.cut dk) (b.cut (keyMean s 1))) else none) := by
  have hs : s ∈ used := List.mem_of_getElem? hi
  unfold refFor
  rcases uniform_ref used h with ⟨h1, h2⟩ | ⟨h1, h2⟩
  · rw [h1, if_neg (h2 s hs)]
    rfl
  · obtain ⟨a, c, hb⟩ := h2 s hs
    obtain ⟨e1, e2, _⟩ := block_head_last s 1 a c hb
    have hne : ((used.map goodSel).filterMap (·.ref)).isEmpty = false := by
      rw [h1]
      cases used with
      | nil => cases hs
      | cons _ _ => rfl
    rw [hne, if_neg (by simp), h1, getIdx_map used _ i s hi, if_pos (block_count s 1 a c hb).1]
    unfold Except.map
    dsimp only
    rw [e1, e2]
    unfold meanImages
    congr 4
    funext y x
    rw [keyMean_block s hl 1 a c hb]

/-- The files in use. -/
def usedFiles (files : List (Scan K)) (numUse : Option Int) : List (Scan K) := files.take (useCount files.length numUse)

/-- Index `k` fits the files: fewer than `k` + 1 projections nowhere, and the offset rule of the code. -/
def IndexFits (used : List (Scan K)) (k : ℕ) : Prop :=
  (∀ s ∈ used, k < s.keys.count 0) ∧
  ∀ s ∈ used, ∀ s' ∈ used, ∀ p p', IsKth s 0 0 p → s'.keys[p']? = some 0 → (∀ q, s'.keys[q]? = some 0 → q ≤ p') → p + k ≤ p'

theorem goodSel_sam (used : List (Scan K)) (h : ∀ s ∈ used, 2 ≤ s.keys.count 0) :
    (used.map goodSel).filterMap (·.sam) = used.map fun s => whereKey s.keys 0 := by
  rw [List.filterMap_map]
  refine filterMap_all _ _ _ fun s hs => ?_
  have : 0 ∈ s.keys := by
    by_contra hc
    have := h s hs
    rw [List.count_eq_zero.2 hc] at this
    omega
  simp [goodSel, this]

theorem indexFits_iff (used : List (Scan K)) (hne : used ≠ []) (h : ∀ s ∈ used, 2 ≤ s.keys.count 0) (k : ℕ) :
    checkIndex (k : Int) (used.map goodSel) = .ok () ↔ IndexFits used k := by
  rw [checkIndex_iff, goodSel_sam used h]
  have hhl : ∀ s ∈ used, ∃ p p' : ℕ, (whereKey s.keys 0).headD 0 = p ∧ lastInt (whereKey s.keys 0) = (p' : Int) ∧ IsKth s 0 0 p ∧
      s.keys[p']? = some 0 ∧ ∀ q, s.keys[q]? = some 0 → q ≤ p' := by
    intro s hs
    have hlen : 2 ≤ (whereKey s.keys 0).length := by rw [whereKey_length]; exact h s hs
    have hnil : whereKey s.keys 0 ≠ [] := by intro e; rw [e] at hlen; simp at hlen
    refine ⟨(whereKey s.keys 0)[0], (whereKey s.keys 0).getLast hnil, ?_, ?_, ?_, ?_, ?_⟩
    · rw [List.headD_eq_head?_getD, List.head?_eq_getElem?, List.getElem?_eq_getElem (by omega)]
      rfl
    · unfold lastInt
      rw [List.getLast?_eq_some_getLast hnil]
    · exact whereKey_getElem s.keys 0 0 (by omega)
    · exact (mem_whereKey _ _ _).1 (List.getLast_mem hnil)
    · intro q hq
      obtain ⟨j, hj, he⟩ := List.getElem_of_mem ((mem_whereKey _ _ _).2 hq)
      rw [List.getLast_eq_getElem, ← he]
      rcases Nat.lt_or_ge j ((whereKey s.keys 0).length - 1) with hlt | hge
      · exact (List.pairwise_iff_getElem.1 (whereKey_sorted s.keys 0) j _ hj (by omega) hlt).le
      · have : j = (whereKey s.keys 0).length - 1 := by omega
        subst this
        exact le_rfl
  constructor
  · rintro ⟨_, _, h2, h3⟩
    constructor
    · intro s hs
      have := h2 _ (List.mem_map_of_mem hs)
      exact_mod_cast this
    · intro s hs s' hs' p p' hp hp' hmax
      obtain ⟨a, _, ha, _, hka, _, _⟩ := hhl s hs
      obtain ⟨_, c', _, hc', _, hc1, hc2⟩ := hhl s' hs'
      have := h3 _ (List.mem_map_of_mem hs) _ (List.mem_map_of_mem hs')
      rw [ha, hc'] at this
      obtain ⟨_, e1⟩ := isKth_unique s.keys 0 0 p hp.1 hp.2
      obtain ⟨_, e2⟩ := isKth_unique s.keys 0 0 a hka.1 hka.2
      have h4 := hmax c' hc1
      have : a + k ≤ c' := by exact_mod_cast (by linarith : (a : Int) + k ≤ c')
      have : a = p := by rw [← e1, ← e2]
      omega
  · rintro ⟨h2, h3⟩
    refine ⟨by positivity, by simpa using hne, ?_, ?_⟩
    · intro s hs
      obtain ⟨s, hs', rfl⟩ := List.mem_map.1 hs
      exact_mod_cast h2 s hs'
    · intro l hl l' hl'
      obtain ⟨s, hs, rfl⟩ := List.mem_map.1 hl
      obtain ⟨s', hs', rfl⟩ := List.mem_map.1 hl'
      obtain ⟨a, _, ha, _, hka, _, _⟩ := hhl s hs
      obtain ⟨_, c', _, hc', _, hc1, hc2⟩ := hhl s' hs'
      have := h3 s hs s' hs' a c' hka hc1 hc2
      rw [ha, hc']
      push_cast
      omega

theorem dlsOne_eq (used : List (Scan K)) (h1 : Uniform used 1) (h2 : Uniform used 2) (h0 : ∀ s ∈ used, 2 ≤ s.keys.count 0)
    (flat dark : Option (Mat K)) (b : Box) (k i : ℕ) (s : Scan K) (hi : used[i]? = some s) (hl : s.keys.length = s.data.d)
    (hk : k < s.keys.count 0) :
    dlsOne (k : Int) (used.map goodSel) flat dark b s i =
      .ok (if 1 ∈ s.keys then some (correct (flat.map fun f => b.cut f.get) (b.cut (darkOf dark s)) (b.cut (keyMean s 1))) else none,
        correct (flat.map fun f => b.cut f.get) (b.cut (darkOf dark s)) (b.cut (s.data.get ((whereKey s.keys 0).getD k 0)))) := by
  unfold dlsOne
  rw [darkFor_eq used h2 dark b i s hi hl]
  simp only [bind, Except.bind]
  rw [refFor_eq used h1 flat _ b i s hi hl]
  dsimp only
  rw [goodSel_sam used h0, getIdx_map used _ i s hi]
  dsimp only
  have : pyIndex (whereKey s.keys 0).length (k : Int) = .ok k := by
    unfold pyIndex
    rw [if_pos ⟨by positivity, by rw [whereKey_length]; exact_mod_cast hk⟩]
    rfl
  rw [this]
  rfl

/-- C98 (partial: flats and darks in one block of at least two images in every used file, or in none; at least two projections per file).
An index that fits is accepted, and then the sample stack holds, for every used file, its `k`-th projection, and the reference stack the mean
of its reference images (key 1), corrected with the dark images of the same file (or the given dark field) and the flat field. -/
theorem dls_spec_partial (files : List (Scan K)) (f0 : Scan K) (hf : files[0]? = some f0) (crop : Crop) (b : Box)
    (hb : cropBox f0.data.h f0.data.w crop = .ok b) (flat dark : Option (Mat K)) (numUse : Option Int) (hu : usedFiles files numUse ≠ [])
    (hflat : ∀ m, flat = some m → m.h = f0.data.h ∧ m.w = f0.data.w) (hdark : ∀ m, dark = some m → m.h = f0.data.h ∧ m.w = f0.data.w)
    (hlen : ∀ s ∈ usedFiles files numUse, s.keys.length = s.data.d) (h0 : ∀ s ∈ usedFiles files numUse, 2 ≤ s.keys.count 0)
    (h1 : Uniform (usedFiles files numUse) 1) (h2 : Uniform (usedFiles files numUse) 2) (k : ℕ) :
    (¬ IndexFits (usedFiles files numUse) k → getStacksDls (k : Int) files .dataset crop flat dark numUse false = .error .valueError) ∧
    (IndexFits (usedFiles files numUse) k →
      ∃ refs sam, getStacksDls (k : Int) files .dataset crop flat dark numUse false = .ok (refs, sam) ∧
        sam.d = (usedFiles files numUse).length ∧ sam.h = b.h ∧ sam.w = b.w ∧
        (∀ i s, (usedFiles files numUse)[i]? = some s → ∀ p, IsKth s 0 k p → ∀ r c,
          sam.get i r c = corrected flat (darkOf dark s) b (s.data.get p) r c) ∧
        ((∀ s ∈ usedFiles files numUse, 1 ∉ s.keys) → refs = none) ∧
        ((∃ s ∈ usedFiles files numUse, 1 ∈ s.keys) → ∃ R, refs = some R ∧ R.d = (usedFiles files numUse).length ∧ R.h = b.h ∧ R.w = b.w ∧
          ∀ i s, (usedFiles files numUse)[i]? = some s → ∀ r c,
            R.get i r c = corrected flat (darkOf dark s) b (keyMean s 1) r c)) := by
  set used := usedFiles files numUse with hused
  have hsel : used.mapM (selOf .dataset) = .ok (used.map goodSel) := by
    apply Post.mapM_ok
    intro s hs
    rw [selOf_dataset, if_neg]
    have e0 := h0 s hs
    have e : ∀ v, Uniform used v → s.keys.count v ≠ 1 := by
      intro v hv
      rcases hv with hv | hv
      · rw [List.count_eq_zero.2 (hv s hs)]; omega
      · obtain ⟨a, c, hb⟩ := hv s hs
        exact (block_count s v a c hb).2
    have := e 1 h1
    have := e 2 h2
    omega
  have hbad1 : badShape f0.data.h f0.data.w flat = false := by
    cases flat with
    | none => rfl
    | some m => simp [badShape, hflat m rfl]
  have hbad2 : badShape f0.data.h f0.data.w dark = false := by
    cases dark with
    | none => rfl
    | some m => simp [badShape, hdark m rfl]
  have hg : getIdx files 0 = .ok f0 := by unfold getIdx; rw [hf]
  have hmain : getStacksDls (k : Int) files .dataset crop flat dark numUse false = (do
      checkIndex (k : Int) (used.map goodSel)
      let l ← used.zipIdx.mapM fun si => dlsOne (k : Int) (used.map goodSel) flat dark b si.1 si.2
      .ok (if (l.filterMap (·.1)).isEmpty then none else some (stackOf b (l.filterMap (·.1))), stackOf b (l.map (·.2)))) := by
    unfold getStacksDls
    rw [hg]
    simp only [bind, Except.bind]
    rw [hb]
    dsimp only
    have hsel' : (files.take (useCount files.length numUse)).mapM (selOf .dataset) = .ok (used.map goodSel) := hsel
    rw [hsel']
    dsimp only
    cases checkIndex (k : Int) (used.map goodSel) with
    | error e => rfl
    | ok u =>
      dsimp only
      rw [hbad1, hbad2]
      rfl
  constructor
  · intro hfit
    rw [hmain]
    cases hc : checkIndex (k : Int) (used.map goodSel) with
    | ok u => exact absurd ((indexFits_iff used hu h0 k).1 hc) hfit
    | error e =>
      have he : e = .valueError := by
        unfold checkIndex at hc
        have hss : ∃ s0 rest, used = s0 :: rest := List.exists_cons_of_ne_nil hu
        obtain ⟨s0, rest, hss⟩ := hss
        rw [goodSel_sam used h0, hss] at hc
        simp only [List.map_cons, foldInt, bind, Except.bind] at hc
        split_ifs at hc <;> exact (Except.error.inj hc).symm
      rw [he]
      rfl
  · intro hfit
    set out : Scan K → Option (Mat K) × Mat K := fun s =>
      (if 1 ∈ s.keys then some (correct (flat.map fun f => b.cut f.get) (b.cut (darkOf dark s)) (b.cut (keyMean s 1))) else none,
        correct (flat.map fun f => b.cut f.get) (b.cut (darkOf dark s)) (b.cut (s.data.get ((whereKey s.keys 0).getD k 0)))) with hout
    have hm : (used.zipIdx.mapM fun si => dlsOne (k : Int) (used.map goodSel) flat dark b si.1 si.2) =
        .ok (used.zipIdx.map fun si => out si.1) := by
      apply Post.mapM_ok
      rintro ⟨s, i⟩ hsi
      have hi : used[i]? = some s := List.mk_mem_zipIdx_iff_getElem?.1 hsi
      have hs : s ∈ used := List.mem_of_getElem? hi
      exact dlsOne_eq used h1 h2 h0 flat dark b k i s hi (hlen s hs) (hfit.1 s hs)
    have hz : (used.zipIdx.map fun si => out si.1) = used.map out := by
      have : (fun si : Scan K × ℕ => out si.1) = out ∘ Prod.fst := rfl
      rw [this, ← List.map_map, List.zipIdx_map_fst]
    rw [hmain, (indexFits_iff used hu h0 k).2 hfit, hm, hz]
    refine ⟨_, _, rfl, by simp [stackOf], rfl, rfl, ?_, ?_, ?_⟩
    · intro i s hi p hp r c
      show (match ((used.map out).map (·.2))[i]? with | some m => m.get r c | none => 0) = _
      rw [List.map_map, List.getElem?_map, hi]
      show (out s).2.get r c = _
      rw [hout]
      dsimp only
      rw [correct_eq]
      obtain ⟨hk', e⟩ := isKth_unique s.keys 0 k p hp.1 hp.2
      rw [List.getD_eq_getElem _ _ hk', e]
    · intro hno
      have : (used.map out).filterMap (·.1) = [] := by
        rw [List.filterMap_map]
        exact filterMap_none _ _ fun s hs => by simp [hout, hno s hs]
      rw [this]
      rfl
    · rintro ⟨s1, hs1, hk1⟩
      have hall : ∀ s ∈ used, 1 ∈ s.keys := by
        rcases h1 with h1 | h1
        · exact absurd hk1 (h1 s1 hs1)
        · intro s hs
          obtain ⟨a, c, hb⟩ := h1 s hs
          exact (block_count s 1 a c hb).1
      have : (used.map out).filterMap (·.1) = used.map fun s =>
          correct (flat.map fun f => b.cut f.get) (b.cut (darkOf dark s)) (b.cut (keyMean s 1)) := by
        rw [List.filterMap_map]
        exact filterMap_all _ _ _ fun s hs => by simp [hout, hall s hs]
      rw [this]
      refine ⟨_, if_neg (by cases hu' : used with | nil => exact absurd hu' hu | cons _ _ => simp), by simp [stackOf], rfl, rfl, ?_⟩
      intro i s hi r c
      show (match (used.map fun s => correct (flat.map fun f => b.cut f.get) (b.cut (darkOf dark s)) (b.cut (keyMean s 1)))[i]? with
        | some m => m.get r c | none => 0) = _
      rw [List.getElem?_map, hi]
      exact correct_eq ..

/-- With `fix_zero_div` the zeros of each stack are replaced by the mean of that stack, nothing else changes. -/
theorem dls_fix (files : List (Scan K)) (key : KeyArg) (crop : Crop) (flat dark : Option (Mat K)) (numUse : Option Int) (k : Int) :
    getStacksDls k files key crop flat dark numUse true =
      (getStacksDls k files key crop flat dark numUse false).map fun rs => (rs.1.map zeroToMean3, zeroToMean3 rs.2) := by
  unfold getStacksDls
  simp only [bind, Except.bind]
  cases getIdx files 0 with
  | error e => rfl
  | ok f0 =>
    dsimp only
    cases cropBox f0.data.h f0.data.w crop with
    | error e => rfl
    | ok b =>
      dsimp only
      cases (files.take (useCount files.length numUse)).mapM (selOf key) with
      | error e => rfl
      | ok sels =>
        dsimp only
        cases checkIndex k sels with
        | error e => rfl
        | ok u =>
          dsimp only
          by_cases hbad : (badShape f0.data.h f0.data.w flat || badShape f0.data.h f0.data.w dark) = true
          · rw [if_pos hbad, if_pos hbad]; rfl
          · rw [if_neg hbad, if_neg hbad]
            cases (files.take (useCount files.length numUse)).zipIdx.mapM (fun si => dlsOne k sels flat dark b si.1 si.2) with
            | error e => rfl
            | ok l =>
              simp only [Except.map, if_true, Bool.false_eq_true, if_false]
              split_ifs <;> rfl

theorem zeroToMean3_spec (a : Arr3 K) : (zeroToMean3 a).d = a.d ∧ (zeroToMean3 a).h = a.h ∧ (zeroToMean3 a).w = a.w ∧ ∀ k i j,
    (a.get k i j ≠ 0 → (zeroToMean3 a).get k i j = a.get k i j) ∧
    (a.get k i j = 0 → (zeroToMean3 a).get k i j =
      (∑ k ∈ Finset.range a.d, ∑ i ∈ Finset.range a.h, ∑ j ∈ Finset.range a.w, a.get k i j) / ((a.d * a.h * a.w : ℕ) : K)) :=
  ⟨rfl, rfl, rfl, fun k i j => ⟨fun h => if_neg h, fun h => if_pos h⟩⟩

theorem dls_ok (files : List (Scan K)) (key : KeyArg) (crop : Crop) (flat dark : Option (Mat K)) (numUse : Option Int) (k : Int) (fix : Bool)
    (out : Option (Arr3 K) × Arr3 K) (h : getStacksDls k files key crop flat dark numUse fix = .ok out) :
    ∃ sels b l, (usedFiles files numUse).mapM (selOf key) = .ok sels ∧ checkIndex k sels = .ok () ∧
      (usedFiles files numUse).zipIdx.mapM (fun si => dlsOne k sels flat dark b si.1 si.2) = .ok l := by
  unfold getStacksDls at h
  simp only [bind, Except.bind] at h
  cases hf : getIdx files 0 with
  | error e => rw [hf] at h; cases h
  | ok f0 =>
    rw [hf] at h
    dsimp only at h
    cases hb : cropBox f0.data.h f0.data.w crop with
    | error e => rw [hb] at h; cases h
    | ok b =>
      rw [hb] at h
      dsimp only at h
      cases hs : (files.take (useCount files.length numUse)).mapM (selOf key) with
      | error e => rw [hs] at h; cases h
      | ok sels =>
        rw [hs] at h
        dsimp only at h
        cases hc : checkIndex k sels with
        | error e => rw [hc] at h; cases h
        | ok u =>
          rw [hc] at h
          dsimp only at h
          by_cases hbad : (badShape f0.data.h f0.data.w flat || badShape f0.data.h f0.data.w dark) = true
          · rw [if_pos hbad] at h; cases h
          · rw [if_neg hbad] at h
            cases hl : (files.take (useCount files.length numUse)).zipIdx.mapM (fun si => dlsOne k sels flat dark b si.1 si.2) with
            | error e => rw [hl] at h; cases h
            | ok l => exact ⟨sels, b, l, hs, hc, hl⟩

theorem forall2_left {α β : Type _} {R : α → β → Prop} {l : List α} {r : List β} (h : List.Forall₂ R l r) {x : α} (hx : x ∈ l) :
    ∃ y ∈ r, R x y := by
  induction h with
  | nil => cases hx
  | cons h1 _ ih =>
    rcases List.mem_cons.1 hx with h | h
    · exact ⟨_, List.mem_cons_self .., h ▸ h1⟩
    · obtain ⟨y, hy, e⟩ := ih h
      exact ⟨y, List.mem_cons_of_mem _ hy, e⟩

/-- C98: an accepted index is one every used file has a projection for (no silent wrong image). -/
theorem dls_index_sound (files : List (Scan K)) (crop : Crop) (flat dark : Option (Mat K)) (numUse : Option Int) (k : Int) (fix : Bool)
    (out : Option (Arr3 K) × Arr3 K) (h : getStacksDls k files .dataset crop flat dark numUse fix = .ok out) :
    0 ≤ k ∧ ∀ s ∈ usedFiles files numUse, k < s.keys.count 0 := by
  obtain ⟨sels, b, l, h1, h2, _⟩ := dls_ok files .dataset crop flat dark numUse k fix out h
  obtain ⟨hk, _, hn, _⟩ := (checkIndex_iff k sels).1 h2
  refine ⟨hk, ?_⟩
  intro s hs
  have hf := (Simulation.mapM_ok_iff _ _ _).1 h1
  obtain ⟨sel, hsel, he⟩ := forall2_left hf hs
  rw [selOf_dataset] at he
  split_ifs at he
  have he := Except.ok.inj he
  have := hn sel hsel
  rw [← he] at this
  exact this

/-! ### C98: where it fails -/

/-- False of the code: a file with exactly one projection, reference or dark image is refused (the index array is squeezed to a scalar and
`np.sort` raises). -/
theorem dls_single_refuted (files : List (Scan K)) (crop : Crop) (flat dark : Option (Mat K)) (numUse : Option Int) (k : Int) (fix : Bool)
    (s : Scan K) (hs : s ∈ usedFiles files numUse) (v : Int) (hv : v = 0 ∨ v = 1 ∨ v = 2) (h1 : s.keys.count v = 1) :
    ∀ out, getStacksDls k files .dataset crop flat dark numUse fix ≠ .ok out := by
  intro out h
  obtain ⟨sels, b, l, h2, _, _⟩ := dls_ok files .dataset crop flat dark numUse k fix out h
  obtain ⟨sel, _, he⟩ := forall2_left ((Simulation.mapM_ok_iff _ _ _).1 h2) hs
  rw [selOf_dataset, if_pos] at he
  · cases he
  · rcases hv with rfl | rfl | rfl <;> simp [h1]

theorem filterMap_short {α β : Type _} (l : List α) (f : α → Option β) (x : α) (hx : x ∈ l) (h : f x = none) :
    (l.filterMap f).length < l.length := by
  induction l with
  | nil => cases hx
  | cons a l ih =>
    rw [List.filterMap_cons]
    rcases List.mem_cons.1 hx with e | e
    · rw [← e, h]
      exact Nat.lt_succ_of_le (List.length_filterMap_le ..)
    · have := ih e
      cases f a with
      | none => simp only [List.length_cons]; omega
      | some b => simp only [List.length_cons]; omega

/-- The loop reads `list_…_idx[i]` for the last used file. -/
theorem last_step (used : List (Scan K)) (sels : List Sel) (hl : sels.length = used.length) (hne : used ≠ []) (k : Int)
    (flat dark : Option (Mat K)) (b : Box) (l : List (Option (Mat K) × Mat K))
    (h : used.zipIdx.mapM (fun si => dlsOne k sels flat dark b si.1 si.2) = .ok l) :
    ∃ s, ∃ o, dlsOne k sels flat dark b s (used.length - 1) = .ok o := by
  have hmem : (used.getLast hne, used.length - 1) ∈ used.zipIdx := by
    rw [List.mk_mem_zipIdx_iff_getElem?, List.getLast_eq_getElem, List.getElem?_eq_getElem]
  obtain ⟨o, _, ho⟩ := forall2_left ((Simulation.mapM_ok_iff _ _ _).1 h) hmem
  exact ⟨_, o, ho⟩

theorem getIdx_short {α : Type _} (l : List α) (i : ℕ) (h : l.length ≤ i) : getIdx l i = .error .indexError := by
  unfold getIdx
  rw [List.getElem?_eq_none h]

/-- False of the code: if (without a given dark field) some used file has dark images and another has none, no stack is returned, whatever the
index. The same holds for reference images. -/
theorem dls_missing_refuted (files : List (Scan K)) (crop : Crop) (flat dark : Option (Mat K)) (numUse : Option Int) (k : Int) (fix : Bool)
    (s s' : Scan K) (hs : s ∈ usedFiles files numUse) (hs' : s' ∈ usedFiles files numUse)
    (hv : (dark = none ∧ 2 ∈ s.keys ∧ 2 ∉ s'.keys) ∨ (1 ∈ s.keys ∧ 1 ∉ s'.keys)) :
    ∀ out, getStacksDls k files .dataset crop flat dark numUse fix ≠ .ok out := by
  intro out h
  obtain ⟨sels, b, l, h2, _, h3⟩ := dls_ok files .dataset crop flat dark numUse k fix out h
  have hf := (Simulation.mapM_ok_iff _ _ _).1 h2
  have hlen : sels.length = (usedFiles files numUse).length := hf.length_eq.symm
  have hne : usedFiles files numUse ≠ [] := List.ne_nil_of_mem hs
  have hpos : 0 < (usedFiles files numUse).length := List.length_pos_of_ne_nil hne
  obtain ⟨t, o, ho⟩ := last_step _ sels hlen hne k flat dark b l h3
  obtain ⟨sel, hm, he⟩ := forall2_left hf hs
  obtain ⟨sel', hm', he'⟩ := forall2_left hf hs'
  rw [selOf_dataset] at he he'
  split_ifs at he
  split_ifs at he'
  have he := Except.ok.inj he
  have he' := Except.ok.inj he'
  unfold dlsOne at ho
  simp only [bind, Except.bind] at ho
  rcases hv with ⟨hd, h1, h2⟩ | ⟨h1, h2⟩
  · have hshort := filterMap_short sels (·.dark) sel' hm' (by rw [← he']; simp [goodSel, h2])
    have hmem : whereKey s.keys 2 ∈ sels.filterMap (·.dark) := by
      rw [List.mem_filterMap]
      exact ⟨sel, hm, by rw [← he]; simp [goodSel, h1]⟩
    have : darkFor sels dark b t ((usedFiles files numUse).length - 1) = .error .indexError := by
      unfold darkFor
      rw [hd]
      dsimp only
      rw [if_neg (by rw [List.isEmpty_iff]; exact List.ne_nil_of_mem hmem), getIdx_short _ _ (by omega)]
      rfl
    rw [this] at ho
    cases ho
  · have hshort := filterMap_short sels (·.ref) sel' hm' (by rw [← he']; simp [goodSel, h2])
    have hmem : whereKey s.keys 1 ∈ sels.filterMap (·.ref) := by
      rw [List.mem_filterMap]
      exact ⟨sel, hm, by rw [← he]; simp [goodSel, h1]⟩
    cases hdk : darkFor sels dark b t ((usedFiles files numUse).length - 1) with
    | error e => rw [hdk] at ho; cases ho
    | ok dk =>
      rw [hdk] at ho
      dsimp only at ho
      have : refFor sels (flat.map fun f => b.cut f.get) dk b t ((usedFiles files numUse).length - 1) = .error .indexError := by
        unfold refFor
        rw [if_neg (by rw [List.isEmpty_iff]; exact List.ne_nil_of_mem hmem), getIdx_short _ _ (by omega)]
        rfl
      rw [this] at ho
      cases ho

/-- Flat images before and after the projections, as in many scans: 1 × 1 images 10, 10, 2, 3, 10, 10. -/
def exGap : Scan ℚ := ⟨⟨6, 1, 1, fun k _ _ => if k = 2 then 2 else if k = 3 then 3 else 10⟩, [1, 1, 0, 0, 1, 1]⟩

/-- False of the code: references in two blocks — the mean also includes the projections in between (7.5 instead of 10). -/
theorem dls_gap_refuted : ∃ out R, getStacksDls 0 [exGap] .dataset ⟨0, 0, 0, 0⟩ none none none false = .ok out ∧ out.1 = some R ∧
    keyMean exGap 1 0 0 = 10 ∧ R.get 0 0 0 = 15 / 2 := by
  refine ⟨_, _, rfl, rfl, ?_, ?_⟩ <;> decide +kernel

/-- Two scans of three projections each, one with its two references at the end, one at the beginning. -/
def exShiftA : Scan ℚ := ⟨⟨5, 1, 1, fun k _ _ => k⟩, [0, 0, 0, 1, 1]⟩
def exShiftB : Scan ℚ := ⟨⟨5, 1, 1, fun k _ _ => 10 + k⟩, [1, 1, 0, 0, 0]⟩

/-- False of the code: both files have projections 0, 1, 2, but only index 0 is accepted. -/
theorem dls_shift_refuted : (∀ s ∈ [exShiftA, exShiftB], s.keys.count 0 = 3) ∧
    (∃ out, getStacksDls 0 [exShiftA, exShiftB] .dataset ⟨0, 0, 0, 0⟩ none none none false = .ok out) ∧
    getStacksDls 1 [exShiftA, exShiftB] .dataset ⟨0, 0, 0, 0⟩ none none none false = .error .valueError ∧
    getStacksDls 2 [exShiftA, exShiftB] .dataset ⟨0, 0, 0, 0⟩ none none none false = .error .valueError :=
  ⟨by decide, ⟨_, rfl⟩, rfl, rfl⟩

/-- Non-vacuity of `dls_spec_partial`: two scans with darks, references and projections in blocks; index 1 fits. -/
def exA : Scan ℚ := ⟨⟨6, 2, 2, fun k i j => (k + 1) * (i + 2) + j⟩, [2, 2, 1, 1, 0, 0]⟩
def exB : Scan ℚ := ⟨⟨7, 2, 2, fun k i j => (k + 2) * (i + 1) + j⟩, [2, 2, 1, 1, 0, 0, 0]⟩

example : ∃ out R, getStacksDls 1 [exA, exB] .dataset ⟨1, 0, 0, 0⟩ none none none false = .ok out ∧ out.1 = some R ∧ R.d = 2 ∧ out.2.d = 2 ∧
    out.2.get 1 0 1 = 9 := by
  refine ⟨_, _, rfl, rfl, rfl, rfl, ?_⟩
  decide +kernel

theorem exA_block (v : Int) (a c : ℕ) (h : (v = 1 ∧ a = 2 ∧ c = 4) ∨ (v = 2 ∧ a = 0 ∧ c = 2)) : IsBlock exA v a c ∧ IsBlock exB v a c := by
  rcases h with ⟨rfl, rfl, rfl⟩ | ⟨rfl, rfl, rfl⟩
  all_goals
    refine ⟨⟨by omega, fun p => ?_⟩, ⟨by omega, fun p => ?_⟩⟩
    · match p with
      | 0 | 1 | 2 | 3 | 4 | 5 => simp [exA]
      | p + 6 => simp [exA]
    · match p with
      | 0 | 1 | 2 | 3 | 4 | 5 | 6 => simp [exB]
      | p + 7 => simp [exB]

example : Uniform (usedFiles [exA, exB] none) 1 ∧ Uniform (usedFiles [exA, exB] none) 2 ∧
    (∀ s ∈ usedFiles [exA, exB] none, s.keys.length = s.data.d ∧ 2 ≤ s.keys.count 0) := by
  refine ⟨Or.inr ?_, Or.inr ?_, by decide⟩
  · intro s hs
    have hs : s ∈ [exA, exB] := hs
    have := exA_block 1 2 4 (Or.inl ⟨rfl, rfl, rfl⟩)
    simp only [List.mem_cons, List.not_mem_nil, or_false] at hs
    rcases hs with rfl | rfl
    · exact ⟨2, 4, this.1⟩
    · exact ⟨2, 4, this.2⟩
  · intro s hs
    have hs : s ∈ [exA, exB] := hs
    have := exA_block 2 0 2 (Or.inr ⟨rfl, rfl, rfl⟩)
    simp only [List.mem_cons, List.not_mem_nil, or_false] at hs
    rcases hs with rfl | rfl
    · exact ⟨0, 2, this.1⟩
    · exact ⟨0, 2, this.2⟩

/-- The number of files used: all, or the requested number clipped to `[1, n]`. -/
theorem use_count_spec (n : ℕ) (hn : 0 < n) : useCount n none = n ∧
    ∀ k : Int, (k ≤ 1 → useCount n (some k) = 1) ∧ ((n : Int) ≤ k → useCount n (some k) = n) ∧ (1 ≤ k → k ≤ n → (useCount n (some k) : Int) = k) := by
  refine ⟨rfl, fun k => ?_⟩
  unfold useCount npClip
  dsimp only
  refine ⟨fun h => ?_, fun h => ?_, fun h1 h2 => ?_⟩ <;> omega

/-- Keys given by hand act like a key dataset with these values in every file (with a length check). -/
theorem dls_manual (files : List (Scan K)) (keys : List Int) (crop : Crop) (flat dark : Option (Mat K)) (numUse : Option Int) (k : Int)
    (fix : Bool) (h : ∀ s ∈ usedFiles files numUse, s.data.d = keys.length) :
    getStacksDls k files (.manual keys) crop flat dark numUse fix =
      getStacksDls k (files.map fun s => ⟨s.data, keys⟩) .dataset crop flat dark numUse fix := by
  unfold getStacksDls
  have h0 : getIdx (files.map fun s : Scan K => (⟨s.data, keys⟩ : Scan K)) 0 = (getIdx files 0).map fun s => ⟨s.data, keys⟩ := by
    unfold getIdx
    rw [List.getElem?_map]
    cases files[0]? <;> rfl
  have hsel : ∀ l : List (Scan K), (∀ s ∈ l, s.data.d = keys.length) →
      l.mapM (selOf (.manual keys)) = (l.map fun s : Scan K => (⟨s.data, keys⟩ : Scan K)).mapM (selOf .dataset) := by
    intro l
    induction l with
    | nil => intro _; rfl
    | cons a l ih =>
      intro hl
      rw [List.map_cons, List.mapM_cons, List.mapM_cons, ih fun s hs => hl s (List.mem_cons_of_mem _ hs)]
      have : selOf (.manual keys) a = selOf .dataset (⟨a.data, keys⟩ : Scan K) := by
        unfold selOf
        dsimp only
        rw [if_neg (by rw [hl a (List.mem_cons_self ..)]; simp)]
      rw [this]
  have hone : ∀ (l : List (Scan K)) (n : ℕ) (sels : List Sel) (b : Box),
      (l.zipIdx n).mapM (fun si => dlsOne k sels flat dark b si.1 si.2) =
      ((l.map fun s : Scan K => (⟨s.data, keys⟩ : Scan K)).zipIdx n).mapM fun si => dlsOne k sels flat dark b si.1 si.2 := by
    intro l
    induction l with
    | nil => intro _ _ _; rfl
    | cons a l ih =>
      intro n sels b
      rw [List.map_cons, List.zipIdx_cons, List.zipIdx_cons, List.mapM_cons, List.mapM_cons, ih (n + 1) sels b]
      rfl
  rw [h0, List.length_map, ← List.map_take]
  cases getIdx files 0 with
  | error e => rfl
  | ok f0 =>
    simp only [bind, Except.bind, Except.map]
    cases cropBox f0.data.h f0.data.w crop with
    | error e => rfl
    | ok b =>
      dsimp only
      have hsel' := hsel (files.take (useCount files.length numUse)) h
      rw [← hsel']
      cases (files.take (useCount files.length numUse)).mapM (selOf (.manual keys)) with
      | error e => rfl
      | ok sels =>
        dsimp only
        rw [hone _ 0 sels b]

/-- Without keys every image is a projection: index `k` is accepted iff every used file has more than `k` images, there is no reference stack
and the samples are the `k`-th images. -/
theorem dls_nokey (files : List (Scan K)) (f0 : Scan K) (hf : files[0]? = some f0) (crop : Crop) (b : Box)
    (hb : cropBox f0.data.h f0.data.w crop = .ok b) (flat dark : Option (Mat K)) (numUse : Option Int) (hu : usedFiles files numUse ≠ [])
    (hflat : ∀ m, flat = some m → m.h = f0.data.h ∧ m.w = f0.data.w) (hdark : ∀ m, dark = some m → m.h = f0.data.h ∧ m.w = f0.data.w)
    (k : ℕ) :
    ((∃ s ∈ usedFiles files numUse, s.data.d ≤ k) → ∀ out, getStacksDls (k : Int) files .none crop flat dark numUse false ≠ .ok out) ∧
    ((∀ s ∈ usedFiles files numUse, k < s.data.d) → ∃ sam, getStacksDls (k : Int) files .none crop flat dark numUse false = .ok (none, sam) ∧
      sam.d = (usedFiles files numUse).length ∧ sam.h = b.h ∧ sam.w = b.w ∧
      ∀ i s, (usedFiles files numUse)[i]? = some s → ∀ r c, sam.get i r c =
        corrected flat (givenDark dark) b (s.data.get k) r c) := by
  set used := usedFiles files numUse with hused
  set g : Scan K → Sel := fun s => ⟨some (List.range s.data.d), none, none, s.data.d⟩ with hg
  have hsel : used.mapM (selOf .none) = .ok (used.map g) := Post.mapM_ok _ _ _ fun s _ => rfl
  have hsam : (used.map g).filterMap (·.sam) = used.map fun s => List.range s.data.d := by
    rw [List.filterMap_map]
    exact filterMap_all _ _ _ fun s _ => rfl
  have hnone : (used.map g).filterMap (·.dark) = [] ∧ (used.map g).filterMap (·.ref) = [] := by
    rw [List.filterMap_map, List.filterMap_map]
    exact ⟨filterMap_none _ _ fun s _ => rfl, filterMap_none _ _ fun s _ => rfl⟩
  constructor
  · rintro ⟨s, hs, hk⟩ out h
    obtain ⟨sels, b', l, h1, h2, _⟩ := dls_ok files .none crop flat dark numUse k false out h
    have h1 : used.mapM (selOf .none) = .ok sels := h1
    rw [hsel] at h1
    have h1 := Except.ok.inj h1
    subst h1
    have := ((checkIndex_iff _ _).1 h2).2.2.1 (g s) (List.mem_map_of_mem hs)
    have : (k : Int) < s.data.d := this
    omega
  · intro hk
    have hck : checkIndex (k : Int) (used.map g) = .ok () := by
      rw [checkIndex_iff, hsam]
      refine ⟨by positivity, by simpa using hu, ?_, ?_⟩
      · intro s hs
        obtain ⟨s, hs', rfl⟩ := List.mem_map.1 hs
        exact_mod_cast hk s hs'
      · intro l hl l' hl'
        obtain ⟨s, hs, rfl⟩ := List.mem_map.1 hl
        obtain ⟨s', hs', rfl⟩ := List.mem_map.1 hl'
        have h1 := hk s hs
        have h2 := hk s' hs'
        have e1 : (List.range s.data.d).headD 0 = 0 := by
          rw [List.headD_eq_head?_getD, List.head?_range]
          split_ifs <;> rfl
        have e2 : lastInt (List.range s'.data.d) = ((s'.data.d - 1 : ℕ) : Int) := by
          unfold lastInt
          rw [List.getLast?_range, if_neg (by omega)]
        rw [e1, e2]
        omega
    have hone : ∀ s i, used[i]? = some s → dlsOne (k : Int) (used.map g) flat dark b s i = .ok (none,
        correct (flat.map fun f => b.cut f.get) (b.cut (givenDark dark)) (b.cut (s.data.get k))) := by
      intro s i hi
      have hs : s ∈ used := List.mem_of_getElem? hi
      have hd : darkFor (used.map g) dark b s i = .ok (b.cut (givenDark dark)) := by
        unfold darkFor
        cases dark with
        | some d => rfl
        | none =>
          dsimp only
          rw [hnone.1]
          rfl
      unfold dlsOne
      rw [hd]
      simp only [bind, Except.bind]
      unfold refFor
      rw [hnone.2, hsam, getIdx_map used _ i s hi]
      simp only [List.isEmpty_nil, if_true]
      have : pyIndex (List.range s.data.d).length (k : Int) = .ok k := by
        unfold pyIndex
        rw [if_pos ⟨by positivity, by rw [List.length_range]; exact_mod_cast hk s hs⟩]
        rfl
      rw [this]
      dsimp only
      rw [List.getD_eq_getElem _ _ (by rw [List.length_range]; exact hk s hs), List.getElem_range]
      rfl
    set out : Scan K → Option (Mat K) × Mat K := fun s => (none,
        correct (flat.map fun f => b.cut f.get) (b.cut (givenDark dark)) (b.cut (s.data.get k))) with hout
    have hm : (used.zipIdx.mapM fun si => dlsOne (k : Int) (used.map g) flat dark b si.1 si.2) = .ok (used.zipIdx.map fun si => out si.1) := by
      apply Post.mapM_ok
      rintro ⟨s, i⟩ hsi
      exact hone s i (List.mk_mem_zipIdx_iff_getElem?.1 hsi)
    have hz : (used.zipIdx.map fun si => out si.1) = used.map out := by
      have : (fun si : Scan K × ℕ => out si.1) = out ∘ Prod.fst := rfl
      rw [this, ← List.map_map, List.zipIdx_map_fst]
    have hbad1 : badShape f0.data.h f0.data.w flat = false := by
      cases flat with
      | none => rfl
      | some m => simp [badShape, hflat m rfl]
    have hbad2 : badShape f0.data.h f0.data.w dark = false := by
      cases dark with
      | none => rfl
      | some m => simp [badShape, hdark m rfl]
    have hg0 : getIdx files 0 = .ok f0 := by unfold getIdx; rw [hf]
    refine ⟨stackOf b (used.map fun s => (out s).2), ?_, by simp [stackOf], rfl, rfl, ?_⟩
    · unfold getStacksDls
      rw [hg0]
      simp only [bind, Except.bind]
      rw [hb]
      dsimp only
      have hsel' : (files.take (useCount files.length numUse)).mapM (selOf .none) = .ok (used.map g) := hsel
      rw [hsel']
      dsimp only
      rw [hck]
      dsimp only
      rw [hbad1, hbad2]
      simp only [Bool.or_self, Bool.false_eq_true, if_false]
      have hm' : ((files.take (useCount files.length numUse)).zipIdx.mapM fun si => dlsOne (k : Int) (used.map g) flat dark b si.1 si.2) =
        .ok (used.map out) := by rw [← hz]; exact hm
      rw [hm']
      dsimp only
      have : (used.map out).filterMap (·.1) = [] := by
        rw [List.filterMap_map]
        exact filterMap_none _ _ fun s _ => rfl
      rw [this, List.map_map]
      rfl
    · intro i s hi r c
      show (match (used.map fun s => (out s).2)[i]? with | some m => m.get r c | none => 0) = _
      rw [List.getElem?_map, hi]
      exact correct_eq ..

/-! ### C99: image stacks -/

/-- The image a source contributes: for a 2D dataset the dataset; with `average` the mean of all images; otherwise the image at position `idx`,
counted from the end if negative. -/
def SourceImg (idx : Int) (average : Bool) (img : ℕ → ℕ → K) : Source K → Prop
  | .hdf (.two m) => img = m.get
  | .hdf (.three a) =>
    if average then ∀ y x, img y x = (∑ p ∈ Finset.range a.d, a.get p y x) / (a.d : K)
    else ∃ p < a.d, ((p : Int) = idx ∨ (p : Int) = idx + a.d) ∧ img = a.get p
  | .tif l =>
    if average then ∀ y x, img y x = (l.map fun m => m.get y x).sum / (l.length : K)
    else ∃ (p : ℕ) (m : Mat K), ((p : Int) = idx ∨ (p : Int) = idx + l.length) ∧ l[p]? = some m ∧ img = m.get

/-- Index `idx` (Python style) exists in the source. -/
def HasImage (idx : Int) (average : Bool) : Source K → Prop
  | .hdf (.two _) => True
  | .hdf (.three a) => average = true ∨ (-(a.d : Int) ≤ idx ∧ idx < a.d)
  | .tif l => l ≠ [] ∧ (average = true ∨ (-(l.length : Int) ≤ idx ∧ idx < l.length))

theorem pyIndex_spec (n : ℕ) (i : Int) : (∀ p, pyIndex n i = .ok p ↔ p < n ∧ ((p : Int) = i ∨ (p : Int) = i + n)) ∧
    ((-(n : Int) ≤ i ∧ i < n) ↔ ∃ p, pyIndex n i = .ok p) := by
  unfold pyIndex
  by_cases h1 : 0 ≤ i ∧ i < n
  · simp only [if_pos h1]
    refine ⟨fun p => ?_, ?_⟩
    · constructor
      · intro h; have := Except.ok.inj h; omega
      · intro h; congr 1; omega
    · exact ⟨fun _ => ⟨_, rfl⟩, fun _ => by omega⟩
  · by_cases h2 : i < 0 ∧ -(n : Int) ≤ i
    · simp only [if_neg h1, if_pos h2]
      refine ⟨fun p => ?_, ?_⟩
      · constructor
        · intro h; have := Except.ok.inj h; omega
        · intro h; congr 1; omega
      · exact ⟨fun _ => ⟨_, rfl⟩, fun _ => by omega⟩
    · simp only [if_neg h1, if_neg h2]
      refine ⟨fun p => ?_, ?_⟩
      · constructor
        · intro h; cases h
        · intro h; omega
      · constructor
        · intro h; omega
        · rintro ⟨p, hp⟩; cases hp

theorem sourceImage_ok (idx : Int) (average : Bool) (b : Box) (s : Source K) (m : Mat K) (h : sourceImage idx average b s = .ok m) :
    HasImage idx average s ∧ ∃ img, SourceImg idx average img s ∧ m = b.cut img := by
  cases s with
  | hdf d =>
    unfold sourceImage at h
    cases d with
    | two a =>
      cases average with
      | true => exact ⟨trivial, a.get, rfl, (Except.ok.inj h).symm⟩
      | false => exact ⟨trivial, a.get, rfl, (Except.ok.inj h).symm⟩
    | three a =>
      cases average with
      | true =>
        refine ⟨Or.inl rfl, fun y x => (∑ p ∈ Finset.range a.d, a.get p y x) / (a.d : K), ?_, ?_⟩
        · show ∀ y x, _ = _
          intro y x
          rfl
        · have := Except.ok.inj h
          rw [← this]
          unfold averageOf meanImages
          dsimp only
          rw [Nat.Ico_zero_eq_range, Nat.sub_zero]
      | false =>
        simp only [Bool.false_eq_true, if_false] at h
        unfold imageAt at h
        simp only [bind, Except.bind] at h
        cases hp : pyIndex a.d idx with
        | error e => rw [hp] at h; cases h
        | ok p =>
          rw [hp] at h
          have h3 := ((pyIndex_spec a.d idx).1 p).1 hp
          refine ⟨Or.inr ((pyIndex_spec a.d idx).2.2 ⟨p, hp⟩), a.get p, ?_, (Except.ok.inj h).symm⟩
          exact ⟨p, h3.1, h3.2, rfl⟩
  | tif l =>
    cases l with
    | nil => cases h
    | cons m0 rest =>
      unfold sourceImage at h
      cases average with
      | true => exact ⟨⟨by simp, Or.inl rfl⟩, _, fun y x => rfl, (Except.ok.inj h).symm⟩
      | false =>
        simp only [Bool.false_eq_true, if_false, bind, Except.bind] at h
        cases hp : pyIndex (m0 :: rest).length idx with
        | error e => rw [hp] at h; cases h
        | ok p =>
          rw [hp] at h
          have h3 := ((pyIndex_spec _ idx).1 p).1 hp
          refine ⟨⟨by simp, Or.inr ((pyIndex_spec _ idx).2.2 ⟨p, hp⟩)⟩, ((m0 :: rest).getD p m0).get, ?_, (Except.ok.inj h).symm⟩
          refine ⟨p, (m0 :: rest).getD p m0, h3.2, ?_, rfl⟩
          rw [List.getD_eq_getElem _ _ h3.1, List.getElem?_eq_getElem h3.1]

theorem sourceImage_has (idx : Int) (average : Bool) (b : Box) (s : Source K) (h : HasImage idx average s) :
    ∃ m, sourceImage idx average b s = .ok m := by
  cases s with
  | hdf d =>
    cases d with
    | two a => cases average <;> exact ⟨_, rfl⟩
    | three a =>
      cases average with
      | true => exact ⟨_, rfl⟩
      | false =>
        rcases h with h | h
        · cases h
        · obtain ⟨p, hp⟩ := (pyIndex_spec a.d idx).2.1 h
          refine ⟨b.cut (a.get p), ?_⟩
          show imageAt a idx b = _
          unfold imageAt
          rw [hp]
          rfl
  | tif l =>
    cases l with
    | nil => exact absurd rfl h.1
    | cons m0 rest =>
      cases average with
      | true => exact ⟨_, rfl⟩
      | false =>
        rcases h.2 with h | h
        · cases h
        · obtain ⟨p, hp⟩ := (pyIndex_spec (m0 :: rest).length idx).2.1 h
          refine ⟨b.cut ((m0 :: rest).getD p m0).get, ?_⟩
          show (pyIndex (m0 :: rest).length idx >>= fun p => .ok (b.cut ((m0 :: rest).getD p m0).get)) = _
          rw [hp]
          rfl

/-- 2D flat and dark fields of the right shape (and not with exactly three rows, see C13) are used as they are. -/
theorem fields_eq (flat dark : Option (Mat K)) (h w : ℕ) (b : Box) (h3 : h ≠ 3)
    (hflat : ∀ m, flat = some m → m.h = h ∧ m.w = w) (hdark : ∀ m, dark = some m → m.h = h ∧ m.w = w) :
    fields (flat.map .two) (dark.map .two) h w b = .ok (flat.map fun f => b.cut f.get, b.cut (givenDark dark)) := by
  have e : ∀ m : Mat K, m.h = h ∧ m.w = w → checkField (.two m) h w = .ok m := by
    rintro m ⟨h1, h2⟩
    have := check_field_partial (.two m) h w ⟨h1, h2, by omega⟩
    exact this
  unfold fields
  cases flat with
  | none =>
    cases dark with
    | none => rfl
    | some d =>
      simp only [Option.map, bind, Except.bind]
      rw [e d (hdark d rfl)]
      rfl
  | some f =>
    cases dark with
    | none =>
      simp only [Option.map, bind, Except.bind]
      rw [e f (hflat f rfl)]
      rfl
    | some d =>
      simp only [Option.map, bind, Except.bind]
      rw [e f (hflat f rfl)]
      dsimp only
      rw [e d (hdark d rfl)]
      rfl

/-- C99: `get_image_stack` over a list of sources returns a stack iff every source used has the requested image, and then image `q` of the
stack is the requested (or average) image of source `q`, cropped and dark/flat corrected. -/
theorem image_stack_spec (idx : Int) (srcs : List (Source K)) (s0 : Source K) (hs0 : srcs[0]? = some s0) (average : Bool) (h w : ℕ)
    (hsh : sourceShape s0 = .ok (h, w)) (crop : Crop) (b : Box) (hb : cropBox h w crop = .ok b) (flat dark : Option (Mat K)) (h3 : h ≠ 3)
    (hflat : ∀ m, flat = some m → m.h = h ∧ m.w = w) (hdark : ∀ m, dark = some m → m.h = h ∧ m.w = w) (numUse : Option Int) :
    ((∃ out, getImageStack idx srcs average crop (flat.map .two) (dark.map .two) numUse false = .ok out) ↔
      ∀ s ∈ srcs.take (useCount srcs.length numUse), HasImage idx average s) ∧
    (∀ out, getImageStack idx srcs average crop (flat.map .two) (dark.map .two) numUse false = .ok out →
      out.d = (srcs.take (useCount srcs.length numUse)).length ∧ out.h = b.h ∧ out.w = b.w ∧
      ∀ q s, (srcs.take (useCount srcs.length numUse))[q]? = some s →
        ∃ img, SourceImg idx average img s ∧ ∀ r c, out.get q r c = corrected flat (givenDark dark) b img r c) := by
  have hmain : getImageStack idx srcs average crop (flat.map .two) (dark.map .two) numUse false =
      (((srcs.take (useCount srcs.length numUse)).mapM fun s => do
        let m ← sourceImage idx average b s
        .ok (correct (flat.map fun f : Mat K => b.cut f.get) (b.cut (givenDark dark)) m)).map (stackOf b)) := by
    unfold getImageStack
    have hg : getIdx srcs 0 = .ok s0 := by unfold getIdx; rw [hs0]
    rw [hg]
    simp only [bind, Except.bind]
    rw [hsh]
    dsimp only
    rw [hb]
    dsimp only
    rw [fields_eq flat dark h w b h3 hflat hdark]
    dsimp only
    split <;> rename_i hx <;> simp only [hx, Except.map] <;> rfl
  rw [hmain]
  set used := srcs.take (useCount srcs.length numUse) with hused
  set f : Source K → Py (Mat K) := fun s => do
        let m ← sourceImage idx average b s
        .ok (correct (flat.map fun f : Mat K => b.cut f.get) (b.cut (givenDark dark)) m) with hf
  have hfok : ∀ s o, f s = .ok o → ∃ img, SourceImg idx average img s ∧ HasImage idx average s ∧
      ∀ r c, o.get r c = corrected flat (givenDark dark) b img r c := by
    intro s o ho
    rw [hf] at ho
    simp only [bind, Except.bind] at ho
    cases hm : sourceImage idx average b s with
    | error e => rw [hm] at ho; cases ho
    | ok m =>
      rw [hm] at ho
      obtain ⟨h1, img, h2, h3⟩ := sourceImage_ok idx average b s m hm
      have ho := Except.ok.inj ho
      subst h3
      subst ho
      exact ⟨img, h2, h1, fun r c => correct_eq ..⟩
  constructor
  · constructor
    · rintro ⟨out, ho⟩ s hs
      cases hm : used.mapM f with
      | error e => rw [hm] at ho; cases ho
      | ok l =>
        obtain ⟨o, _, h1⟩ := forall2_left ((Simulation.mapM_ok_iff _ _ _).1 hm) hs
        obtain ⟨_, _, h2, _⟩ := hfok s o h1
        exact h2
    · intro hall
      have hex : ∀ s ∈ used, ∃ o, f s = .ok o := by
        intro s hs
        obtain ⟨m, hm⟩ := sourceImage_has idx average b s (hall s hs)
        exact ⟨_, by rw [hf]; simp only [bind, Except.bind]; rw [hm]⟩
      haveI : Nonempty (Mat K) := ⟨⟨0, 0, fun _ _ => 0⟩⟩
      choose! g hg using hex
      rw [Post.mapM_ok f g used hg]
      exact ⟨_, rfl⟩
  · intro out ho
    cases hm : used.mapM f with
    | error e => rw [hm] at ho; cases ho
    | ok l =>
      rw [hm] at ho
      have ho := Except.ok.inj ho
      subst ho
      have hfa := (Simulation.mapM_ok_iff _ _ _).1 hm
      refine ⟨hfa.length_eq.symm, rfl, rfl, ?_⟩
      intro q s hq
      have hql : q < used.length := by
        by_contra hc
        rw [List.getElem?_eq_none (by omega)] at hq
        cases hq
      have hqs : used[q] = s := by
        rw [List.getElem?_eq_getElem hql] at hq
        exact Option.some.inj hq
      have hql' : q < l.length := by rw [← hfa.length_eq]; exact hql
      have h1 : f used[q] = .ok l[q] := (List.forall₂_iff_get.1 hfa).2 q hql hql'
      rw [hqs] at h1
      obtain ⟨img, h2, _, h4⟩ := hfok s _ h1
      refine ⟨img, h2, fun r c => ?_⟩
      show (match l[q]? with | some m => m.get r c | none => 0) = _
      rw [List.getElem?_eq_getElem hql']
      exact h4 r c

theorem zip_mapM {A B C D : Type _} (F : A × B → Py (C × D)) (g : A → C) (f : B → Py D)
    (hF : ∀ a b, F (a, b) = (f b).map fun p => (g a, p)) : ∀ (refs : List A) (sams : List B), refs.length = sams.length →
    ((refs.zip sams).mapM F).map (fun l => (l.map (·.1), l.map (·.2))) = (sams.mapM f).map fun S => (refs.map g, S) := by
  intro refs
  induction refs with
  | nil =>
    intro sams h
    cases sams with
    | nil => rfl
    | cons _ _ => simp at h
  | cons a refs ih =>
    intro sams h
    cases sams with
    | nil => simp at h
    | cons b sams =>
      have := ih sams (by simpa using h)
      rw [List.zip_cons_cons, List.mapM_cons, List.mapM_cons, hF]
      cases hfb : f b with
      | error e => rfl
      | ok p =>
        cases h1 : sams.mapM f with
        | error e =>
          rw [h1] at this
          cases h2 : (refs.zip sams).mapM F with
          | error e' => rw [h2] at this; exact this
          | ok l => rw [h2] at this; cases this
        | ok S =>
          rw [h1] at this
          cases h2 : (refs.zip sams).mapM F with
          | error e' => rw [h2] at this; cases this
          | ok l =>
            rw [h2] at this
            have := Except.ok.inj this
            show Except.ok ((g a :: l.map (·.1)), (p :: l.map (·.2))) = Except.ok (g a :: refs.map g, p :: S)
            rw [(Prod.mk.inj this).1, (Prod.mk.inj this).2]

theorem ok_bind {α β : Type _} (a : α) (f : α → Py β) : ((Except.ok a : Py α) >>= f) = f a := rfl

theorem take_zip {A B : Type _} (n : ℕ) : ∀ (l : List A) (m : List B), (l.zip m).take n = (l.take n).zip (m.take n) := by
  induction n with
  | zero => intro l m; simp
  | succ n ih =>
    intro l m
    cases l with
    | nil => simp
    | cons a l => cases m with
      | nil => simp
      | cons b m => simp [ih]

/-- C99: the two-list loader returns the average stack of the reference files and the `projIdx` stack of the sample files, exactly as
`get_image_stack` does for each list (images of one shape). -/
theorem stacks_agree (projIdx : Int) (refs : List (NdArr K)) (sams : List (Arr3 K)) (r0 : NdArr K) (a0 : Arr3 K) (hr : refs[0]? = some r0)
    (ha : sams[0]? = some a0) (hshape : imgShape r0 = (a0.h, a0.w)) (hlen : refs.length = sams.length) (crop : Crop)
    (flat dark : Option (NdArr K)) (numUse : Option Int) (fix : Bool) :
    getStacks projIdx refs sams crop flat dark numUse fix = (do
      let R ← getImageStack 0 (refs.map .hdf) true crop flat dark numUse fix
      let S ← getImageStack projIdx (sams.map fun a => .hdf (.three a)) false crop flat dark numUse fix
      .ok (R, S)) := by
  unfold getStacks getImageStack
  rw [if_neg (by simpa using hlen)]
  have e1 : getIdx refs 0 = .ok r0 := by unfold getIdx; rw [hr]
  rw [e1, getIdx_map refs _ 0 r0 hr, getIdx_map sams _ 0 a0 ha]
  have e2 : sourceShape (Source.hdf r0) = .ok (a0.h, a0.w) := congrArg Except.ok hshape
  have e3 : sourceShape (Source.hdf (.three a0)) = .ok (a0.h, a0.w) := rfl
  simp only [ok_bind, e2, e3, hshape, List.length_map]
  cases cropBox a0.h a0.w crop with
  | error e => rfl
  | ok b =>
    simp only [ok_bind]
    cases fields flat dark a0.h a0.w b with
    | error e => rfl
    | ok fd =>
      simp only [ok_bind]
      set n := useCount refs.length numUse with hn
      rw [show useCount sams.length numUse = n by rw [hn, hlen]]
      set fR : Source K → Py (Mat K) := fun s => do
        let m ← sourceImage 0 true b s
        .ok (correct fd.1 fd.2 m) with hfR
      set fS : Source K → Py (Mat K) := fun s => do
        let m ← sourceImage projIdx false b s
        .ok (correct fd.1 fd.2 m) with hfS
      set F : NdArr K × Arr3 K → Py (Mat K × Mat K) := fun rs => do
        let p ← imageAt rs.2 projIdx b
        .ok (correct fd.1 fd.2 (averageOf rs.1 b), correct fd.1 fd.2 p) with hF
      have hR : ((refs.map Source.hdf).take n).mapM fR =
          .ok ((refs.take n).map fun r => correct fd.1 fd.2 (averageOf r b)) := by
        rw [← List.map_take]
        rw [Post.mapM_ok _ (fun s : Source K => match s with | .hdf d => correct fd.1 fd.2 (averageOf d b) | .tif _ => ⟨0, 0, fun _ _ => 0⟩)]
        · rw [List.map_map]
          rfl
        · intro s hs
          obtain ⟨d, _, rfl⟩ := List.mem_map.1 hs
          rfl
      have hS : ((sams.map fun a => Source.hdf (.three a)).take n).mapM fS =
          (sams.take n).mapM fun a => fS (.hdf (.three a)) := by
        rw [← List.map_take, List.mapM_map]
        rfl
      rw [hR, hS]
      have hz := zip_mapM F (fun r => correct fd.1 fd.2 (averageOf r b)) (fun a => fS (.hdf (.three a)))
        (fun r a => by
          rw [hF, hfS]
          show (imageAt a projIdx b >>= fun p => _) = Except.map _ (imageAt a projIdx b >>= fun p => _)
          cases imageAt a projIdx b <;> rfl)
        (refs.take n) (sams.take n) (by rw [List.length_take, List.length_take, hlen])
      rw [← take_zip] at hz
      cases h1 : ((refs.zip sams).take n).mapM F with
      | error e =>
        rw [h1] at hz
        cases h2 : (sams.take n).mapM fun a => fS (.hdf (.three a)) with
        | error e' => rw [h2] at hz; have := Except.error.inj hz; rw [this]; rfl
        | ok S => rw [h2] at hz; cases hz
      | ok l =>
        rw [h1] at hz
        cases h2 : (sams.take n).mapM fun a => fS (.hdf (.three a)) with
        | error e' => rw [h2] at hz; cases hz
        | ok S =>
          rw [h2] at hz
          have := Except.ok.inj hz
          simp only [ok_bind]
          rw [(Prod.mk.inj this).1, (Prod.mk.inj this).2]

/-- C99: one image of a folder: `get_tif_stack(folder, idx=i)` equals `get_image_stack(i, [folder])` for every index in the Python range. -/
theorem tif_agree (imgs : List (Mat K)) (i : Int) (crop : Crop) (flat dark : Option (NdArr K)) (numUse : Option Int) (fix : Bool)
    (hi : -(imgs.length : Int) ≤ i ∧ i < imgs.length) :
    getTifStack imgs (some i) crop flat dark numUse fix = getImageStack i [.tif imgs] false crop flat dark numUse fix := by
  cases imgs with
  | nil => simp at hi; omega
  | cons m0 rest =>
    have ht : tifIndex (m0 :: rest).length i = pyIndex (m0 :: rest).length i := by
      unfold tifIndex
      dsimp only
      by_cases h : i < 0
      · rw [if_pos h, if_neg (by omega)]
        unfold pyIndex
        rw [if_pos (by omega), if_neg (by omega), if_pos (by omega)]
        congr 1
        omega
      · rw [if_neg h, if_neg (by omega)]
    have hu : useCount 1 numUse = 1 := by
      unfold useCount npClip
      cases numUse with
      | none => rfl
      | some k => dsimp only; omega
    obtain ⟨p, hp⟩ := (pyIndex_spec (m0 :: rest).length i).2.1 hi
    unfold getTifStack getImageStack
    dsimp only
    rw [ht, hp]
    have e1 : getIdx [Source.tif (m0 :: rest)] 0 = .ok (.tif (m0 :: rest)) := rfl
    rw [e1]
    simp only [bind, Except.bind, sourceShape, List.length_singleton, hu]
    cases cropBox m0.h m0.w crop with
    | error e => rfl
    | ok b =>
      dsimp only
      cases fields flat dark m0.h m0.w b with
      | error e => rfl
      | ok fd =>
        dsimp only
        have : sourceImage i false b (Source.tif (m0 :: rest)) = .ok (b.cut ((m0 :: rest).getD p m0).get) := by
          show (pyIndex (m0 :: rest).length i >>= fun p => .ok (b.cut ((m0 :: rest).getD p m0).get)) = _
          rw [hp]
          rfl
        simp only [List.take_succ_cons, List.take_nil, List.mapM_cons, List.mapM_nil, this, bind, Except.bind, pure, Except.pure, List.map_cons,
          List.map_nil]

/-- C99: without index `get_tif_stack` returns the first `num_use` images of the folder in order, cropped and corrected. -/
theorem tif_stack_all (m0 : Mat K) (rest : List (Mat K)) (crop : Crop) (b : Box) (hb : cropBox m0.h m0.w crop = .ok b)
    (flat dark : Option (Mat K)) (h3 : m0.h ≠ 3) (hflat : ∀ m, flat = some m → m.h = m0.h ∧ m.w = m0.w)
    (hdark : ∀ m, dark = some m → m.h = m0.h ∧ m.w = m0.w) (numUse : Option Int) :
    ∃ out, getTifStack (m0 :: rest) none crop (flat.map .two) (dark.map .two) numUse false = .ok out ∧
      out.d = useCount (rest.length + 1) numUse ∧ out.h = b.h ∧ out.w = b.w ∧
      ∀ q < useCount (rest.length + 1) numUse, ∀ m, (m0 :: rest)[q]? = some m → ∀ r c,
        out.get q r c = corrected flat (givenDark dark) b m.get r c := by
  unfold getTifStack
  simp only [bind, Except.bind, List.length_cons]
  rw [hb]
  dsimp only
  rw [fields_eq flat dark m0.h m0.w b h3 hflat hdark]
  have hle : useCount (rest.length + 1) numUse ≤ rest.length + 1 := by
    unfold useCount npClip
    cases numUse with
    | none => exact le_rfl
    | some k => dsimp only; omega
  refine ⟨_, rfl, ?_, rfl, rfl, ?_⟩
  · simp only [Bool.false_eq_true, if_false, stackOf, List.length_map, List.length_take, List.length_cons]
    omega
  · intro q hq m hm r c
    simp only [Bool.false_eq_true, if_false, stackOf]
    rw [List.getElem?_map, List.getElem?_take, if_pos hq, hm]
    exact correct_eq ..

/-- Non-vacuity: two tif folders of two images, index -1. -/
example : ∃ out, getImageStack (-1) [.tif [⟨2, 2, fun i j => (i + j : ℚ)⟩, ⟨2, 2, fun _ _ => 5⟩], .tif [⟨2, 2, fun _ _ => 1⟩, ⟨2, 2, fun i _ => i⟩]] false
    ⟨0, 0, 1, 0⟩ (some (.two ⟨2, 2, fun _ _ => 2⟩)) none none false = .ok out ∧ out.d = 2 ∧ out.w = 1 ∧ out.get 0 1 0 = 5 / 2 ∧ out.get 1 1 0 = 1 / 2 := by
  refine ⟨_, rfl, rfl, rfl, ?_, ?_⟩ <;> decide +kernel

/-! ### C100: the tif emulator -/

/-- The 3D array the emulator stands for: indexing along the first axis of the list of images, numpy style. -/
def arrayGet {α : Type _} (imgs : List α) : EmuIx α α → Py (Got α)
  | .first (.int i) | .first (.npInt i) => (pyIndex imgs.length i).bind fun p => (getIdx imgs p).map .one
  | .triple (.int i) yx | .triple (.npInt i) yx => (pyIndex imgs.length i).bind fun p => (getIdx imgs p).map fun m => .one (yx m)
  | .first (.slice a e s) => (sliceIndices imgs.length a e s).map fun l => .many (l.filterMap fun p => imgs[p]?)
  | .triple (.slice a e s) yx => (sliceIndices imgs.length a e s).map fun l => .many ((l.filterMap fun p => imgs[p]?).map yx)

theorem down_inside (n : ℕ) (st a e : Int) (hst : ¬ 0 < st) (h0 : st ≠ 0) (ha : a ≤ (n : Int) - 1) (he : -1 ≤ e) (q : ℕ)
    (hq : q < ((a - e + -st - 1) / -st).toNat) : (a + st * (q : Int)).toNat < n := by
  have hst : 0 < -st := by omega
  have : (q : Int) + 1 ≤ (a - e + -st - 1) / -st := by omega
  have h2 := (Int.le_ediv_iff_mul_le hst).1 this
  have h3 : 0 ≤ -st * (q : Int) := by positivity
  have : e < a + st * (q : Int) := by nlinarith
  have : st * (q : Int) ≤ 0 := by nlinarith
  omega

theorem up_inside (n : ℕ) (st a e : Int) (hst : 0 < st) (ha : 0 ≤ a) (he : e ≤ n) (q : ℕ)
    (hq : q < ((e - a + st - 1) / st).toNat) : (a + st * (q : Int)).toNat < n := by
  have : (q : Int) + 1 ≤ (e - a + st - 1) / st := by omega
  have h2 := (Int.le_ediv_iff_mul_le hst).1 this
  have h3 : 0 ≤ st * (q : Int) := by positivity
  have : a + st * (q : Int) < e := by nlinarith
  omega

/-- All positions of a slice are inside the list. -/
theorem slice_indices_inside (n : ℕ) (start stop step : Option Int) (l : List ℕ) (h : sliceIndices n start stop step = .ok l) :
    ∀ p ∈ l, p < n := by
  unfold sliceIndices at h
  dsimp only at h
  by_cases h0 : step.getD 1 = 0
  · rw [if_pos h0] at h; cases h
  rw [if_neg h0] at h
  by_cases hpos : 0 < step.getD 1
  · rw [if_pos hpos] at h
    have h := Except.ok.inj h
    intro p hp
    rw [← h, List.mem_map] at hp
    obtain ⟨q, hq, rfl⟩ := hp
    rw [List.mem_range] at hq
    refine up_inside n _ _ _ hpos ?_ ?_ q hq <;> split_ifs <;> omega
  · rw [if_neg hpos] at h
    have h := Except.ok.inj h
    intro p hp
    rw [← h, List.mem_map] at hp
    obtain ⟨q, hq, rfl⟩ := hp
    rw [List.mem_range] at hq
    refine down_inside n _ _ _ hpos h0 ?_ ?_ q hq
    · cases start with
      | none => exact le_rfl
      | some x => rw [Option.map_some, Option.getD_some]; split_ifs <;> omega
    · cases stop with
      | none => exact le_rfl
      | some x => rw [Option.map_some, Option.getD_some]; split_ifs <;> omega

/-- Numbers `a, a + st, …` below `e`. -/
theorem up_mem (a e st : Int) (hst : 0 < st) (ha : 0 ≤ a) (p : ℕ) :
    p ∈ (List.range ((e - a + st - 1) / st).toNat).map (fun (q : ℕ) => (a + st * (q : Int)).toNat) ↔ a ≤ p ∧ (p : Int) < e ∧ st ∣ (p : Int) - a := by
  rw [List.mem_map]
  constructor
  · rintro ⟨q, hq, rfl⟩
    rw [List.mem_range] at hq
    have : (q : Int) + 1 ≤ (e - a + st - 1) / st := by omega
    have h2 := (Int.le_ediv_iff_mul_le hst).1 this
    have h3 : 0 ≤ st * (q : Int) := by positivity
    have h4 : a + st * (q : Int) < e := by nlinarith
    rw [Int.toNat_of_nonneg (by omega)]
    exact ⟨by omega, h4, ⟨q, by ring⟩⟩
  · rintro ⟨h1, h2, ⟨q, hq⟩⟩
    have hq0 : 0 ≤ q := by
      by_contra hc
      have : st * q < 0 := mul_neg_of_pos_of_neg hst (by omega)
      omega
    refine ⟨q.toNat, ?_, ?_⟩
    · rw [List.mem_range]
      have : q + 1 ≤ (e - a + st - 1) / st := by
        rw [Int.le_ediv_iff_mul_le hst]
        nlinarith
      omega
    · rw [Int.toNat_of_nonneg hq0]
      omega

/-- Numbers `a, a + st, …` above `e` for a negative step. -/
theorem down_mem (a e st : Int) (hst : st < 0) (he : -1 ≤ e) (p : ℕ) :
    p ∈ (List.range ((a - e + -st - 1) / -st).toNat).map (fun (q : ℕ) => (a + st * (q : Int)).toNat) ↔ (p : Int) ≤ a ∧ e < p ∧ st ∣ (p : Int) - a := by
  rw [List.mem_map]
  have hst' : 0 < -st := by omega
  constructor
  · rintro ⟨q, hq, rfl⟩
    rw [List.mem_range] at hq
    have : (q : Int) + 1 ≤ (a - e + -st - 1) / -st := by omega
    have h2 := (Int.le_ediv_iff_mul_le hst').1 this
    have h3 : 0 ≤ -st * (q : Int) := by positivity
    have h4 : e < a + st * (q : Int) := by nlinarith
    rw [Int.toNat_of_nonneg (by omega)]
    exact ⟨by nlinarith, h4, ⟨q, by ring⟩⟩
  · rintro ⟨h1, h2, ⟨q, hq⟩⟩
    have hq0 : 0 ≤ q := by
      by_contra hc
      have : 0 < st * q := mul_pos_of_neg_of_neg hst (by omega)
      omega
    refine ⟨q.toNat, ?_, ?_⟩
    · rw [List.mem_range]
      have : q + 1 ≤ (a - e + -st - 1) / -st := by
        rw [Int.le_ediv_iff_mul_le hst']
        nlinarith
      omega
    · rw [Int.toNat_of_nonneg hq0]
      omega

theorem range_map_pairwise {R : ℕ → ℕ → Prop} (g : ℕ → ℕ) (m : ℕ) (h : ∀ i j, i < j → j < m → R (g i) (g j)) :
    ((List.range m).map g).Pairwise R := by
  rw [List.pairwise_map]
  exact List.pairwise_lt_range.imp_of_mem fun {a b} _ hb hab => h a b hab (List.mem_range.1 hb)

/-- A bound of a slice: a negative one counts from the end. -/
def bound (n : ℕ) (x : Int) : Int := if x < 0 then x + n else x

/-- C100: what a slice selects. A positive step: the positions from `start` (at least 0) on in steps, below `stop` and inside the array, in
increasing order. A negative step: the positions from `start` (at most the last) down in steps, above `stop`, in decreasing order. A bound
left out does not restrict. -/
theorem slice_spec (n : ℕ) (start stop step : Option Int) :
    (step = some 0 → sliceIndices n start stop step = .error .valueError) ∧
    (0 < step.getD 1 → ∃ l, sliceIndices n start stop step = .ok l ∧ l.Pairwise (· < ·) ∧
      ∀ p : ℕ, p ∈ l ↔ p < n ∧ max (bound n (start.getD 0)) 0 ≤ p ∧ (∀ e, stop = some e → (p : Int) < bound n e) ∧
        step.getD 1 ∣ (p : Int) - max (bound n (start.getD 0)) 0) ∧
    (step.getD 1 < 0 → ∃ l, sliceIndices n start stop step = .ok l ∧ l.Pairwise (· > ·) ∧
      ∀ p : ℕ, p ∈ l ↔ p < n ∧ (p : Int) ≤ min (bound n (start.getD (n - 1))) (n - 1) ∧ (∀ e, stop = some e → bound n e < p) ∧
        step.getD 1 ∣ (p : Int) - min (bound n (start.getD (n - 1))) (n - 1)) := by
  refine ⟨?_, ?_, ?_⟩
  · rintro rfl
    rfl
  · intro hpos
    unfold sliceIndices
    dsimp only
    rw [if_neg (by omega), if_pos hpos]
    generalize step.getD 1 = st at *
    refine ⟨_, rfl, ?_, ?_⟩
    · apply range_map_pairwise
      intro i j hij _
      have ha : 0 ≤ (if start.getD 0 < 0 then max (start.getD 0 + (n : Int)) 0 else min (start.getD 0) n) := by split_ifs <;> omega
      generalize (if start.getD 0 < 0 then max (start.getD 0 + (n : Int)) 0 else min (start.getD 0) n) = a at *
      have h1 : st * (i : Int) < st * (j : Int) := by
        apply mul_lt_mul_of_pos_left _ hpos
        exact_mod_cast hij
      have h2 : 0 ≤ st * (i : Int) := by positivity
      omega
    · intro p
      rw [up_mem _ _ st hpos (by split_ifs <;> omega)]
      have he : ((p : Int) < (if stop.getD n < 0 then max (stop.getD n + (n : Int)) 0 else min (stop.getD n) n)) ↔
          p < n ∧ (∀ e, stop = some e → (p : Int) < bound n e) := by
        cases stop with
        | none => simp only [Option.getD_none]; rw [if_neg (by omega)]; simp
        | some e =>
          simp only [Option.getD_some, Option.some.injEq, forall_eq']
          unfold bound
          split_ifs <;> omega
      rw [he]
      have hs : p < n → (if start.getD 0 < 0 then max (start.getD 0 + (n : Int)) 0 else min (start.getD 0) n) ≤ p →
          (if start.getD 0 < 0 then max (start.getD 0 + (n : Int)) 0 else min (start.getD 0) n) = max (bound n (start.getD 0)) 0 := by
        intro h1 h2
        unfold bound
        split_ifs at h2 ⊢ <;> omega
      have hs' : p < n → max (bound n (start.getD 0)) 0 ≤ p →
          (if start.getD 0 < 0 then max (start.getD 0 + (n : Int)) 0 else min (start.getD 0) n) = max (bound n (start.getD 0)) 0 := by
        unfold bound
        intro h1 h2
        split_ifs at h2 ⊢ <;> omega
      constructor
      · rintro ⟨h1, ⟨h2, h3⟩, h4⟩
        have h0 := hs h2 h1
        rw [h0] at h1 h4
        exact ⟨h2, h1, h3, h4⟩
      · rintro ⟨h2, h1, h3, h4⟩
        rw [hs' h2 h1]
        exact ⟨h1, ⟨h2, h3⟩, h4⟩
  · intro hneg
    unfold sliceIndices
    dsimp only
    rw [if_neg (by omega), if_neg (by omega)]
    generalize step.getD 1 = st at *
    have ha : (start.map fun x : Int => if x < 0 then max (x + n) (-1) else min x ((n : Int) - 1)).getD ((n : Int) - 1) =
        max (min (bound n (start.getD (n - 1))) (n - 1)) (-1) := by
      cases start with
      | none => simp only [Option.map_none, Option.getD_none, bound]; split_ifs <;> omega
      | some x => simp only [Option.map_some, Option.getD_some, bound]; split_ifs <;> omega
    have he : (stop.map fun x : Int => if x < 0 then max (x + n) (-1) else min x ((n : Int) - 1)).getD (-1) =
        (stop.map fun x : Int => max (min (bound n x) ((n : Int) - 1)) (-1)).getD (-1) := by
      cases stop with
      | none => rfl
      | some x => simp only [Option.map_some, Option.getD_some, bound]; split_ifs <;> omega
    rw [ha, he]
    clear ha he
    refine ⟨_, rfl, ?_, ?_⟩
    · apply range_map_pairwise
      intro i j hij hj
      have he : -1 ≤ (stop.map fun x : Int => max (min (bound n x) ((n : Int) - 1)) (-1)).getD (-1) := by
        cases stop with
        | none => exact le_rfl
        | some x => exact le_max_right _ _
      generalize (stop.map fun x : Int => max (min (bound n x) ((n : Int) - 1)) (-1)).getD (-1) = e at *
      generalize max (min (bound n (start.getD (n - 1))) ((n : Int) - 1)) (-1) = a at *
      have hst' : 0 < -st := by omega
      have : (j : Int) + 1 ≤ (a - e + -st - 1) / -st := by omega
      have h2 := (Int.le_ediv_iff_mul_le hst').1 this
      have h4 : e < a + st * (j : Int) := by nlinarith
      have h1 : st * (j : Int) < st * (i : Int) := by
        apply mul_lt_mul_of_neg_left _ hneg
        exact_mod_cast hij
      omega
    · intro p
      rw [down_mem _ _ st hneg]
      · have he : ((stop.map fun x : Int => max (min (bound n x) ((n : Int) - 1)) (-1)).getD (-1) < (p : Int)) ↔
            (p < n → ∀ e, stop = some e → bound n e < p) ∧ (n ≤ p → ∀ e, stop = some e → True) := by
          cases stop with
          | none => simp; omega
          | some x =>
            simp only [Option.map_some, Option.getD_some, Option.some.injEq, forall_eq', implies_true, and_true]
            omega
        rw [he]
        constructor
        · rintro ⟨h1, h2, h3⟩
          have hp : p < n := by omega
          have : max (min (bound n (start.getD (n - 1))) ((n : Int) - 1)) (-1) = min (bound n (start.getD (n - 1))) (n - 1) := by omega
          rw [this] at h1 h3
          exact ⟨hp, h1, h2.1 hp, h3⟩
        · rintro ⟨hp, h1, h2, h3⟩
          have : max (min (bound n (start.getD (n - 1))) ((n : Int) - 1)) (-1) = min (bound n (start.getD (n - 1))) (n - 1) := by omega
          rw [this]
          exact ⟨h1, ⟨fun _ => h2, fun _ _ _ => trivial⟩, h3⟩
      · cases stop with
        | none => exact le_rfl
        | some x => exact le_max_right _ _

/-- C98, C99: the window left by a crop: accepted exactly if at least one row and one column remain; it starts after the cropped rows and
columns and ends before the ones cropped at the other side. -/
theorem crop_box_spec (h w : ℕ) (c : Crop) :
    (∀ b, cropBox h w c = .ok b ↔ 1 ≤ b.h ∧ 1 ≤ b.w ∧ b.top = c.top ∧ b.top + b.h + c.bot = h ∧ b.left = c.left ∧ b.left + b.w + c.right = w) ∧
    (h < c.top + c.bot + 1 ∨ w < c.left + c.right + 1 → cropBox h w c = .error .valueError) := by
  constructor
  · intro b
    unfold cropBox
    split_ifs with hc
    · constructor
      · intro h; cases h
      · rintro ⟨h1, h2, h3, h4, h5, h6⟩; omega
    · rw [Except.ok.injEq]
      constructor
      · rintro rfl
        dsimp only
        omega
      · rintro ⟨h1, h2, h3, h4, h5, h6⟩
        obtain ⟨t, l, bh, bw⟩ := b
        dsimp only at *
        simp only [Box.mk.injEq]
        omega
  · intro hc
    unfold cropBox
    rw [if_pos]
    omega

theorem getIdx_ok {α : Type _} (l : List α) (p : ℕ) (h : p < l.length) : getIdx l p = .ok l[p] := by
  unfold getIdx
  rw [List.getElem?_eq_getElem h]

theorem getIdx_mapM {α : Type _} (files : List α) : ∀ l : List ℕ, (∀ p ∈ l, p < files.length) →
    l.mapM (fun p => getIdx files p) = (.ok (l.filterMap fun p => files[p]?) : Py (List α)) := by
  intro l
  induction l with
  | nil => intro _; rfl
  | cons p l ih =>
    intro h
    have hp := h p (List.mem_cons_self ..)
    rw [List.mapM_cons, getIdx_ok files p hp, ih fun q hq => h q (List.mem_cons_of_mem _ hq),
      List.filterMap_cons_some (List.getElem?_eq_getElem hp)]
    rfl

/-- C100: for a Python integer, a triple whose first component is an integer, and every slice that selects at least one image, indexing the
emulator gives what indexing the 3D array of the loaded images gives, errors included. -/
theorem emu_spec_partial {F α : Type _} (load : F → α) (files : List F) (ix : EmuIx α α) (hnp : ∀ i, ix ≠ .first (.npInt i))
    (hne : arrayGet (files.map load) ix ≠ .ok (.many [])) : emuGet load files ix = arrayGet (files.map load) ix := by
  have hone : ∀ (f : α → α) (i : Int), emuOne load files f i =
      (pyIndex (files.map load).length i).bind fun p => (getIdx (files.map load) p).map fun m => .one (f m) := by
    intro f i
    unfold emuOne
    rw [List.length_map]
    cases hp : pyIndex files.length i with
    | error e => rfl
    | ok p =>
      have hlt := (((pyIndex_spec files.length i).1 p).1 hp).1
      show (getIdx files p >>= _) = Except.map _ (getIdx (files.map load) p)
      rw [getIdx_ok files p hlt, getIdx_ok _ p (by rw [List.length_map]; exact hlt), List.getElem_map]
      rfl
  have hmany : ∀ (f : α → α) (a e s : Option Int),
      ((sliceIndices (files.map load).length a e s).map fun l => Got.many ((l.filterMap fun p => (files.map load)[p]?).map f)) ≠ .ok (.many []) →
      emuMany load files f a e s =
        ((sliceIndices (files.map load).length a e s).map fun l => Got.many ((l.filterMap fun p => (files.map load)[p]?).map f)) := by
    intro f a e s hx
    unfold emuMany
    rw [List.length_map] at hx ⊢
    cases hl : sliceIndices files.length a e s with
    | error e => rfl
    | ok l =>
      rw [hl] at hx
      have h1 : (l.filterMap fun p => (files.map load)[p]?) = (l.filterMap fun p => files[p]?).map load := by
        rw [List.map_filterMap]
        congr 1
        funext p
        rw [List.getElem?_map]
      simp only [Except.map, h1, List.map_map] at hx ⊢
      show (l.mapM (fun p => getIdx files p) >>= _) = _
      rw [getIdx_mapM files l (slice_indices_inside _ _ _ _ _ hl)]
      show (if (l.filterMap fun p => files[p]?).isEmpty = true then (.error .valueError : Py (Got α)) else _) = _
      rw [if_neg]
      · rfl
      · intro hc
        rw [List.isEmpty_iff] at hc
        rw [hc] at hx
        exact hx rfl
  cases ix with
  | first z =>
    cases z with
    | int i => exact hone id i
    | npInt i => exact absurd rfl (hnp i)
    | slice a e s =>
      have := hmany id a e s (by simpa [arrayGet] using hne)
      simpa [arrayGet, emuGet] using this
  | triple z yx =>
    cases z with
    | int i => exact hone yx i
    | npInt i => exact hone yx i
    | slice a e s => exact hmany yx a e s hne

/-- Non-vacuity: `emulator[-3:, …]` with step 2 and a negative index. -/
example : emuGet (fun x : ℕ => x * 10) [1, 2, 3, 4] (.triple (.slice (some (-3)) none (some 2)) (· + 1)) = .ok (.many [21, 41]) ∧
    emuGet (fun x : ℕ => x * 10) [1, 2, 3, 4] (.first (.int (-1))) = .ok (.one 40) ∧
    emuGet (fun x : ℕ => x * 10) [1, 2, 3, 4] (.first (.slice none none (some (-1)))) = .ok (.many [40, 30, 20, 10]) ∧
    emuGet (fun x : ℕ => x * 10) [1, 2, 3, 4] (.first (.int 4)) = .error .indexError := ⟨rfl, rfl, rfl, rfl⟩

/-- C100 refuted: whatever the files, an empty slice raises `ValueError` where the array gives an empty stack. -/
theorem emu_empty_slice_refuted {F α : Type _} (load : F → α) (files : List F) (k : ℕ) :
    emuGet load files (.first (.slice (some k) (some k) none)) = .error .valueError ∧
    arrayGet (files.map load) (.first (.slice (some k) (some k) none)) = .ok (.many []) := by
  have h : ∀ n : ℕ, sliceIndices n (some k) (some k) none = .ok [] := by
    intro n
    unfold sliceIndices
    simp
  constructor
  · show emuMany load files id _ _ _ = _
    unfold emuMany
    rw [h]
    rfl
  · simp only [arrayGet]
    rw [h]
    rfl

/-- C100 refuted: a numpy integer index raises `TypeError` where the array returns the image. -/
theorem emu_numpy_index_refuted {F α : Type _} (load : F → α) (files : List F) (p : ℕ) (hp : p < files.length) :
    emuGet load files (.first (.npInt p)) = .error .typeError ∧
    arrayGet (files.map load) (.first (.npInt p)) = .ok (.one (load files[p])) := by
  refine ⟨rfl, ?_⟩
  show (pyIndex (files.map load).length p).bind _ = _
  have : pyIndex (files.map load).length p = .ok p := ((pyIndex_spec _ _).1 p).2 ⟨by rw [List.length_map]; exact hp, Or.inl rfl⟩
  rw [this]
  show (getIdx _ p).map _ = _
  rw [getIdx_ok _ p (by rw [List.length_map]; exact hp), List.getElem_map]
  rfl

/-- C100 refuted: a folder that holds only files named "*.TIF" is not found, although the second search is there for it; a folder with
"*tif*" files is accepted with exactly those. -/
theorem emu_init_spec (lower upper : List (List Char)) :
    (lower ≠ [] → emuInit lower upper = .ok lower) ∧ (emuInit [] upper = .error .fileNotFound) := by
  refine ⟨fun h => ?_, rfl⟩
  cases lower with
  | nil => exact absurd rfl h
  | cons a l => rfl

end Verif.Stacks
