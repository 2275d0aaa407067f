import Verif.Model.Sorting
import Mathlib.Data.List.Sort
import Mathlib.Data.List.Range
import Mathlib.Order.Basic
import Mathlib.Data.List.Pairwise
import Mathlib.Tactic.NormNum

/-! C05, C06 — sorting round trip and sorting-based stripe removal. -/

set_option linter.unusedSectionVars false
set_option linter.unusedSimpArgs false

namespace Verif.Sorting

variable {K : Type _} [LinearOrder K] [Inhabited K]

/-! ### Lemmas -/

theorem zip_range_getD (l : List K) (i : Nat) (hi : i < l.length) :
    ((List.range l.length).zip l).getD i default = (i, l.getD i default) := by
  simp [List.getD, List.getElem?_zip_eq_some, hi]

theorem forward_fst {as : List K → List Nat} {l : List K} (h : IsArgsort l (as l)) :
    (sortForwardLine as l).1 = (as l).map fun i => l.getD i default := by
  have hs : ((List.range l.length).zip l).map Prod.snd = l := by
    rw [List.map_snd_zip]; simp
  simp only [sortForwardLine, hs, List.map_map]
  apply List.map_congr_left
  intro i hi
  have : i < l.length := List.mem_range.mp (h.1.mem_iff.mp hi)
  simp only [Function.comp, zip_range_getD l i this]

theorem forward_snd {as : List K → List Nat} {l : List K} (h : IsArgsort l (as l)) :
    (sortForwardLine as l).2 = as l := by
  have hs : ((List.range l.length).zip l).map Prod.snd = l := by
    rw [List.map_snd_zip]; simp
  simp only [sortForwardLine, hs, List.map_map]
  conv_rhs => rw [← List.map_id (as l)]
  apply List.map_congr_left
  intro i hi
  have : i < l.length := List.mem_range.mp (h.1.mem_iff.mp hi)
  simp only [Function.comp, zip_range_getD l i this, id]

/-- Sorting a permutation of `0..n-1` gives `0..n-1`: entry `i` of the result of `argsort idx` is the
position of `i` in `idx`. -/
theorem argsort_perm {idx pos : List Nat} {n : Nat} (hidx : idx.Perm (List.range n))
    (hp : IsArgsort idx pos) (i : Nat) (hi : i < n) :
    idx.getD (pos.getD i 0) default = i := by
  have hlen : idx.length = n := by simpa using hidx.length_eq
  have hplen : pos.length = n := by rw [hp.1.length_eq]; simp [hlen]
  have hmp : (pos.map fun k => idx.getD k default).Perm idx := by
    have h1 : (pos.map fun k => idx.getD k default).Perm
        ((List.range idx.length).map fun k => idx.getD k default) := hp.1.map _
    refine h1.trans ?_
    have : (List.range idx.length).map (fun k => idx.getD k default) = idx := by
      apply List.ext_getElem
      · simp
      · intro k h1 h2; simp [List.getD, h2]
    rw [this]
  have heq : (pos.map fun k => idx.getD k default) = List.range n := by
    have hs : (pos.map fun k => idx.getD k default).Pairwise (· ≤ ·) := hp.2
    have hr : (List.range n).Pairwise (· ≤ ·) :=
      (List.pairwise_lt_range (n := n)).imp (fun h => Nat.le_of_lt h)
    exact List.Perm.eq_of_pairwise (le := (· ≤ ·)) (fun a b _ _ h1 h2 => Nat.le_antisymm h1 h2)
      hs hr (hmp.trans hidx)
  have h2 := congrArg (fun l => l.getD i 0) heq
  rw [List.getD_eq_getElem?_getD, List.getElem?_map, List.getD_eq_getElem?_getD,
    List.getElem?_range hi] at h2
  have hip : i < pos.length := by omega
  rw [List.getElem?_eq_getElem hip] at h2
  rw [List.getD_eq_getElem?_getD (l := pos), List.getElem?_eq_getElem hip]
  simpa using h2

theorem backward_getD {as : List Nat → List Nat} {m : List K} {idx : List Nat} {n : Nat}
    (hidx : idx.Perm (List.range n)) (hm : m.length = n) (h : IsArgsort idx (as idx)) (i : Nat)
    (hi : i < n) :
    (sortBackwardLine as m idx).getD i default = m.getD ((as idx).getD i 0) default := by
  have hlen : idx.length = n := by simpa using hidx.length_eq
  have hfst : (idx.zip m).map Prod.fst = idx := by
    rw [List.map_fst_zip]; omega
  have hplen : (as idx).length = n := by rw [h.1.length_eq]; simp [hlen]
  simp only [sortBackwardLine, hfst, List.map_map]
  rw [List.getD_eq_getElem?_getD, List.getElem?_map, List.getElem?_eq_getElem (by omega)]
  have hb : (as idx)[i]'(by omega) < n := by
    have := h.1.mem_iff.mp (List.getElem_mem (l := as idx) (n := i) (by omega))
    exact (List.mem_range.mp this).trans_eq hlen
  rw [List.getD_eq_getElem?_getD (l := as idx), List.getElem?_eq_getElem (by omega)]
  simp only [Option.map_some, Option.getD_some, Function.comp]
  rw [List.getD_eq_getElem?_getD, List.getElem?_eq_getElem (by simp; omega), List.getElem_zip]
  simp [List.getD_eq_getElem?_getD, List.getElem?_eq_getElem (l := m) (i := (as idx)[i]'(by omega)) (by omega)]

theorem line_length (m : Mat K) (r : Nat) : (line m r).length = m.w := by simp [line]

theorem line_getD (m : Mat K) (r j : Nat) (hj : j < m.w) : (line m r).getD j default = m.get r j := by
  simp [line, List.getD, hj]

/-- Core statement on lines: with `m` any array (of the same shape) put through
`sort_backward` using the index of `sort_forward`, there is for each line a permutation `ρ` of
positions with `sorted[ρ j] = original[j]` and `result[j] = m[ρ j]`. -/
theorem line_core (as1 : Argsort K) (as2 : Argsort Nat) (r : Nat) (l m : List K) (n : Nat)
    (hl : l.length = n) (hm : m.length = n) :
    ∃ ρ : Nat → Nat, (∀ j < n, ρ j < n) ∧ (∀ j < n, ∀ j' < n, ρ j = ρ j' → j = j') ∧
      (∀ j < n, (sortForwardLine (as1.run r) l).1.getD (ρ j) default = l.getD j default) ∧
      (∀ j < n, (sortBackwardLine (as2.run r) m (sortForwardLine (as1.run r) l).2).getD j default
        = m.getD (ρ j) default) := by
  have h1 := as1.spec r l
  rw [forward_snd h1, forward_fst h1]
  have hidx : (as1.run r l).Perm (List.range n) := by rw [← hl]; exact h1.1
  have hlen : (as1.run r l).length = n := by simpa using hidx.length_eq
  have h2 := as2.spec r (as1.run r l)
  have hplen : (as2.run r (as1.run r l)).length = n := by rw [h2.1.length_eq]; simp [hlen]
  have hlt : ∀ j < n, (as2.run r (as1.run r l)).getD j 0 < n := by
    intro j hj
    have hj' : j < (as2.run r (as1.run r l)).length := by omega
    have hb := h2.1.mem_iff.mp (List.getElem_mem hj')
    rw [List.getD_eq_getElem?_getD, List.getElem?_eq_getElem hj']
    rw [← hlen]; exact List.mem_range.mp hb
  have hinv := fun j hj => argsort_perm hidx h2 j hj
  refine ⟨fun j => (as2.run r (as1.run r l)).getD j 0, hlt, ?_, ?_, ?_⟩
  · intro j hj j' hj' he
    have a := hinv j hj
    have b := hinv j' hj'
    simp only at he
    rw [he] at a
    exact a.symm.trans b
  · intro j hj
    have := hinv j hj
    have hk := hlt j hj
    dsimp only
    rw [List.getD_eq_getElem?_getD, List.getElem?_map, List.getElem?_eq_getElem (by omega)]
    rw [List.getD_eq_getElem?_getD, List.getElem?_eq_getElem (by omega)] at this
    simp only [Option.getD_some, Option.map_some] at this ⊢
    rw [this]
  · intro j hj
    exact backward_getD hidx hm h2 j hj

theorem forward_line_sorted (as1 : Argsort K) (r : Nat) (l : List K) :
    (sortForwardLine (as1.run r) l).1.Pairwise (· ≤ ·) ∧
    (sortForwardLine (as1.run r) l).1.Perm l := by
  have h1 := as1.spec r l
  rw [forward_fst h1]
  refine ⟨h1.2, (h1.1.map _).trans ?_⟩
  have : (List.range l.length).map (fun k => l.getD k default) = l := by
    apply List.ext_getElem
    · simp
    · intro k h1 h2; simp [List.getD, h2]
  rw [this]

theorem map_range_getD (l : List K) (n : Nat) (h : l.length = n) :
    (List.range n).map (fun j => l.getD j default) = l := by
  subst h
  apply List.ext_getElem
  · simp
  · intro k h1 h2; simp [List.getD, h2]

theorem map_range_getD0 (l : List Nat) (n : Nat) (h : l.length = n) :
    (List.range n).map (fun j => l.getD j 0) = l := by
  subst h
  apply List.ext_getElem
  · simp
  · intro k h1 h2; simp [List.getD, h2]

theorem forward_len (as1 : Argsort K) (r : Nat) (l : List K) :
    (sortForwardLine (as1.run r) l).1.length = l.length ∧
    (sortForwardLine (as1.run r) l).2.length = l.length := by
  constructor
  · exact (forward_line_sorted as1 r l).2.length_eq
  · rw [forward_snd (as1.spec r l)]; simpa using (as1.spec r l).1.length_eq

/-- 2D version along axis 1 (lines = rows). -/
theorem mat_core (as1 : Argsort K) (as2 : Argsort Nat) (m f : Mat K) (hfw : f.w = m.w)
    (r : Nat) :
    ∃ ρ : Nat → Nat, (∀ j < m.w, ρ j < m.w) ∧ (∀ j < m.w, ∀ j' < m.w, ρ j = ρ j' → j = j') ∧
      (∀ j < m.w, (sortForward as1 1 m).1.get r (ρ j) = m.get r j) ∧
      (∀ j < m.w, (sortBackward as2 1 f (sortForward as1 1 m).2).get r j = f.get r (ρ j)) := by
  obtain ⟨ρ, h1, h2, h3, h4⟩ := line_core as1 as2 r (line m r) (line f r) m.w (line_length m r)
    (by rw [line_length, hfw])
  refine ⟨ρ, h1, h2, ?_, ?_⟩
  · intro j hj
    have := h3 j hj
    rw [line_getD m r j hj] at this
    simpa [sortForward] using this
  · intro j hj
    have := h4 j hj
    rw [line_getD f r _ (by rw [hfw]; exact h1 j hj)] at this
    simp only [sortBackward, sortForward, show ¬ (1 = 0) by decide, if_false]
    rw [map_range_getD0 _ m.w (by rw [(forward_len as1 r _).2, line_length])]
    exact this

theorem mat_core0 (as1 : Argsort K) (as2 : Argsort Nat) (m f : Mat K) (hfh : f.h = m.h)
    (c : Nat) :
    ∃ ρ : Nat → Nat, (∀ i < m.h, ρ i < m.h) ∧ (∀ i < m.h, ∀ i' < m.h, ρ i = ρ i' → i = i') ∧
      (∀ i < m.h, (sortForward as1 0 m).1.get (ρ i) c = m.get i c) ∧
      (∀ i < m.h, (sortBackward as2 0 f (sortForward as1 0 m).2).get i c = f.get (ρ i) c) :=
  mat_core as1 as2 m.T f.T hfh c

/-! ### C05 -/

/-- C05.  Round trip: for either axis and whatever (tie-breaking) sort is used in the two
directions, `sort_backward(*sort_forward(mat, axis), axis)` is `mat`. -/
theorem sort_backward_forward (as1 : Argsort K) (as2 : Argsort Nat) (axis : Nat) (mat : Mat K) :
    (sortBackward as2 axis (sortForward as1 axis mat).1 (sortForward as1 axis mat).2).Eqv mat := by
  by_cases hax : axis = 0
  · subst hax
    refine ⟨rfl, rfl, ?_⟩
    intro i hi c _
    obtain ⟨ρ, _, _, h3, h4⟩ := mat_core0 as1 as2 mat (sortForward as1 0 mat).1 rfl c
    rw [h4 i hi, h3 i hi]
  · have e1 : sortForward as1 axis mat = sortForward as1 1 mat := by simp [sortForward, hax]
    have e2 : ∀ (f : Mat K) x, sortBackward as2 axis f x = sortBackward as2 1 f x := by
      intro f x; simp [sortBackward, hax]
    rw [e1, e2]
    refine ⟨rfl, rfl, ?_⟩
    intro r _ j hj
    obtain ⟨ρ, _, _, h3, h4⟩ := mat_core as1 as2 mat (sortForward as1 1 mat).1 rfl r
    rw [h4 j hj, h3 j hj]

/-- C05.  The first output of `sort_forward` has the input's shape and each line along the axis is a
non-decreasing rearrangement of the input line. -/
theorem sort_forward_sorted (as1 : Argsort K) (mat : Mat K) :
    ((sortForward as1 0 mat).1.h = mat.h ∧ (sortForward as1 0 mat).1.w = mat.w ∧
      ∀ c, (line (sortForward as1 0 mat).1.T c).Pairwise (· ≤ ·) ∧
        (line (sortForward as1 0 mat).1.T c).Perm (line mat.T c)) ∧
    ((sortForward as1 1 mat).1.h = mat.h ∧ (sortForward as1 1 mat).1.w = mat.w ∧
      ∀ r, (line (sortForward as1 1 mat).1 r).Pairwise (· ≤ ·) ∧
        (line (sortForward as1 1 mat).1 r).Perm (line mat r)) := by
  have key : ∀ (m : Mat K) r, line (sortForward as1 1 m).1 r = (sortForwardLine (as1.run r) (line m r)).1 := by
    intro m r
    simp only [line, sortForward, show ¬ (1 = 0) by decide, if_false]
    exact map_range_getD _ m.w (by rw [(forward_len as1 r _).1]; simp)
  refine ⟨⟨rfl, rfl, fun c => ?_⟩, ⟨rfl, rfl, fun r => ?_⟩⟩
  · have : line (sortForward as1 0 mat).1.T c = line (sortForward as1 1 mat.T).1 c := rfl
    rw [this, key mat.T c]; exact forward_line_sorted as1 c _
  · rw [key mat r]; exact forward_line_sorted as1 r _

/-- An argsort exists (stable merge sort of positions), so the structures used above are inhabited. -/
theorem argsort_exists {A : Type _} [LinearOrder A] [Inhabited A] : Nonempty (Argsort A) := by
  refine ⟨⟨fun _ keys => (List.range keys.length).mergeSort
    (fun a b => decide (keys.getD a default ≤ keys.getD b default)), ?_⟩⟩
  intro r keys
  refine ⟨List.mergeSort_perm _ _, ?_⟩
  rw [List.pairwise_map]
  have := List.pairwise_mergeSort (le := fun a b => decide (keys.getD a default ≤ keys.getD b default))
    (by intro a b c h1 h2; simp only [decide_eq_true_eq] at *; exact le_trans h1 h2)
    (by intro a b; simp only [Bool.or_eq_true, decide_eq_true_eq]; exact le_total _ _)
    (List.range keys.length)
  exact this.imp (fun h => by simpa using h)

/-- Non-vacuity with ties: two different results are admissible for the keys `[5, 1, 5]`. -/
example : IsArgsort [5, 1, 5] [1, 0, 2] ∧ IsArgsort [5, 1, 5] [1, 2, 0] := by
  constructor <;> (unfold IsArgsort; decide)

/-! ### C06 -/

/-- C06.  Sorting-based stripe removal with any shape-preserving smoothing step: in every column
there is a one-to-one relabelling `ρ` of rows (the rank) such that the sorted column at rank `ρ i` is the
original value of row `i`, the sorted column is non-decreasing, and the corrected value of row `i`
is the *smoothed* sorted value of that same rank. -/
theorem stripe_sorting_ranks (as1 : Argsort K) (as2 : Argsort Nat) (filt : Mat K → Mat K)
    (hshape : ∀ m, (filt m).h = m.h) (sino : Mat K) (c : Nat) :
    ∃ (ρ : Nat → Nat) (sorted : Mat K), sorted.h = sino.h ∧ sorted.w = sino.w ∧
      (∀ i < sino.h, ρ i < sino.h) ∧ (∀ i < sino.h, ∀ i' < sino.h, ρ i = ρ i' → i = i') ∧
      (∀ i i', i ≤ i' → i' < sino.h → sorted.get i c ≤ sorted.get i' c) ∧
      (∀ i < sino.h, sorted.get (ρ i) c = sino.get i c) ∧
      (∀ i < sino.h, (removeStripeSorting as1 as2 filt sino).get i c = (filt sorted).get (ρ i) c) := by
  obtain ⟨ρ, h1, h2, h3, h4⟩ := mat_core0 as1 as2 sino (filt (sortForward as1 0 sino).1)
    (by rw [hshape]; rfl) c
  refine ⟨ρ, (sortForward as1 0 sino).1, rfl, rfl, h1, h2, ?_, h3, h4⟩
  intro i i' hii hi'
  have hs := ((sort_forward_sorted as1 sino).1.2.2 c).1
  have hg : ∀ k < sino.h, (line (sortForward as1 0 sino).1.T c)[k]? =
      some ((sortForward as1 0 sino).1.get k c) := by
    intro k hk
    simp only [line, List.getElem?_map]
    rw [List.getElem?_range (show k < (sortForward as1 0 sino).1.T.w from hk)]
    rfl
  rcases Nat.lt_or_eq_of_le hii with h | h
  · have := List.pairwise_iff_getElem.mp hs i i'
      (by simp only [line_length]; exact Nat.lt_trans h hi') (by simp only [line_length]; exact hi') h
    have e1 := hg i (Nat.lt_trans h hi')
    have e2 := hg i' hi'
    rw [List.getElem?_eq_getElem (by simp only [line_length]; exact Nat.lt_trans h hi')] at e1
    rw [List.getElem?_eq_getElem (by simp only [line_length]; exact hi')] at e2
    rw [Option.some.inj e1, Option.some.inj e2] at this
    exact this
  · rw [h]

/-- C06.  If the smoothing leaves the sorted sinogram unchanged, the sinogram is returned
unchanged. -/
theorem stripe_sorting_identity (as1 : Argsort K) (as2 : Argsort Nat) (filt : Mat K → Mat K)
    (sino : Mat K) (hfix : (filt (sortForward as1 0 sino).1).Eqv (sortForward as1 0 sino).1) :
    ∀ i < sino.h, ∀ c < sino.w, (removeStripeSorting as1 as2 filt sino).get i c = sino.get i c := by
  intro i hi c hc
  obtain ⟨ρ, h1, _, h3, h4⟩ := mat_core0 as1 as2 sino (filt (sortForward as1 0 sino).1)
    (by rw [hfix.1]; rfl) c
  have hh : (filt (sortForward as1 0 sino).1).h = sino.h := hfix.1
  have hw : (filt (sortForward as1 0 sino).1).w = sino.w := hfix.2.1
  unfold removeStripeSorting
  rw [h4 i hi, hfix.2.2 (ρ i) (by rw [hh]; exact h1 i hi) c (by rw [hw]; exact hc), h3 i hi]

/-! #### the median filter -/

theorem mergeSort_getD_le_iff (l : List K) (k : Nat) (hk : k < l.length) (x : K) :
    (l.mergeSort (· ≤ ·)).getD k default ≤ x ↔ k < l.countP (· ≤ x) := by
  have hs : (l.mergeSort (· ≤ ·)).Pairwise (· ≤ ·) := by
    have := List.pairwise_mergeSort (le := fun a b : K => decide (a ≤ b))
      (by intro a b c h1 h2; simp only [decide_eq_true_eq] at *; exact le_trans h1 h2)
      (by intro a b; simp only [Bool.or_eq_true, decide_eq_true_eq]; exact le_total _ _) l
    exact this.imp (fun h => by simpa using h)
  have hp : (l.mergeSort (· ≤ ·)).Perm l := List.mergeSort_perm l _
  rw [← hp.countP_eq]
  have hk' : k < (l.mergeSort (· ≤ ·)).length := by rw [hp.length_eq]; exact hk
  generalize l.mergeSort (· ≤ ·) = s at hs hk'
  clear hp hk
  induction s generalizing k with
  | nil => simp at hk'
  | cons a s ih =>
    rw [List.pairwise_cons] at hs
    cases k with
    | zero =>
      simp only [List.getD_cons_zero]
      constructor
      · intro h
        simp [List.countP_cons, h]
      · intro h
        rw [List.countP_pos_iff] at h
        obtain ⟨b, hb, hbx⟩ := h
        simp only [decide_eq_true_eq] at hbx
        rcases List.mem_cons.mp hb with rfl | hb
        · exact hbx
        · exact (hs.1 b hb).trans hbx
    | succ k =>
      simp only [List.length_cons] at hk'
      simp only [List.getD_cons_succ]
      have h9 := ih k hs.2 (by omega)
      rw [List.countP_cons]
      refine h9.trans ?_
      constructor
      · intro h
        have : a ≤ x := by
          have : 0 < List.countP (fun y => decide (y ≤ x)) s := by omega
          rw [List.countP_pos_iff] at this
          obtain ⟨b, hb, hbx⟩ := this
          simp only [decide_eq_true_eq] at hbx
          exact (hs.1 b hb).trans hbx
        simp [this]; omega
      · intro h
        split at h <;> omega

theorem orderStat_mono (n k : Nat) (hk : k < n) (f g : Nat → K) (h : ∀ i < n, f i ≤ g i) :
    (((List.range n).map f).mergeSort (· ≤ ·)).getD k default
      ≤ (((List.range n).map g).mergeSort (· ≤ ·)).getD k default := by
  rw [mergeSort_getD_le_iff _ _ (by simpa using hk)]
  have h1 := (mergeSort_getD_le_iff ((List.range n).map g) k (by simpa using hk)
    ((((List.range n).map g).mergeSort (· ≤ ·)).getD k default)).mp le_rfl
  refine lt_of_lt_of_le h1 ?_
  rw [List.countP_map, List.countP_map]
  apply List.countP_mono_left
  intro i hi hgi
  simp only [Function.comp, decide_eq_true_eq] at hgi ⊢
  exact (h i (List.mem_range.mp hi)).trans hgi

theorem reflectIdx_lt (n : Nat) (i : Int) (hn : 0 < n) : reflectIdx n i < n := by
  unfold reflectIdx
  have h0 : (0 : Int) ≤ i % (2 * n : Int) := Int.emod_nonneg _ (by omega)
  have h1 : i % (2 * n : Int) < 2 * n := Int.emod_lt_of_pos _ (by omega)
  dsimp only
  split <;> omega

/-- The horizontal median filter picks, for each pixel, a value of the same row. -/
theorem medianFilterRow_mem (size : Nat) (hs : 0 < size) (m : Mat K) (i j : Nat) (hj : j < m.w) :
    ∃ j' < m.w, (medianFilterRow size m).get i j = m.get i j' := by
  have hlen : (((List.range size).map fun (k : Nat) =>
      m.get i (reflectIdx m.w ((j : Int) - ((size / 2 : Nat) : Int) + (k : Int)))).mergeSort
        (· ≤ ·)).length = size := by
    rw [(List.mergeSort_perm _ _).length_eq]; simp
  have hk : size / 2 < size := by omega
  have hmem := List.getElem_mem (l := ((List.range size).map fun (k : Nat) =>
      m.get i (reflectIdx m.w ((j : Int) - ((size / 2 : Nat) : Int) + (k : Int)))).mergeSort
        (· ≤ ·)) (n := size / 2) (by omega)
  rw [(List.mergeSort_perm _ _).mem_iff] at hmem
  obtain ⟨k, _, hk2⟩ := List.mem_map.mp hmem
  refine ⟨reflectIdx m.w ((j : Int) - ((size / 2 : Nat) : Int) + (k : Int)),
    reflectIdx_lt m.w _ (by omega), ?_⟩
  · rw [hk2]
    simp only [medianFilterRow]
    rw [List.getD_eq_getElem?_getD, List.getElem?_eq_getElem (by omega)]
    rfl

/-- C06.  If all columns of the sinogram hold the same multiset of values (a stripe-free sinogram in
the sense of the algorithm), sorting-based removal with the default horizontal median filter of any
size returns it unchanged. -/
theorem stripe_sorting_fixes_stripe_free (as1 : Argsort K) (as2 : Argsort Nat) (size : Nat)
    (hs : 0 < size) (sino : Mat K)
    (hfree : ∀ c < sino.w, ∀ c' < sino.w, (line sino.T c).Perm (line sino.T c')) :
    ∀ i < sino.h, ∀ c < sino.w,
      (removeStripeSorting as1 as2 (medianFilterRow size) sino).get i c = sino.get i c := by
  apply stripe_sorting_identity
  refine ⟨rfl, rfl, ?_⟩
  intro i hi c hc
  obtain ⟨c', hc', he⟩ := medianFilterRow_mem size hs (sortForward as1 0 sino).1 i c hc
  rw [he]
  have hw : (sortForward as1 0 sino).1.w = sino.w := rfl
  have hh : (sortForward as1 0 sino).1.h = sino.h := rfl
  have hs0 := (sort_forward_sorted as1 sino).1.2.2
  have hperm : (line (sortForward as1 0 sino).1.T c').Perm (line (sortForward as1 0 sino).1.T c) :=
    (hs0 c').2.trans ((hfree c' hc' c hc).trans (hs0 c).2.symm)
  have heq : line (sortForward as1 0 sino).1.T c' = line (sortForward as1 0 sino).1.T c :=
    List.Perm.eq_of_pairwise (le := (· ≤ ·)) (fun a b _ _ h1 h2 => le_antisymm h1 h2) (hs0 c').1 (hs0 c).1 hperm
  have hg : ∀ d, (line (sortForward as1 0 sino).1.T d).getD i default =
      (sortForward as1 0 sino).1.get i d := fun d => line_getD (sortForward as1 0 sino).1.T d i hi
  rw [← hg c', ← hg c, heq]

/-- C06.  The default horizontal median filter never reverses the order of two pixels of a column:
if `sino[i, c] < sino[i', c]` then the corrected values satisfy `≤`. -/
theorem stripe_sorting_preserves_order (as1 : Argsort K) (as2 : Argsort Nat) (size : Nat)
    (hs : 0 < size) (sino : Mat K) (c : Nat) (hc : c < sino.w) (i i' : Nat) (hi : i < sino.h)
    (hi' : i' < sino.h) (hlt : sino.get i c < sino.get i' c) :
    (removeStripeSorting as1 as2 (medianFilterRow size) sino).get i c
      ≤ (removeStripeSorting as1 as2 (medianFilterRow size) sino).get i' c := by
  obtain ⟨ρ, h1, _, h3, h4⟩ := mat_core0 as1 as2 sino
    (medianFilterRow size (sortForward as1 0 sino).1) rfl c
  unfold removeStripeSorting
  rw [h4 i hi, h4 i' hi']
  have hmono : ∀ d a b, a ≤ b → b < sino.h →
      (sortForward as1 0 sino).1.get a d ≤ (sortForward as1 0 sino).1.get b d := by
    intro d a b hab hb
    have hs0 := ((sort_forward_sorted as1 sino).1.2.2 d).1
    rcases Nat.lt_or_eq_of_le hab with h | h
    · have := List.pairwise_iff_getElem.mp hs0 a b
        (by simp only [line_length]; exact Nat.lt_trans h hb) (by simp only [line_length]; exact hb) h
      simpa [line, Mat.T] using this
    · rw [h]
  have hρ : ρ i ≤ ρ i' := by
    by_contra hcon
    have := hmono c (ρ i') (ρ i) (by omega) (h1 i hi)
    rw [h3 i hi, h3 i' hi'] at this
    exact absurd hlt (not_lt.mpr this)
  simp only [medianFilterRow]
  apply orderStat_mono size (size / 2) (by omega)
  intro k _
  exact hmono _ _ _ hρ (h1 i' hi')

/-- Non-vacuity: a 2×2 sinogram whose columns hold the same values in different order meets the
hypothesis of `stripe_sorting_fixes_stripe_free`. -/
example : ∀ c < 2, ∀ c' < 2, (line (Mat.T ⟨2, 2, fun i j => if i = j then (7 : Int) else 3⟩) c).Perm
    (line (Mat.T ⟨2, 2, fun i j => if i = j then (7 : Int) else 3⟩) c') := by decide

end Verif.Sorting
