import Verif.Model.Locate
import Verif.Props.Post
import Mathlib.Tactic.Linarith
import Mathlib.Tactic.Ring
import Mathlib.Tactic.FieldSimp
import Mathlib.Tactic.NormNum
import Mathlib.Tactic.Push
import Mathlib.Tactic.LinearCombination
import Mathlib.Data.List.Nodup
import Mathlib.Data.List.Perm.Basic

/-!
C56: `locate_slice` and `locate_slice_chunk`.
-/

set_option linter.unusedSectionVars false
set_option linter.unusedSimpArgs false

namespace Verif.Locate

/-! ### Specification -/

/-- Row `p` of the scans in grid row `i` shows slice `idx` of the whole sample: `i` scans of height `h` come before, of
which consecutive ones share `ov` rows; inside a scan the slices are numbered upwards (`up`) or downwards. -/
def Shows (up : Bool) (h : ℕ) (ov : List ℕ) (i p : ℕ) (idx : ℤ) : Prop :=
  p < h ∧ idx + ((ov.take i).sum : ℕ) = (i : ℤ) * h + (if up then (p : ℤ) else (h : ℤ) - 1 - p)

/-- Height of the stitched data. -/
def total (h : ℕ) (ov : List ℕ) : ℤ := (ov.length + 1) * h - (ov.sum : ℕ)

/-! ### Positions -/

theorem rowStart_succ (h : ℕ) (ov : List ℕ) (i : ℕ) : rowStart h ov (i + 1) = rowStart h ov i + h - (ov.getD i 0 : ℕ) := by
  unfold rowStart
  have e : (ov.take (i + 1)).sum = (ov.take i).sum + ov.getD i 0 := by
    by_cases hi : i < ov.length
    · rw [List.take_succ_eq_append_getElem hi, List.sum_append]
      simp [List.getD_eq_getElem, hi]
    · rw [List.take_of_length_le (by omega), List.take_of_length_le (by omega), List.getD_eq_default _ _ (by omega)]
      rfl
  rw [e]
  push_cast
  ring

theorem rowStart_zero (h : ℕ) (ov : List ℕ) : rowStart h ov 0 = 0 := by simp [rowStart]

theorem rowStart_last (h : ℕ) (ov : List ℕ) : rowStart h ov ov.length + h = total h ov := by
  unfold rowStart total
  rw [List.take_length]
  ring

theorem listSlice_iff (up : Bool) (h : ℕ) (ov : List ℕ) (i p : ℕ) (idx : ℤ) :
    (p < h ∧ listSlice up h ov i p = idx) ↔ Shows up h ov i p idx := by
  unfold Shows listSlice rowStart
  cases up <;> simp only [if_true, if_false, Bool.false_eq_true] <;> constructor <;> rintro ⟨h1, h2⟩ <;> exact ⟨h1, by omega⟩

theorem Shows.unique {up : Bool} {h : ℕ} {ov : List ℕ} {i p q : ℕ} {idx : ℤ} (hp : Shows up h ov i p idx)
    (hq : Shows up h ov i q idx) : p = q := by
  obtain ⟨_, h1⟩ := hp
  obtain ⟨_, h2⟩ := hq
  cases up <;> simp only [if_true, if_false, Bool.false_eq_true] at h1 h2 <;> omega

theorem locatePos_iff (up : Bool) (h : ℕ) (ov : List ℕ) (i p : ℕ) (idx : ℤ) :
    locatePos up h ov i idx = some p ↔ Shows up h ov i p idx := by
  unfold locatePos
  have hm : ∀ q, q ∈ (List.range h).filter (fun p => decide (listSlice up h ov i p = idx)) ↔ Shows up h ov i q idx := by
    intro q
    rw [List.mem_filter, List.mem_range, decide_eq_true_iff, listSlice_iff]
  have hnd : ((List.range h).filter (fun p => decide (listSlice up h ov i p = idx))).Nodup := List.Nodup.filter _ List.nodup_range
  generalize (List.range h).filter (fun p => decide (listSlice up h ov i p = idx)) = l at hm hnd
  match l, hm, hnd with
  | [], hm, _ => simp only [reduceCtorEq, false_iff, ← hm]; simp
  | [a], hm, _ =>
    simp only [Option.some.injEq, ← hm, List.mem_singleton]
    exact eq_comm
  | a :: b :: l, hm, hnd =>
    exfalso
    have : a = b := ((hm a).1 (by simp)).unique ((hm b).1 (by simp))
    simp [this] at hnd

theorem shows_iff_range (up : Bool) (h : ℕ) (ov : List ℕ) (i : ℕ) (idx : ℤ) :
    (∃ p, Shows up h ov i p idx) ↔ rowStart h ov i ≤ idx ∧ idx < rowStart h ov i + h := by
  constructor
  · rintro ⟨p, hp⟩
    obtain ⟨h1, h2⟩ := (listSlice_iff ..).2 hp
    unfold listSlice at h2
    cases up <;> simp only [if_true, if_false, Bool.false_eq_true] at h2 <;> omega
  · rintro ⟨h1, h2⟩
    cases up
    · refine ⟨(rowStart h ov i + h - 1 - idx).toNat, (listSlice_iff ..).1 ⟨by omega, ?_⟩⟩
      unfold listSlice
      simp only [Bool.false_eq_true, if_false]
      omega
    · refine ⟨(idx - rowStart h ov i).toNat, (listSlice_iff ..).1 ⟨by omega, ?_⟩⟩
      unfold listSlice
      simp only [if_true]
      omega

theorem mem_rowsFound (up : Bool) (h : ℕ) (ov : List ℕ) (idx : ℤ) (i p : ℕ) :
    (i, p) ∈ rowsFound up h ov idx ↔ i ≤ ov.length ∧ Shows up h ov i p idx := by
  unfold rowsFound
  rw [List.mem_filterMap]
  constructor
  · rintro ⟨k, hk, e⟩
    rw [Option.map_eq_some_iff] at e
    obtain ⟨q, hq, e⟩ := e
    injection e with e1 e2
    subst e1 e2
    rw [List.mem_range] at hk
    exact ⟨by omega, (locatePos_iff ..).1 hq⟩
  · rintro ⟨h1, h2⟩
    exact ⟨i, List.mem_range.2 (by omega), by rw [(locatePos_iff ..).2 h2]; rfl⟩

theorem rowsFound_sorted (up : Bool) (h : ℕ) (ov : List ℕ) (idx : ℤ) :
    (rowsFound up h ov idx).Pairwise (fun a b => a.1 < b.1) := by
  unfold rowsFound
  rw [List.pairwise_filterMap]
  refine (List.pairwise_lt_range (n := ov.length + 1)).imp ?_
  intro a b hab x hx y hy
  rw [Option.map_eq_some_iff] at hx hy
  obtain ⟨p, _, rfl⟩ := hx
  obtain ⟨q, _, rfl⟩ := hy
  exact hab

theorem setWeights_fst (up : Bool) (h : ℕ) (ov : List ℕ) (idx : ℤ) (l : List (ℕ × ℕ)) :
    (setWeights up h ov idx l).map (fun r => (r.1, r.2.1)) = l := by
  unfold setWeights
  split
  · dsimp only
    split <;> rfl
  · rw [List.map_map]
    conv_rhs => rw [← List.map_id l]
    rfl

/-- C56: the rows reported by `locate_slice` are exactly the grid rows and local positions that show the slice, in
increasing order of the grid row, each grid row at most once. -/
theorem locate_rows (idx : ℤ) (h : ℕ) (up : Bool) (ov : List ℕ) (hov : ov ≠ []) :
    ∃ r, locateSlice idx h up ov = .ok r ∧ r.Pairwise (fun a b => a.1 < b.1) ∧
      ∀ i p, (∃ w, (i, p, w) ∈ r) ↔ i ≤ ov.length ∧ Shows up h ov i p idx := by
  refine ⟨_, by rw [locateSlice, if_neg hov], ?_, ?_⟩
  · have := rowsFound_sorted up h ov idx
    rw [← setWeights_fst up h ov idx (rowsFound up h ov idx), List.pairwise_map] at this
    exact this
  · intro i p
    rw [← mem_rowsFound]
    conv_rhs => rw [← setWeights_fst up h ov idx (rowsFound up h ov idx), List.mem_map]
    constructor
    · rintro ⟨w, hw⟩
      exact ⟨_, hw, rfl⟩
    · rintro ⟨⟨i', p', w⟩, hm, e⟩
      injection e with e1 e2
      exact ⟨w, by rw [← e1, ← e2]; exact hm⟩

theorem rowStart_mono {h : ℕ} {ov : List ℕ} (hle : ∀ k, ov.getD k 0 ≤ h) {i j : ℕ} (hij : i ≤ j) :
    rowStart h ov i ≤ rowStart h ov j := by
  induction j, hij using Nat.le_induction with
  | base => exact le_rfl
  | succ j _ ih =>
    rw [rowStart_succ]
    have := hle j
    omega

/-- C56: `locate_slice` finds a row exactly for the slices of the stitched data. -/
theorem locate_cover (idx : ℤ) (h : ℕ) (up : Bool) (ov : List ℕ) (hov : ov ≠ []) (hle : ∀ k, ov.getD k 0 ≤ h) :
    ∃ r, locateSlice idx h up ov = .ok r ∧ (r ≠ [] ↔ 0 ≤ idx ∧ idx < total h ov) := by
  obtain ⟨r, hr, _, hm⟩ := locate_rows idx h up ov hov
  refine ⟨r, hr, ?_⟩
  have key : r ≠ [] ↔ ∃ i ≤ ov.length, rowStart h ov i ≤ idx ∧ idx < rowStart h ov i + h := by
    constructor
    · intro hne
      obtain ⟨⟨i, p, w⟩, hx⟩ := List.exists_mem_of_ne_nil _ hne
      obtain ⟨h1, h2⟩ := (hm i p).1 ⟨w, hx⟩
      exact ⟨i, h1, (shows_iff_range up ..).1 ⟨p, h2⟩⟩
    · rintro ⟨i, h1, h2⟩ rfl
      obtain ⟨p, hp⟩ := (shows_iff_range up ..).2 h2
      obtain ⟨w, hw⟩ := (hm i p).2 ⟨h1, hp⟩
      cases hw
  rw [key]
  constructor
  · rintro ⟨i, h1, h2, h3⟩
    have a := rowStart_mono hle (Nat.zero_le i)
    have b := rowStart_mono hle h1
    have c := rowStart_last h ov
    rw [rowStart_zero] at a
    omega
  · rintro ⟨h1, h2⟩
    by_contra hc
    push Not at hc
    have : ∀ i ≤ ov.length, rowStart h ov i + h ≤ idx := by
      intro i
      induction i with
      | zero => intro _; exact hc 0 (Nat.zero_le _) (by rw [rowStart_zero]; omega)
      | succ i ih =>
        intro hi
        have := ih (by omega)
        apply hc _ hi
        rw [rowStart_succ]
        omega
    have := this _ le_rfl
    rw [rowStart_last] at this
    omega

/-- Rows two or more apart share no slice. -/
theorem rows_adjacent {up : Bool} {h : ℕ} {ov : List ℕ} (hle : ∀ k, ov.getD k 0 ≤ h)
    (h2 : ∀ k, ov.getD k 0 + ov.getD (k + 1) 0 ≤ h) {i j p q : ℕ} {idx : ℤ} (hij : i < j)
    (hp : Shows up h ov i p idx) (hq : Shows up h ov j q idx) : j = i + 1 := by
  have a := (shows_iff_range up ..).1 ⟨p, hp⟩
  have b := (shows_iff_range up ..).1 ⟨q, hq⟩
  by_contra hc
  have c := rowStart_mono hle (show i + 2 ≤ j by omega)
  rw [rowStart_succ, rowStart_succ] at c
  have := h2 i
  omega

/-- The exact weights: `a` decreases linearly from 1 to 0 through the shared slices, `1 - a` is given to the next row;
`none` if the overlap is a single slice. -/
def pairWeights (h : ℕ) (ov : List ℕ) (i : ℕ) (idx : ℤ) : Option ℚ × Option ℚ :=
  if ov.getD i 0 = 1 then (none, none)
  else
    let a : ℚ := ((rowStart h ov i + h - 1 - idx : ℤ) : ℚ) / ((ov.getD i 0 : ℚ) - 1)
    (some a, some (1 - a))

theorem setWeights_pair {up : Bool} {h : ℕ} {ov : List ℕ} {i p q : ℕ} {idx : ℤ}
    (hp : Shows up h ov i p idx) (hq : Shows up h ov (i + 1) q idx) :
    setWeights up h ov idx [(i, p), (i + 1, q)] =
      [(i, p, (pairWeights h ov i idx).1), (i + 1, q, (pairWeights h ov i idx).2)] := by
  have a := (shows_iff_range up ..).1 ⟨p, hp⟩
  have b := (shows_iff_range up ..).1 ⟨q, hq⟩
  have hh : 1 ≤ h := by have := hp.1; omega
  have s := rowStart_succ h ov i
  have hw : setWeights up h ov idx [(i, p), (i + 1, q)] =
      [(i, p, fdiv ((rowStart h ov i + h - 1 - idx : ℤ) : ℚ) ((ov.getD i 0 : ℚ) - 1)),
       (i + 1, q, fdiv ((idx - rowStart h ov (i + 1) : ℤ) : ℚ) ((ov.getD i 0 : ℚ) - 1))] := by
    unfold setWeights listSlice
    cases up
    · simp only [Bool.false_eq_true, if_false]
      congr 4 <;> push_cast [Nat.cast_sub hh] <;> ring
    · simp only [if_true]
      congr 4 <;> push_cast [Nat.cast_sub hh] <;> ring
  rw [hw]
  unfold pairWeights fdiv
  by_cases h1 : ov.getD i 0 = 1
  · have : ((ov.getD i 0 : ℚ) - 1) = 0 := by rw [h1]; norm_num
    rw [if_pos this, if_pos this, if_pos h1]
  · have h0 : ((ov.getD i 0 : ℚ) - 1) ≠ 0 := by
      rw [sub_ne_zero]
      exact_mod_cast h1
    rw [if_neg h0, if_neg h0, if_neg h1]
    dsimp only
    have : (((idx - rowStart h ov (i + 1) : ℤ) : ℚ)) / ((ov.getD i 0 : ℚ) - 1) =
        1 - ((rowStart h ov i + h - 1 - idx : ℤ) : ℚ) / ((ov.getD i 0 : ℚ) - 1) := by
      rw [s, eq_sub_iff_add_eq, ← add_div, div_eq_one_iff_eq h0]
      push_cast
      ring
    rw [this]

theorem found_cases {up : Bool} {h : ℕ} {ov : List ℕ} (hle : ∀ k, ov.getD k 0 ≤ h)
    (h2 : ∀ k, ov.getD k 0 + ov.getD (k + 1) 0 ≤ h) (idx : ℤ) :
    (rowsFound up h ov idx = []) ∨ (∃ i p, rowsFound up h ov idx = [(i, p)]) ∨
      ∃ i p q, rowsFound up h ov idx = [(i, p), (i + 1, q)] := by
  have hs := rowsFound_sorted up h ov idx
  have hm := mem_rowsFound up h ov idx
  generalize rowsFound up h ov idx = l at hs hm
  match l, hs, hm with
  | [], _, _ => exact .inl rfl
  | [(i, p)], _, _ => exact .inr (.inl ⟨i, p, rfl⟩)
  | [(i, p), (j, q)], hs, hm =>
    have hij : i < j := by simpa using hs
    have : j = i + 1 := rows_adjacent hle h2 hij ((hm i p).1 (by simp)).2 ((hm j q).1 (by simp)).2
    subst this
    exact .inr (.inr ⟨i, p, q, rfl⟩)
  | (i, p) :: (j, q) :: (k, r) :: l, hs, hm =>
    exfalso
    simp only [List.pairwise_cons, List.mem_cons, forall_eq_or_imp] at hs
    have hij : i < j := hs.1.1
    have hjk : j < k := hs.2.1.1
    have := rows_adjacent hle h2 (show i < k by omega) ((hm i p).1 (by simp)).2 ((hm k r).1 (by simp)).2
    omega

/-- C56 (partial: at most two rows share a slice, no overlap of a single slice): the weights of a slice are one weight 1,
or two weights in `[0, 1]` with sum 1, the weight of the lower row being proportional to the distance from the end of the
overlap. -/
theorem locate_weights_partial (idx : ℤ) (h : ℕ) (up : Bool) (ov : List ℕ) (hov : ov ≠ []) (hle : ∀ k, ov.getD k 0 ≤ h)
    (h2 : ∀ k, ov.getD k 0 + ov.getD (k + 1) 0 ≤ h) (h1 : ∀ k, ov.getD k 0 ≠ 1) (h0 : 0 ≤ idx) (ht : idx < total h ov) :
    (∃ i p, locateSlice idx h up ov = .ok [(i, p, some 1)]) ∨
    ∃ i p q, ∃ a b : ℚ, locateSlice idx h up ov = .ok [(i, p, some a), (i + 1, q, some b)] ∧ 0 ≤ a ∧ 0 ≤ b ∧ a + b = 1 ∧
      a * ((ov.getD i 0 : ℚ) - 1) = if up then (h : ℚ) - 1 - p else (p : ℚ) := by
  obtain ⟨r, hr, hne⟩ := locate_cover idx h up ov hov hle
  rw [locateSlice, if_neg hov] at hr
  injection hr with hr
  have hne := hne.2 ⟨h0, ht⟩
  rw [locateSlice, if_neg hov]
  rcases found_cases (up := up) hle h2 idx with hf | ⟨i, p, hf⟩ | ⟨i, p, q, hf⟩
  · rw [hf] at hr
    exact absurd hr.symm hne
  · exact .inl ⟨i, p, by rw [hf]; rfl⟩
  · right
    have hp := (mem_rowsFound up h ov idx i p).1 (by rw [hf]; simp)
    have hq := (mem_rowsFound up h ov idx (i + 1) q).1 (by rw [hf]; simp)
    rw [hf, setWeights_pair hp.2 hq.2]
    have a := (shows_iff_range up ..).1 ⟨p, hp.2⟩
    have b := (shows_iff_range up ..).1 ⟨q, hq.2⟩
    have s := rowStart_succ h ov i
    have hov1 : 2 ≤ ov.getD i 0 := by
      have := h1 i
      omega
    have hd : (0 : ℚ) < (ov.getD i 0 : ℚ) - 1 := by
      have : (2 : ℚ) ≤ (ov.getD i 0 : ℚ) := by exact_mod_cast hov1
      linarith
    refine ⟨i, p, q, ((rowStart h ov i + h - 1 - idx : ℤ) : ℚ) / ((ov.getD i 0 : ℚ) - 1),
      1 - ((rowStart h ov i + h - 1 - idx : ℤ) : ℚ) / ((ov.getD i 0 : ℚ) - 1), ?_, ?_, ?_, by ring, ?_⟩
    · unfold pairWeights
      rw [if_neg (h1 i)]
    · apply div_nonneg _ hd.le
      exact_mod_cast (by omega : 0 ≤ rowStart h ov i + h - 1 - idx)
    · rw [sub_nonneg, div_le_one hd]
      have : rowStart h ov i + h - 1 - idx ≤ (ov.getD i 0 : ℤ) - 1 := by omega
      exact_mod_cast this
    · rw [div_mul_cancel₀ _ hd.ne']
      have e := ((listSlice_iff ..).2 hp.2).2
      have hph := hp.2.1
      unfold listSlice at e
      cases up
      · simp only [Bool.false_eq_true, if_false] at e ⊢
        have : rowStart h ov i + h - 1 - idx = (p : ℤ) := by omega
        exact_mod_cast congrArg (Int.cast : ℤ → ℚ) this
      · simp only [if_true] at e ⊢
        have : rowStart h ov i + h - 1 - idx = (h : ℤ) - 1 - p := by omega
        have := congrArg (Int.cast : ℤ → ℚ) this
        push_cast at this ⊢
        linarith

/-- C56 is false of the code if two scans share exactly one slice: both weights are `0 / 0`, for every height. -/
theorem locate_single_overlap_refuted (h : ℕ) (hh : 1 ≤ h) (up : Bool) :
    ∃ p q, locateSlice ((h : ℤ) - 1) h up [1] = .ok [(0, p, none), (1, q, none)] := by
  have hq : ∃ q, Shows up h [1] 1 q ((h : ℤ) - 1) := by
    rw [shows_iff_range, rowStart_succ, rowStart_zero]
    simp
    omega
  have hp : ∃ p, Shows up h [1] 0 p ((h : ℤ) - 1) := by
    rw [shows_iff_range, rowStart_zero]
    omega
  obtain ⟨p, hp⟩ := hp
  obtain ⟨q, hq⟩ := hq
  refine ⟨p, q, ?_⟩
  have hf : rowsFound up h [1] ((h : ℤ) - 1) = [(0, p), (1, q)] := by
    unfold rowsFound
    simp only [List.length_singleton, List.range_succ, List.range_zero, List.nil_append, List.cons_append,
      List.filterMap_cons, (locatePos_iff ..).2 hp, (locatePos_iff ..).2 hq, Option.map_some, List.filterMap_nil]
  rw [locateSlice, if_neg (by simp), hf, setWeights_pair hp hq]
  rfl

/-- C56 is false of the code if three scans share a slice: the three weights are 1 each, for every height and all
overlaps that are so large. -/
theorem locate_triple_refuted (h a b : ℕ) (ha : a ≤ h) (hb : b ≤ h) (hab : h < a + b) (up : Bool) :
    ∃ p q r, locateSlice ((h : ℤ) - 1) h up [a, b] = .ok [(0, p, some 1), (1, q, some 1), (2, r, some 1)] := by
  have hp : ∃ p, Shows up h [a, b] 0 p ((h : ℤ) - 1) := by
    rw [shows_iff_range, rowStart_zero]
    omega
  have hq : ∃ q, Shows up h [a, b] 1 q ((h : ℤ) - 1) := by
    rw [shows_iff_range, rowStart_succ, rowStart_zero]
    simp
    omega
  have hr : ∃ q, Shows up h [a, b] 2 q ((h : ℤ) - 1) := by
    rw [shows_iff_range, rowStart_succ, rowStart_succ, rowStart_zero]
    simp
    omega
  obtain ⟨p, hp⟩ := hp
  obtain ⟨q, hq⟩ := hq
  obtain ⟨r, hr⟩ := hr
  refine ⟨p, q, r, ?_⟩
  have hf : rowsFound up h [a, b] ((h : ℤ) - 1) = [(0, p), (1, q), (2, r)] := by
    unfold rowsFound
    simp only [List.length_cons, List.length_nil, List.range_succ, List.range_zero, List.nil_append, List.cons_append,
      List.filterMap_cons, (locatePos_iff ..).2 hp, (locatePos_iff ..).2 hq, (locatePos_iff ..).2 hr, Option.map_some,
      List.filterMap_nil, Nat.zero_add, Nat.reduceAdd]
  rw [locateSlice, if_neg (by simp), hf]
  rfl

/-! ### Chunks -/

/-- `locate_slice_chunk` gives the weight of `locate_slice`, for equal overlaps of at most half the height. -/
theorem chunkFact_eq {up : Bool} {h v : ℕ} {ov : List ℕ} (hne : ov ≠ []) (hv : ∀ k < ov.length, ov.getD k 0 = v) (h2 : v + v ≤ h)
    {idx : ℤ} {i p : ℕ} (hi : i ≤ ov.length) (hp : Shows up h ov i p idx) (w : Option ℚ) :
    (i, p, w) ∈ setWeights up h ov idx (rowsFound up h ov idx) ↔ w = chunkFact up h ov i p := by
  have hlen : 1 ≤ ov.length := by
    rcases ov with _ | ⟨x, ov⟩
    · exact absurd rfl hne
    · simp
  have hle : ∀ k, ov.getD k 0 ≤ v := by
    intro k
    by_cases hk : k < ov.length
    · rw [hv k hk]
    · rw [List.getD_eq_default _ _ (by omega)]; omega
  have hle' : ∀ k, ov.getD k 0 ≤ h := fun k => (hle k).trans (by omega)
  have hle2 : ∀ k, ov.getD k 0 + ov.getD (k + 1) 0 ≤ h := fun k => (Nat.add_le_add (hle k) (hle (k + 1))).trans h2
  have hm : (i, p) ∈ rowsFound up h ov idx := (mem_rowsFound ..).2 ⟨hi, hp⟩
  have hr := (shows_iff_range up ..).1 ⟨p, hp⟩
  have hph := hp.1
  -- distance to the next and the previous row
  have hdist : (if up then ((h - p - 1 : ℕ) : ℤ) else (p : ℤ)) = rowStart h ov i + h - 1 - idx ∧
      (if up then (p : ℤ) else ((h - p - 1 : ℕ) : ℤ)) = idx - rowStart h ov i := by
    have e := ((listSlice_iff ..).2 hp).2
    unfold listSlice at e
    cases up <;> simp only [Bool.false_eq_true, if_false, if_true] at e ⊢ <;> omega
  -- the weight as a function of the two distances
  have hfact : ∀ d e : ℕ, (d : ℤ) = rowStart h ov i + h - 1 - idx → (e : ℤ) = idx - rowStart h ov i →
      chunkFact up h ov i p =
        if d < v ∧ i < ov.length then fdiv d ((v : ℚ) - 1) else if e < v ∧ 0 < i then fdiv e ((v : ℚ) - 1) else some 1 := by
    intro d e hd he
    unfold chunkFact override
    have hde : d + e + 1 = h := by omega
    dsimp only
    by_cases i0 : i = 0
    · subst i0
      have hA : 0 < ov.length := by omega
      have hB : ¬ (0 < 0) := by omega
      rw [if_pos rfl, hv 0 (by omega)]
      cases up <;> simp only [Bool.false_eq_true, if_false, if_true] at hdist ⊢
      · have : p = d := by omega
        subst this
        by_cases c : p < v <;> simp only [c, hA, hB, true_and, false_and, and_true, and_false, if_true, if_false]
      · have : h - p - 1 = d := by omega
        rw [this]
        by_cases c : d < v <;> simp only [c, hA, hB, true_and, false_and, and_true, and_false, if_true, if_false]
    · rw [if_neg i0]
      by_cases i1 : i = ov.length
      · have hA : ¬ i < ov.length := by omega
        have hB : 0 < i := by omega
        rw [if_pos i1, hv (i - 1) (by omega)]
        cases up <;> simp only [Bool.false_eq_true, if_false, if_true] at hdist ⊢
        · have : h - p - 1 = e := by omega
          rw [this]
          by_cases c : e < v <;> simp only [c, hA, hB, true_and, false_and, and_true, and_false, if_true, if_false]
        · have : p = e := by omega
          subst this
          by_cases c : p < v <;> simp only [c, hA, hB, true_and, false_and, and_true, and_false, if_true, if_false]
      · rw [if_neg i1, hv i (by omega), hv (i - 1) (by omega)]
        have hi' : i < ov.length := by omega
        have hi0 : 0 < i := by omega
        simp only [hi', hi0, and_true]
        cases up <;> simp only [Bool.false_eq_true, if_false, if_true] at hdist ⊢
        · have a : p = d := by omega
          have b : h - p - 1 = e := by omega
          rw [b, a]
          by_cases c : d < v
          · simp [c]
          · by_cases c' : e < v <;> simp [c, c']
        · have a : p = e := by omega
          have b : h - p - 1 = d := by omega
          rw [b, a]
          by_cases c : d < v
          · have c' : ¬ e < v := by omega
            simp [c, c']
          · by_cases c' : e < v <;> simp [c, c']
  obtain ⟨d, hd⟩ : ∃ d : ℕ, (d : ℤ) = rowStart h ov i + h - 1 - idx := ⟨(rowStart h ov i + h - 1 - idx).toNat, by omega⟩
  obtain ⟨e, he⟩ : ∃ e : ℕ, (e : ℤ) = idx - rowStart h ov i := ⟨(idx - rowStart h ov i).toNat, by omega⟩
  rw [hfact d e hd he]
  -- membership of the neighbouring rows
  have hnext : (∃ q, (i + 1, q) ∈ rowsFound up h ov idx) ↔ d < v ∧ i < ov.length := by
    constructor
    · rintro ⟨q, hq⟩
      have := (mem_rowsFound ..).1 hq
      have h3 := (shows_iff_range up ..).1 ⟨q, this.2⟩
      rw [rowStart_succ, hv i (by omega)] at h3
      exact ⟨by omega, by omega⟩
    · rintro ⟨h3, h4⟩
      obtain ⟨q, hq⟩ := (shows_iff_range up h ov (i + 1) idx).2 (by rw [rowStart_succ, hv i h4]; omega)
      exact ⟨q, (mem_rowsFound ..).2 ⟨h4, hq⟩⟩
  have hprev : ∀ k, k + 1 = i → ((∃ q, (k, q) ∈ rowsFound up h ov idx) ↔ e < v) := by
    rintro k rfl
    have hs := rowStart_succ h ov k
    rw [hv k (by omega)] at hs
    constructor
    · rintro ⟨q, hq⟩
      have := (mem_rowsFound ..).1 hq
      have h3 := (shows_iff_range up ..).1 ⟨q, this.2⟩
      omega
    · intro h3
      obtain ⟨q, hq⟩ := (shows_iff_range up h ov k idx).2 (by omega)
      exact ⟨q, (mem_rowsFound ..).2 ⟨by omega, hq⟩⟩
  rcases found_cases (up := up) hle' hle2 idx with hf | ⟨i', p', hf⟩ | ⟨i', p', q', hf⟩
  · rw [hf] at hm; cases hm
  · rw [hf] at hm
    simp only [List.mem_singleton, Prod.mk.injEq] at hm
    obtain ⟨rfl, rfl⟩ := hm
    rw [hf] at hnext hprev
    have n1 : ¬ (d < v ∧ i < ov.length) := by
      rw [← hnext]
      simp
    have n2 : ¬ (e < v ∧ 0 < i) := by
      rintro ⟨c, c0⟩
      obtain ⟨q, hq⟩ := (hprev (i - 1) (by omega)).2 c
      simp only [List.mem_singleton, Prod.mk.injEq] at hq
      omega
    rw [if_neg n1, if_neg n2, hf]
    simp [setWeights]
  · have hp' := (mem_rowsFound up h ov idx i' p').1 (by rw [hf]; simp)
    have hq' := (mem_rowsFound up h ov idx (i' + 1) q').1 (by rw [hf]; simp)
    rw [hf] at hnext hprev
    have hvi := hv i' (by omega)
    have hpair : pairWeights h ov i' idx = (fdiv ((rowStart h ov i' + h - 1 - idx : ℤ) : ℚ) ((v : ℚ) - 1),
        fdiv ((idx - rowStart h ov (i' + 1) : ℤ) : ℚ) ((v : ℚ) - 1)) := by
      unfold pairWeights fdiv
      rw [hvi]
      by_cases h1 : v = 1
      · have : ((v : ℚ) - 1) = 0 := by rw [h1]; norm_num
        rw [if_pos this, if_pos this, if_pos h1]
      · have h0 : ((v : ℚ) - 1) ≠ 0 := by
          rw [sub_ne_zero]
          exact_mod_cast h1
        rw [if_neg h0, if_neg h0, if_neg h1]
        dsimp only
        congr 2
        rw [rowStart_succ, hvi, eq_comm, eq_sub_iff_add_eq, ← add_div, div_eq_one_iff_eq h0]
        push_cast
        ring
    rw [hf] at hm
    simp only [List.mem_cons, Prod.mk.injEq, List.not_mem_nil, or_false] at hm
    rcases hm with ⟨rfl, rfl⟩ | ⟨rfl, rfl⟩
    · have c := hnext.1 ⟨q', by simp⟩
      rw [if_pos c, hf, setWeights_pair hp'.2 hq'.2, hpair, ← hd]
      simp
    · have c := (hprev i' rfl).1 ⟨p', by simp⟩
      have n1 : ¬ (d < v ∧ i' + 1 < ov.length) := by
        rw [← hnext]
        simp only [List.mem_cons, Prod.mk.injEq, List.not_mem_nil, or_false, not_exists]
        omega
      rw [if_neg n1, if_pos ⟨c, by omega⟩, hf, setWeights_pair hp'.2 hq'.2, hpair, ← he]
      simp

theorem mem_pyRange_one (a b x : ℤ) : x ∈ pyRange a b 1 ↔ a ≤ x ∧ x < b := by
  rw [Verif.Post.pyRange_eq a b 1 one_pos, List.mem_map]
  constructor
  · rintro ⟨k, hk, rfl⟩
    rw [List.mem_range] at hk
    omega
  · rintro ⟨h1, h2⟩
    exact ⟨(x - a).toNat, List.mem_range.2 (by omega), by omega⟩

theorem mem_chunkRow (start stop : ℤ) (h : ℕ) (up : Bool) (ov : List ℕ) (i k p : ℕ) (w : Option ℚ) :
    (k, p, w) ∈ chunkRow start stop h up ov i ↔
      k = i ∧ w = chunkFact up h ov i p ∧ ∃ idx, start ≤ idx ∧ idx < stop ∧ Shows up h ov i p idx := by
  unfold chunkRow
  rw [List.mem_filterMap]
  constructor
  · rintro ⟨idx, hidx, e⟩
    rw [Option.map_eq_some_iff] at e
    obtain ⟨q, hq, e⟩ := e
    injection e with e1 e2
    injection e2 with e2 e3
    subst e1 e2
    rw [mem_pyRange_one] at hidx
    exact ⟨rfl, e3.symm, idx, hidx.1, hidx.2, (locatePos_iff ..).1 hq⟩
  · rintro ⟨rfl, rfl, idx, h1, h2, h3⟩
    exact ⟨idx, (mem_pyRange_one ..).2 ⟨h1, h2⟩, by rw [(locatePos_iff ..).2 h3]; rfl⟩

/-- Groups of `locate_slice_chunk`: one non-empty group for every grid row that shows a slice of the chunk, in increasing
order, holding exactly the positions that show a slice of the chunk. -/
theorem locate_chunk_rows (start stop : ℤ) (h : ℕ) (up : Bool) (ov : List ℕ) (hov : ov ≠ []) (hss : start ≤ stop) :
    ∃ r, locateSliceChunk start stop h up ov = .ok r ∧
      (∀ g ∈ r, g ≠ [] ∧ ∃ i, ∀ x ∈ g, x.1 = i) ∧
      r.Pairwise (fun g g' => ∀ x ∈ g, ∀ y ∈ g', x.1 < y.1) ∧
      ∀ i p, (∃ g ∈ r, ∃ w, (i, p, w) ∈ g) ↔
        i ≤ ov.length ∧ ∃ idx, start ≤ idx ∧ idx < stop ∧ Shows up h ov i p idx := by
  refine ⟨_, by rw [locateSliceChunk, if_neg (by omega), if_neg hov], ?_, ?_, ?_⟩
  · intro g hg
    rw [List.mem_filter, List.mem_map] at hg
    obtain ⟨⟨i, _, rfl⟩, h2⟩ := hg
    refine ⟨by rintro e; rw [e] at h2; simp at h2, i, ?_⟩
    rintro ⟨k, p, w⟩ hx
    exact ((mem_chunkRow ..).1 hx).1
  · apply List.Pairwise.filter
    rw [List.pairwise_map]
    refine (List.pairwise_lt_range (n := ov.length + 1)).imp ?_
    rintro a b hab ⟨k, p, w⟩ hx ⟨k', p', w'⟩ hy
    have h1 := ((mem_chunkRow ..).1 hx).1
    have h2 := ((mem_chunkRow ..).1 hy).1
    simp only
    omega
  · intro i p
    constructor
    · rintro ⟨g, hg, w, hx⟩
      rw [List.mem_filter, List.mem_map] at hg
      obtain ⟨⟨k, hk, rfl⟩, h2⟩ := hg
      obtain ⟨rfl, _, h3⟩ := (mem_chunkRow ..).1 hx
      rw [List.mem_range] at hk
      exact ⟨by omega, h3⟩
    · rintro ⟨h1, h2⟩
      have hm : (i, p, chunkFact up h ov i p) ∈ chunkRow start stop h up ov i := (mem_chunkRow ..).2 ⟨rfl, rfl, h2⟩
      refine ⟨_, List.mem_filter.2 ⟨List.mem_map.2 ⟨i, List.mem_range.2 (by omega), rfl⟩, ?_⟩, _, hm⟩
      have : chunkRow start stop h up ov i ≠ [] := List.ne_nil_of_mem hm
      simpa using this

/-- C56 (partial: equal overlaps, at most half of the height): `locate_slice_chunk` returns the entries, with the same
weights, that `locate_slice` returns for the slices of the chunk. -/
theorem locate_chunk_partial (start stop : ℤ) (h v : ℕ) (up : Bool) (ov : List ℕ) (hov : ov ≠ []) (hss : start ≤ stop)
    (hv : ∀ k < ov.length, ov.getD k 0 = v) (h2 : v + v ≤ h) :
    ∃ r, locateSliceChunk start stop h up ov = .ok r ∧
      ∀ x, (∃ g ∈ r, x ∈ g) ↔ ∃ idx, start ≤ idx ∧ idx < stop ∧ ∃ l, locateSlice idx h up ov = .ok l ∧ x ∈ l := by
  refine ⟨_, by rw [locateSliceChunk, if_neg (by omega), if_neg hov], ?_⟩
  rintro ⟨i, p, w⟩
  constructor
  · rintro ⟨g, hg, hx⟩
    rw [List.mem_filter, List.mem_map] at hg
    obtain ⟨⟨k, hk, rfl⟩, -⟩ := hg
    obtain ⟨rfl, rfl, idx, h3, h4, h5⟩ := (mem_chunkRow ..).1 hx
    rw [List.mem_range] at hk
    refine ⟨idx, h3, h4, _, by rw [locateSlice, if_neg hov], ?_⟩
    exact (chunkFact_eq hov hv h2 (by omega) h5 _).2 rfl
  · rintro ⟨idx, h3, h4, l, hl, hx⟩
    rw [locateSlice, if_neg hov] at hl
    injection hl with hl
    subst hl
    have hm : (i, p) ∈ rowsFound up h ov idx := by
      rw [← setWeights_fst up h ov idx (rowsFound up h ov idx)]
      exact List.mem_map.2 ⟨_, hx, rfl⟩
    obtain ⟨h5, h6⟩ := (mem_rowsFound ..).1 hm
    have hw := (chunkFact_eq hov hv h2 h5 h6 w).1 hx
    have hm : (i, p, w) ∈ chunkRow start stop h up ov i := (mem_chunkRow ..).2 ⟨rfl, hw, idx, h3, h4, h6⟩
    refine ⟨_, List.mem_filter.2 ⟨List.mem_map.2 ⟨i, List.mem_range.2 (by omega), rfl⟩, ?_⟩, hm⟩
    have : chunkRow start stop h up ov i ≠ [] := List.ne_nil_of_mem hm
    simpa using this

/-- C56 is false of `locate_slice_chunk` for unequal overlaps: in a grid of three rows with overlaps `a ≠ b` (both at
least 2 and together at most the height), the second to last slice of the middle row is given weights that do not add up
to 1, whereas `locate_slice` does give weights with sum 1. -/
theorem locate_chunk_unequal_refuted (h a b : ℕ) (ha : 2 ≤ a) (hb : 2 ≤ b) (hne : a ≠ b) (hab : a + b ≤ h) (up : Bool) :
    ∃ idx p q, ∃ x y : ℚ, locateSliceChunk idx (idx + 1) h up [a, b] = .ok [[(1, p, some x)], [(2, q, some y)]] ∧ x + y ≠ 1 := by
  have s1 : rowStart h [a, b] 1 = h - a := by rw [rowStart_succ, rowStart_zero]; simp
  have s2 : rowStart h [a, b] 2 = h - a + h - b := by rw [rowStart_succ, s1]; simp
  set idx : ℤ := rowStart h [a, b] 1 + h - 2 with hidx
  have h0 : locatePos up h [a, b] 0 idx = none := by
    rcases hc : locatePos up h [a, b] 0 idx with _ | p
    · rfl
    · have := (shows_iff_range up ..).1 ⟨p, (locatePos_iff ..).1 hc⟩
      rw [rowStart_zero] at this
      omega
  obtain ⟨p, hp⟩ := (shows_iff_range up h [a, b] 1 idx).2 (by omega)
  obtain ⟨q, hq⟩ := (shows_iff_range up h [a, b] 2 idx).2 (by omega)
  have ep := ((listSlice_iff ..).2 hp).2
  have eq := ((listSlice_iff ..).2 hq).2
  have hph := hp.1
  have hqh := hq.1
  have hr : pyRange idx (idx + 1) 1 = [idx] := by
    rw [Verif.Post.pyRange_eq _ _ 1 one_pos]
    simp
  have hcast : ∀ n : ℕ, 2 ≤ n → ((n : ℚ) - 1) ≠ 0 := by
    intro n hn
    have : (2 : ℚ) ≤ n := by exact_mod_cast hn
    linarith
  have fx : chunkFact up h [a, b] 1 p = some (1 / ((a : ℚ) - 1)) := by
    unfold chunkFact override fdiv
    rw [if_neg one_ne_zero, if_neg (by simp)]
    unfold listSlice at ep
    have g1 : [a, b].getD 1 0 = b := rfl
    have g0 : [a, b].getD (1 - 1) 0 = a := rfl
    dsimp only
    rw [g1, g0]
    cases up
    · simp only [Bool.false_eq_true, if_false] at ep
      have : p = 1 := by omega
      subst this
      rw [if_pos (by omega), if_neg (hcast a ha)]
      simp
    · simp only [if_true] at ep
      have : h - p - 1 = 1 := by omega
      rw [if_neg (by omega), this, if_pos (by omega), if_neg (hcast a ha)]
      simp
  have fy : chunkFact up h [a, b] 2 q = some (((b : ℚ) - 2) / ((b : ℚ) - 1)) := by
    unfold chunkFact override fdiv
    rw [if_neg two_ne_zero, if_pos (by simp)]
    unfold listSlice at eq
    have g0 : [a, b].getD (2 - 1) 0 = b := rfl
    rw [g0]
    cases up
    · simp only [Bool.false_eq_true, if_false] at eq ⊢
      have : h - q - 1 = b - 2 := by omega
      rw [this, if_pos (by omega), if_neg (hcast b hb)]
      push_cast [Nat.cast_sub hb]
      rfl
    · simp only [if_true] at eq ⊢
      have : q = b - 2 := by omega
      rw [this, if_pos (by omega), if_neg (hcast b hb)]
      push_cast [Nat.cast_sub hb]
      rfl
  refine ⟨idx, p, q, 1 / ((a : ℚ) - 1), ((b : ℚ) - 2) / ((b : ℚ) - 1), ?_, ?_⟩
  · rw [locateSliceChunk, if_neg (by omega), if_neg (by simp)]
    unfold chunkRow
    simp only [hr, List.filterMap_cons, List.filterMap_nil, List.length_cons, List.length_nil, List.range_succ,
      List.range_zero, List.nil_append, List.cons_append, List.map_cons, List.map_nil, h0, Option.map_none, Nat.zero_add,
      Nat.reduceAdd, (locatePos_iff ..).2 hp, (locatePos_iff ..).2 hq, Option.map_some, fx, fy]
    rfl
  · intro hc
    have hA := hcast a ha
    have hB := hcast b hb
    have : (b : ℚ) - 1 = (a : ℚ) - 1 := by
      field_simp at hc
      linear_combination hc
    apply hne
    have : (a : ℚ) = b := by linarith
    exact_mod_cast this

/-- Errors: an inverted chunk is refused, and both functions need at least one row of metadata. -/
theorem locate_errors (idx start stop : ℤ) (h : ℕ) (up : Bool) (ov : List ℕ) :
    (locateSlice idx h up [] = .error .indexError) ∧
    (stop < start → locateSliceChunk start stop h up ov = .error .valueError) ∧
    (start ≤ stop → locateSliceChunk start stop h up [] = .error .indexError) := by
  refine ⟨rfl, ?_, ?_⟩
  · intro hs; rw [locateSliceChunk, if_pos hs]
  · intro hs; rw [locateSliceChunk, if_neg (by omega), if_pos rfl]

/-! ### The hypotheses are met -/

example : ∀ k, ([3, 4] : List ℕ).getD k 0 + ([3, 4] : List ℕ).getD (k + 1) 0 ≤ 10 := by
  rintro (_ | _ | _ | k) <;> simp

example : locateSlice 8 10 true [3, 4] = .ok [(0, 8, some (1 / 2)), (1, 1, some (1 / 2))] := by decide +kernel

example : locateSlice 8 10 false [3, 4] = .ok [(0, 1, some (1 / 2)), (1, 8, some (1 / 2))] := by decide +kernel

example : locateSliceChunk 6 9 10 true [3, 3] =
    .ok [[(0, 6, some 1), (0, 7, some 1), (0, 8, some (1 / 2))], [(1, 0, some 0), (1, 1, some (1 / 2))]] := by decide +kernel

example : total 10 [3, 4] = 23 := by decide

end Verif.Locate
