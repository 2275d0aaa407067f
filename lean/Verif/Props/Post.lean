import Verif.Model.Post
import Verif.Lemmas.Num
import Verif.Props.Io
import Mathlib.Tactic.Linarith
import Mathlib.Tactic.FieldSimp
import Mathlib.Tactic.Ring
import Mathlib.Tactic.NormNum
import Mathlib.Algebra.BigOperators.Ring.Finset
import Mathlib.Algebra.Order.BigOperators.Group.List
import Mathlib.Data.List.GetD
import Mathlib.Data.Rat.Floor
import Mathlib.Algebra.Group.Action.Defs

/-! Statistics, downsampling, rescaling (postprocessing.py). -/

set_option linter.unusedSectionVars false
set_option linter.unusedSimpArgs false

namespace Verif.Post
open Verif.Io

/-! ### helper facts -/

theorem pyRangeAux_eq (b : Int) (s : Nat) (hs : 0 < s) : ∀ (f : Nat) (a : Int), (b - a).toNat ≤ f →
    pyRangeAux b s f a = (List.range (((b - a).toNat + (s - 1)) / s)).map fun k : Nat => a + (k * s : Nat) := by
  intro f
  induction f with
  | zero =>
    intro a h
    have : (b - a).toNat = 0 := by omega
    rw [this, Nat.zero_add, Nat.div_eq_of_lt (by omega)]
    rfl
  | succ f ih =>
    intro a h
    rw [pyRangeAux]
    by_cases hab : a < b
    · rw [if_pos hab, ih (a + s) (by omega)]
      have e : ((b - a).toNat + (s - 1)) / s = ((b - (a + s)).toNat + (s - 1)) / s + 1 := by
        by_cases hbs : (b - a).toNat ≤ s
        · have : (b - (a + s)).toNat = 0 := by omega
          rw [this, Nat.zero_add, Nat.div_eq_of_lt (by omega : s - 1 < s), Nat.zero_add]
          apply Nat.div_eq_of_lt_le <;> omega
        · have : (b - a).toNat + (s - 1) = (b - (a + s)).toNat + (s - 1) + s := by omega
          rw [this, Nat.add_div_right _ hs]
      rw [e, List.range_succ_eq_map, List.map_cons, List.map_map]
      congr 1
      · simp
      · apply List.map_congr_left
        intro k _
        simp only [Function.comp, Nat.succ_eq_add_one]
        push_cast
        ring
    · rw [if_neg hab]
      have : (b - a).toNat = 0 := by omega
      rw [this, Nat.zero_add, Nat.div_eq_of_lt (by omega)]
      rfl

theorem pyRange_eq (a b : Int) (s : Nat) (hs : 0 < s) :
    pyRange a b s = (List.range (((b - a).toNat + (s - 1)) / s)).map fun k : Nat => a + (k * s : Nat) := pyRangeAux_eq b s hs _ a le_rfl

section
variable {K : Type _} [Field K] [LinearOrder K] [IsStrictOrderedRing K] [FloorRing K]

theorem foldl_min_spec : ∀ (l : List K) (x : K), l.foldl min x ∈ x :: l ∧ ∀ y ∈ x :: l, l.foldl min x ≤ y := by
  intro l
  induction l with
  | nil => intro x; simp
  | cons a l ih =>
    intro x
    rw [List.foldl_cons]
    obtain ⟨h1, h2⟩ := ih (min x a)
    constructor
    · rcases List.mem_cons.1 h1 with h | h
      · rw [h]; rcases min_choice x a with e | e <;> rw [e] <;> simp
      · simp [h]
    · intro y hy
      have hm := h2 (min x a) (by simp)
      rcases List.mem_cons.1 hy with rfl | hy
      · exact hm.trans (min_le_left _ _)
      · rcases List.mem_cons.1 hy with rfl | hy
        · exact hm.trans (min_le_right _ _)
        · exact h2 y (by simp [hy])

theorem foldl_max_spec : ∀ (l : List K) (x : K), l.foldl max x ∈ x :: l ∧ ∀ y ∈ x :: l, y ≤ l.foldl max x := by
  intro l
  induction l with
  | nil => intro x; simp
  | cons a l ih =>
    intro x
    rw [List.foldl_cons]
    obtain ⟨h1, h2⟩ := ih (max x a)
    constructor
    · rcases List.mem_cons.1 h1 with h | h
      · rw [h]; rcases max_choice x a with e | e <;> rw [e] <;> simp
      · simp [h]
    · intro y hy
      have hm := h2 (max x a) (by simp)
      rcases List.mem_cons.1 hy with rfl | hy
      · exact (le_max_left _ _).trans hm
      · rcases List.mem_cons.1 hy with rfl | hy
        · exact (le_max_right _ _).trans hm
        · exact h2 y (by simp [hy])

/-- `x` is the least value of the list. -/
def IsMin (l : List K) (x : K) : Prop := x ∈ l ∧ ∀ y ∈ l, x ≤ y

/-- `x` is the greatest value of the list. -/
def IsMax (l : List K) (x : K) : Prop := x ∈ l ∧ ∀ y ∈ l, y ≤ x

theorem npMin_spec (l : List K) (h : l ≠ []) : IsMin l (npMin l) := by
  cases l with
  | nil => exact absurd rfl h
  | cons a l => exact foldl_min_spec l a

theorem npMax_spec (l : List K) (h : l ≠ []) : IsMax l (npMax l) := by
  cases l with
  | nil => exact absurd rfl h
  | cons a l => exact foldl_max_spec l a

theorem IsMin.unique {l : List K} {x y : K} (hx : IsMin l x) (hy : IsMin l y) : x = y := le_antisymm (hx.2 _ hy.1) (hy.2 _ hx.1)
theorem IsMax.unique {l : List K} {x y : K} (hx : IsMax l x) (hy : IsMax l y) : x = y := le_antisymm (hy.2 _ hx.1) (hx.2 _ hy.1)

theorem isMin_congr {l l' : List K} (h : ∀ x, x ∈ l ↔ x ∈ l') (x : K) : IsMin l x ↔ IsMin l' x := by
  unfold IsMin; rw [h]; constructor <;> exact fun ⟨a, b⟩ => ⟨a, fun y hy => b y (by first | exact (h y).1 hy | exact (h y).2 hy)⟩

theorem isMax_congr {l l' : List K} (h : ∀ x, x ∈ l ↔ x ∈ l') (x : K) : IsMax l x ↔ IsMax l' x := by
  unfold IsMax; rw [h]; constructor <;> exact fun ⟨a, b⟩ => ⟨a, fun y hy => b y (by first | exact (h y).1 hy | exact (h y).2 hy)⟩

/-! ### sorting, median, percentile -/

theorem sorted_perm (l : List K) : (sorted l).Perm l := List.mergeSort_perm _ _

theorem sorted_pairwise (l : List K) : (sorted l).Pairwise (· ≤ ·) := by
  have := List.pairwise_mergeSort (le := fun a b : K => decide (a ≤ b))
    (by intro a b c h1 h2; simp only [decide_eq_true_eq] at *; exact h1.trans h2)
    (by intro a b; simp only [Bool.or_eq_true, decide_eq_true_eq]; exact le_total a b) l
  exact this.imp (by intro a b h; simpa using h)

theorem sorted_length (l : List K) : (sorted l).length = l.length := (sorted_perm l).length_eq

theorem sorted_mono (l : List K) (i j : Nat) (hij : i ≤ j) (hj : j < l.length) : (sorted l).getD i 0 ≤ (sorted l).getD j 0 := by
  have hj' : j < (sorted l).length := by rw [sorted_length]; exact hj
  rw [List.getD_eq_getElem _ _ hj', List.getD_eq_getElem _ _ (by omega : i < (sorted l).length)]
  rcases Nat.eq_or_lt_of_le hij with h | h
  · subst h; exact le_rfl
  · exact List.pairwise_iff_getElem.1 (sorted_pairwise l) i j (by omega) hj' h

theorem sorted_getD_mem (l : List K) (i : Nat) (hi : i < l.length) : (sorted l).getD i 0 ∈ l := by
  have hi' : i < (sorted l).length := by rw [sorted_length]; exact hi
  rw [List.getD_eq_getElem _ _ hi']
  exact (sorted_perm l).mem_iff.1 (List.getElem_mem hi')

theorem sorted_of_pairwise (l : List K) (h : l.Pairwise (· ≤ ·)) : sorted l = l :=
  List.mergeSort_of_pairwise (h.imp (by intro a b h; simpa using h))

/-- The median is a least-absolute-deviation centre in the order sense: it lies between the smallest and the largest value. -/
theorem npMedian_between (l : List K) (h : l ≠ []) (lo hi : K) (hlo : ∀ x ∈ l, lo ≤ x) (hhi : ∀ x ∈ l, x ≤ hi) :
    lo ≤ npMedian l ∧ npMedian l ≤ hi := by
  have hn : 0 < l.length := List.length_pos_iff.2 h
  unfold npMedian
  dsimp only
  by_cases ho : l.length % 2 = 1
  · rw [if_pos ho]
    have := sorted_getD_mem l (l.length / 2) (by omega)
    exact ⟨hlo _ this, hhi _ this⟩
  · rw [if_neg ho]
    have h1 := sorted_getD_mem l (l.length / 2) (by omega)
    have h2 := sorted_getD_mem l (l.length / 2 - 1) (by omega)
    constructor
    · rw [le_div_iff₀ (by norm_num)]; linarith [hlo _ h1, hlo _ h2]
    · rw [div_le_iff₀ (by norm_num)]; linarith [hhi _ h1, hhi _ h2]

/-- At most half of the values lie strictly below the median and at most half strictly above. -/
theorem npMedian_count (l : List K) (h : l ≠ []) :
    2 * (l.filter fun x => decide (x < npMedian l)).length ≤ l.length ∧ 2 * (l.filter fun x => decide (npMedian l < x)).length ≤ l.length := by
  have hn : 0 < l.length := List.length_pos_iff.2 h
  -- counting on the sorted list
  have key : ∀ (m : K) (p : Nat), p ≤ l.length → (∀ i, p ≤ i → i < l.length → m ≤ (sorted l).getD i 0) →
      (l.filter fun x => decide (x < m)).length ≤ p := by
    intro m p hp hm
    rw [← ((sorted_perm l).filter _).length_eq, ← List.take_append_drop p (sorted l), List.filter_append, List.length_append]
    have h2 : (((sorted l).drop p).filter fun x => decide (x < m)) = [] := by
      rw [List.filter_eq_nil_iff]
      intro x hx
      obtain ⟨i, hi, rfl⟩ := List.getElem_of_mem hx
      rw [List.length_drop, sorted_length] at hi
      have := hm (p + i) (by omega) (by omega)
      rw [List.getD_eq_getElem _ _ (by rw [sorted_length]; omega)] at this
      simp only [List.getElem_drop, decide_eq_true_eq, not_lt]
      exact this
    rw [h2, List.length_nil, Nat.add_zero]
    refine (List.length_filter_le _ _).trans ?_
    rw [List.length_take]
    omega
  have key' : ∀ (m : K) (p : Nat), p ≤ l.length → (∀ i, i < p → (sorted l).getD i 0 ≤ m) →
      (l.filter fun x => decide (m < x)).length ≤ l.length - p := by
    intro m p hp hm
    rw [← ((sorted_perm l).filter _).length_eq, ← List.take_append_drop p (sorted l), List.filter_append, List.length_append]
    have h2 : (((sorted l).take p).filter fun x => decide (m < x)) = [] := by
      rw [List.filter_eq_nil_iff]
      intro x hx
      obtain ⟨i, hi, rfl⟩ := List.getElem_of_mem hx
      rw [List.length_take, sorted_length] at hi
      have := hm i (by omega)
      rw [List.getD_eq_getElem _ _ (by rw [sorted_length]; omega)] at this
      simp only [List.getElem_take, decide_eq_true_eq, not_lt]
      exact this
    rw [h2, List.length_nil, Nat.zero_add]
    refine (List.length_filter_le _ _).trans ?_
    rw [List.length_drop, sorted_length]
  unfold npMedian
  dsimp only
  by_cases ho : l.length % 2 = 1
  · rw [if_pos ho]
    have a := key ((sorted l).getD (l.length / 2) 0) (l.length / 2) (by omega) (fun i h1 h2 => sorted_mono l _ _ h1 h2)
    have b := key' ((sorted l).getD (l.length / 2) 0) (l.length / 2 + 1) (by omega) (fun i h1 => sorted_mono l _ _ (by omega) (by omega))
    omega
  · rw [if_neg ho]
    have h12 := sorted_mono l (l.length / 2 - 1) (l.length / 2) (by omega) (by omega)
    have a := key (((sorted l).getD (l.length / 2 - 1) 0 + (sorted l).getD (l.length / 2) 0) / 2) (l.length / 2) (by omega) (fun i h1 h2 => by
      have := sorted_mono l _ _ h1 h2
      rw [div_le_iff₀ (by norm_num)]; linarith)
    have b := key' (((sorted l).getD (l.length / 2 - 1) 0 + (sorted l).getD (l.length / 2) 0) / 2) (l.length / 2) (by omega) (fun i h1 => by
      have := sorted_mono l i (l.length / 2 - 1) (by omega) (by omega)
      rw [le_div_iff₀ (by norm_num)]; linarith)
    omega

theorem sorted_first_last (l : List K) (h : l ≠ []) : IsMin l ((sorted l).getD 0 0) ∧ IsMax l ((sorted l).getD (l.length - 1) 0) := by
  have hn : 0 < l.length := List.length_pos_iff.2 h
  refine ⟨⟨sorted_getD_mem l 0 hn, ?_⟩, ⟨sorted_getD_mem l _ (by omega), ?_⟩⟩
  · intro y hy
    obtain ⟨i, hi, rfl⟩ := List.getElem_of_mem ((sorted_perm l).mem_iff.2 hy)
    rw [sorted_length] at hi
    have := sorted_mono l 0 i (by omega) hi
    rwa [List.getD_eq_getElem (sorted l) 0 (by rw [sorted_length]; exact hi : i < (sorted l).length)] at this
  · intro y hy
    obtain ⟨i, hi, rfl⟩ := List.getElem_of_mem ((sorted_perm l).mem_iff.2 hy)
    rw [sorted_length] at hi
    have := sorted_mono l i (l.length - 1) (by omega) (by omega)
    rwa [List.getD_eq_getElem (sorted l) 0 (by rw [sorted_length]; exact hi : i < (sorted l).length)] at this

theorem npPercentile_zero (l : List K) : npPercentile l 0 = (sorted l).getD 0 0 := by
  unfold npPercentile
  simp

theorem npPercentile_hundred (l : List K) (h : l ≠ []) : npPercentile l 100 = (sorted l).getD (l.length - 1) 0 := by
  have hn : 0 < l.length := List.length_pos_iff.2 h
  unfold npPercentile
  have e : (100 / 100 * ((l.length : K) - 1)) = ((l.length - 1 : Nat) : K) := by
    rw [div_self (by norm_num), one_mul, Nat.cast_sub hn, Nat.cast_one]
  simp only [e, Int.floor_natCast, Int.toNat_natCast, Int.cast_natCast, sub_self, zero_mul, add_zero]

/-- Every percentile lies between the smallest and the largest value. -/
theorem npPercentile_between (l : List K) (h : l ≠ []) (q : K) (h0 : 0 ≤ q) (h1 : q ≤ 100) :
    npMin l ≤ npPercentile l q ∧ npPercentile l q ≤ npMax l := by
  have hn : 0 < l.length := List.length_pos_iff.2 h
  have hn' : (0 : K) ≤ (l.length : K) - 1 := by
    have : (1 : K) ≤ (l.length : K) := by exact_mod_cast hn
    linarith
  set pos : K := q / 100 * ((l.length : K) - 1) with hpos
  have hp0 : 0 ≤ pos := mul_nonneg (div_nonneg h0 (by norm_num)) hn'
  have hp1 : pos ≤ ((l.length - 1 : Nat) : K) := by
    rw [Nat.cast_sub hn, Nat.cast_one, hpos]
    have : q / 100 ≤ 1 := by rw [div_le_one (by norm_num)]; exact h1
    nlinarith
  have hf0 : 0 ≤ ⌊pos⌋ := Int.floor_nonneg.2 hp0
  have hlo : ⌊pos⌋.toNat < l.length := by
    have : ⌊pos⌋ ≤ ((l.length - 1 : Nat) : Int) := by
      have := (Int.floor_le pos).trans hp1
      exact_mod_cast this
    omega
  have hfr0 : 0 ≤ pos - (⌊pos⌋ : K) := by linarith [Int.floor_le pos]
  have hfr1 : pos - (⌊pos⌋ : K) ≤ 1 := by linarith [Int.lt_floor_add_one pos]
  have hm1 := (npMin_spec l h).2
  have hm2 := (npMax_spec l h).2
  have a := sorted_getD_mem l _ hlo
  have b : (sorted l).getD (⌊pos⌋.toNat + 1) ((sorted l).getD ⌊pos⌋.toNat 0) ∈ l := by
    by_cases hl : ⌊pos⌋.toNat + 1 < l.length
    · have := sorted_getD_mem l _ hl
      rw [List.getD_eq_getElem _ _ (by rw [sorted_length]; exact hl)] at this ⊢
      exact this
    · rw [List.getD_eq_default _ _ (by rw [sorted_length]; omega)]
      exact a
  unfold npPercentile
  dsimp only
  rw [← hpos]
  set x := (sorted l).getD ⌊pos⌋.toNat 0
  set y := (sorted l).getD (⌊pos⌋.toNat + 1) x
  have e : x + (pos - (⌊pos⌋ : K)) * (y - x) = (1 - (pos - (⌊pos⌋ : K))) * x + (pos - (⌊pos⌋ : K)) * y := by ring
  rw [e]
  constructor <;> nlinarith [hm1 x a, hm1 y b, hm2 x a, hm2 y b]

/-- `v` is the `q`-th percentile of the values `l`: in increasing order `s`, position `q / 100 * (n - 1)` counted from 0, with linear interpolation between the two
neighbouring values. -/
def IsPercentile (l : List K) (q v : K) : Prop :=
  ∃ s : List K, s.Perm l ∧ s.Pairwise (· ≤ ·) ∧ ∃ k : Nat, (k : K) ≤ q / 100 * ((l.length : K) - 1) ∧ q / 100 * ((l.length : K) - 1) < k + 1 ∧
    ∃ a b : K, s[k]? = some a ∧ (s[k + 1]? = some b ∨ k + 1 = l.length ∧ b = a) ∧ v = a + (q / 100 * ((l.length : K) - 1) - k) * (b - a)

theorem npPercentile_spec (l : List K) (h : l ≠ []) (q : K) (h0 : 0 ≤ q) (h1 : q ≤ 100) : IsPercentile l q (npPercentile l q) := by
  have hn : 0 < l.length := List.length_pos_iff.2 h
  have hn' : (0 : K) ≤ (l.length : K) - 1 := by
    have : (1 : K) ≤ (l.length : K) := by exact_mod_cast hn
    linarith
  have hp0 : 0 ≤ q / 100 * ((l.length : K) - 1) := mul_nonneg (div_nonneg h0 (by norm_num)) hn'
  have hp1 : q / 100 * ((l.length : K) - 1) ≤ ((l.length - 1 : Nat) : K) := by
    rw [Nat.cast_sub hn, Nat.cast_one]
    have : q / 100 ≤ 1 := by rw [div_le_one (by norm_num)]; exact h1
    nlinarith
  unfold npPercentile IsPercentile
  dsimp only
  generalize q / 100 * ((l.length : K) - 1) = pos at *
  have hf0 : 0 ≤ ⌊pos⌋ := Int.floor_nonneg.2 hp0
  have hlo : ⌊pos⌋.toNat < l.length := by
    have : ⌊pos⌋ ≤ ((l.length - 1 : Nat) : Int) := by
      have := (Int.floor_le pos).trans hp1
      exact_mod_cast this
    omega
  have hc : ((⌊pos⌋.toNat : Nat) : K) = (⌊pos⌋ : K) := by
    have : ((⌊pos⌋.toNat : Nat) : Int) = ⌊pos⌋ := Int.toNat_of_nonneg hf0
    exact_mod_cast congrArg (Int.cast (R := K)) this
  refine ⟨sorted l, sorted_perm l, sorted_pairwise l, ⌊pos⌋.toNat, ?_, ?_, ?_⟩
  · rw [hc]; exact Int.floor_le pos
  · rw [hc]; exact Int.lt_floor_add_one pos
  · have hl : ⌊pos⌋.toNat < (sorted l).length := by rw [sorted_length]; exact hlo
    refine ⟨(sorted l).getD ⌊pos⌋.toNat 0, (sorted l).getD (⌊pos⌋.toNat + 1) ((sorted l).getD ⌊pos⌋.toNat 0), ?_, ?_, by rw [hc]⟩
    · rw [List.getD_eq_getElem _ _ hl, List.getElem?_eq_getElem hl]
    · by_cases h2 : ⌊pos⌋.toNat + 1 < l.length
      · left
        rw [List.getD_eq_getElem _ _ (by rw [sorted_length]; exact h2 : ⌊pos⌋.toNat + 1 < (sorted l).length), List.getElem?_eq_getElem]
      · right
        exact ⟨by omega, by rw [List.getD_eq_default _ _ (by rw [sorted_length]; omega)]⟩

/-- There is only one `q`-th percentile. -/
theorem IsPercentile.unique {l : List K} {q v w : K} (hv : IsPercentile l q v) (hw : IsPercentile l q w) : v = w := by
  obtain ⟨s, sp, so, k, k1, k2, a, b, ha, hb, rfl⟩ := hv
  obtain ⟨t, tp, ht, k', k1', k2', a', b', ha', hb', rfl⟩ := hw
  have e : s = t := (sp.trans tp.symm).eq_of_pairwise (fun x y _ _ h1 h2 => le_antisymm h1 h2) so ht
  subst e
  have hk : k = k' := by
    have x1 : (k : K) < k' + 1 := lt_of_le_of_lt k1 k2'
    have x2 : (k' : K) < k + 1 := lt_of_le_of_lt k1' k2
    have y1 : k < k' + 1 := by exact_mod_cast x1
    have y2 : k' < k + 1 := by exact_mod_cast x2
    omega
  subst hk
  rw [ha] at ha'
  cases ha'
  have hbb : b = b' := by
    have len := sp.length_eq
    rcases hb with hb | ⟨e1, e2⟩ <;> rcases hb' with hb' | ⟨e3, e4⟩
    · rw [hb] at hb'; exact Option.some.inj hb'
    · rw [e3, ← len, List.getElem?_eq_none le_rfl] at hb; cases hb
    · rw [e1, ← len, List.getElem?_eq_none le_rfl] at hb'; cases hb'
    · rw [e2, e4]
  rw [hbb]

/-! ### C39: statistics -/

theorem flat_ne_nil {α : Type _} (m : Mat α) (hh : 0 < m.h) (hw : 0 < m.w) : flat m ≠ [] := by
  intro h
  have : m.get 0 0 ∈ flat m := by
    simp only [flat, List.mem_flatMap, List.mem_map, List.mem_range]
    exact ⟨0, hh, 0, hw, rfl⟩
  rw [h] at this
  simp at this

theorem mem_flat {α : Type _} (m : Mat α) (x : α) : x ∈ flat m ↔ ∃ i < m.h, ∃ j < m.w, m.get i j = x := by
  simp only [flat, List.mem_flatMap, List.mem_map, List.mem_range]

theorem flat_length {α : Type _} (m : Mat α) : (flat m).length = m.h * m.w := by
  simp [flat, List.length_flatMap]

/-- C39, single image: the seven values are the minimum, the maximum, the two percentiles (between them, and equal to them for 0 and 100), the mean, a median
and the variance of the (denoised) image, in this order. -/
theorem stat_info (gauss : Mat K → Mat K) (m : Mat K) (pLow pHigh : K) (denoise : Bool) (img : Mat K) (himg : img = if denoise then gauss m else m)
    (hh : 0 < img.h) (hw : 0 < img.w) (hl0 : 0 ≤ pLow) (hl1 : pLow ≤ 100) (hh0 : 0 ≤ pHigh) (hh1 : pHigh ≤ 100) :
    IsMin (flat img) (statInfo gauss m pLow pHigh denoise).gmin ∧
    IsMax (flat img) (statInfo gauss m pLow pHigh denoise).gmax ∧
    ((statInfo gauss m pLow pHigh denoise).gmin ≤ (statInfo gauss m pLow pHigh denoise).minPercent ∧
      (statInfo gauss m pLow pHigh denoise).minPercent ≤ (statInfo gauss m pLow pHigh denoise).gmax) ∧
    ((statInfo gauss m pLow pHigh denoise).gmin ≤ (statInfo gauss m pLow pHigh denoise).maxPercent ∧
      (statInfo gauss m pLow pHigh denoise).maxPercent ≤ (statInfo gauss m pLow pHigh denoise).gmax) ∧
    (IsPercentile (flat img) pLow (statInfo gauss m pLow pHigh denoise).minPercent ∧
      IsPercentile (flat img) pHigh (statInfo gauss m pLow pHigh denoise).maxPercent) ∧
    (pLow = 0 → (statInfo gauss m pLow pHigh denoise).minPercent = (statInfo gauss m pLow pHigh denoise).gmin) ∧
    (pHigh = 100 → (statInfo gauss m pLow pHigh denoise).maxPercent = (statInfo gauss m pLow pHigh denoise).gmax) ∧
    (statInfo gauss m pLow pHigh denoise).mean = (flat img).sum / ((img.h * img.w : Nat) : K) ∧
    (2 * ((flat img).filter fun x => decide (x < (statInfo gauss m pLow pHigh denoise).median)).length ≤ img.h * img.w ∧
      2 * ((flat img).filter fun x => decide ((statInfo gauss m pLow pHigh denoise).median < x)).length ≤ img.h * img.w) ∧
    (statInfo gauss m pLow pHigh denoise).variance =
      ((flat img).map fun x => (x - (statInfo gauss m pLow pHigh denoise).mean) ^ 2).sum / ((img.h * img.w : Nat) : K) := by
  have hne := flat_ne_nil img hh hw
  unfold statInfo
  dsimp only
  rw [← himg]
  refine ⟨npMin_spec _ hne, npMax_spec _ hne, npPercentile_between _ hne _ hl0 hl1, npPercentile_between _ hne _ hh0 hh1,
    ⟨npPercentile_spec _ hne _ hl0 hl1, npPercentile_spec _ hne _ hh0 hh1⟩, ?_, ?_, ?_, ?_, ?_⟩
  · intro h
    rw [h, npPercentile_zero]
    exact (sorted_first_last _ hne).1.unique (npMin_spec _ hne)
  · intro h
    rw [h, npPercentile_hundred _ hne]
    exact (sorted_first_last _ hne).2.unique (npMax_spec _ hne)
  · rw [npMean, flat_length]
  · have := npMedian_count _ hne
    rwa [flat_length] at this
  · rw [npVar, npMean, List.length_map, flat_length]

/-- The slices read by the dataset function: `d1, d1 + skip, …` below `d2`. -/
def visited (d1 d2 skip : Nat) : List Nat := (List.range ((d2 - d1 + (skip - 1)) / skip)).map fun k => d1 + k * skip

theorem mem_visited (d1 d2 skip : Nat) (hs : 0 < skip) (i : Nat) : i ∈ visited d1 d2 skip ↔ d1 ≤ i ∧ i < d2 ∧ (i - d1) % skip = 0 := by
  simp only [visited, List.mem_map, List.mem_range]
  constructor
  · rintro ⟨k, hk, rfl⟩
    have h1 : (k + 1) * skip ≤ d2 - d1 + (skip - 1) := by
      have := (Nat.le_div_iff_mul_le hs).1 (Nat.succ_le_of_lt hk)
      simpa using this
    rw [Nat.add_mul, Nat.one_mul] at h1
    refine ⟨by omega, by omega, ?_⟩
    rw [show d1 + k * skip - d1 = k * skip by omega, Nat.mul_mod_left]
  · rintro ⟨h1, h2, h3⟩
    refine ⟨(i - d1) / skip, ?_, ?_⟩
    · rw [Nat.lt_iff_add_one_le, Nat.le_div_iff_mul_le hs, Nat.add_mul, Nat.one_mul, Nat.div_mul_cancel (Nat.dvd_of_mod_eq_zero h3)]
      omega
    · rw [Nat.div_mul_cancel (Nat.dvd_of_mod_eq_zero h3)]
      omega

theorem croppedShape_ok (d h w : Nat) (c : Crop) (hd : c.d1 + c.d2 < d) (hh : c.h1 + c.h2 < h) (hw : c.w1 + c.w2 < w) :
    croppedShape d h w c = .ok ⟨c.d1, d - c.d2, c.h1, h - c.h2, c.w1, w - c.w2⟩ := by
  unfold croppedShape
  rw [if_neg (by omega)]

/-- The values of the slices read. -/
def seen (a : Arr3 K) (c : Crop) (skip : Nat) : List (Mat K) :=
  (visited c.d1 (a.d - c.d2) skip).map fun i => ⟨a.h - c.h2 - c.h1, a.w - c.w2 - c.w1, fun y x => a.get i (c.h1 + y) (c.w1 + x)⟩

theorem statDataset_eq (gauss : Mat K → Mat K) (a : Arr3 K) (pLow pHigh : K) (skip : Int) (c : Crop) (hd : c.d1 + c.d2 + 1 < a.d)
    (hh : c.h1 + c.h2 < a.h) (hw : c.w1 + c.w2 < a.w) (s : Nat) (hs : (s : Int) = npClip skip 1 ((a.d : Int) - c.d2 - c.d1 - 1)) :
    0 < s ∧ statDataset gauss a pLow pHigh skip false c = .ok
      ⟨npMin ((seen a c s).map fun m => npMin (flat m)), npMax ((seen a c s).map fun m => npMax (flat m)),
        npMin ((seen a c s).map fun m => npPercentile (flat m) pLow), npMax ((seen a c s).map fun m => npPercentile (flat m) pHigh),
        npMean ((seen a c s).map fun m => npMedian (flat m)), npMedian ((seen a c s).map fun m => npMean (flat m)),
        npMean ((seen a c s).map fun m => npVar (flat m))⟩ := by
  have hs0 : 0 < s := by
    unfold npClip at hs
    omega
  refine ⟨hs0, ?_⟩
  unfold statDataset
  rw [croppedShape_ok a.d a.h a.w c (by omega) hh hw]
  simp only [Except.bind, bind, pure]
  have e : npClip skip 1 (((a.d - c.d2 : Nat) : Int) - c.d1 - 1) = (s : Int) := by
    rw [hs]; congr 1; omega
  rw [e, if_neg (by omega), Int.toNat_natCast, pyRange_eq _ _ _ hs0]
  have e2 : (((a.d - c.d2 : Nat) : Int) - (c.d1 : Int)).toNat = a.d - c.d2 - c.d1 := by omega
  rw [e2]
  simp only [List.map_map]
  have hmap : ∀ f : Mat K → K, (List.map ((fun m => f m) ∘ fun i => (⟨a.h - c.h2 - c.h1, a.w - c.w2 - c.w1, fun y x => a.get i (c.h1 + y) (c.w1 + x)⟩ : Mat K))
      (visited c.d1 (a.d - c.d2) s)) = (seen a c s).map f := by
    intro f; rw [seen, List.map_map]
  congr 2 <;>
  · rw [← hmap, visited, List.map_map]
    congr 1

theorem mem_seen_flat (a : Arr3 K) (c : Crop) (s : Nat) (hs : 0 < s) (x : K) :
    x ∈ (seen a c s).flatMap flat ↔ ∃ i j k, c.d1 ≤ i ∧ i < a.d - c.d2 ∧ (i - c.d1) % s = 0 ∧ c.h1 ≤ j ∧ j < a.h - c.h2 ∧ c.w1 ≤ k ∧ k < a.w - c.w2 ∧
      a.get i j k = x := by
  simp only [List.mem_flatMap, seen, List.mem_map, mem_visited _ _ _ hs]
  constructor
  · rintro ⟨m, ⟨i, ⟨h1, h2, h3⟩, rfl⟩, hx⟩
    obtain ⟨j, hj, k, hk, he⟩ := (mem_flat _ _).1 hx
    dsimp only at hj hk he
    exact ⟨i, c.h1 + j, c.w1 + k, h1, h2, h3, by omega, by omega, by omega, by omega, he⟩
  · rintro ⟨i, j, k, h1, h2, h3, h4, h5, h6, h7, he⟩
    refine ⟨_, ⟨i, ⟨h1, h2, h3⟩, rfl⟩, (mem_flat _ _).2 ⟨j - c.h1, ?_, k - c.w1, ?_, ?_⟩⟩
    · dsimp only; omega
    · dsimp only; omega
    · dsimp only
      rw [show c.h1 + (j - c.h1) = j by omega, show c.w1 + (k - c.w1) = k by omega, he]

theorem isMin_flatMap (ms : List (Mat K)) (hne : ms ≠ []) (hpos : ∀ m ∈ ms, flat m ≠ []) :
    IsMin (ms.flatMap flat) (npMin (ms.map fun m => npMin (flat m))) := by
  obtain ⟨h1, h2⟩ := npMin_spec (ms.map fun m => npMin (flat m)) (by simpa using hne)
  obtain ⟨m, hm, he⟩ := List.mem_map.1 h1
  constructor
  · rw [List.mem_flatMap]
    exact ⟨m, hm, by rw [← he]; exact (npMin_spec _ (hpos m hm)).1⟩
  · intro y hy
    obtain ⟨m', hm', hy'⟩ := List.mem_flatMap.1 hy
    exact (h2 _ (List.mem_map.2 ⟨m', hm', rfl⟩)).trans ((npMin_spec _ (hpos m' hm')).2 y hy')

theorem isMax_flatMap (ms : List (Mat K)) (hne : ms ≠ []) (hpos : ∀ m ∈ ms, flat m ≠ []) :
    IsMax (ms.flatMap flat) (npMax (ms.map fun m => npMax (flat m))) := by
  obtain ⟨h1, h2⟩ := npMax_spec (ms.map fun m => npMax (flat m)) (by simpa using hne)
  obtain ⟨m, hm, he⟩ := List.mem_map.1 h1
  constructor
  · rw [List.mem_flatMap]
    exact ⟨m, hm, by rw [← he]; exact (npMax_spec _ (hpos m hm)).1⟩
  · intro y hy
    obtain ⟨m', hm', hy'⟩ := List.mem_flatMap.1 hy
    exact ((npMax_spec _ (hpos m' hm')).2 y hy').trans (h2 _ (List.mem_map.2 ⟨m', hm', rfl⟩))

/-- What the dataset statistics should be, for the images `ms` that are read (documentation, postprocessing.py:241-257). -/
structure StatsOf (ms : List (Mat K)) (r : Stats K) : Prop where
  gmin : IsMin (ms.flatMap flat) r.gmin
  gmax : IsMax (ms.flatMap flat) r.gmax
  mean : r.mean = npMean (ms.flatMap flat)

theorem seen_ne_nil (a : Arr3 K) (c : Crop) (s : Nat) (hs : 0 < s) (hd : c.d1 + c.d2 < a.d) (hh : c.h1 + c.h2 < a.h) (hw : c.w1 + c.w2 < a.w) :
    seen a c s ≠ [] ∧ ∀ m ∈ seen a c s, flat m ≠ [] := by
  constructor
  · intro h
    have : c.d1 ∈ visited c.d1 (a.d - c.d2) s := (mem_visited _ _ _ hs _).2 ⟨le_rfl, by omega, by simp⟩
    have h2 := List.mem_map.2 ⟨c.d1, this, rfl⟩ |> fun h : _ ∈ seen a c s => h
    rw [h] at h2
    simp at h2
  · intro m hm
    obtain ⟨i, _, rfl⟩ := List.mem_map.1 hm
    apply flat_ne_nil <;> dsimp only <;> omega

/-- C39, dataset (partial: the columns other than mean and median; at least two slices).  `gmin`/`gmax` are the least and greatest value of the slices
read, and with `skip ≤ 1` of the whole cropped data. -/
theorem stat_dataset_partial (gauss : Mat K → Mat K) (a : Arr3 K) (pLow pHigh : K) (skip : Int) (c : Crop) (hd : c.d1 + c.d2 + 1 < a.d)
    (hh : c.h1 + c.h2 < a.h) (hw : c.w1 + c.w2 < a.w) :
    ∃ s : Nat, 0 < s ∧ (s : Int) = npClip skip 1 ((a.d : Int) - c.d2 - c.d1 - 1) ∧ ∃ r, statDataset gauss a pLow pHigh skip false c = .ok r ∧
      IsMin ((seen a c s).flatMap flat) r.gmin ∧ IsMax ((seen a c s).flatMap flat) r.gmax ∧
      IsMin ((seen a c s).map fun m => npPercentile (flat m) pLow) r.minPercent ∧
      IsMax ((seen a c s).map fun m => npPercentile (flat m) pHigh) r.maxPercent ∧
      r.variance = npMean ((seen a c s).map fun m => npVar (flat m)) ∧
      (skip ≤ 1 →
        (∃ i j k, c.d1 ≤ i ∧ i < a.d - c.d2 ∧ c.h1 ≤ j ∧ j < a.h - c.h2 ∧ c.w1 ≤ k ∧ k < a.w - c.w2 ∧ a.get i j k = r.gmin) ∧
        (∀ i j k, c.d1 ≤ i → i < a.d - c.d2 → c.h1 ≤ j → j < a.h - c.h2 → c.w1 ≤ k → k < a.w - c.w2 → r.gmin ≤ a.get i j k ∧ a.get i j k ≤ r.gmax)) := by
  have hc : (((npClip skip 1 ((a.d : Int) - c.d2 - c.d1 - 1)).toNat : Nat) : Int) = npClip skip 1 ((a.d : Int) - c.d2 - c.d1 - 1) := by
    unfold npClip; omega
  obtain ⟨hs0, heq⟩ := statDataset_eq gauss a pLow pHigh skip c hd hh hw _ hc
  obtain ⟨hne, hpos⟩ := seen_ne_nil a c _ hs0 (by omega) hh hw
  have hmin := isMin_flatMap _ hne hpos
  have hmax := isMax_flatMap _ hne hpos
  refine ⟨_, hs0, hc, _, heq, hmin, hmax, npMin_spec _ (by simpa using hne), npMax_spec _ (by simpa using hne), rfl, ?_⟩
  intro hsk
  have h1 : (npClip skip 1 ((a.d : Int) - c.d2 - c.d1 - 1)).toNat = 1 := by unfold npClip; omega
  constructor
  · obtain ⟨i, j, k, h1, h2, _, h4, h5, h6, h7, he⟩ := (mem_seen_flat a c _ hs0 _).1 hmin.1
    exact ⟨i, j, k, h1, h2, h4, h5, h6, h7, he⟩
  · intro i j k a1 a2 a3 a4 a5 a6
    have : a.get i j k ∈ (seen a c (npClip skip 1 ((a.d : Int) - c.d2 - c.d1 - 1)).toNat).flatMap flat :=
      (mem_seen_flat a c _ hs0 _).2 ⟨i, j, k, a1, a2, by rw [h1, Nat.mod_one], a3, a4, a5, a6, rfl⟩
    exact ⟨hmin.2 _ this, hmax.2 _ this⟩

/-- C39 is false of the code: whatever the data set, the value returned as `mean` is the average of the slice *medians* and the one returned as `median`
the median of the slice *means*. -/
theorem stat_dataset_swapped (gauss : Mat K → Mat K) (a : Arr3 K) (pLow pHigh : K) (skip : Int) (c : Crop) (hd : c.d1 + c.d2 + 1 < a.d)
    (hh : c.h1 + c.h2 < a.h) (hw : c.w1 + c.w2 < a.w) (r : Stats K) (hr : statDataset gauss a pLow pHigh skip false c = .ok r) :
    ∃ s : Nat, r.mean = npMean ((seen a c s).map fun m => npMedian (flat m)) ∧ r.median = npMedian ((seen a c s).map fun m => npMean (flat m)) := by
  have hc : (((npClip skip 1 ((a.d : Int) - c.d2 - c.d1 - 1)).toNat : Nat) : Int) = npClip skip 1 ((a.d : Int) - c.d2 - c.d1 - 1) := by
    unfold npClip; omega
  obtain ⟨hs0, heq⟩ := statDataset_eq gauss a pLow pHigh skip c hd hh hw _ hc
  rw [hr] at heq
  injection heq with heq
  rw [heq]
  exact ⟨_, rfl, rfl⟩

/-- Two slices with the values 0, 0, 3. -/
def skewed : Arr3 ℚ := ⟨2, 1, 3, fun _ _ k => if k = 2 then 3 else 0⟩

/-- C39 refuted: for `skewed` the returned mean is not the mean of the data. -/
theorem stat_dataset_mean_refuted :
    ¬ ∀ (a : Arr3 ℚ) (r : Stats ℚ), 0 < a.h → 0 < a.w → statDataset id a 0 100 1 false ⟨0, 0, 0, 0, 0, 0⟩ = .ok r → StatsOf (seen a ⟨0, 0, 0, 0, 0, 0⟩ 1) r := by
  intro h
  obtain ⟨_, he⟩ := statDataset_eq id skewed 0 100 1 ⟨0, 0, 0, 0, 0, 0⟩ (by decide) (by decide) (by decide) 1 (by decide)
  have h1 := (h _ _ (by decide) (by decide) he).mean
  have hf : ∀ i, flat (⟨1, 3, fun y x => skewed.get i (0 + y) (0 + x)⟩ : Mat ℚ) = [0, 0, 3] := by
    intro i
    simp [flat, skewed, List.range_succ]
  have hseen : seen skewed ⟨0, 0, 0, 0, 0, 0⟩ 1 = [⟨1, 3, fun y x => skewed.get 0 (0 + y) (0 + x)⟩, ⟨1, 3, fun y x => skewed.get 1 (0 + y) (0 + x)⟩] := by
    simp [seen, visited, skewed, List.range_succ]
  have hmed : npMedian ([0, 0, 3] : List ℚ) = 0 := by
    unfold npMedian
    rw [sorted_of_pairwise _ (by simp)]
    rfl
  rw [hseen] at h1
  simp only [List.map_cons, List.map_nil, hf, hmed, List.flatMap_cons, List.flatMap_nil] at h1
  norm_num [npMean] at h1

/-- A data set cropped to one slice is rejected by every call (the clipped `skip` is 0). -/
theorem stat_dataset_single_refuted (gauss : Mat K → Mat K) (a : Arr3 K) (pLow pHigh : K) (skip : Int) (denoise : Bool) (c : Crop)
    (hd : c.d1 + c.d2 + 1 = a.d) (hh : c.h1 + c.h2 < a.h) (hw : c.w1 + c.w2 < a.w) :
    statDataset gauss a pLow pHigh skip denoise c = .error .valueError := by
  unfold statDataset
  rw [croppedShape_ok a.d a.h a.w c (by omega) hh hw]
  simp only [Except.bind, bind, pure]
  rw [if_pos (by unfold npClip; omega)]

/-! ### C40: downsampling -/

/-- The values of the cell of `c0 × c1` pixels with index `(i, j)`. -/
def cell (m : Mat K) (c0 c1 i j : Nat) : List K :=
  (List.range c0).flatMap fun a => (List.range c1).map fun b => m.get (i * c0 + a) (j * c1 + b)

/-- What a reduction over a list of values should be. -/
def Method.Spec (method : Method) (l : List K) (x : K) : Prop :=
  match method with
  | .mean => x = l.sum / (l.length : K)
  | .max => IsMax l x
  | .min => IsMin l x
  | .median => x = npMedian l

theorem reshape4_eq {α : Type _} (m : Mat α) (b c d i j k l : Nat) (hw : m.w = c * d) (hk : k < c) (hl : l < d) :
    reshape4 m b c d i j k l = m.get (i * b + j) (k * d + l) := by
  unfold reshape4
  dsimp only
  have h1 : ((i * b + j) * c + k) * d + l = (i * b + j) * (c * d) + (k * d + l) := by ring
  have h2 : k * d + l < c * d := by
    calc k * d + l < k * d + d := by omega
      _ = (k + 1) * d := by ring
      _ ≤ c * d := Nat.mul_le_mul_right _ hk
  rw [h1, hw, Nat.mul_comm (i * b + j), Nat.mul_add_div (by omega), Nat.div_eq_of_lt h2, Nat.mul_add_mod, Nat.mod_eq_of_lt h2, Nat.add_zero]

/-- Each reduction computes what it should. -/
theorem agg_spec (method : Method) (l : List K) (hl : l ≠ []) : method.Spec l (method.agg l) := by
  cases method with
  | mean => rfl
  | median => rfl
  | max => exact npMax_spec l hl
  | min => exact npMin_spec l hl

theorem spec_unique (method : Method) (l : List K) (x y : K) (hx : method.Spec l x) (hy : method.Spec l y) : x = y := by
  cases method with
  | mean => exact hx.trans hy.symm
  | median => exact hx.trans hy.symm
  | max => exact IsMax.unique hx hy
  | min => exact IsMin.unique hx hy

/-- Aggregating groups of equal size, then the group results, is aggregating everything (mean, max, min). -/
theorem agg_flat (method : Method) (hm : method ≠ .median) (n k : Nat) (hn : 0 < n) (hk : 0 < k) (L : Nat → List K) (hL : ∀ a, (L a).length = k) :
    method.agg ((List.range n).map fun a => method.agg (L a)) = method.agg ((List.range n).flatMap L) := by
  have hin : ∀ a, L a ≠ [] := by intro a h; have := hL a; rw [h] at this; simp at this; omega
  have hout : ∀ g : Nat → K, (List.range n).map g ≠ [] := by intro g; simp; omega
  have hfl : (List.range n).flatMap L ≠ [] := by
    intro h
    have := (List.flatMap_eq_nil_iff.1 h) 0 (List.mem_range.2 hn)
    exact hin 0 this
  refine spec_unique method ((List.range n).flatMap L) _ _ ?_ (agg_spec method _ hfl)
  cases method with
  | median => exact absurd rfl hm
  | mean =>
    simp only [Method.Spec, Method.agg, npMean, List.length_map, List.length_range]
    rw [List.length_flatMap]
    simp only [hL, List.map_const', List.length_range, List.sum_replicate, smul_eq_mul]
    have hk' : (k : K) ≠ 0 := by exact_mod_cast hk.ne'
    have hn' : (n : K) ≠ 0 := by exact_mod_cast hn.ne'
    have : ((List.range n).map fun a => (L a).sum / (k : K)).sum = ((List.range n).flatMap L).sum / (k : K) := by
      induction (List.range n) with
      | nil => simp
      | cons x l ih => rw [List.map_cons, List.sum_cons, ih, List.flatMap_cons, List.sum_append]; ring
    rw [this]
    push_cast
    field_simp
  | max =>
    obtain ⟨h1, h2⟩ := npMax_spec _ (hout fun a => npMax (L a))
    simp only [Method.Spec, Method.agg]
    obtain ⟨a, ha, he⟩ := List.mem_map.1 h1
    constructor
    · exact List.mem_flatMap.2 ⟨a, ha, by rw [← he]; exact (npMax_spec _ (hin a)).1⟩
    · intro y hy
      obtain ⟨a', ha', hy'⟩ := List.mem_flatMap.1 hy
      exact ((npMax_spec _ (hin a')).2 y hy').trans (h2 _ (List.mem_map.2 ⟨a', ha', rfl⟩))
  | min =>
    obtain ⟨h1, h2⟩ := npMin_spec _ (hout fun a => npMin (L a))
    simp only [Method.Spec, Method.agg]
    obtain ⟨a, ha, he⟩ := List.mem_map.1 h1
    constructor
    · exact List.mem_flatMap.2 ⟨a, ha, by rw [← he]; exact (npMin_spec _ (hin a)).1⟩
    · intro y hy
      obtain ⟨a', ha', hy'⟩ := List.mem_flatMap.1 hy
      exact (h2 _ (List.mem_map.2 ⟨a', ha', rfl⟩)).trans ((npMin_spec _ (hin a')).2 y hy')

theorem agg_nested (method : Method) (hm : method ≠ .median) (n k : Nat) (hn : 0 < n) (hk : 0 < k) (f : Nat → Nat → K) :
    method.Spec ((List.range n).flatMap fun a => (List.range k).map fun b => f a b)
      (method.agg ((List.range n).map fun a => method.agg ((List.range k).map fun b => f a b))) := by
  rw [agg_flat method hm n k hn hk (fun a => (List.range k).map fun b => f a b) (by intro a; simp)]
  apply agg_spec
  intro h
  have := (List.flatMap_eq_nil_iff.1 h) 0 (List.mem_range.2 hn)
  simp at this
  omega

theorem downsample_eq (m : Mat K) (c0 c1 : Nat) (h0 : 0 < c0) (h1 : 0 < c1) (method : Method) :
    ∃ out, downsample m c0 c1 method = .ok out ∧ out.h = m.h / c0 ∧ out.w = m.w / c1 ∧ ∀ i j, j < m.w / c1 →
      out.get i j = method.agg ((List.range c0).map fun a => method.agg ((List.range c1).map fun b => m.get (i * c0 + a) (j * c1 + b))) := by
  unfold downsample
  rw [if_neg (by omega)]
  refine ⟨_, rfl, rfl, rfl, ?_⟩
  intro i j hj
  dsimp only
  congr 1
  apply List.map_congr_left
  intro a _
  congr 1
  apply List.map_congr_left
  intro b hb
  rw [reshape4_eq _ _ _ _ _ _ _ _ (by rfl) hj (List.mem_range.1 hb)]

/-- Full C40 (image version): each output pixel is the reduction of its cell; incomplete trailing cells are dropped. -/
def DownsampleSpec (m : Mat K) (c0 c1 : Nat) (method : Method) : Prop :=
  ∃ out, downsample m c0 c1 method = .ok out ∧ out.h = m.h / c0 ∧ out.w = m.w / c1 ∧
    ∀ i < out.h, ∀ j < out.w, method.Spec (cell m c0 c1 i j) (out.get i j)

/-- C40 for mean, max and min: all sizes and cell sizes. -/
theorem downsample_cells_partial (m : Mat K) (c0 c1 : Nat) (h0 : 0 < c0) (h1 : 0 < c1) (method : Method) (hm : method ≠ .median) :
    DownsampleSpec m c0 c1 method := by
  obtain ⟨out, he, hh, hw, hg⟩ := downsample_eq m c0 c1 h0 h1 method
  refine ⟨out, he, hh, hw, ?_⟩
  intro i _ j hj
  rw [hg i j (by omega)]
  exact agg_nested method hm c0 c1 h0 h1 fun a b => m.get (i * c0 + a) (j * c1 + b)

/-- C40, median: the value returned lies between the extremes of the cell, and is the median when the cell is one pixel high or wide. -/
theorem downsample_median_partial (m : Mat K) (c0 c1 : Nat) (h0 : 0 < c0) (h1 : 0 < c1) :
    (c0 = 1 ∨ c1 = 1 → DownsampleSpec m c0 c1 .median) ∧
    ∃ out, downsample m c0 c1 .median = .ok out ∧ ∀ i < out.h, ∀ j < out.w, ∀ lo hi,
      (∀ x ∈ cell m c0 c1 i j, lo ≤ x) → (∀ x ∈ cell m c0 c1 i j, x ≤ hi) → lo ≤ out.get i j ∧ out.get i j ≤ hi := by
  obtain ⟨out, he, hh, hw, hg⟩ := downsample_eq m c0 c1 h0 h1 .median
  have hsing : ∀ x : K, npMedian [x] = x := by
    intro x
    unfold npMedian
    rw [sorted_of_pairwise _ (by simp)]
    simp
  constructor
  · intro h
    refine ⟨out, he, hh, hw, ?_⟩
    intro i _ j hj
    rw [hg i j (by omega)]
    show _ = npMedian _
    simp only [Method.agg, cell]
    rcases h with rfl | rfl
    · simp [hsing]
    · simp [hsing, List.flatMap_singleton']
      congr 1
      rw [← List.flatMap_pure_eq_map]
      rfl
  · refine ⟨out, he, ?_⟩
    intro i _ j hj lo hi hlo hhi
    rw [hg i j (by omega)]
    simp only [Method.agg]
    apply npMedian_between _ (by simp; omega)
    · intro x hx
      obtain ⟨a, ha, rfl⟩ := List.mem_map.1 hx
      refine (npMedian_between _ (by simp; omega) lo hi ?_ ?_).1
      · intro y hy; exact hlo y (List.mem_flatMap.2 ⟨a, ha, hy⟩)
      · intro y hy; exact hhi y (List.mem_flatMap.2 ⟨a, ha, hy⟩)
    · intro x hx
      obtain ⟨a, ha, rfl⟩ := List.mem_map.1 hx
      refine (npMedian_between _ (by simp; omega) lo hi ?_ ?_).2
      · intro y hy; exact hlo y (List.mem_flatMap.2 ⟨a, ha, hy⟩)
      · intro y hy; exact hhi y (List.mem_flatMap.2 ⟨a, ha, hy⟩)

/-- Rows 0 0 1 / 0 0 1 / 1 1 1. -/
def mixed : Mat ℚ := ⟨3, 3, fun i j => if i = 2 ∨ j = 2 then 1 else 0⟩

/-- C40 is false of the code for the median: the median of row medians is taken.  The cell has five ones and four zeros, yet the result is 0. -/
theorem downsample_median_refuted : ¬ ∀ (m : Mat ℚ) (c0 c1 : Nat), 0 < c0 → 0 < c1 → DownsampleSpec m c0 c1 .median := by
  intro h
  obtain ⟨out, he, hh, hw, hg⟩ := downsample_eq mixed 3 3 (by decide) (by decide) .median
  obtain ⟨out', he', _, _, hs⟩ := h mixed 3 3 (by decide) (by decide)
  rw [he] at he'
  injection he' with he'
  subst he'
  have h1 := hs 0 (by rw [hh]; decide) 0 (by rw [hw]; decide)
  rw [hg 0 0 (by decide)] at h1
  have r1 : npMedian ([0, 0, 1] : List ℚ) = 0 := by
    unfold npMedian; rw [sorted_of_pairwise _ (by simp)]; rfl
  have r2 : npMedian ([1, 1, 1] : List ℚ) = 1 := by
    unfold npMedian; rw [sorted_of_pairwise _ (by simp)]; rfl
  have r3 : npMedian (cell mixed 3 3 0 0) = 1 := by
    have e : cell mixed 3 3 0 0 = [0, 0, 1, 0, 0, 1, 1, 1, 1] := by simp [cell, mixed, List.range_succ]
    have hp : sorted ([0, 0, 1, 0, 0, 1, 1, 1, 1] : List ℚ) = [0, 0, 0, 0, 1, 1, 1, 1, 1] := by
      rw [← sorted_of_pairwise [0, 0, 0, 0, 1, 1, 1, 1, 1] (by simp)]
      have hperm : (sorted ([0, 0, 1, 0, 0, 1, 1, 1, 1] : List ℚ)).Perm (sorted [0, 0, 0, 0, 1, 1, 1, 1, 1]) :=
        ((sorted_perm _).trans (by decide)).trans (sorted_perm _).symm
      exact hperm.eq_of_pairwise' (sorted_pairwise _) (sorted_pairwise _)
    rw [e]; unfold npMedian; rw [hp]; rfl
  simp only [Method.Spec, Method.agg] at h1
  rw [r3] at h1
  simp [mixed, List.range_succ, r1, r2] at h1

/-! #### the dataset version -/

theorem reshape6_eq {α : Type _} (s : Arr3 α) (hd c1 wd c2 a i b j e : Nat) (hh : s.h = hd * c1) (hw : s.w = wd * c2) (hi : i < hd) (hb : b < c1)
    (hj : j < wd) (he : e < c2) : reshape6 s hd c1 wd c2 a i b j e = s.get a (i * c1 + b) (j * c2 + e) := by
  unfold reshape6
  dsimp only
  have h2 : j * c2 + e < wd * c2 := by
    calc j * c2 + e < j * c2 + c2 := by omega
      _ = (j + 1) * c2 := by ring
      _ ≤ wd * c2 := Nat.mul_le_mul_right _ hj
  have h3 : i * c1 + b < hd * c1 := by
    calc i * c1 + b < i * c1 + c1 := by omega
      _ = (i + 1) * c1 := by ring
      _ ≤ hd * c1 := Nat.mul_le_mul_right _ hi
  have h4 : (i * c1 + b) * (wd * c2) + (j * c2 + e) < (hd * c1) * (wd * c2) := by
    calc (i * c1 + b) * (wd * c2) + (j * c2 + e) < (i * c1 + b) * (wd * c2) + wd * c2 := by omega
      _ = (i * c1 + b + 1) * (wd * c2) := by ring
      _ ≤ (hd * c1) * (wd * c2) := Nat.mul_le_mul_right _ h3
  have hf : (((a * hd + i) * c1 + b) * wd + j) * c2 + e = (hd * c1) * (wd * c2) * a + ((i * c1 + b) * (wd * c2) + (j * c2 + e)) := by ring
  have hf2 : (((a * hd + i) * c1 + b) * wd + j) * c2 + e = (wd * c2) * ((a * hd + i) * c1 + b) + (j * c2 + e) := by ring
  have e1 : ((((a * hd + i) * c1 + b) * wd + j) * c2 + e) % (wd * c2) = j * c2 + e := by
    rw [hf2, Nat.mul_add_mod, Nat.mod_eq_of_lt h2]
  rw [hh, hw, e1, hf, Nat.mul_add_div (by omega), Nat.div_eq_of_lt h4, Nat.mul_add_mod, Nat.mod_eq_of_lt h4, Nat.add_zero,
    Nat.mul_comm (i * c1 + b), Nat.mul_add_div (by omega), Nat.div_eq_of_lt h2, Nat.add_zero]

theorem starts_eq (d1 depth1 c0 : Nat) (h0 : 0 < c0) :
    (pyRange (d1 : Int) ((d1 + depth1 : Nat) : Int) c0).takeWhile (fun i => decide (i + c0 ≤ (d1 : Int) + depth1)) =
      (List.range (depth1 / c0)).map fun k : Nat => (d1 : Int) + (k * c0 : Nat) := by
  rw [pyRange_eq _ _ _ h0, show (((d1 + depth1 : Nat) : Int) - d1).toNat = depth1 by omega]
  have hdm := Nat.div_add_mod depth1 c0
  have hml := Nat.mod_lt depth1 h0
  obtain ⟨r, hr⟩ : ∃ r, (depth1 + (c0 - 1)) / c0 = depth1 / c0 + r :=
    ⟨(depth1 + (c0 - 1)) / c0 - depth1 / c0, by have := Nat.div_le_div_right (c := c0) (show depth1 ≤ depth1 + (c0 - 1) by omega); omega⟩
  rw [hr, List.range_add, List.map_append, List.takeWhile_append_of_pos]
  · have : (List.map (fun k : Nat => (d1 : Int) + (k * c0 : Nat)) ((List.range r).map fun x => depth1 / c0 + x)).takeWhile
        (fun i => decide (i + c0 ≤ (d1 : Int) + depth1)) = [] := by
      cases r with
      | zero => rfl
      | succ r =>
        rw [List.range_succ_eq_map, List.map_cons, List.map_cons, List.takeWhile_cons_of_neg]
        simp only [decide_eq_true_eq]
        have e : (depth1 / c0 + 0) * c0 = c0 * (depth1 / c0) := by ring
        rw [e]
        omega
    rw [this, List.append_nil]
  · intro x hx
    obtain ⟨k, hk, rfl⟩ := List.mem_map.1 hx
    rw [List.mem_range] at hk
    have : (k + 1) * c0 ≤ depth1 := (Nat.mul_le_mul_right c0 hk).trans (Nat.div_mul_le_self _ _)
    rw [Nat.add_mul, Nat.one_mul] at this
    simp only [decide_eq_true_eq]
    omega

/-- The values of the 3D cell with index `(k, i, j)` of the cropped data. -/
def cell3 (a : Arr3 K) (c : Crop) (c0 c1 c2 k i j : Nat) : List K :=
  (List.range c1).flatMap fun y => (List.range c0).flatMap fun x => (List.range c2).map fun z =>
    a.get (c.d1 + (k * c0 + x)) (c.h1 + (i * c1 + y)) (c.w1 + (j * c2 + z))

theorem mem_cell3 (a : Arr3 K) (c : Crop) (c0 c1 c2 k i j : Nat) (v : K) : v ∈ cell3 a c c0 c1 c2 k i j ↔
    ∃ x < c0, ∃ y < c1, ∃ z < c2, a.get (c.d1 + (k * c0 + x)) (c.h1 + (i * c1 + y)) (c.w1 + (j * c2 + z)) = v := by
  simp only [cell3, List.mem_flatMap, List.mem_map, List.mem_range]
  constructor
  · rintro ⟨y, hy, x, hx, z, hz, h⟩; exact ⟨x, hx, y, hy, z, hz, h⟩
  · rintro ⟨x, hx, y, hy, z, hz, h⟩; exact ⟨y, hy, x, hx, z, hz, h⟩

theorem length_cell3 (a : Arr3 K) (c : Crop) (c0 c1 c2 k i j : Nat) : (cell3 a c c0 c1 c2 k i j).length = c1 * (c0 * c2) := by
  simp [cell3, List.length_flatMap]

/-- C40 for data sets (mean, max, min): for every crop leaving at least one complete cell, every output voxel is the reduction of its cell, cast to
the input's dtype, and trailing incomplete cells are dropped. -/
theorem downsample_dataset_partial (a : Arr3 K) (c0 c1 c2 : Nat) (method : Method) (hm : method ≠ .median) (c : Crop) (intOut : Bool)
    (h0 : 0 < c0) (h1 : 0 < c1) (h2 : 0 < c2) (hd : c.d1 + c.d2 + c0 ≤ a.d) (hh : c.h1 + c.h2 + c1 ≤ a.h) (hw : c.w1 + c.w2 + c2 ≤ a.w) :
    ∃ out, downsampleDataset a c0 c1 c2 method c intOut = .ok out ∧ out.d = (a.d - c.d2 - c.d1) / c0 ∧ out.h = (a.h - c.h2 - c.h1) / c1 ∧
      out.w = (a.w - c.w2 - c.w1) / c2 ∧
      ∀ k < out.d, ∀ i < out.h, ∀ j < out.w, ∃ v, method.Spec (cell3 a c c0 c1 c2 k i j) v ∧ out.get k i j = storeAs intOut v := by
  unfold downsampleDataset
  rw [croppedShape_ok a.d a.h a.w c (by omega) (by omega) (by omega)]
  simp only [Except.bind, bind, pure]
  have hd0 : 0 < (a.d - c.d2 - c.d1) / c0 := Nat.div_pos (by omega) h0
  have hh0 : 0 < (a.h - c.h2 - c.h1) / c1 := Nat.div_pos (by omega) h1
  have hw0 : 0 < (a.w - c.w2 - c.w1) / c2 := Nat.div_pos (by omega) h2
  rw [if_neg (by omega), if_neg (by omega)]
  have hst := starts_eq c.d1 (a.d - c.d2 - c.d1) c0 h0
  rw [show c.d1 + (a.d - c.d2 - c.d1) = a.d - c.d2 by omega] at hst
  rw [hst]
  refine ⟨_, rfl, by simp, rfl, rfl, ?_⟩
  intro k hk i hi j hj
  simp only [List.length_map, List.length_range] at hk
  refine ⟨method.agg (cell3 a c c0 c1 c2 k i j), ?_, ?_⟩
  · apply agg_spec
    intro h
    have := length_cell3 a c c0 c1 c2 k i j
    rw [h] at this
    have : 0 < c1 * (c0 * c2) := by positivity
    simp at *
    omega
  · dsimp only at hi hj ⊢
    congr 1
    rw [List.map_map, List.getD_eq_getElem _ _ (by simpa using hk)]
    simp only [List.getElem_map, List.getElem_range, Function.comp]
    unfold cell3
    rw [← agg_flat method hm c1 (c0 * c2) h1 (by positivity) _ (by intro y; simp [List.length_flatMap])]
    congr 1
    apply List.map_congr_left
    intro y hy
    rw [← agg_flat method hm c0 c2 h0 h2 _ (by intro x; simp)]
    congr 1
    apply List.map_congr_left
    intro x hx
    congr 1
    apply List.map_congr_left
    intro z hz
    rw [List.mem_range] at hx hy hz
    rw [reshape6_eq _ _ _ _ _ _ _ _ _ _ rfl rfl hi hy hj hz]
    dsimp only
    congr 1
    omega

/-- A non-trivial instance: a 5 × 4 × 6 data set, cells of 2 × 2 × 3, one slice cropped at the front. -/
example : ∃ out, downsampleDataset (⟨6, 4, 6, fun k i j => k + i + j⟩ : Arr3 ℚ) 2 2 3 .mean ⟨1, 0, 0, 0, 0, 0⟩ false = .ok out ∧ out.d = 2 ∧ out.h = 2 ∧ out.w = 2 := by
  obtain ⟨out, h, h1, h2, h3, _⟩ := downsample_dataset_partial (⟨6, 4, 6, fun k i j => k + i + j⟩ : Arr3 ℚ) 2 2 3 .mean (by simp) ⟨1, 0, 0, 0, 0, 0⟩ false
    (by decide) (by decide) (by decide) (by decide) (by decide) (by decide)
  exact ⟨out, h, h1, h2, h3⟩

/-! ### C41: rescaling -/

theorem clipK_spec (x lo hi : K) (h : lo ≤ hi) : lo ≤ clipK x lo hi ∧ clipK x lo hi ≤ hi := by
  unfold clipK
  exact ⟨le_min (le_max_right _ _) h, min_le_right _ _⟩

theorem clipK_mono (x y lo hi : K) (h : x ≤ y) : clipK x lo hi ≤ clipK y lo hi := min_le_min (max_le_max h le_rfl) le_rfl

theorem clipK_id (x lo hi : K) (h1 : lo ≤ x) (h2 : x ≤ hi) : clipK x lo hi = x := by
  unfold clipK; rw [max_eq_left h1, min_eq_left h2]

/-- C41: for 8 and 16 bits, any image, and limits with `gmin < gmax` given explicitly or (when absent) taken from a non-constant image, the result has
the image's shape, values in `[0, 2^nbit - 1]`, is monotone in the pixel value, maps values ≤ gmin to 0, values ≥ gmax to `2^nbit - 1`, and is the
floor of the affine map in between (so nothing wraps around). -/
theorem rescale_bounded_monotone (m : Mat K) (nbit : Nat) (hb : nbit = 8 ∨ nbit = 16) (minmax : Option (K × K)) (gmin gmax : K)
    (hmm : (minmax = some (gmin, gmax)) ∨ (minmax = none ∧ 0 < m.h ∧ 0 < m.w ∧ IsMin (flat m) gmin ∧ IsMax (flat m) gmax)) (hlt : gmin < gmax) :
    ∃ out, rescale m nbit minmax = .ok out ∧ out.h = m.h ∧ out.w = m.w ∧
      (∀ i j, 0 ≤ out.get i j ∧ out.get i j ≤ 2 ^ nbit - 1) ∧
      (∀ i j i' j', m.get i j ≤ m.get i' j' → out.get i j ≤ out.get i' j') ∧
      (∀ i j, m.get i j ≤ gmin → out.get i j = 0) ∧ (∀ i j, gmax ≤ m.get i j → out.get i j = 2 ^ nbit - 1) ∧
      (∀ i j, gmin ≤ m.get i j → m.get i j ≤ gmax → out.get i j = ⌊(m.get i j - gmin) / (gmax - gmin) * (2 ^ nbit - 1 : K)⌋) := by
  have hdef : rescale m nbit minmax = .ok (m.map fun x =>
      pyTrunc (clipK ((clipK x gmin gmax - gmin) / (gmax - gmin) * (2 ^ nbit - 1 : K)) 0 (2 ^ nbit - 1 : K))) := by
    have htop : (if nbit = 8 then (255 : K) else 65535) = 2 ^ nbit - 1 := by
      rcases hb with rfl | rfl <;> norm_num
    unfold rescale
    rw [if_neg (by omega)]
    rcases hmm with rfl | ⟨rfl, hh, hw, h1, h2⟩
    · dsimp only
      rw [if_neg (by intro h; linarith), htop]
    · have hne := flat_ne_nil m hh hw
      rw [h1.unique (npMin_spec _ hne), h2.unique (npMax_spec _ hne)] at hlt ⊢
      dsimp only
      rw [if_neg (by intro h; linarith), htop]
  have hT : (0 : K) ≤ 2 ^ nbit - 1 := by
    have : (1 : K) ≤ 2 ^ nbit := one_le_pow₀ (by norm_num)
    linarith
  have htr : ∀ x : K, pyTrunc (clipK x 0 (2 ^ nbit - 1 : K)) = ⌊clipK x 0 (2 ^ nbit - 1 : K)⌋ := by
    intro x; unfold pyTrunc; rw [if_pos (clipK_spec x _ _ hT).1]
  have hpos : 0 < gmax - gmin := by linarith
  have hfl : ⌊(2 ^ nbit - 1 : K)⌋ = 2 ^ nbit - 1 := by
    rw [show (2 ^ nbit - 1 : K) = (((2 : Int) ^ nbit - 1 : Int) : K) by push_cast; rfl, Int.floor_intCast]
  refine ⟨_, hdef, rfl, rfl, ?_, ?_, ?_, ?_, ?_⟩ <;> simp only [Mat.map, htr]
  · intro i j
    obtain ⟨ha, hb'⟩ := clipK_spec ((clipK (m.get i j) gmin gmax - gmin) / (gmax - gmin) * (2 ^ nbit - 1 : K)) 0 (2 ^ nbit - 1) hT
    refine ⟨Int.floor_nonneg.2 ha, ?_⟩
    rw [← hfl]
    exact Int.floor_le_floor hb'
  · intro i j i' j' h
    apply Int.floor_le_floor
    apply clipK_mono
    apply mul_le_mul_of_nonneg_right _ hT
    apply div_le_div_of_nonneg_right _ hpos.le
    have := clipK_mono (m.get i j) (m.get i' j') gmin gmax h
    linarith
  · intro i j h
    have : clipK (m.get i j) gmin gmax = gmin := by unfold clipK; rw [max_eq_right h, min_eq_left hlt.le]
    rw [this, sub_self, zero_div, zero_mul, clipK_id 0 _ _ le_rfl hT, Int.floor_zero]
  · intro i j h
    have : clipK (m.get i j) gmin gmax = gmax := by unfold clipK; rw [max_eq_left (hlt.le.trans h), min_eq_right h]
    rw [this, div_self hpos.ne', one_mul, clipK_id _ _ _ hT le_rfl, hfl]
  · intro i j h h'
    rw [clipK_id _ _ _ h h']
    congr 1
    have h3 : 0 ≤ (m.get i j - gmin) / (gmax - gmin) := div_nonneg (by linarith) hpos.le
    have h4 : (m.get i j - gmin) / (gmax - gmin) ≤ 1 := by rw [div_le_one hpos]; linarith
    apply clipK_id
    · exact mul_nonneg h3 hT
    · nlinarith

/-- Other bit depths are rejected; equal limits divide by zero. -/
theorem rescale_errors (m : Mat K) (nbit : Nat) (minmax : Option (K × K)) :
    (nbit ≠ 8 ∧ nbit ≠ 16 → rescale m nbit minmax = .error .valueError) ∧
    (nbit = 8 ∨ nbit = 16 → ∀ g, minmax = some (g, g) → rescale m nbit minmax = .error .zeroDivision) := by
  unfold rescale
  constructor
  · intro h; rw [if_pos h]
  · intro h g hg
    rw [if_neg (by omega), hg]
    simp

/-- A non-trivial instance: 16 bits, limits from the image. -/
example : ∃ out, rescale (⟨1, 3, fun _ j => (j : ℚ) / 2⟩ : Mat ℚ) 16 (some (0, 1)) = .ok out ∧ out.get 0 1 = 32767 := by
  obtain ⟨out, h, _, _, _, _, _, _, h8⟩ := rescale_bounded_monotone (⟨1, 3, fun _ j => (j : ℚ) / 2⟩ : Mat ℚ) 16 (Or.inr rfl) (some (0, 1)) 0 1 (Or.inl rfl) (by norm_num)
  refine ⟨out, h, ?_⟩
  rw [h8 0 1 (by norm_num) (by norm_num)]
  norm_num [Int.floor_eq_iff]

/-! ### C42: overwriting -/

/-- Full C42 for a writer: with `overwrite` the result is stored under exactly the requested name, nothing else changes; without it an existing file
makes the call fail, and otherwise the result is stored under the requested name. -/
def OverwriteSpec (writer : ∀ (C : Type), Nat → Dir C → Name → Name → C → Bool → Py (Option (Name × Dir C))) : Prop :=
  ∀ (C : Type) (d : Dir C) (stem ext : Name) (c : C) (fuel : Nat), d.length < fuel →
    (stem ++ ext ∈ d.map (·.1) → writer C fuel d stem ext c false = .error .valueError) ∧
    (∀ overwrite, (overwrite = true ∨ stem ++ ext ∉ d.map (·.1)) → ∃ d', writer C fuel d stem ext c overwrite = .ok (some (stem ++ ext, d')) ∧
      d'.find (stem ++ ext) = some c ∧ ∀ n, n ≠ stem ++ ext → d'.find n = d.find n)

/-- C42 holds of `downsample_dataset`. -/
theorem downsample_overwrite : OverwriteSpec (fun C => downsampleDatasetOut (C := C)) := by
  intro C d stem ext c fuel hf
  constructor
  · intro h
    unfold downsampleDatasetOut
    exact if_pos ⟨rfl, by simpa [checkOutput] using h⟩
  · intro ow h
    have : ¬ (ow = false ∧ checkOutput d stem ext = true) := by
      rintro ⟨h1, h2⟩
      rcases h with h | h
      · rw [h] at h1; cases h1
      · exact h (by simpa [checkOutput] using h2)
    simp only [downsampleDatasetOut]
    rw [if_neg this]
    refine ⟨_, rfl, ?_, ?_⟩
    · rw [find_write, if_pos rfl]
    · intro n hn
      rw [find_write, if_neg (by simpa using hn)]

/-- C42, `rescale_dataset`: what happens with `overwrite=True` when the output exists: the old file is kept and another name is written. -/
theorem rescale_overwrite_ignored {C : Type} (d : Dir C) (stem ext : Name) (c : C) (fuel : Nat) (hex : stem ++ ext ∈ d.map (·.1)) (n : Name) (d' : Dir C)
    (h : rescaleDatasetOut fuel d stem ext c true = .ok (some (n, d'))) : n ≠ stem ++ ext ∧ d'.find (stem ++ ext) = d.find (stem ++ ext) := by
  unfold rescaleDatasetOut writeHdf at h
  rw [if_neg (by simp)] at h
  simp only [Bool.false_eq_true, if_false, Except.ok.injEq, Option.map_eq_some_iff, Prod.mk.injEq] at h
  obtain ⟨m, hm, rfl, rfl⟩ := h
  rw [makeFileName, if_pos hex] at hm
  obtain ⟨k, _, _, _, hnot, _⟩ := (searchFile_spec (d.map (·.1)) stem ext fuel 0).1 m hm
  have hne : stem ++ ext ≠ m := fun he => hnot (he ▸ hex)
  exact ⟨hne.symm, by rw [find_write, if_neg hne]⟩

/-- C42 is false of `rescale_dataset`. -/
theorem rescale_overwrite_refuted : ¬ OverwriteSpec (fun C => rescaleDatasetOut (C := C)) := by
  intro h
  obtain ⟨d', h1, _, _⟩ := (h Nat [("a.hdf".toList, 1)] "a".toList ".hdf".toList 2 2 (by decide)).2 true (Or.inl rfl)
  exact (rescale_overwrite_ignored [("a.hdf".toList, 1)] "a".toList ".hdf".toList 2 2 (by decide) _ _ h1).1 rfl

/-- C42, `rescale_dataset` (partial: without `overwrite`, or with a free output name). -/
theorem rescale_overwrite_partial {C : Type} (d : Dir C) (stem ext : Name) (c : C) (fuel : Nat) :
    (stem ++ ext ∈ d.map (·.1) → rescaleDatasetOut fuel d stem ext c false = .error .valueError) ∧
    (stem ++ ext ∉ d.map (·.1) → ∀ overwrite, ∃ d', rescaleDatasetOut fuel d stem ext c overwrite = .ok (some (stem ++ ext, d')) ∧
      d'.find (stem ++ ext) = some c ∧ ∀ n, n ≠ stem ++ ext → d'.find n = d.find n) := by
  constructor
  · intro h
    unfold rescaleDatasetOut
    exact if_pos ⟨rfl, by simpa [checkOutput] using h⟩
  · intro h ow
    unfold rescaleDatasetOut
    rw [if_neg (by rintro ⟨_, h2⟩; exact h (by simpa [checkOutput] using h2))]
    refine ⟨d.write (stem ++ ext) c, ?_, ?_, ?_⟩
    · simp [writeHdf, makeFileName, h]
    · rw [find_write, if_pos rfl]
    · intro n hn
      rw [find_write, if_neg hn]

end
end Verif.Post
