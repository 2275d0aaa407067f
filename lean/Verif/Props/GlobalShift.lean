import Verif.Model.GlobalShift
import Verif.Props.ShiftFind
import Verif.Props.Post
import Verif.Props.Center
import Verif.Props.BackProj
import Verif.Props.LocalShifts

/-!
C54: the global shift computed from local shifts.
-/

set_option linter.unusedSectionVars false
set_option linter.unusedSimpArgs false

namespace Verif.GlobalShift
open Verif.Correlation Verif.LocalShifts Verif.Post Verif.Sched

section
variable {K : Type _} [Field K] [LinearOrder K] [IsStrictOrderedRing K] [FloorRing K]

/-! ### All aggregations are window means of the sorted values -/

/-- Mean of the sorted values number `b .. e-1`. -/
def winMean (s : ℕ → K) (b e : ℕ) : K := (∑ k ∈ Finset.range (e - b), s (b + k)) / ((e - b : ℕ) : K)

theorem list_sum_range (l : List K) : l.sum = ∑ k ∈ Finset.range l.length, l.getD k 0 := by
  induction l with
  | nil => simp
  | cons a l ih =>
    rw [List.sum_cons, List.length_cons, Finset.sum_range_succ', ih, add_comm]
    simp

theorem npMean_slice (l : List K) (b e : ℕ) (he : e ≤ l.length) (hb : b ≤ e) (x y : ℤ) (hx : pyBound l.length x = b)
    (hy : pyBound l.length y = e) : npMean (pySlice l x y) = winMean (fun k => l.getD k 0) b e := by
  unfold npMean pySlice winMean
  rw [hx, hy, list_sum_range]
  have hl : ((l.take e).drop b).length = e - b := by rw [List.length_drop, List.length_take]; omega
  rw [hl]
  congr 1
  apply Finset.sum_congr rfl
  intro k hk
  have hk : k < e - b := Finset.mem_range.1 hk
  dsimp only
  rw [List.getD_eq_getElem _ _ (by omega), List.getD_eq_getElem _ _ (by omega), List.getElem_drop, List.getElem_take]

/-- First and past-the-end rank of the values that are averaged. -/
def window : Agg → ℕ → ℕ × ℕ
  | .median, n => ((n - 1) / 2, n / 2 + 1)
  | .mixed, n => (n / 2 - 3, min (n / 2 + 3) n)
  | .mean, n => if n > 7 then (2, n - 2) else (0, n)

theorem window_ok (agg : Agg) {n : ℕ} (hn : 0 < n) :
    (window agg n).1 < (window agg n).2 ∧ (window agg n).2 ≤ n := by
  cases agg <;> unfold window <;> dsimp only
  · omega
  · omega
  · split_ifs <;> (dsimp only; omega)

theorem value_eq (agg : Agg) (l : List K) (h : l ≠ []) :
    agg.value l = winMean (fun k => (sorted l).getD k 0) (window agg l.length).1 (window agg l.length).2 := by
  have hn : 0 < l.length := List.length_pos_iff.2 h
  have hs := sorted_length l
  cases agg with
  | median =>
    show npMedian l = _
    unfold npMedian window winMean
    dsimp only
    rcases Nat.mod_two_eq_zero_or_one l.length with h0 | h1
    · rw [if_neg (by omega), show l.length / 2 + 1 - (l.length - 1) / 2 = 2 by omega,
        show l.length / 2 - 1 = (l.length - 1) / 2 by omega, show l.length / 2 = (l.length - 1) / 2 + 1 by omega]
      simp [Finset.sum_range_succ]
    · rw [if_pos h1, show l.length / 2 + 1 - (l.length - 1) / 2 = 1 by omega,
        show l.length / 2 = (l.length - 1) / 2 by omega]
      simp
  | mixed =>
    unfold Agg.value window npClip
    dsimp only
    rw [if_pos (by omega)]
    refine npMean_slice _ _ _ (by omega) (by omega) _ _ ?_ ?_
    · unfold pyBound; rw [if_neg (by omega)]; omega
    · unfold pyBound; rw [if_neg (by omega)]; omega
  | mean =>
    unfold Agg.value window
    dsimp only
    by_cases h7 : l.length > 7
    · rw [if_pos h7, if_pos h7]
      refine npMean_slice _ _ _ (by dsimp only; omega) (by dsimp only; omega) _ _ ?_ ?_
      · unfold pyBound; rw [if_neg (by omega)]; dsimp only; omega
      · unfold pyBound; rw [if_pos (by omega)]; dsimp only; omega
    · rw [if_neg h7, if_neg h7]
      unfold npMean winMean
      dsimp only
      rw [(sorted_perm l).sum_eq.symm, list_sum_range, hs]
      simp

theorem winMean_between (s : ℕ → K) (b e : ℕ) (hbe : b < e) (lo hi : K) (h : ∀ k, b ≤ k → k < e → lo ≤ s k ∧ s k ≤ hi) :
    lo ≤ winMean s b e ∧ winMean s b e ≤ hi := by
  unfold winMean
  have hpos : (0 : K) < ((e - b : ℕ) : K) := by exact_mod_cast (by omega : 0 < e - b)
  have hk : ∀ k ∈ Finset.range (e - b), lo ≤ s (b + k) ∧ s (b + k) ≤ hi := fun k hk => by
    have := Finset.mem_range.1 hk
    exact h _ (by omega) (by omega)
  rw [le_div_iff₀ hpos, div_le_iff₀ hpos]
  constructor
  · have := Finset.sum_le_sum fun k hk' => (hk k hk').1
    rw [Finset.sum_const, Finset.card_range, nsmul_eq_mul] at this
    linarith
  · have := Finset.sum_le_sum fun k hk' => (hk k hk').2
    rw [Finset.sum_const, Finset.card_range, nsmul_eq_mul] at this
    linarith

/-! ### The claims -/

/-- **C54.** The global value lies between any lower and upper bound of the local values (in particular between the
smallest and the largest one). -/
theorem global_value_between (agg : Agg) (l : List K) (h : l ≠ []) (lo hi : K) (hb : ∀ x ∈ l, lo ≤ x ∧ x ≤ hi) :
    lo ≤ agg.value l ∧ agg.value l ≤ hi := by
  rw [value_eq agg l h]
  obtain ⟨h1, h2⟩ := window_ok agg (List.length_pos_iff.2 h)
  exact winMean_between _ _ _ h1 _ _ fun k _ hk => hb _ (sorted_getD_mem l k (by omega))

theorem sorted_congr {l l' : List K} (h : l.Perm l') : sorted l = sorted l' := by
  refine List.Perm.eq_of_pairwise (le := (· ≤ ·)) ?_ (sorted_pairwise l) (sorted_pairwise l')
    ((sorted_perm l).trans (h.trans (sorted_perm l').symm))
  intro a b _ _ h1 h2
  exact le_antisymm h1 h2

/-- **C54.** The order of the points does not matter. -/
theorem global_value_perm (agg : Agg) {l l' : List K} (h : l.Perm l') : agg.value l = agg.value l' := by
  by_cases hl : l = []
  · subst hl; rw [List.nil_perm] at h; rw [h]
  · rw [value_eq agg l hl, value_eq agg l' (fun he => hl (by rw [he] at h; simpa using h)), h.length_eq, sorted_congr h]

/-- **C54.** If all local values agree, so does the global one. -/
theorem global_value_const (agg : Agg) (l : List K) (h : l ≠ []) (c : K) (hc : ∀ x ∈ l, x = c) : agg.value l = c := by
  obtain ⟨h1, h2⟩ := global_value_between agg l h c c fun x hx => by rw [hc x hx]; exact ⟨le_rfl, le_rfl⟩
  exact le_antisymm h2 h1

theorem sorted_map_mono (l : List K) (f : K → K) (hf : Monotone f) : sorted (l.map f) = (sorted l).map f := by
  refine List.Perm.eq_of_pairwise (le := (· ≤ ·)) (fun a b _ _ h1 h2 => le_antisymm h1 h2) (sorted_pairwise _) ?_
    ((sorted_perm _).trans ((sorted_perm l).map f).symm)
  rw [List.pairwise_map]
  exact (sorted_pairwise l).imp fun h => hf h

theorem sorted_map_anti (l : List K) (f : K → K) (hf : Antitone f) : sorted (l.map f) = ((sorted l).map f).reverse := by
  refine List.Perm.eq_of_pairwise (le := (· ≤ ·)) (fun a b _ _ h1 h2 => le_antisymm h1 h2) (sorted_pairwise _) ?_
    ((sorted_perm _).trans (((List.reverse_perm _).trans ((sorted_perm l).map f)).symm))
  rw [List.pairwise_reverse, List.pairwise_map]
  exact (sorted_pairwise l).imp fun h => hf h

/-- **C54.** Adding a constant to all local values, or rescaling them by a non-negative factor, does the same to the
global value. -/
theorem global_value_affine (agg : Agg) (l : List K) (h : l ≠ []) (a b : K) (ha : 0 ≤ a) :
    agg.value (l.map fun x => a * x + b) = a * agg.value l + b := by
  obtain ⟨h1, h2⟩ := window_ok agg (List.length_pos_iff.2 h)
  rw [value_eq agg l h, value_eq agg _ (by simpa using h), List.length_map,
    sorted_map_mono l _ fun x y hxy => by gcongr]
  set u := (window agg l.length).1
  set v := (window agg l.length).2
  have hpos : ((v - u : ℕ) : K) ≠ 0 := by exact_mod_cast (by omega : v - u ≠ 0)
  unfold winMean
  rw [Finset.sum_congr rfl (g := fun k => a * (sorted l).getD (u + k) 0 + b), Finset.sum_add_distrib, ← Finset.mul_sum,
    Finset.sum_const, Finset.card_range, nsmul_eq_mul]
  · field_simp
  · intro k hk
    have := Finset.mem_range.1 hk
    have hs := sorted_length l
    dsimp only
    rw [List.getD_eq_getElem _ _ (by rw [List.length_map]; omega), List.getD_eq_getElem _ _ (by omega), List.getElem_map]

/-- The modes and numbers of points for which the averaged window is symmetric. -/
def Symmetric : Agg → ℕ → Prop
  | .median, _ => True
  | .mixed, n => n % 2 = 0 ∨ n ≤ 5
  | .mean, _ => True

/-- **C54.** Changing the sign of all local values changes the sign of the global value, for "median", "mean", and "mixed"
with an even number of points or at most five. -/
theorem global_value_neg_partial (agg : Agg) (l : List K) (h : l ≠ []) (hsym : Symmetric agg l.length) :
    agg.value (l.map fun x => -x) = -agg.value l := by
  have hn : 0 < l.length := List.length_pos_iff.2 h
  obtain ⟨h1, h2⟩ := window_ok agg hn
  have hw : (window agg l.length).1 + (window agg l.length).2 = l.length := by
    revert hsym h1 h2
    cases agg <;> unfold Symmetric window <;> intro hsym
    · dsimp only; omega
    · dsimp only; dsimp only at hsym; omega
    · dsimp only; split_ifs <;> (dsimp only; omega)
  rw [value_eq agg l h, value_eq agg _ (by simpa using h), List.length_map,
    sorted_map_anti l _ fun x y hxy => neg_le_neg hxy]
  set u := (window agg l.length).1
  set v := (window agg l.length).2
  unfold winMean
  rw [← neg_div, ← Finset.sum_neg_distrib, ← Finset.sum_range_reflect (fun k => -(sorted l).getD (u + k) 0)]
  congr 1
  apply Finset.sum_congr rfl
  intro k hk
  have := Finset.mem_range.1 hk
  have hs := sorted_length l
  dsimp only
  rw [List.getD_eq_getElem _ _ (by rw [List.length_reverse, List.length_map]; omega), List.getElem_reverse, List.getElem_map,
    List.getD_eq_getElem _ _ (by omega)]
  simp only [List.length_map]
  congr 2
  omega

/-- **C54 refuted for "mixed".** With an odd number of points, at least seven, the averaged window is off-centre: there
are local values whose sign change does not change the sign of the global value.  (For every such number of points.) -/
theorem global_value_mixed_neg_refuted (m : ℕ) (hm : 3 ≤ m) :
    ∃ l : List K, l.length = 2 * m + 1 ∧ Agg.mixed.value (l.map fun x => -x) ≠ -Agg.mixed.value l := by
  -- `m+3` values 0, then `m-2` values 1
  refine ⟨List.replicate (m + 3) 0 ++ List.replicate (m - 2) 1, by simp; omega, ?_⟩
  set l : List K := List.replicate (m + 3) 0 ++ List.replicate (m - 2) 1 with hl
  have hlen : l.length = 2 * m + 1 := by rw [hl]; simp; omega
  have hne : l ≠ [] := by intro he; rw [he] at hlen; simp at hlen
  have hpw : l.Pairwise (· ≤ ·) := by
    rw [hl, List.pairwise_append]
    refine ⟨List.pairwise_replicate.2 (Or.inr le_rfl), List.pairwise_replicate.2 (Or.inr le_rfl), ?_⟩
    intro a ha b hb
    rw [List.eq_of_mem_replicate ha, List.eq_of_mem_replicate hb]; exact zero_le_one
  have hget : ∀ k, k < m + 3 → l.getD k 0 = 0 := by
    intro k hk
    rw [hl, List.getD_eq_getElem _ _ (by simp; omega), List.getElem_append_left (by simpa using hk), List.getElem_replicate]
  have hget1 : ∀ k, m + 3 ≤ k → k < 2 * m + 1 → l.getD k 0 = 1 := by
    intro k hk hk2
    rw [hl, List.getD_eq_getElem _ _ (by simp; omega), List.getElem_append_right (by simpa using hk), List.getElem_replicate]
  have e1 : Agg.mixed.value l = 0 := by
    rw [value_eq _ l hne, sorted_of_pairwise l hpw, hlen]
    unfold window winMean
    dsimp only
    rw [Finset.sum_eq_zero, zero_div]
    intro k hk
    have := Finset.mem_range.1 hk
    exact hget _ (by omega)
  rw [e1, neg_zero, value_eq _ _ (by simpa using hne), sorted_map_anti l _ fun x y hxy => neg_le_neg hxy,
    sorted_of_pairwise l hpw, List.length_map, hlen]
  unfold window winMean
  dsimp only
  rw [show min ((2 * m + 1) / 2 + 3) (2 * m + 1) - ((2 * m + 1) / 2 - 3) = 6 by omega,
    show (2 * m + 1) / 2 - 3 = m - 3 by omega]
  have hr : ∀ k < 2 * m + 1, ((l.map fun x => -x).reverse).getD k 0 = -l.getD (2 * m - k) 0 := by
    intro k hk
    rw [List.getD_eq_getElem _ _ (by rw [List.length_reverse, List.length_map]; omega), List.getElem_reverse,
      List.getElem_map, List.getD_eq_getElem _ _ (by omega)]
    congr 2
    rw [List.length_map, hlen]; omega
  simp only [Finset.sum_range_succ, Finset.sum_range_zero, zero_add]
  rw [hr _ (by omega), hr _ (by omega), hr _ (by omega), hr _ (by omega), hr _ (by omega), hr _ (by omega),
    hget1 _ (by omega) (by omega), hget _ (by omega), hget _ (by omega), hget _ (by omega), hget _ (by omega),
    hget _ (by omega)]
  norm_num

/-- How many outliers on each side a mode tolerates. -/
def tolerance : Agg → ℕ → ℕ
  | .median, n => (n - 1) / 2
  | .mixed, n => min (n / 2 - 3) (n - min (n / 2 + 3) n)
  | .mean, n => if n > 7 then 2 else 0

/-- **C54.** Robustness: if at most `tolerance` local values are below `lo` and at most that many are above `hi`, the
global value still lies between `lo` and `hi`: nearly half the points for "median", half the points minus three (four if
their number is odd) for "mixed", two for "mean" (more than seven points). -/
theorem global_value_robust (agg : Agg) (l : List K) (h : l ≠ []) (lo hi : K)
    (hlo : (l.filter fun x => decide (x < lo)).length ≤ tolerance agg l.length)
    (hhi : (l.filter fun x => decide (hi < x)).length ≤ tolerance agg l.length) :
    lo ≤ agg.value l ∧ agg.value l ≤ hi := by
  have hn : 0 < l.length := List.length_pos_iff.2 h
  have hs := sorted_length l
  obtain ⟨h1, h2⟩ := window_ok agg hn
  have ht : tolerance agg l.length ≤ (window agg l.length).1 ∧
      tolerance agg l.length + (window agg l.length).2 ≤ l.length := by
    cases agg <;> unfold tolerance window
    · dsimp only; omega
    · dsimp only; omega
    · dsimp only; split_ifs <;> (dsimp only; omega)
  -- a value of rank `k` has at least `k + 1` values `≤` it
  have hcount : ∀ (p : K → Bool), (l.filter p).length = ((sorted l).filter p).length := fun p =>
    (((sorted_perm l).filter p).length_eq).symm
  rw [value_eq agg l h]
  refine winMean_between _ _ _ h1 _ _ fun k hk1 hk2 => ⟨?_, ?_⟩
  · by_contra hlt
    rw [not_le] at hlt
    have : k + 1 ≤ ((sorted l).filter fun x => decide (x < lo)).length := by
      have e : ((sorted l).take (k + 1)).filter (fun x => decide (x < lo)) = (sorted l).take (k + 1) := by
        rw [List.filter_eq_self]
        intro x hx
        obtain ⟨i, hi', rfl⟩ := List.getElem_of_mem hx
        rw [List.length_take] at hi'
        rw [List.getElem_take, decide_eq_true_eq]
        refine lt_of_le_of_lt ?_ hlt
        have := sorted_mono l i k (by omega) (by omega)
        rwa [List.getD_eq_getElem _ _ (by omega)] at this
      have := ((List.take_sublist (k + 1) (sorted l)).filter fun x => decide (x < lo)).length_le
      rw [e, List.length_take] at this
      omega
    rw [hcount] at hlo
    omega
  · by_contra hlt
    rw [not_le] at hlt
    have : l.length - k ≤ ((sorted l).filter fun x => decide (hi < x)).length := by
      have e : ((sorted l).drop k).filter (fun x => decide (hi < x)) = (sorted l).drop k := by
        rw [List.filter_eq_self]
        intro x hx
        obtain ⟨i, hi', rfl⟩ := List.getElem_of_mem hx
        rw [List.length_drop] at hi'
        rw [List.getElem_drop, decide_eq_true_eq]
        refine lt_of_lt_of_le hlt ?_
        have := sorted_mono l k (k + i) (by omega) (by omega)
        rwa [List.getD_eq_getElem _ (n := k + i) _ (by omega)] at this
      have := ((List.drop_sublist k (sorted l)).filter fun x => decide (hi < x)).length_le
      rw [e, List.length_drop] at this
      omega
    rw [hcount] at hhi
    omega

end

/-! ### The points -/

/-- Strictly inside the box (the condition of lines 2614-2615, 2631-2632). -/
def Inside (height width gap : ℤ) (c : ℤ × ℤ) : Prop := gap < c.1 ∧ c.1 < height - gap ∧ gap < c.2 ∧ c.2 < width - gap

instance (height width gap : ℤ) (c : ℤ × ℤ) : Decidable (Inside height width gap c) := by unfold Inside; infer_instance

/-- **C54.** The points given by the user: a single point is used if it is strictly inside the box and refused otherwise;
of a list exactly the points strictly inside are used, in their order, and the others are dropped without notice; the
list is refused if nothing is left or the lengths differ. -/
theorem get_input_list (height width gap : ℤ) :
    (∀ i j, getInputList (.point i j) height width gap
      = if Inside height width gap (i, j) then .ok ([i], [j]) else .error .valueError) ∧
    (∀ li lj, li.length ≠ lj.length → getInputList (.lists li lj) height width gap = .error .valueError) ∧
    (∀ li lj, li.length = lj.length → (∀ c ∈ li.zip lj, ¬ Inside height width gap c) →
      getInputList (.lists li lj) height width gap = .error .valueError) ∧
    (∀ li lj, li.length = lj.length → (∃ c ∈ li.zip lj, Inside height width gap c) →
      ∃ ki kj, getInputList (.lists li lj) height width gap = .ok (ki, kj) ∧ ki.length = kj.length ∧
        ki.zip kj = (li.zip lj).filter fun c => decide (Inside height width gap c)) := by
  have hdec : (fun c : ℤ × ℤ => decide ((height - gap > c.1 ∧ c.1 > gap) ∧ (width - gap > c.2 ∧ c.2 > gap)))
      = fun c => decide (Inside height width gap c) := by
    funext c
    rw [decide_eq_decide]
    unfold Inside
    constructor <;> rintro h <;> omega
  refine ⟨?_, ?_, ?_, ?_⟩
  · intro i j
    unfold getInputList
    dsimp only
    by_cases hc : Inside height width gap (i, j)
    · rw [if_pos hc, if_pos (by unfold Inside at hc; dsimp only at hc; omega)]
    · rw [if_neg hc, if_neg (by unfold Inside at hc; dsimp only at hc; omega)]
  · intro li lj h
    unfold getInputList
    dsimp only
    rw [if_pos h]
  · intro li lj h hn
    unfold getInputList
    dsimp only
    rw [if_neg (by omega), hdec, if_pos]
    rw [List.length_eq_zero_iff, List.filter_eq_nil_iff]
    intro c hc
    rw [decide_eq_true_eq]
    exact hn c hc
  · rintro li lj h ⟨c, hc, hin⟩
    refine ⟨((li.zip lj).filter fun c => decide (Inside height width gap c)).map Prod.fst,
      ((li.zip lj).filter fun c => decide (Inside height width gap c)).map Prod.snd, ?_, ?_, ?_⟩
    · unfold getInputList
      dsimp only
      rw [if_neg (by omega), hdec, if_neg]
      rw [List.length_eq_zero_iff]
      intro he
      rw [List.filter_eq_nil_iff] at he
      exact he c hc (by simpa using hin)
    · simp
    · rw [List.zip_map']
      simp

/-- **C54 refuted.** The error message announces the box `[gap, height-gap] x [gap, width-gap]`, but the points of its first
row and column, where the search window does fit (and which the random choice of points can pick), are refused. -/
theorem get_input_list_box_refuted (height width gap : ℤ) :
    getInputList (.point gap gap) height width gap = .error .valueError := by
  rw [(get_input_list height width gap).1 gap gap, if_neg]
  unfold Inside
  simp

/-! ### Local search with a template smaller than the reference -/

/-- Reference and template related by an integer translation (and only by that one): the shift is recovered. -/
theorem find_shift_template {ref t : Arr3 ℝ} {m : ℕ} {dy dx : ℤ} {a b : ℝ} (hd : ref.d = t.d) (hrh : ref.h = t.h + 2 * m)
    (hrw : ref.w = t.w + 2 * m) (hm : 1 ≤ m) (hh : 0 < t.h) (hw : 0 < t.w) (hy : |dy| ≤ m) (hx : |dx| ≤ m) (ha : 0 < a)
    (ht : ∀ i < t.d, ∀ j < t.h, ∀ k < t.w, t.get i j k = a * ref.get i (m + j + dy).toNat (m + k + dx).toNat + b)
    (htex : NonConstant t.d t.h t.w t.get)
    (hu : ∀ ey ex : ℤ, |ey| ≤ m → |ex| ≤ m → (∃ a b : ℝ, 0 < a ∧ ∀ i < t.d, ∀ j < t.h, ∀ k < t.w,
      t.get i j k = a * ref.get i (m + j + ey).toNat (m + k + ex).toNat + b) → ey = dy ∧ ex = dx)
    (subPixel : Bool) (method : Method ℝ) (dim size : Int) :
    ∃ r, findShift ref t m none subPixel method dim size = .ok r ∧ Recovered subPixel method dim dy dx r := by
  let p : Arr3 ℝ := ⟨t.d, t.h + 2 * m, t.w + 2 * m, fun i j k => t.get i (j - m) (k - m)⟩
  have hinner : inner p m m = t := by
    show (⟨t.d, t.h + 2 * m - 2 * m, t.w + 2 * m - 2 * m, fun i j k => t.get i (m + j - m) (m + k - m)⟩ : Arr3 ℝ) = t
    obtain ⟨d, h, w, get⟩ := t
    simp
  have htr : ∀ (ey ex : ℤ) (a b : ℝ), Translated ref p m m ey ex a b ↔ ∀ i < t.d, ∀ j < t.h, ∀ k < t.w,
      t.get i j k = a * ref.get i (m + j + ey).toNat (m + k + ex).toNat + b := by
    intro ey ex a b
    constructor
    · intro h i hi j hj k hk
      have := h i hi (m + j) (m + k) (by omega) (by show m + j + m < t.h + 2 * m; omega) (by omega)
        (by show m + k + m < t.w + 2 * m; omega)
      change t.get i (m + j - m) (m + k - m) = _ at this
      rw [show m + j - m = j by omega, show m + k - m = k by omega] at this
      rw [this]
      push_cast
      rfl
    · intro h i hi j k h1 h2 h3 h4
      have h2 : j + m < t.h + 2 * m := h2
      have h4 : k + m < t.w + 2 * m := h4
      have := h i hi (j - m) (by omega) (k - m) (by omega)
      show t.get i (j - m) (k - m) = _
      rw [this]
      rw [show (m : ℤ) + (j - m : ℕ) = j by omega, show (m : ℤ) + (k - m : ℕ) = k by omega]
  obtain ⟨M, hM, eh, ew, hp⟩ := map_peak (ref := ref) (mat := p) (my := m) (mx := m) hd hrh hrw
    (by show 2 * m < t.h + 2 * m; omega) (by show 2 * m < t.w + 2 * m; omega) hy hx ha ((htr dy dx a b).2 ht)
    (by
      obtain ⟨i, hi, j, hj, k, hk, i', hi', j', hj', k', hk', hne⟩ := htex
      refine ⟨i, hi, i', hi', m + j, m + k, m + j', m + k', ⟨by omega, by show m + j + m < t.h + 2 * m; omega, by omega,
        by show m + k + m < t.w + 2 * m; omega⟩, ⟨by omega, by show m + j' + m < t.h + 2 * m; omega, by omega,
        by show m + k' + m < t.w + 2 * m; omega⟩, ?_⟩
      show t.get i (m + j - m) (m + k - m) ≠ t.get i' (m + j' - m) (m + k' - m)
      rwa [show m + j - m = j by omega, show m + k - m = k by omega, show m + j' - m = j' by omega,
        show m + k' - m = k' by omega])
    (by
      rintro ey ex h1 h2 ⟨a', b', ha', h⟩
      exact hu ey ex h1 h2 ⟨a', b', ha', (htr ey ex a' b').1 h⟩)
  rw [hinner] at hM
  have htem : template ref t m none = (t, true) := by
    unfold template
    rw [if_neg (by omega)]
  obtain ⟨r, hr, hok⟩ := locatePeak_of_argmax (mat := M) (maxPeak := true) (by unfold flipPeak; simp) hp subPixel method
    dim size
  have hy' := abs_le.1 hy
  have hx' := abs_le.1 hx
  refine ⟨(r.1 - m, r.2 - m), ?_, ?_, ?_, ?_⟩
  · unfold findShift
    rw [htem]
    dsimp only
    have e1 : ¬ ((ref.h : ℤ) - 2 * m < (t.h : ℤ)) := by omega
    rw [decide_eq_false e1]
    simp only [reduceCtorEq, if_true, if_false, Bool.false_and, Bool.not_false, bind, Except.bind, hM, hr]
    rw [eh, ew, show (2 * m + 1) / 2 = m by omega]
  · intro hs
    have := hok.2.2.2.2.1 hs
    rw [this]
    refine Prod.ext ?_ ?_
    · show (((((m : ℤ) + dx).toNat : ℕ)) : ℝ) - m = dx
      rw [← Int.cast_natCast (R := ℝ), Int.toNat_of_nonneg (by omega)]; push_cast; ring
    · show (((((m : ℤ) + dy).toNat : ℕ)) : ℝ) - m = dy
      rw [← Int.cast_natCast (R := ℝ), Int.toNat_of_nonneg (by omega)]; push_cast; ring
  · intro hd
    obtain ⟨h1, h2⟩ := hok.2.2.2.2.2.1 hd
    rw [← Int.cast_natCast (R := ℝ), Int.toNat_of_nonneg (by omega)] at h1 h2
    push_cast at h1 h2
    refine ⟨?_, ?_⟩
    · show |r.1 - m - dx| < 1
      rwa [sub_sub]
    · show |r.2 - m - dy| < 1
      rwa [sub_sub]
  · intro hd hd1
    obtain ⟨h1, h2⟩ := hok.2.2.2.2.2.2 hd hd1
    rw [← Int.cast_natCast (R := ℝ), Int.toNat_of_nonneg (by omega)] at h1 h2
    push_cast at h1 h2
    refine ⟨?_, ?_⟩
    · show |r.1 - m - dx| ≤ 1 / 2
      rwa [sub_sub]
    · show |r.2 - m - dy| ≤ 1 / 2
      rwa [sub_sub]

/-! ### Local and global recovery of a translation -/

/-- Around `(i, j)`, in a window of half size `radi`, the second image is the reference translated by `(dy, dx)` up to
brightness and contrast. -/
def WindowCopy (ref mat : Mat ℝ) (i j radi : ℕ) (dy dx : ℤ) (a b : ℝ) : Prop :=
  ∀ p q : ℕ, i ≤ p + radi → p ≤ i + radi → j ≤ q + radi → q ≤ j + radi →
    mat.get p q = a * ref.get (p + dy).toNat (q + dx).toNat + b

/-- The second image is not constant in that window. -/
def WindowTextured (mat : Mat ℝ) (i j radi : ℕ) : Prop :=
  ∃ p q p' q' : ℕ, (i ≤ p + radi ∧ p ≤ i + radi ∧ j ≤ q + radi ∧ q ≤ j + radi) ∧
    (i ≤ p' + radi ∧ p' ≤ i + radi ∧ j ≤ q' + radi ∧ q' ≤ j + radi) ∧ mat.get p q ≠ mat.get p' q'

/-- `(dy, dx)` is the translation of that window, and the only one within the search range. -/
def WindowShift (ref mat : Mat ℝ) (i j radi margin : ℕ) (dy dx : ℤ) : Prop :=
  (∃ a b : ℝ, 0 < a ∧ WindowCopy ref mat i j radi dy dx a b) ∧ WindowTextured mat i j radi ∧
  ∀ ey ex : ℤ, |ey| ≤ margin → |ex| ≤ margin → (∃ a b : ℝ, 0 < a ∧ WindowCopy ref mat i j radi ey ex a b) →
    ey = dy ∧ ex = dx

theorem crop_copy {ref mat : Mat ℝ} {i j radi margin : ℕ} (hi : radi + margin ≤ i) (hj : radi + margin ≤ j) (ey ex : ℤ)
    (hy : |ey| ≤ margin) (hx : |ex| ≤ margin) (a b : ℝ) :
    (∀ n < 1, ∀ p < 2 * radi + 1, ∀ q < 2 * radi + 1, mat.get (i - radi + p) (j - radi + q)
      = a * ref.get (i - (radi + margin) + ((margin : ℤ) + p + ey).toNat) (j - (radi + margin) + ((margin : ℤ) + q + ex).toNat) + b)
    ↔ WindowCopy ref mat i j radi ey ex a b := by
  rw [abs_le] at hy hx
  constructor
  · intro h p q h1 h2 h3 h4
    have := h 0 (by omega) (p + radi - i) (by omega) (q + radi - j) (by omega)
    rw [show i - radi + (p + radi - i) = p by omega, show j - radi + (q + radi - j) = q by omega] at this
    rw [this]
    congr 3 <;> omega
  · intro h n _ p hp q hq
    rw [h (i - radi + p) (j - radi + q) (by omega) (by omega) (by omega) (by omega)]
    congr 3 <;> omega

/-- **C54/C71.** One local search finds the translation of its window: exactly without sub-pixel search, to less than one
pixel with it (method "diff"). -/
theorem point_shift {ref mat : Mat ℝ} {i j radi margin : ℕ} {dy dx : ℤ} (hh : ref.h = mat.h) (hw : ref.w = mat.w)
    (hm : 1 ≤ margin) (hi : radi + margin ≤ i) (hi' : i + (radi + margin) < ref.h) (hj : radi + margin ≤ j)
    (hj' : j + (radi + margin) < ref.w) (hy : |dy| ≤ margin) (hx : |dx| ≤ margin)
    (hs : WindowShift ref mat i j radi margin dy dx) (subPixel : Bool) (method : Method ℝ) (size : ℤ) :
    ∃ r, pointShift ref mat radi margin subPixel method size i j = .ok r ∧ Recovered subPixel method 2 dy dx r := by
  obtain ⟨⟨a, b, ha, hc⟩, ht, hu⟩ := hs
  have c1 : crop ref ((i : ℤ) - ((radi : ℤ) + margin)) ((i : ℤ) + (((radi : ℤ) + margin) + 1)) ((j : ℤ) - ((radi : ℤ) + margin))
      ((j : ℤ) + (((radi : ℤ) + margin) + 1)) = ⟨1, 2 * radi + 1 + 2 * margin, 2 * radi + 1 + 2 * margin,
        fun _ p q => ref.get (i - (radi + margin) + p) (j - (radi + margin) + q)⟩ := by
    unfold crop pyBound
    rw [if_neg (by omega), if_neg (by omega), if_neg (by omega), if_neg (by omega),
      show min ((i : ℤ) - ((radi : ℤ) + margin)).toNat ref.h = i - (radi + margin) by omega,
      show min ((j : ℤ) - ((radi : ℤ) + margin)).toNat ref.w = j - (radi + margin) by omega,
      show min ((i : ℤ) + (((radi : ℤ) + margin) + 1)).toNat ref.h - (i - (radi + margin)) = 2 * radi + 1 + 2 * margin by omega,
      show min ((j : ℤ) + (((radi : ℤ) + margin) + 1)).toNat ref.w - (j - (radi + margin)) = 2 * radi + 1 + 2 * margin by omega]
  have c2 : crop mat ((i : ℤ) - radi) ((i : ℤ) + ((radi : ℤ) + 1)) ((j : ℤ) - radi) ((j : ℤ) + ((radi : ℤ) + 1))
      = ⟨1, 2 * radi + 1, 2 * radi + 1, fun _ p q => mat.get (i - radi + p) (j - radi + q)⟩ := by
    unfold crop pyBound
    rw [if_neg (by omega), if_neg (by omega), if_neg (by omega), if_neg (by omega),
      show min ((i : ℤ) - radi).toNat mat.h = i - radi by omega,
      show min ((j : ℤ) - radi).toNat mat.w = j - radi by omega,
      show min ((i : ℤ) + ((radi : ℤ) + 1)).toNat mat.h - (i - radi) = 2 * radi + 1 by omega,
      show min ((j : ℤ) + ((radi : ℤ) + 1)).toNat mat.w - (j - radi) = 2 * radi + 1 by omega]
  unfold pointShift
  dsimp only
  rw [c1, c2]
  refine find_shift_template (ref := ⟨1, 2 * radi + 1 + 2 * margin, 2 * radi + 1 + 2 * margin,
        fun _ p q => ref.get (i - (radi + margin) + p) (j - (radi + margin) + q)⟩) (t := ⟨1, 2 * radi + 1, 2 * radi + 1, fun _ p q => mat.get (i - radi + p) (j - radi + q)⟩)
    (a := a) (b := b) rfl rfl rfl hm (by show 0 < 2 * radi + 1; omega)
    (by show 0 < 2 * radi + 1; omega) hy hx ha ((crop_copy hi hj dy dx hy hx a b).2 hc) ?_ ?_ _ _ _ _
  · obtain ⟨p, q, p', q', h1, h2, hne⟩ := ht
    refine ⟨0, one_pos, p + radi - i, (by show p + radi - i < 2 * radi + 1; omega), q + radi - j,
      (by show q + radi - j < 2 * radi + 1; omega), 0, one_pos, p' + radi - i, (by show p' + radi - i < 2 * radi + 1; omega),
      q' + radi - j, (by show q' + radi - j < 2 * radi + 1; omega), ?_⟩
    show mat.get (i - radi + (p + radi - i)) (j - radi + (q + radi - j))
      ≠ mat.get (i - radi + (p' + radi - i)) (j - radi + (q' + radi - j))
    rwa [show i - radi + (p + radi - i) = p by omega, show j - radi + (q + radi - j) = q by omega,
      show i - radi + (p' + radi - i) = p' by omega, show j - radi + (q' + radi - j) = q' by omega]
  · rintro ey ex h1 h2 ⟨a', b', ha', h⟩
    exact hu ey ex h1 h2 ⟨a', b', ha', (crop_copy hi hj ey ex h1 h2 a' b').1 h⟩

/-- The points of the search: the random ones, or the ones given by the user. -/
def Chosen (points : Option Points) (rnd : List (ℕ × ℕ)) (i j : ℕ) : Prop :=
  match points with
  | none => (i, j) ∈ rnd
  | some (.point a b) => a = i ∧ b = j
  | some (.lists li lj) => ((i : ℤ), (j : ℤ)) ∈ li.zip lj
  | some .other => False

/-- The points are acceptable for images of shape `(h, w)`: the random ones are drawn from
`randint(start, h - start)` x `randint(start, w - start)` (lines 2723-2724), of the given ones at least one is strictly inside. -/
def PointsOk (points : Option Points) (rnd : List (ℕ × ℕ)) (h w start : ℕ) : Prop :=
  match points with
  | none => rnd ≠ [] ∧ ∀ c ∈ rnd, start ≤ c.1 ∧ c.1 + start < h ∧ start ≤ c.2 ∧ c.2 + start < w
  | some (.point a b) => Inside h w start (a, b)
  | some (.lists li lj) => li.length = lj.length ∧ ∃ c ∈ li.zip lj, Inside h w start c
  | some .other => False

/-- The points that are used are chosen ones inside the images. -/
theorem points_used {points : Option Points} {rnd : List (ℕ × ℕ)} {height width start : ℕ} (hpts : PointsOk points rnd height width start) :
    ∃ cs : List (ℕ × ℕ), cs ≠ [] ∧
      (∀ c ∈ cs, Chosen points rnd c.1 c.2 ∧ start ≤ c.1 ∧ c.1 + start < height ∧ start ≤ c.2 ∧ c.2 + start < width) ∧
      usedPoints points rnd height width start = .ok (cs.map fun p => (p.1 : ℤ), cs.map fun p => (p.2 : ℤ)) := by
  cases points with
  | none => exact ⟨rnd, hpts.1, fun c hc => ⟨hc, hpts.2 c hc⟩, rfl⟩
  | some p =>
    cases p with
    | other => exact hpts.elim
    | point i j =>
      have hpts' : Inside height width start (i, j) := hpts
      obtain ⟨h1, h2, h3, h4⟩ := hpts
      dsimp only at h1 h2 h3 h4
      refine ⟨[(i.toNat, j.toNat)], by simp, ?_, ?_⟩
      · intro c hc
        rw [List.mem_singleton] at hc
        subst hc
        refine ⟨⟨by dsimp only; omega, by dsimp only; omega⟩, by dsimp only; omega, by dsimp only; omega,
          by dsimp only; omega, by dsimp only; omega⟩
      · unfold usedPoints; dsimp only
        rw [(get_input_list _ _ _).1 i j, if_pos hpts']
        simp only [List.map_cons, List.map_nil]
        rw [Int.toNat_of_nonneg (by omega), Int.toNat_of_nonneg (by omega)]
    | lists li lj =>
      obtain ⟨hlen, hex⟩ := hpts
      obtain ⟨ki, kj, he, hkl, hz⟩ := (get_input_list (height : ℤ) width start).2.2.2 li lj hlen hex
      have hz1 : ki = (ki.zip kj).map Prod.fst := by rw [List.map_fst_zip (by omega)]
      have hz2 : kj = (ki.zip kj).map Prod.snd := by rw [List.map_snd_zip (by omega)]
      have hin : ∀ c ∈ ki.zip kj, c ∈ li.zip lj ∧ Inside height width start c := by
        intro c hc
        rw [hz, List.mem_filter] at hc
        exact ⟨hc.1, of_decide_eq_true hc.2⟩
      refine ⟨(ki.zip kj).map fun c => (c.1.toNat, c.2.toNat), ?_, ?_, ?_⟩
      · intro h0
        rw [List.map_eq_nil_iff, hz, List.filter_eq_nil_iff] at h0
        obtain ⟨c, hc, hi⟩ := hex
        exact h0 c hc (decide_eq_true hi)
      · intro c hc
        obtain ⟨e, he', rfl⟩ := List.mem_map.1 hc
        obtain ⟨hmem, h1, h2, h3, h4⟩ := hin e he'
        refine ⟨?_, by dsimp only; omega, by dsimp only; omega, by dsimp only; omega, by dsimp only; omega⟩
        show (((e.1.toNat : ℕ) : ℤ), ((e.2.toNat : ℕ) : ℤ)) ∈ li.zip lj
        rw [Int.toNat_of_nonneg (by omega), Int.toNat_of_nonneg (by omega)]
        exact hmem
      · unfold usedPoints; dsimp only
        rw [he, List.map_map, List.map_map]
        congr 1
        refine Prod.ext ?_ ?_
        · dsimp only
          conv_lhs => rw [hz1]
          apply List.map_congr_left
          intro c hc
          obtain ⟨-, h1, -⟩ := hin c hc
          show c.1 = ((c.1.toNat : ℕ) : ℤ)
          rw [Int.toNat_of_nonneg (by omega)]
        · dsimp only
          conv_lhs => rw [hz2]
          apply List.map_congr_left
          intro c hc
          obtain ⟨-, -, -, h1, -⟩ := hin c hc
          show c.2 = ((c.2.toNat : ℕ) : ℤ)
          rw [Int.toNat_of_nonneg (by omega)]

theorem allShifts_ok {n ncore : ℕ} {f : ℕ → Py (ℝ × ℝ)} {sched : List Ev} {r : Py (List (ℝ × ℝ))} {g : ℕ → ℝ × ℝ}
    (hf : ∀ k < n, f k = .ok (g k)) (h : allShifts n ncore f sched = some r) : r = .ok ((List.range n).map g) := by
  unfold allShifts at h
  by_cases h1 : ncore = 1
  · rw [if_pos h1] at h
    rw [← Option.some.inj h]
    exact BackProj.mapM_ok _ fun k hk => hf k (List.mem_range.1 hk)
  · rw [if_neg h1] at h
    cases hp : parMap n ncore f sched with
    | none => rw [hp] at h; cases h
    | some l =>
      rw [hp] at h
      rw [← Option.some.inj h, Center.parMap_eq _ _ _ _ _ hp,
        List.map_congr_left (g := fun k => (.ok (g k) : Py (ℝ × ℝ))) fun k hk => hf k (List.mem_range.1 hk)]
      generalize List.range n = l'
      induction l' with
      | nil => rfl
      | cons a t ih => rw [List.map_cons]; dsimp only at ih ⊢; rw [List.mapM_cons, ih]; rfl

/-- **C54.** Along every schedule of the pool and for every aggregation: if the window of every chosen point is translated by
the same `(dy, dx)`, the lists of local shifts contain it for every point that is used and the global shift is that
translation — exactly without sub-pixel search, to less than one pixel with method "diff". -/
theorem global_shift_recovers_partial {ref mat : Mat ℝ} {winSize margin : ℕ} {points : Option Points} {rnd : List (ℕ × ℕ)}
    {dy dx : ℤ} (hh : ref.h = mat.h) (hw : ref.w = mat.w) (hm : 1 ≤ margin)
    (hsz : 2 * (winSize / 2 + margin) + 1 ≤ ref.h ∧ 2 * (winSize / 2 + margin) + 1 ≤ ref.w)
    (hpts : PointsOk points rnd ref.h ref.w (winSize / 2 + margin)) (hy : |dy| ≤ margin) (hx : |dx| ≤ margin)
    (hs : ∀ i j, Chosen points rnd i j → winSize / 2 + margin ≤ i → i + (winSize / 2 + margin) < ref.h →
      winSize / 2 + margin ≤ j → j + (winSize / 2 + margin) < ref.w → WindowShift ref mat i j (winSize / 2) margin dy dx)
    (agg : Agg) (subPixel : Bool) (method : Method ℝ) (size : ℤ) (ncore : ℕ) (sched : List Ev)
    (r : Py (ℝ × ℝ)) (hr : globalShift ref mat winSize margin points rnd agg subPixel method size ncore false sched = some r) :
    ∃ v, r = .ok v ∧ Recovered subPixel method 2 dy dx v := by
  set start := winSize / 2 + margin with hstart
  obtain ⟨cs, hcne, hcin, hcs⟩ := points_used hpts
  -- the local shifts
  have hloc : ∀ c ∈ cs, ∃ v, pointShift ref mat (winSize / 2) margin subPixel method size c.1 c.2 = .ok v ∧
      Recovered subPixel method 2 dy dx v := by
    intro c hc
    obtain ⟨h0, h1, h2, h3, h4⟩ := hcin c hc
    exact point_shift hh hw hm h1 h2 h3 h4 hy hx (hs _ _ h0 h1 h2 h3 h4) subPixel method size
  choose! g hg1 hg2 using hloc
  have key : localList ref mat winSize margin points rnd subPixel method size ncore false sched
      = (allShifts cs.length ncore (fun k => pointShift ref mat (winSize / 2) margin subPixel method size
          (((cs.map fun p => (p.1 : ℤ))).getD k 0) ((cs.map fun p => (p.2 : ℤ)).getD k 0)) sched).map fun r => r.bind fun s =>
            if s.length = 0 then .error .indexError else .ok (s.map Prod.fst, s.map Prod.snd) := by
    unfold localList
    rw [if_neg (by omega)]
    dsimp only
    rw [show (2 * (winSize / 2) + 1) / 2 = winSize / 2 by omega, if_neg (by omega)]
    simp only [Bool.false_eq_true, if_false]
    rw [← hstart, hcs]
    simp only [List.length_map]
  unfold globalShift at hr
  rw [key] at hr
  cases ha : allShifts cs.length ncore (fun k => pointShift ref mat (winSize / 2) margin subPixel method size
          (((cs.map fun p => (p.1 : ℤ))).getD k 0) ((cs.map fun p => (p.2 : ℤ)).getD k 0)) sched with
  | none => rw [ha] at hr; cases hr
  | some s =>
    have hsok : s = .ok ((List.range cs.length).map fun k => g (cs.getD k (0, 0))) := by
      refine allShifts_ok (fun k hk => ?_) ha
      have hm' : cs.getD k (0, 0) ∈ cs := by rw [List.getD_eq_getElem _ _ hk]; exact List.getElem_mem hk
      have := hg1 _ hm'
      rw [List.getD_eq_getElem _ _ (by rw [List.length_map]; exact hk), List.getD_eq_getElem _ _ (by rw [List.length_map]; exact hk),
        List.getElem_map, List.getElem_map]
      rw [List.getD_eq_getElem _ _ hk] at this ⊢
      exact this
    rw [ha, hsok] at hr
    set L := (List.range cs.length).map fun k => g (cs.getD k (0, 0)) with hL
    have hLne : L ≠ [] := by
      rw [hL]
      intro h0
      rw [List.map_eq_nil_iff, List.range_eq_nil, List.length_eq_zero_iff] at h0
      exact hcne h0
    have hLrec : ∀ v ∈ L, Recovered subPixel method 2 dy dx v := by
      intro v hv
      rw [hL, List.mem_map] at hv
      obtain ⟨k, hk, rfl⟩ := hv
      have hk := List.mem_range.1 hk
      apply hg2
      rw [List.getD_eq_getElem _ _ hk]; exact List.getElem_mem hk
    have hr' := Option.some.inj hr
    change (Except.bind (.ok L) fun s => if s.length = 0 then .error .indexError else .ok (s.map Prod.fst, s.map Prod.snd)).map
      (fun p => (agg.value p.1, agg.value p.2)) = r at hr'
    simp only [Except.bind] at hr'
    rw [if_neg (by rwa [List.length_eq_zero_iff])] at hr'
    refine ⟨(agg.value (L.map Prod.fst), agg.value (L.map Prod.snd)), hr'.symm, ?_, ?_, ?_⟩
    · intro hsub
      rw [global_value_const agg _ (by simpa using hLne) (dx : ℝ), global_value_const agg _ (by simpa using hLne) (dy : ℝ)]
      · intro x hx
        obtain ⟨v, hv, rfl⟩ := List.mem_map.1 hx
        rw [(hLrec v hv).1 hsub]
      · intro x hx
        obtain ⟨v, hv, rfl⟩ := List.mem_map.1 hx
        rw [(hLrec v hv).1 hsub]
    · intro hmeth
      have strict : ∀ (l : List ℝ) (d : ℝ), l ≠ [] → (∀ x ∈ l, |x - d| < 1) → |agg.value l - d| < 1 := by
        intro l d hl hb
        have hmin := npMin_spec l hl
        have hmax := npMax_spec l hl
        obtain ⟨h1, h2⟩ := global_value_between agg l hl (npMin l) (npMax l) fun x hx => ⟨hmin.2 x hx, hmax.2 x hx⟩
        have h3 := abs_lt.1 (hb _ hmin.1)
        have h4 := abs_lt.1 (hb _ hmax.1)
        rw [abs_lt]
        constructor <;> linarith
      refine ⟨strict _ _ (by simpa using hLne) ?_, strict _ _ (by simpa using hLne) ?_⟩
      · intro x hx
        obtain ⟨v, hv, rfl⟩ := List.mem_map.1 hx
        exact ((hLrec v hv).2.1 hmeth).1
      · intro x hx
        obtain ⟨v, hv, rfl⟩ := List.mem_map.1 hx
        exact ((hLrec v hv).2.1 hmeth).2
    · intro _ h
      exact absurd h (by norm_num)

/-! ### Non-vacuity: a single bright pixel moved by (1, -1), window 3, margin 1 -/

def exRef : Mat ℝ := ⟨9, 9, fun i j => if i = 5 ∧ j = 3 then 1 else 0⟩
def exMat : Mat ℝ := ⟨9, 9, fun i j => if i = 4 ∧ j = 4 then 3 else 2⟩

theorem exWindow : WindowShift exRef exMat 4 4 1 1 1 (-1) := by
  refine ⟨⟨1, 2, one_pos, ?_⟩, ⟨4, 4, 3, 3, by omega, by omega, ?_⟩, ?_⟩
  · intro p q h1 h2 h3 h4
    show (if p = 4 ∧ q = 4 then (3 : ℝ) else 2) = 1 * (if ((p : ℤ) + 1).toNat = 5 ∧ ((q : ℤ) + -1).toNat = 3 then 1 else 0) + 2
    by_cases hc : p = 4 ∧ q = 4
    · rw [if_pos hc, if_pos (by omega)]; norm_num
    · rw [if_neg hc, if_neg (by omega)]; norm_num
  · norm_num [exMat]
  · rintro ey ex hy hx ⟨a, b, ha, ht⟩
    rw [abs_le] at hy hx
    push_cast at hy hx
    have e1 := ht 4 4 (by omega) (by omega) (by omega) (by omega)
    have e2 := ht 3 3 (by omega) (by omega) (by omega) (by omega)
    change (3 : ℝ) = a * (if (((4 : ℕ) : ℤ) + ey).toNat = 5 ∧ (((4 : ℕ) : ℤ) + ex).toNat = 3 then 1 else 0) + b at e1
    change (2 : ℝ) = a * (if (((3 : ℕ) : ℤ) + ey).toNat = 5 ∧ (((3 : ℕ) : ℤ) + ex).toNat = 3 then 1 else 0) + b at e2
    by_contra hne
    rw [if_neg (by omega)] at e1
    split_ifs at e2 <;> linarith

example (agg : Agg) (r : Py (ℝ × ℝ))
    (hr : globalShift exRef exMat 3 1 (some (.point 4 4)) [] agg false .diff 3 1 false [] = some r) :
    r = .ok (-1, 1) := by
  obtain ⟨v, hv, h, -⟩ := global_shift_recovers_partial (ref := exRef) (mat := exMat) (winSize := 3)
    (margin := 1) (points := some (.point 4 4)) (rnd := []) (dy := 1) (dx := -1) rfl rfl le_rfl
    (by norm_num [exRef]) (by unfold PointsOk Inside; norm_num [exRef]) (by norm_num) (by norm_num)
    (by
      rintro i j ⟨h1, h2⟩ - - - -
      rw [show i = 4 by omega, show j = 4 by omega]
      exact exWindow) agg false .diff 3 1 [] r hr
  rw [hv, h rfl]
  norm_num

example (agg : Agg) : ∃ r, globalShift exRef exMat 3 1 (some (.point 4 4)) [] agg false .diff 3 1 false [] = some r := by
  have e : usedPoints (some (.point 4 4)) [] 9 9 2 = .ok ([4], [4]) := rfl
  unfold globalShift localList allShifts
  simp [exRef, exMat, e]

example : Agg.mixed.value ([3, 1, 2] : List ℚ) = 2 := by
  rw [value_eq _ _ (by simp), sorted_congr (l' := [1, 2, 3]) (by
    exact (List.Perm.swap 1 3 [2]).trans (List.Perm.cons 1 (List.Perm.swap 2 3 []))),
    sorted_of_pairwise _ (by norm_num)]
  norm_num [window, winMean, Finset.sum_range_succ]

/-- One outlier among nine points does not move the trimmed mean out of the range of the others. -/
example (x : ℚ) : 1 ≤ Agg.mean.value (x :: List.replicate 8 (1 : ℚ)) ∧ Agg.mean.value (x :: List.replicate 8 (1 : ℚ)) ≤ 1 := by
  refine global_value_robust _ _ (by simp) 1 1 ?_ ?_
  · by_cases h : x < 1 <;> simp [h, tolerance]
  · by_cases h : 1 < x <;> simp [h, tolerance]

end Verif.GlobalShift
