import Verif.Model.Stripe
import Verif.Props.Removal
import Mathlib.Algebra.Order.Chebyshev
import Mathlib.Data.List.GetD
import Mathlib.Tactic.LinearCombination
import Mathlib.Tactic.Positivity

/-! C81–C82 — `detect_stripe`. -/

set_option linter.unusedSectionVars false
set_option linter.unusedSimpArgs false

namespace Verif.Stripe
open Verif.Removal Verif.Sorting

variable {K : Type _} [Field K] [LinearOrder K] [IsStrictOrderedRing K] [Inhabited K]

/-! ### sorting -/

theorem npSort_perm (l : List K) : (npSort l).Perm l := List.perm_insertionSort _ _

theorem npSort_length (l : List K) : (npSort l).length = l.length := (npSort_perm l).length_eq

theorem npSort_pairwise (l : List K) : (npSort l).Pairwise (· ≤ ·) := List.pairwise_insertionSort _ _

theorem npSort_congr {l l' : List K} (h : l.Perm l') : npSort l = npSort l' :=
  (((npSort_perm l).trans h).trans (npSort_perm l').symm).eq_of_pairwise' (npSort_pairwise l) (npSort_pairwise l')

theorem npSort_eq {l s : List K} (h : l.Perm s) (hs : s.Pairwise (· ≤ ·)) : npSort l = s :=
  ((npSort_perm l).trans h).eq_of_pairwise' (npSort_pairwise l) hs

theorem npSort_map (l : List K) (a b : K) (ha : 0 < a) : npSort (l.map fun x => a * x + b) = (npSort l).map fun x => a * x + b := by
  apply npSort_eq ((npSort_perm l).symm.map _)
  rw [List.pairwise_map]
  exact (npSort_pairwise l).imp (fun h => by nlinarith)

theorem npSort_mono (l : List K) (i j : Nat) (hij : i ≤ j) (hj : j < l.length) : (npSort l).getD i 0 ≤ (npSort l).getD j 0 := by
  have hj' : j < (npSort l).length := by rw [npSort_length]; exact hj
  rw [List.getD_eq_getElem _ _ hj', List.getD_eq_getElem _ _ (by omega : i < (npSort l).length)]
  rcases Nat.lt_or_eq_of_le hij with h | rfl
  · exact List.pairwise_iff_getElem.1 (npSort_pairwise l) i j (by omega) hj' h
  · exact le_refl _

/-! ### the straight-line fit -/

theorem fit_denom (a b : Nat) (h : a + 2 ≤ b) :
    (0 : K) < ((b - a : Nat) : K) * (∑ i ∈ Finset.Ico a b, (i : K) * i) - (∑ i ∈ Finset.Ico a b, (i : K)) * ∑ i ∈ Finset.Ico a b, (i : K) := by
  have hm : (0 : K) < ((b - a : Nat) : K) := by exact_mod_cast (by omega : 0 < b - a)
  set m : K := ((b - a : Nat) : K)
  set sx := ∑ i ∈ Finset.Ico a b, (i : K)
  set sxx := ∑ i ∈ Finset.Ico a b, (i : K) * i
  have e : ∑ i ∈ Finset.Ico a b, (m * i - sx) ^ 2 = m * (m * sxx - sx * sx) := by
    have : ∀ i : Nat, (m * (i : K) - sx) ^ 2 = m * m * ((i : K) * i) - 2 * m * sx * i + sx * sx := fun i => by ring
    simp only [this]
    rw [Finset.sum_add_distrib, Finset.sum_sub_distrib, ← Finset.mul_sum, ← Finset.mul_sum, Finset.sum_const, Nat.card_Ico, nsmul_eq_mul]
    show m * m * sxx - 2 * m * sx * sx + m * (sx * sx) = _
    ring
  have hpos : 0 < ∑ i ∈ Finset.Ico a b, (m * i - sx) ^ 2 := by
    apply Finset.sum_pos' (fun i _ => sq_nonneg _)
    by_cases h0 : m * (a : K) - sx = 0
    · refine ⟨a + 1, Finset.mem_Ico.2 ⟨by omega, by omega⟩, ?_⟩
      have : m * ((a + 1 : Nat) : K) - sx = m := by push_cast; linear_combination h0
      rw [this]
      positivity
    · exact ⟨a, Finset.mem_Ico.2 ⟨by omega, by omega⟩, by positivity⟩
  rw [e] at hpos
  exact pos_of_mul_pos_right hpos hm.le

/-- The normal equations of the fit. -/
theorem fit_normal (a b : Nat) (h : a + 2 ≤ b) (y : Nat → K) :
    let p := polyfit1 a b y
    (∑ i ∈ Finset.Ico a b, (y i - (p.2 + p.1 * i))) = 0 ∧ (∑ i ∈ Finset.Ico a b, (i : K) * (y i - (p.2 + p.1 * i))) = 0 := by
  intro p
  have hm : (0 : K) < ((b - a : Nat) : K) := by exact_mod_cast (by omega : 0 < b - a)
  have hd := fit_denom (K := K) a b h
  have hp1 : p.1 = (((b - a : Nat) : K) * (∑ i ∈ Finset.Ico a b, (i : K) * y i) - (∑ i ∈ Finset.Ico a b, (i : K)) * ∑ i ∈ Finset.Ico a b, y i) /
      (((b - a : Nat) : K) * (∑ i ∈ Finset.Ico a b, (i : K) * i) - (∑ i ∈ Finset.Ico a b, (i : K)) * ∑ i ∈ Finset.Ico a b, (i : K)) := rfl
  have hp2 : p.2 = ((∑ i ∈ Finset.Ico a b, y i) - p.1 * ∑ i ∈ Finset.Ico a b, (i : K)) / ((b - a : Nat) : K) := rfl
  have e1 : (∑ i ∈ Finset.Ico a b, (y i - (p.2 + p.1 * i))) = (∑ i ∈ Finset.Ico a b, y i) - (((b - a : Nat) : K) * p.2 + p.1 * ∑ i ∈ Finset.Ico a b, (i : K)) := by
    rw [Finset.sum_sub_distrib, Finset.sum_add_distrib, ← Finset.mul_sum, Finset.sum_const, Nat.card_Ico, nsmul_eq_mul]
  have e2 : (∑ i ∈ Finset.Ico a b, (i : K) * (y i - (p.2 + p.1 * i))) =
      (∑ i ∈ Finset.Ico a b, (i : K) * y i) - (p.2 * (∑ i ∈ Finset.Ico a b, (i : K)) + p.1 * ∑ i ∈ Finset.Ico a b, (i : K) * i) := by
    rw [Finset.mul_sum, Finset.mul_sum, ← Finset.sum_add_distrib, ← Finset.sum_sub_distrib]
    exact Finset.sum_congr rfl (fun i _ => by ring)
  rw [e1, e2]
  generalize hM : ((b - a : Nat) : K) = m at *
  generalize (∑ i ∈ Finset.Ico a b, (i : K)) = sx at *
  generalize (∑ i ∈ Finset.Ico a b, (i : K) * i) = sxx at *
  generalize (∑ i ∈ Finset.Ico a b, (i : K) * y i) = sxy at *
  generalize (∑ i ∈ Finset.Ico a b, y i) = sy at *
  have h1 : m * p.2 = sy - p.1 * sx := by rw [hp2]; field_simp
  have h2 : p.1 * (m * sxx - sx * sx) = m * sxy - sx * sy := by rw [hp1, div_mul_cancel₀ _ hd.ne']
  constructor
  · rw [h1]; ring
  · have : m * (sxy - (p.2 * sx + p.1 * sxx)) = 0 := by linear_combination -sx * h1 - h2
    rcases mul_eq_zero.1 this with h | h
    · exact absurd h hm.ne'
    · exact h

/-- `polyfit1` is the least-squares line. -/
theorem fit_optimal (a b : Nat) (h : a + 2 ≤ b) (y : Nat → K) (A B : K) :
    let p := polyfit1 a b y
    ∑ i ∈ Finset.Ico a b, (y i - (p.2 + p.1 * i)) ^ 2 ≤ ∑ i ∈ Finset.Ico a b, (y i - (B + A * i)) ^ 2 := by
  intro p
  obtain ⟨n1, n2⟩ := fit_normal a b h y
  have e : ∀ i : Nat, (y i - (B + A * i)) ^ 2 = (y i - (p.2 + p.1 * i)) ^ 2 + ((p.2 - B) + (p.1 - A) * i) ^ 2 +
      (2 * (p.2 - B) * (y i - (p.2 + p.1 * i)) + 2 * (p.1 - A) * ((i : K) * (y i - (p.2 + p.1 * i)))) := fun i => by ring
  simp only [e]
  rw [Finset.sum_add_distrib, Finset.sum_add_distrib, Finset.sum_add_distrib, ← Finset.mul_sum, ← Finset.mul_sum, n1, n2]
  have : 0 ≤ ∑ i ∈ Finset.Ico a b, ((p.2 - B) + (p.1 - A) * (i : K)) ^ 2 := Finset.sum_nonneg (fun i _ => sq_nonneg _)
  linarith

/-- The solution of the normal equations is unique. -/
theorem fit_unique (a b : Nat) (h : a + 2 ≤ b) (y : Nat → K) (A B : K) (h1 : (∑ i ∈ Finset.Ico a b, (y i - (B + A * i))) = 0)
    (h2 : (∑ i ∈ Finset.Ico a b, (i : K) * (y i - (B + A * i))) = 0) : polyfit1 a b y = (A, B) := by
  obtain ⟨n1, n2⟩ := fit_normal a b h y
  set p := polyfit1 a b y
  have hm : (0 : K) < ((b - a : Nat) : K) := by exact_mod_cast (by omega : 0 < b - a)
  have hd := fit_denom (K := K) a b h
  have d1 : ((b - a : Nat) : K) * (B - p.2) + (A - p.1) * ∑ i ∈ Finset.Ico a b, (i : K) = 0 := by
    have : (∑ i ∈ Finset.Ico a b, (y i - (p.2 + p.1 * i))) - (∑ i ∈ Finset.Ico a b, (y i - (B + A * i))) =
        ((b - a : Nat) : K) * (B - p.2) + (A - p.1) * ∑ i ∈ Finset.Ico a b, (i : K) := by
      rw [← Finset.sum_sub_distrib, Finset.mul_sum, ← Nat.card_Ico, ← nsmul_eq_mul, ← Finset.sum_const, ← Finset.sum_add_distrib]
      exact Finset.sum_congr rfl (fun i _ => by ring)
    rw [← this, n1, h1, sub_zero]
  have d2 : (B - p.2) * (∑ i ∈ Finset.Ico a b, (i : K)) + (A - p.1) * ∑ i ∈ Finset.Ico a b, (i : K) * i = 0 := by
    have : (∑ i ∈ Finset.Ico a b, (i : K) * (y i - (p.2 + p.1 * i))) - (∑ i ∈ Finset.Ico a b, (i : K) * (y i - (B + A * i))) =
        (B - p.2) * (∑ i ∈ Finset.Ico a b, (i : K)) + (A - p.1) * ∑ i ∈ Finset.Ico a b, (i : K) * i := by
      rw [← Finset.sum_sub_distrib, Finset.mul_sum, Finset.mul_sum, ← Finset.sum_add_distrib]
      exact Finset.sum_congr rfl (fun i _ => by ring)
    rw [← this, n2, h2, sub_zero]
  generalize ((b - a : Nat) : K) = m at *
  generalize (∑ i ∈ Finset.Ico a b, (i : K)) = sx at *
  generalize (∑ i ∈ Finset.Ico a b, (i : K) * i) = sxx at *
  have hA : (A - p.1) * (m * sxx - sx * sx) = 0 := by linear_combination m * d2 - sx * d1
  have hA' : A - p.1 = 0 := (mul_eq_zero.1 hA).resolve_right hd.ne'
  have hB' : B - p.2 = 0 := by
    rw [hA', zero_mul, add_zero] at d1
    exact (mul_eq_zero.1 d1).resolve_left hm.ne'
  exact Prod.ext (by linear_combination -hA') (by linear_combination -hB')

theorem fit_congr (a b : Nat) (y z : Nat → K) (h : ∀ i, a ≤ i → i < b → y i = z i) : polyfit1 a b y = polyfit1 a b z := by
  have e1 : (∑ i ∈ Finset.Ico a b, y i) = ∑ i ∈ Finset.Ico a b, z i :=
    Finset.sum_congr rfl (fun i hi => h i (Finset.mem_Ico.1 hi).1 (Finset.mem_Ico.1 hi).2)
  have e2 : (∑ i ∈ Finset.Ico a b, (i : K) * y i) = ∑ i ∈ Finset.Ico a b, (i : K) * z i :=
    Finset.sum_congr rfl (fun i hi => by rw [h i (Finset.mem_Ico.1 hi).1 (Finset.mem_Ico.1 hi).2])
  unfold polyfit1
  rw [e1, e2]

theorem fit_affine (a b : Nat) (h : a + 2 ≤ b) (y : Nat → K) (α β : K) :
    polyfit1 a b (fun i => α * y i + β) = (α * (polyfit1 a b y).1, α * (polyfit1 a b y).2 + β) := by
  obtain ⟨n1, n2⟩ := fit_normal a b h y
  set p := polyfit1 a b y
  apply fit_unique a b h
  · have : ∀ i : Nat, (α * y i + β - ((α * p.2 + β) + α * p.1 * i)) = α * (y i - (p.2 + p.1 * i)) := fun i => by ring
    simp only [this]
    rw [← Finset.mul_sum, n1, mul_zero]
  · have : ∀ i : Nat, (i : K) * (α * y i + β - ((α * p.2 + β) + α * p.1 * i)) = α * ((i : K) * (y i - (p.2 + p.1 * i))) := fun i => by ring
    simp only [this]
    rw [← Finset.mul_sum, n2, mul_zero]

theorem fit_line (a b : Nat) (h : a + 2 ≤ b) (y : Nat → K) (A B : K) (hy : ∀ i, a ≤ i → i < b → y i = B + A * i) :
    polyfit1 a b y = (A, B) := by
  rw [fit_congr a b y _ hy]
  apply fit_unique a b h <;> simp

/-- The fit of non-decreasing values does not go down. -/
theorem fit_slope_nonneg (a b : Nat) (h : a + 2 ≤ b) (y : Nat → K) (hy : ∀ i j, a ≤ i → i ≤ j → j < b → y i ≤ y j) :
    0 ≤ (polyfit1 a b y).1 := by
  have hmono : MonovaryOn (fun i : Nat => (i : K)) y (Finset.Ico a b : Finset Nat) := by
    intro i hi j hj hij
    have hi := Finset.mem_Ico.1 (Finset.mem_coe.1 hi)
    have hj := Finset.mem_Ico.1 (Finset.mem_coe.1 hj)
    by_contra hc
    have hc : (j : K) < i := not_le.1 hc
    have hji : j < i := by exact_mod_cast hc
    exact absurd (hy j i hj.1 hji.le hi.2) (not_le.2 hij)
  have := hmono.sum_mul_sum_le_card_mul_sum
  rw [Nat.card_Ico] at this
  exact div_nonneg (sub_nonneg.2 this) (fit_denom a b h).le

/-! ### C81: what the detector marks -/

/-- Sizes for which the fit has at least two points. -/
def GoodSize (n : Nat) : Prop := n = 3 ∨ 5 ≤ n

theorem goodSize_iff (n : Nat) : GoodSize n ↔ n / 4 + 2 ≤ n - n / 4 - 1 := by unfold GoodSize; omega

/-- The line through the middle of the sorted values: (slope, intercept). -/
def midLine (l : List K) : K × K := polyfit1 (l.length / 4) (l.length - l.length / 4 - 1) fun k => (npSort l).getD k 0

/-- Value of the line at the last rank. -/
def lineEnd (l : List K) : K := (midLine l).2 + (midLine l).1 * ((l.length : K) - 1)

theorem midLine_slope (l : List K) (h : GoodSize l.length) : 0 ≤ (midLine l).1 := by
  have h' := (goodSize_iff _).1 h
  exact fit_slope_nonneg _ _ h' _ (fun i j _ hij hj => npSort_mono l i j hij (by omega))

theorem noise_eq (l : List K) (h : GoodSize l.length) :
    |lineEnd l - (midLine l).2| = (midLine l).1 * ((l.length : K) - 1) := by
  unfold lineEnd
  rw [add_sub_cancel_left, abs_of_nonneg]
  have : (1 : K) ≤ l.length := by exact_mod_cast (by unfold GoodSize at h; omega : 1 ≤ l.length)
  exact mul_nonneg (midLine_slope l h) (by linarith)

/-- Unfolded form of the detector. -/
theorem detect_eq (l : List K) (snr : K) (h : GoodSize l.length) :
    detectStripe l snr = if (midLine l).1 * ((l.length : K) - 1) < 1 / 100000 then .error .valueError
      else .ok (l.map fun x =>
        (decide (|(npSort l).getD (l.length - 1) 0 - lineEnd l| / ((midLine l).1 * ((l.length : K) - 1)) ≥ snr) &&
          decide (x > lineEnd l + (midLine l).1 * ((l.length : K) - 1) * snr * (1 / 2))) ||
        (decide (|(midLine l).2 - (npSort l).getD 0 0| / ((midLine l).1 * ((l.length : K) - 1)) ≥ snr) &&
          decide (x ≤ (midLine l).2 - (midLine l).1 * ((l.length : K) - 1) * snr * (1 / 2)))) := by
  have h' := (goodSize_iff _).1 h
  rw [← noise_eq l h]
  unfold detectStripe
  dsimp only
  rw [if_neg (by omega)]
  rfl

/-- C81: lists of one value (and none) are refused with `TypeError`: no point is left for the line fit. -/
theorem detect_short (l : List K) (snr : K) (h : l.length ≤ 1) : detectStripe l snr = .error .typeError := by
  unfold detectStripe
  dsimp only
  rw [if_pos (by omega)]

/-- C81: the values whose middle half has no spread — in particular constant data — are rejected with `ValueError`, never
returned with an arbitrary mask. -/
theorem detect_rejects_flat (l : List K) (snr c : K) (h : GoodSize l.length) (hc : ∀ x ∈ l, x = c) :
    detectStripe l snr = .error .valueError := by
  have h' := (goodSize_iff _).1 h
  have : midLine l = (0, c) := by
    apply fit_line _ _ h'
    intro i _ hi
    rw [List.getD_eq_getElem _ _ (by rw [npSort_length]; omega), zero_mul, add_zero]
    exact hc _ ((npSort_perm l).mem_iff.1 (List.getElem_mem _))
  rw [detect_eq l snr h, this, if_pos (by rw [zero_mul]; norm_num)]

theorem midLine_perm {l l' : List K} (h : l.Perm l') : midLine l = midLine l' := by
  unfold midLine
  rw [npSort_congr h, h.length_eq]

/-- C81: the verdict on a value does not depend on its position: for any rearrangement of the list the mask is
rearranged in the same way (each value keeps its mark), and the same error is raised. -/
theorem detect_perm (l l' : List K) (snr : K) (hg : GoodSize l.length) (h : l.Perm l') :
    (∃ e, detectStripe l snr = .error e ∧ detectStripe l' snr = .error e) ∨
    (∃ P : K → Bool, detectStripe l snr = .ok (l.map P) ∧ detectStripe l' snr = .ok (l'.map P)) := by
  have hg' : GoodSize l'.length := by rw [← h.length_eq]; exact hg
  rw [detect_eq l snr hg, detect_eq l' snr hg']
  unfold lineEnd
  rw [midLine_perm h, npSort_congr h, h.length_eq]
  by_cases hn : (midLine l').1 * ((l'.length : K) - 1) < 1 / 100000
  · rw [if_pos hn, if_pos hn]
    exact Or.inl ⟨_, rfl, rfl⟩
  · rw [if_neg hn, if_neg hn]
    exact Or.inr ⟨_, rfl, rfl⟩

theorem midLine_affine (l : List K) (a b : K) (ha : 0 < a) (h : GoodSize l.length) :
    midLine (l.map fun x => a * x + b) = (a * (midLine l).1, a * (midLine l).2 + b) := by
  have h' := (goodSize_iff _).1 h
  unfold midLine
  rw [npSort_map l a b ha, List.length_map, ← fit_affine _ _ h']
  apply fit_congr
  intro i _ hi
  rw [List.getD_eq_getElem _ _ (by rw [List.length_map, npSort_length]; omega), List.getElem_map,
    List.getD_eq_getElem _ _ (by rw [npSort_length]; omega)]

/-- C81: changing the unit (`a > 0`) or the offset of the data does not change the mask, if both calls succeed; and a change to
a coarser unit (`a ≥ 1`) cannot make the call fail. -/
theorem detect_affine (l : List K) (snr a b : K) (ha : 0 < a) (h : GoodSize l.length) (m : List Bool) (hm : detectStripe l snr = .ok m) :
    (∀ m', detectStripe (l.map fun x => a * x + b) snr = .ok m' → m' = m) ∧
    (1 ≤ a → detectStripe (l.map fun x => a * x + b) snr = .ok m) := by
  have h' := (goodSize_iff _).1 h
  have hl : GoodSize (l.map fun x => a * x + b).length := by rw [List.length_map]; exact h
  have hN1 : (1 : K) ≤ l.length := by exact_mod_cast (by unfold GoodSize at h; omega : 1 ≤ l.length)
  have hs := midLine_slope l h
  have hnn : 0 ≤ (midLine l).1 * ((l.length : K) - 1) := mul_nonneg hs (by linarith)
  rw [detect_eq l snr h] at hm
  have hget : ∀ k < l.length, (npSort (l.map fun x => a * x + b)).getD k 0 = a * (npSort l).getD k 0 + b := by
    intro k hk
    rw [npSort_map l a b ha, List.getD_eq_getElem _ _ (by rw [List.length_map, npSort_length]; omega), List.getElem_map,
      List.getD_eq_getElem _ _ (by rw [npSort_length]; omega)]
  have hpos : 0 < l.length := by unfold GoodSize at h; omega
  have key : detectStripe (l.map fun x => a * x + b) snr = if a * ((midLine l).1 * ((l.length : K) - 1)) < 1 / 100000 then .error .valueError else .ok m := by
    rw [detect_eq _ snr hl]
    unfold lineEnd
    rw [midLine_affine l a b ha h, List.length_map, hget _ (by omega), hget _ hpos]
    dsimp only
    rw [mul_assoc a]
    by_cases hn : (midLine l).1 * ((l.length : K) - 1) < 1 / 100000
    · rw [if_pos hn] at hm
      cases hm
    · rw [if_neg hn] at hm
      have hnz : 0 < (midLine l).1 * ((l.length : K) - 1) := lt_of_lt_of_le (by norm_num) (not_lt.1 hn)
      congr 1
      rw [← Except.ok.inj hm, List.map_map]
      congr 1
      apply List.map_congr_left
      intro x _
      unfold lineEnd
      simp only [Function.comp]
      generalize hN : (midLine l).1 * ((l.length : K) - 1) = N at *
      generalize (midLine l).2 = c at *
      generalize (npSort l).getD (l.length - 1) 0 = t at *
      generalize (npSort l).getD 0 0 = u at *
      have e1 : |a * t + b - (a * c + b + a * N)| / (a * N) = |t - (c + N)| / N := by
        rw [show a * t + b - (a * c + b + a * N) = a * (t - (c + N)) by ring, abs_mul, abs_of_pos ha, mul_div_mul_left _ _ ha.ne']
      have e2 : |a * c + b - (a * u + b)| / (a * N) = |c - u| / N := by
        rw [show a * c + b - (a * u + b) = a * (c - u) by ring, abs_mul, abs_of_pos ha, mul_div_mul_left _ _ ha.ne']
      rw [e1, e2]
      congr 1
      · congr 1
        apply decide_eq_decide.2
        rw [show a * c + b + a * N + a * N * snr * (1 / 2) = a * (c + N + N * snr * (1 / 2)) + b by ring]
        constructor
        · intro hx
          have := lt_of_add_lt_add_right hx
          exact lt_of_mul_lt_mul_left this ha.le
        · intro hx
          have := mul_lt_mul_of_pos_left hx ha
          linarith
      · congr 1
        apply decide_eq_decide.2
        rw [show a * c + b - a * N * snr * (1 / 2) = a * (c - N * snr * (1 / 2)) + b by ring]
        constructor
        · intro hx
          have := le_of_add_le_add_right hx
          exact le_of_mul_le_mul_left this ha
        · intro hx
          have := mul_le_mul_of_nonneg_left hx ha.le
          linarith
  constructor
  · intro m' hm'
    rw [key] at hm'
    split at hm'
    · cases hm'
    · exact (Except.ok.inj hm').symm
  · intro ha1
    rw [key, if_neg]
    intro hc
    by_cases hn : (midLine l).1 * ((l.length : K) - 1) < 1 / 100000
    · rw [if_pos hn] at hm
      cases hm
    · nlinarith

/-- C81: the marked values are those above one bound or at most another: a value between two unmarked ones is unmarked. -/
theorem detect_interval (l : List K) (snr : K) (h : GoodSize l.length) (m : List Bool) (hm : detectStripe l snr = .ok m) :
    m.length = l.length ∧ ∀ i < l.length, ∀ j < l.length, ∀ k < l.length, l.getD i 0 ≤ l.getD j 0 → l.getD j 0 ≤ l.getD k 0 →
      m.getD i false = false → m.getD k false = false → m.getD j false = false := by
  rw [detect_eq l snr h] at hm
  split at hm
  · cases hm
  have hm := (Except.ok.inj hm).symm
  subst hm
  refine ⟨by simp, ?_⟩
  intro i hi j hj k hk hij hjk h1 h2
  rw [List.getD_eq_getElem _ _ (by simpa using hi), List.getElem_map] at h1
  rw [List.getD_eq_getElem _ _ (by simpa using hk), List.getElem_map] at h2
  rw [List.getD_eq_getElem _ _ (by simpa using hj), List.getElem_map]
  rw [List.getD_eq_getElem _ _ hi, List.getD_eq_getElem _ _ hj] at hij
  rw [List.getD_eq_getElem _ _ hj, List.getD_eq_getElem _ _ hk] at hjk
  rw [Bool.or_eq_false_iff, Bool.and_eq_false_iff, Bool.and_eq_false_iff] at *
  constructor
  · rcases h2.1 with h | h
    · exact Or.inl h
    · refine Or.inr (decide_eq_false ?_)
      have := of_decide_eq_false h
      exact fun hc => this (lt_of_lt_of_le hc hjk)
  · rcases h1.2 with h | h
    · exact Or.inl h
    · refine Or.inr (decide_eq_false ?_)
      have := of_decide_eq_false h
      exact fun hc => this (le_trans hij hc)

/-- C81: a larger `snr` (less sensitive) never marks more. -/
theorem detect_snr (l : List K) (s1 s2 : K) (h12 : s1 ≤ s2) (h : GoodSize l.length) (m1 m2 : List Bool)
    (h1 : detectStripe l s1 = .ok m1) (h2 : detectStripe l s2 = .ok m2) (j : Nat) (hj : m2.getD j false = true) :
    m1.getD j false = true := by
  rw [detect_eq l _ h] at h1 h2
  split at h1
  · cases h1
  rename_i hn
  rw [if_neg hn] at h2
  have hN : 0 < (midLine l).1 * ((l.length : K) - 1) := lt_of_lt_of_le (by norm_num) (not_lt.1 hn)
  have h1 := (Except.ok.inj h1).symm
  have h2 := (Except.ok.inj h2).symm
  subst h1 h2
  have hjl : j < l.length := by
    by_contra hc
    rw [List.getD_eq_default _ _ (by simpa using hc)] at hj
    cases hj
  rw [List.getD_eq_getElem _ _ (by simpa using hjl), List.getElem_map] at hj ⊢
  generalize l[j] = x at *
  generalize (midLine l).1 * ((l.length : K) - 1) = N at *
  have hN2 : N * s1 ≤ N * s2 := mul_le_mul_of_nonneg_left h12 hN.le
  simp only [Bool.or_eq_true, Bool.and_eq_true, decide_eq_true_eq] at hj ⊢
  rcases hj with ⟨a, b⟩ | ⟨a, b⟩
  · exact Or.inl ⟨le_trans h12 a, lt_of_le_of_lt (by linarith) b⟩
  · exact Or.inr ⟨le_trans h12 a, le_trans b (by linarith)⟩

theorem pairwise_ramp (n : Nat) (p q : K) (hq : 0 ≤ q) : ((List.range n).map fun k : Nat => p + q * (k : K)).Pairwise (· ≤ ·) := by
  rw [List.pairwise_map]
  refine (List.pairwise_lt_range (n := n)).imp ?_
  intro a b hab
  have : (a : K) ≤ b := by exact_mod_cast hab.le
  nlinarith

/-- C81: detection of bright stripes.  If all but at most a quarter of the values are evenly spread (`p, p + q, p + 2 q, …` in some
order) and the others exceed the extrapolated spread by at least `snr` times the spread, exactly these are marked. -/
theorem detect_bright (l out : List K) (snr p q : K) (t : Nat) (hs : 0 < snr) (hg : GoodSize l.length) (ht : t ≤ l.length / 4)
    (hot : out.length = t) (hl : l.Perm (((List.range (l.length - t)).map fun k : Nat => p + q * (k : K)) ++ out))
    (hq : 1 / 100000 ≤ q * ((l.length : K) - 1))
    (hout : ∀ x ∈ out, p + q * ((l.length : K) - 1) + snr * (q * ((l.length : K) - 1)) ≤ x) :
    detectStripe l snr = .ok (l.map fun x => decide (p + q * ((l.length : K) - 1) < x)) := by
  have h' := (goodSize_iff _).1 hg
  set n := l.length with hn
  have hn1 : (1 : K) < n := by exact_mod_cast (by unfold GoodSize at hg; omega : 1 < n)
  have hqN : 0 < q * ((n : K) - 1) := lt_of_lt_of_le (by norm_num) hq
  have hq0 : 0 < q := by
    by_contra hc
    nlinarith [not_lt.1 hc]
  -- the ramp values stay below the end of the line
  have hramp : ∀ k : Nat, k < n → p + q * (k : K) ≤ p + q * ((n : K) - 1) := by
    intro k hk
    have : (k : K) + 1 ≤ n := by exact_mod_cast hk
    nlinarith
  have hsort : npSort l = ((List.range (n - t)).map fun k : Nat => p + q * (k : K)) ++ npSort out := by
    apply npSort_eq (hl.trans ((npSort_perm out).symm.append_left _))
    rw [List.pairwise_append]
    refine ⟨pairwise_ramp _ p q hq0.le, npSort_pairwise out, ?_⟩
    intro a ha b hb
    obtain ⟨k, hk, rfl⟩ := List.mem_map.1 ha
    have h1 := hramp k (by rw [List.mem_range] at hk; omega)
    have h2 := hout b ((npSort_perm out).mem_iff.1 hb)
    have := mul_pos hs hqN
    linarith
  have hget : ∀ k < n - t, (npSort l).getD k 0 = p + q * (k : K) := by
    intro k hk
    rw [hsort, List.getD_eq_getElem _ _ (by simp [npSort_length]; omega), List.getElem_append_left (by simpa using hk)]
    simp
  have hline : midLine l = (q, p) := by
    apply fit_line _ _ h'
    intro i _ hi
    exact hget i (by omega)
  rw [detect_eq l snr hg, hline, if_neg (not_lt.2 hq)]
  congr 1
  apply List.map_congr_left
  intro x hxl
  unfold lineEnd
  rw [hline]
  dsimp only
  rw [← hn]
  have h0 : (npSort l).getD 0 0 = p := by rw [hget 0 (by unfold GoodSize at hg; omega)]; simp
  rw [h0, sub_self, abs_zero, zero_div]
  have hno : decide ((0 : K) ≥ snr) = false := decide_eq_false (not_le.2 hs)
  rw [hno, Bool.false_and, Bool.or_false]
  -- the value is a ramp value or an outlier
  rcases List.mem_append.1 (hl.mem_iff.1 hxl) with hx | hx
  · obtain ⟨k, hk, rfl⟩ := List.mem_map.1 hx
    have h1 := hramp k (by rw [List.mem_range] at hk; omega)
    have h2 : ¬ (p + q * (k : K) > p + q * ((n : K) - 1) + q * ((n : K) - 1) * snr * (1 / 2)) := by
      have := mul_pos hqN hs
      intro hc
      linarith
    rw [decide_eq_false (not_lt.2 h1), decide_eq_false h2, Bool.and_false]
  · have hx' := hout x hx
    have hpos := mul_pos hs hqN
    have hx2 : p + q * ((n : K) - 1) + q * ((n : K) - 1) * snr * (1 / 2) < x := by nlinarith
    rw [decide_eq_true (show x > _ from hx2), decide_eq_true (show p + q * ((n : K) - 1) < x by linarith), Bool.and_true]
    -- the largest value is at least this one
    have hlast : x ≤ (npSort l).getD (n - 1) 0 := by
      obtain ⟨k, hk, hkx⟩ := List.getElem_of_mem ((npSort_perm l).mem_iff.2 hxl)
      have := npSort_mono l k (n - 1) (by rw [npSort_length] at hk; omega) (by omega)
      rw [List.getD_eq_getElem _ _ hk, hkx] at this
      exact this
    apply decide_eq_true
    show snr ≤ _
    rw [le_div_iff₀ hqN]
    exact le_trans (by linarith) (le_abs_self _)

/-- C81: detection of dark stripes.  If all but at most a quarter of the values are evenly spread (`p + t q, p + (t + 1) q, …` in some
order) and the `t` others are below `p` by at least `snr` times the spread, exactly these are marked. -/
theorem detect_dark (l out : List K) (snr p q : K) (t : Nat) (hs : 0 < snr) (hg : GoodSize l.length) (ht : t ≤ l.length / 4)
    (hot : out.length = t) (hl : l.Perm (out ++ ((List.range (l.length - t)).map fun k : Nat => (p + q * t) + q * (k : K))))
    (hq : 1 / 100000 ≤ q * ((l.length : K) - 1))
    (hout : ∀ x ∈ out, x ≤ p - snr * (q * ((l.length : K) - 1))) :
    detectStripe l snr = .ok (l.map fun x => decide (x < p)) := by
  have h' := (goodSize_iff _).1 hg
  set n := l.length with hn
  have hn1 : (1 : K) < n := by exact_mod_cast (by unfold GoodSize at hg; omega : 1 < n)
  have hqN : 0 < q * ((n : K) - 1) := lt_of_lt_of_le (by norm_num) hq
  have hq0 : 0 < q := by
    by_contra hc
    nlinarith [not_lt.1 hc]
  have hramp : ∀ k : Nat, p ≤ (p + q * t) + q * (k : K) := by
    intro k
    have := mul_nonneg hq0.le (Nat.cast_nonneg (α := K) k)
    have := mul_nonneg hq0.le (Nat.cast_nonneg (α := K) t)
    linarith
  have hsort : npSort l = npSort out ++ ((List.range (n - t)).map fun k : Nat => (p + q * t) + q * (k : K)) := by
    apply npSort_eq (hl.trans ((npSort_perm out).symm.append_right _))
    rw [List.pairwise_append]
    refine ⟨npSort_pairwise out, pairwise_ramp _ _ q hq0.le, ?_⟩
    intro b hb a ha
    obtain ⟨k, hk, rfl⟩ := List.mem_map.1 ha
    have h1 := hramp k
    have h2 := hout b ((npSort_perm out).mem_iff.1 hb)
    have := mul_pos hs hqN
    linarith
  have hget : ∀ k, t ≤ k → k < n → (npSort l).getD k 0 = p + q * (k : K) := by
    intro k hk hkn
    have hlo : (npSort out).length ≤ k := by rw [npSort_length, hot]; exact hk
    rw [hsort, List.getD_eq_getElem _ _ (by simp [npSort_length]; omega), List.getElem_append_right hlo]
    rw [List.getElem_map, List.getElem_range, npSort_length, hot, Nat.cast_sub hk]
    ring
  have hline : midLine l = (q, p) := by
    apply fit_line _ _ h'
    intro i hi1 hi
    exact hget i (by omega) (by omega)
  rw [detect_eq l snr hg, hline, if_neg (not_lt.2 hq)]
  congr 1
  apply List.map_congr_left
  intro x hxl
  unfold lineEnd
  rw [hline]
  dsimp only
  rw [← hn]
  have h0 : (npSort l).getD (n - 1) 0 = p + q * ((n : K) - 1) := by
    rw [hget (n - 1) (by unfold GoodSize at hg; omega) (by unfold GoodSize at hg; omega), Nat.cast_sub (by unfold GoodSize at hg; omega)]
    simp
  rw [h0, sub_self, abs_zero, zero_div]
  have hno : decide ((0 : K) ≥ snr) = false := decide_eq_false (not_le.2 hs)
  rw [hno, Bool.false_and, Bool.false_or]
  rcases List.mem_append.1 (hl.mem_iff.1 hxl) with hx | hx
  · have hx' := hout x hx
    have hpos := mul_pos hs hqN
    have hx2 : x ≤ p - q * ((n : K) - 1) * snr * (1 / 2) := by nlinarith
    rw [decide_eq_true hx2, decide_eq_true (show x < p by linarith), Bool.and_true]
    have hfirst : (npSort l).getD 0 0 ≤ x := by
      obtain ⟨k, hk, hkx⟩ := List.getElem_of_mem ((npSort_perm l).mem_iff.2 hxl)
      have := npSort_mono l 0 k (by omega) (by rw [npSort_length] at hk; exact hk)
      rw [List.getD_eq_getElem _ _ hk, hkx] at this
      exact this
    apply decide_eq_true
    show snr ≤ _
    rw [le_div_iff₀ hqN]
    exact le_trans (by linarith) (le_abs_self _)
  · obtain ⟨k, hk, rfl⟩ := List.mem_map.1 hx
    have h1 := hramp k
    have h2 : ¬ ((p + q * t) + q * (k : K) ≤ p - q * ((n : K) - 1) * snr * (1 / 2)) := by
      have := mul_pos hqN hs
      intro hc
      linarith
    rw [decide_eq_false (not_lt.2 h1), decide_eq_false h2, Bool.and_false]

/-- Hypotheses of the theorems above are met: a noisy line of nine detector pixels with a bright and with a dark stripe. -/
example : detectStripe [3, 0, 1, 40, 5, 4, 2, 7, 6] (3 : ℚ) = .ok [false, false, false, true, false, false, false, false, false] ∧
    detectStripe [3, -30, 1, 8, 5, 4, 2, 7, 6] (3 : ℚ) = .ok [false, true, false, false, false, false, false, false, false] := by
  decide +kernel

/-! ### C82: bright and dark stripes -/

/-- Full claim: inverting the contrast of the data gives the same mask. -/
def PolaritySymmetric (l : List K) (snr : K) : Prop := detectStripe (l.map fun x => -x) snr = detectStripe l snr

/-- C82 is false of the code: the fit drops one value more at the bright end of the sorted list than at the dark end, so
the same stripe is found when it is bright and missed when it is dark. -/
theorem polarity_refuted : ¬ PolaritySymmetric [0, 1, 2, 4, 16] (3 : ℚ) ∧
    detectStripe [0, 1, 2, 4, 16] (3 : ℚ) = .ok [false, false, false, false, true] ∧
    detectStripe [0, -1, -2, -4, -16] (3 : ℚ) = .ok [false, false, false, false, false] := by
  unfold PolaritySymmetric
  decide +kernel

/-- C82 (partial): for evenly spread data with bright stripes the inverted data gives the same mask. -/
theorem polarity_partial (l out : List K) (snr p q : K) (t : Nat) (hs : 0 < snr) (hg : GoodSize l.length) (ht : t ≤ l.length / 4)
    (hot : out.length = t) (hl : l.Perm (((List.range (l.length - t)).map fun k : Nat => p + q * (k : K)) ++ out))
    (hq : 1 / 100000 ≤ q * ((l.length : K) - 1))
    (hout : ∀ x ∈ out, p + q * ((l.length : K) - 1) + snr * (q * ((l.length : K) - 1)) ≤ x) :
    PolaritySymmetric l snr := by
  unfold PolaritySymmetric
  rw [detect_bright l out snr p q t hs hg ht hot hl hq hout]
  have htn : t < l.length := by unfold GoodSize at hg; omega
  have hperm : (l.map fun x => -x).Perm ((out.map fun x => -x) ++ ((List.range ((l.map fun x => -x).length - t)).map fun k : Nat =>
      ((-p - q * ((l.length : K) - 1)) + q * t) + q * (k : K))) := by
    have h1 : ((List.range ((l.map fun x => -x).length - t)).map fun k : Nat => ((-p - q * ((l.length : K) - 1)) + q * t) + q * (k : K)) =
        (((List.range (l.length - t)).map fun k : Nat => p + q * (k : K)).map fun x => -x).reverse := by
      apply List.ext_getElem
      · simp
      · intro i h1 h2
        have hi : i < l.length - t := by simpa using h1
        rw [List.getElem_reverse]
        simp only [List.getElem_map, List.getElem_range, List.length_map, List.length_range]
        rw [Nat.cast_sub (by omega), Nat.cast_sub (by omega), Nat.cast_sub (by omega)]
        push_cast
        ring
    rw [h1]
    have h2 := hl.map fun x => -x
    rw [List.map_append] at h2
    exact (h2.trans List.perm_append_comm).trans ((List.reverse_perm _).symm.append_left _)
  have hlen : (l.map fun x => -x).length = l.length := List.length_map _
  rw [detect_dark (l.map fun x => -x) (out.map fun x => -x) snr (-p - q * ((l.length : K) - 1)) q t hs (by rw [hlen]; exact hg)
    (by rw [hlen]; exact ht) (by rw [List.length_map]; exact hot) hperm (by rw [hlen]; exact hq) (by
      intro x hx
      obtain ⟨y, hy, rfl⟩ := List.mem_map.1 hx
      have := hout y hy
      rw [hlen]
      linarith)]
  rw [List.map_map]
  congr 1
  apply List.map_congr_left
  intro x _
  apply decide_eq_decide.2
  simp only
  constructor <;> intro h <;> linarith

/-- Non-vacuity of `polarity_partial`: 8 values, one stripe. -/
example : PolaritySymmetric [1, 0, 100, 2, 3, 4, 5, 6] (3 : ℚ) := by
  apply polarity_partial _ [100] 3 0 1 1 (by norm_num) (Or.inr (by simp)) (by simp) rfl
  · show List.Perm _ [_, _, _, _, _, _, _, _]
    norm_num
    decide
  · norm_num
  · intro x hx
    simp only [List.mem_singleton] at hx
    subst hx
    norm_num

end Verif.Stripe
