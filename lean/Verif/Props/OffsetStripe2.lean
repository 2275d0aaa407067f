import Verif.Props.OffsetStripe
import Verif.Props.FittingScale

/-! C174, continued: an odd number of projections. -/

set_option linter.unusedSectionVars false
set_option linter.unusedSimpArgs false

namespace Verif.StripeFilters
open Verif.Sorting Verif.Removal Verif.Fourier Complex

/-! ### an odd number of projections -/

/-- The filter along a line of three equal values. -/
theorem line3 (win : ℕ → ℝ) (a c : ℝ) (h0 : win 0 = a) (h1 : win 1 = 1) (h2 : win 2 = a) :
    signFilterLine 3 0 win (fun _ => c) 0 = c * (1 + 2 * a) / 3 ∧ signFilterLine 3 0 win (fun _ => c) 1 = c * (2 + a) / 3 ∧
    signFilterLine 3 0 win (fun _ => c) 2 = c * (1 + 2 * a) / 3 := by
  have key : ∀ j, j < 3 → signFilterLine 3 0 win (fun _ => c) j =
      (((c : ℂ) / 3 * (a * zeta ^ 0 + (-2 * zeta ^ 2) * zeta ^ j + (-2 * zeta) * a * zeta ^ (2 * j))) * ((((-1 : ℝ) ^ j) : ℝ) : ℂ)).re := by
    intro j hj
    unfold signFilterLine
    dsimp only
    unfold idft dft
    congr 2
    · simp only [Nat.mul_zero, Nat.add_zero, Nat.zero_add, Finset.sum_range_succ, Finset.range_zero, Finset.sum_empty, zero_add]
      rw [h0, h1, h2]
      have p : ∀ k n : ℕ, exp (2 * Real.pi * I * ((k : ℂ) * (n : ℂ) / ((3 : ℕ) : ℂ))) = zeta ^ (k * n) := by
        intro k n
        rw [← exp_pos3]
        congr 1
        push_cast
        ring
      have q : ∀ k n : ℕ, exp (-(2 * Real.pi * I * ((k : ℂ) * (n : ℂ) / ((3 : ℕ) : ℂ)))) = zeta ^ (2 * (k * n)) := by
        intro k n
        rw [← exp_neg3]
        congr 1
        push_cast
        ring
      simp only [p, q]
      push_cast
      simp only [Nat.zero_mul, Nat.mul_zero, Nat.one_mul, Nat.mul_one, pow_zero, pow_one, mul_one, div_one]
      have z3 := zeta_cube
      have z2 := zeta_sq
      have z4 : zeta ^ 4 = zeta := by linear_combination zeta * z3
      have z8 : zeta ^ 8 = -1 - zeta := by linear_combination zeta ^ 5 * z3 + zeta ^ 2 * z3 + z2
      rw [z4, z8, z2]
      ring
    · simp
  have z3 := zeta_cube
  have z2 := zeta_sq
  have z4 : zeta ^ 4 = zeta := by linear_combination zeta * z3
  refine ⟨?_, ?_, ?_⟩
  · rw [key 0 (by omega)]
    rw [show ((c : ℂ) / 3 * (a * zeta ^ 0 + (-2 * zeta ^ 2) * zeta ^ 0 + (-2 * zeta) * a * zeta ^ (2 * 0))) * ((((-1 : ℝ) ^ 0) : ℝ) : ℂ) =
      ((c / 3 * (a + 2) : ℝ) : ℂ) + ((c / 3 * (2 - 2 * a) : ℝ) : ℂ) * zeta by push_cast; rw [z2]; ring]
    rw [add_re, re_ofReal_mul, ofReal_re, zeta_re]
    ring
  · rw [key 1 (by omega)]
    rw [show ((c : ℂ) / 3 * (a * zeta ^ 0 + (-2 * zeta ^ 2) * zeta ^ 1 + (-2 * zeta) * a * zeta ^ (2 * 1))) * ((((-1 : ℝ) ^ 1) : ℝ) : ℂ) =
      ((c / 3 * (a + 2) : ℝ) : ℂ) by push_cast; linear_combination ((c : ℂ) / 3 * (2 + 2 * a)) * z3]
    rw [ofReal_re]
    ring
  · rw [key 2 (by omega)]
    rw [show ((c : ℂ) / 3 * (a * zeta ^ 0 + (-2 * zeta ^ 2) * zeta ^ 2 + (-2 * zeta) * a * zeta ^ (2 * 2))) * ((((-1 : ℝ) ^ 2) : ℝ) : ℂ) =
      ((c / 3 * (3 * a) : ℝ) : ℂ) + ((c / 3 * (2 * a - 2) : ℝ) : ℂ) * zeta by
        push_cast; linear_combination (-2 * (c : ℂ) / 3) * z4 - (2 * (c : ℂ) / 3 * a * zeta) * z4 - (2 * (c : ℂ) / 3 * a) * z2]
    rw [add_re, re_ofReal_mul, ofReal_re, zeta_re]
    ring

/-- Three projections of a stripe of value `x` between pixels of value `y`. -/
def stripe3 (x y : ℝ) : Mat ℝ := ⟨3, 3, fun _ j => if j = 1 then x else y⟩

/-- The gain of the filter at its two outermost frequencies. -/
noncomputable def gain3 (sigma : ℝ) : ℝ := Real.exp (-(1 / (2 * sigma ^ 2)))

theorem gain3_lt (sigma : ℝ) (hs : sigma ≠ 0) : gain3 sigma < 1 := by
  unfold gain3
  rw [Real.exp_lt_one_iff]
  have : 0 < sigma ^ 2 := by positivity
  have : 0 < 1 / (2 * sigma ^ 2) := by positivity
  linarith

/-- Smoothed columns of equal values: the middle projection gets another factor. -/
theorem smooth3 (sigma x y : ℝ) (j : ℕ) (v : ℝ) (hv : v = if j = 1 then x else y) :
    (smoothPart sigma (stripe3 x y)).get 0 j = v * (1 + 2 * gain3 sigma) / 3 ∧ (smoothPart sigma (stripe3 x y)).get 1 j = v * (2 + gain3 sigma) / 3 ∧
    (smoothPart sigma (stripe3 x y)).get 2 j = v * (1 + 2 * gain3 sigma) / 3 := by
  subst hv
  have hp : pad10 3 = 0 := by decide
  have w0 : gaussWin sigma 3 0 = gain3 sigma := by unfold gaussWin gain3; rw [hp]; congr 1; norm_num
  have w1 : gaussWin sigma 3 1 = 1 := by unfold gaussWin; rw [hp]; norm_num
  have w2 : gaussWin sigma 3 2 = gain3 sigma := by unfold gaussWin gain3; rw [hp]; congr 1; norm_num
  have := line3 (gaussWin sigma 3) (gain3 sigma) (if j = 1 then x else y) w0 w1 w2
  have e : ∀ i, (smoothPart sigma (stripe3 x y)).get i j = signFilterLine 3 (pad10 3) (gaussWin sigma 3) (fun _ => if j = 1 then x else y) i := fun _ => rfl
  rw [e, e, e, hp]
  exact this

theorem column3 (m : Mat ℝ) (hh : m.h = 3) (c : ℕ) : line m.T c = [m.get 0 c, m.get 1 c, m.get 2 c] := by
  unfold line
  show (List.range m.h).map _ = _
  rw [hh]
  rfl

theorem median3_middle (m : Mat ℝ) (hw : m.w = 3) (i : ℕ) (t : ℝ) (h0 : m.get i 0 = t) (h2 : m.get i 2 = t) : (medianFilterRow 3 m).get i 1 = t := by
  rw [median_eq]
  have e : window 3 m i 1 = [t, m.get i 1, t] := by
    unfold window
    rw [hw]
    show [m.get i 0, m.get i 1, m.get i 2] = _
    rw [h0, h2]
  rw [e]
  rcases le_total (m.get i 1) t with h | h
  · rw [sorted_unique (mergeSort_sorted [t, m.get i 1, t]) (l' := [m.get i 1, t, t]) (by simp [h]) ((List.mergeSort_perm _ _).trans (List.Perm.swap _ _ _))]
    rfl
  · rw [sorted_unique (mergeSort_sorted [t, m.get i 1, t]) (l' := [t, t, m.get i 1]) (by simp [h])
      ((List.mergeSort_perm _ _).trans (List.Perm.cons _ (List.Perm.swap _ _ _)))]
    rfl

/-- The smooth part of the middle pixel after sorting, filtering and sorting back: the largest smooth value of the neighbouring column. -/
theorem middle3 (as1 : Argsort ℝ) (as2 : Argsort ℕ) (p : Mat ℝ) (hh : p.h = 3) (hw : p.w = 3) (h10 : p.get 0 1 < p.get 1 1) (h12 : p.get 2 1 < p.get 1 1)
    (t : ℝ) (u v : ℝ) (huv : u ≤ v) (hvt : v ≤ t) (hp0 : (line p.T 0).Perm [u, v, t]) (hp2 : (line p.T 2).Perm [u, v, t]) :
    (removeStripeSorting as1 as2 (medianFilterRow 3) p).get 1 1 = t := by
  have hs := fun c => (sort_forward_sorted as1 p).1.2.2 c
  have col : ∀ c, (line p.T c).Perm [u, v, t] → (sortForward as1 0 p).1.get 2 c = t := by
    intro c hc
    have e : sortedCol as1 p c = [u, v, t] :=
      sorted_unique (hs c).1 (by simp [huv, hvt, le_trans huv hvt]) ((hs c).2.trans hc)
    rw [← sortedCol_get as1 p c 2 (by omega), e]
    rfl
  have e1 : (sortForward as1 0 p).1.get 2 1 = p.get 1 1 ∧ ∀ r < 2, (sortForward as1 0 p).1.get r 1 < p.get 1 1 := by
    rcases le_total (p.get 0 1) (p.get 2 1) with hle | hle
    · have e : sortedCol as1 p 1 = [p.get 0 1, p.get 2 1, p.get 1 1] := by
        refine sorted_unique (hs 1).1 (by simp [hle, h10.le, h12.le]) ((hs 1).2.trans ?_)
        rw [column3 p hh 1]
        exact List.Perm.cons _ (List.Perm.swap _ _ _)
      refine ⟨by rw [← sortedCol_get as1 p 1 2 (by omega), e]; rfl, fun r hr => ?_⟩
      rw [← sortedCol_get as1 p 1 r (by omega), e]
      interval_cases r
      · exact h10
      · exact h12
    · have e : sortedCol as1 p 1 = [p.get 2 1, p.get 0 1, p.get 1 1] := by
        refine sorted_unique (hs 1).1 (by simp [hle, h10.le, h12.le]) ((hs 1).2.trans ?_)
        rw [column3 p hh 1]
        exact (List.Perm.cons _ (List.Perm.swap _ _ _)).trans (List.Perm.swap _ _ _)
      refine ⟨by rw [← sortedCol_get as1 p 1 2 (by omega), e]; rfl, fun r hr => ?_⟩
      rw [← sortedCol_get as1 p 1 r (by omega), e]
      interval_cases r
      · exact h12
      · exact h10
  have hsw : (sortForward as1 0 p).1.w = p.w := rfl
  have hsh : (sortForward as1 0 p).1.h = p.h := rfl
  have c0 := col 0 hp0
  have c2 := col 2 hp2
  generalize hse : (sortForward as1 0 p).1 = s at c0 c2 e1 hsw hsh
  obtain ⟨ρ, a1, a3, a4⟩ := sorting_core as1 as2 (medianFilterRow 3) p s hse.symm hsh 1
  have hr : ρ 1 = 2 := by
    have b1 := a1 1 (by omega)
    have b2 := a3 1 (by omega)
    by_contra hne
    have := e1.2 (ρ 1) (by omega)
    rw [b2] at this
    exact lt_irrefl _ this
  rw [a4 1 (by omega), hr]
  exact median3_middle s (by omega) 2 t c0 c2

/-- **C174 refuted** for `remove_stripe_based_filtering` with sorting and an odd number of projections, for every sorting algorithm and `sigma`: adding 2 to
three projections of a stripe does not add 2 to the result. -/
theorem filtering_offset_refuted (as1 : Argsort ℝ) (as2 : Argsort ℕ) (sigma : ℝ) (hs : sigma ≠ 0) :
    ¬ PassesThrough (removeFiltering as1 as2 (medianFilterRow 3) sigma true) (fun _ => 2) (stripe3 1 (-1)) := by
  have hg := gain3_lt sigma hs
  have hadd : addRows (fun _ => 2) (stripe3 1 (-1)) = stripe3 3 1 := by
    unfold addRows stripe3
    congr 1
    funext i j
    dsimp only
    split <;> norm_num
  have first : ∀ x y t u v : ℝ, 0 < x → u ≤ v → v ≤ t → [y * (1 + 2 * gain3 sigma) / 3, y * (2 + gain3 sigma) / 3, y * (1 + 2 * gain3 sigma) / 3].Perm [u, v, t] →
      ∃ r, removeFiltering as1 as2 (medianFilterRow 3) sigma true (stripe3 x y) = .ok r ∧ r.h = 3 ∧ r.w = 3 ∧ r.get 1 1 = t + (x - x * (2 + gain3 sigma) / 3) := by
    intro x y t u v hx huv hvt hp
    obtain ⟨m0, m1, m2⟩ := smooth3 sigma x y 1 x (by simp)
    refine ⟨_, filtering_eq _ _ _ _ _ _, rfl, rfl, ?_⟩
    have hcol : ∀ c, c ≠ 1 → (line (smoothPart sigma (stripe3 x y)).T c).Perm [u, v, t] := by
      intro c hc
      obtain ⟨n0, n1, n2⟩ := smooth3 sigma x y c y (by simp [hc])
      rw [column3 _ rfl c, n0, n1, n2]
      exact hp
    have k := middle3 as1 as2 (smoothPart sigma (stripe3 x y)) rfl rfl (by rw [m0, m1]; nlinarith) (by rw [m2, m1]; nlinarith) t u v huv hvt
      (hcol 0 (by norm_num)) (hcol 2 (by norm_num))
    show (removeStripeSorting as1 as2 (medianFilterRow 3) (smoothPart sigma (stripe3 x y))).get 1 1 + (x - (smoothPart sigma (stripe3 x y)).get 1 1) = _
    rw [k, m1]
  obtain ⟨r, e1, h1, w1, v1⟩ := first 1 (-1) (-1 * (1 + 2 * gain3 sigma) / 3) (-1 * (2 + gain3 sigma) / 3) (-1 * (1 + 2 * gain3 sigma) / 3) (by norm_num)
    (by linarith) (by linarith) (List.Perm.swap _ _ _)
  obtain ⟨r', e2, h2, w2, v2⟩ := first 3 1 (1 * (2 + gain3 sigma) / 3) (1 * (1 + 2 * gain3 sigma) / 3) (1 * (1 + 2 * gain3 sigma) / 3) (by norm_num)
    (by linarith) (by linarith) (List.Perm.cons _ (List.Perm.swap _ _ _))
  rintro (⟨q, q', f1, f2, _, _, f3⟩ | ⟨e, f1, _⟩)
  · rw [hadd, e2] at f2
    rw [e1] at f1
    cases f1
    cases f2
    have := f3.get 1 (by omega) 1 (by omega)
    rw [v1, v2] at this
    linarith
  · rw [e1] at f1
    cases f1

/-! ### examples -/

/-- Merge sort of the positions by value ignores offsets. -/
theorem offsetOnly_exists : ∃ as : Argsort ℝ, OffsetOnly as := by
  classical
  refine ⟨⟨fun _ l => (List.range l.length).mergeSort fun a b => decide (l.getD a (l.headD 0) ≤ l.getD b (l.headD 0)), fun r keys => ⟨List.mergeSort_perm _ _, ?_⟩⟩, ?_⟩
  · have := List.pairwise_mergeSort (le := fun a b => decide (keys.getD a (keys.headD 0) ≤ keys.getD b (keys.headD 0)))
      (fun a b c h1 h2 => by simp only [decide_eq_true_eq] at *; exact h1.trans h2)
      (fun a b => by simp only [Bool.or_eq_true, decide_eq_true_eq]; exact le_total _ _) (List.range keys.length)
    rw [List.pairwise_map]
    refine List.Pairwise.imp_of_mem (fun {a b} ha hb h => ?_) this
    have ha : a < keys.length := List.mem_range.1 ((List.mergeSort_perm _ _).mem_iff.1 ha)
    have hb : b < keys.length := List.mem_range.1 ((List.mergeSort_perm _ _).mem_iff.1 hb)
    have h := of_decide_eq_true h
    rw [List.getD_eq_getElem _ _ ha, List.getD_eq_getElem _ _ hb] at h ⊢
    exact h
  · intro r l b
    show (List.range (l.map fun x => x + b).length).mergeSort _ = (List.range l.length).mergeSort _
    cases l with
    | nil => rfl
    | cons x xs =>
      rw [List.length_map]
      congr 1
      funext i j
      have e : ∀ i, ((x :: xs).map fun x => x + b).getD i (((x :: xs).map fun x => x + b).headD 0) = (x :: xs).getD i ((x :: xs).headD 0) + b := by
        intro i
        by_cases hi : i < (x :: xs).length
        · rw [List.getD_eq_getElem _ _ (by simpa using hi), List.getD_eq_getElem _ _ hi, List.getElem_map]
        · rw [List.getD_eq_default _ _ (by simpa using hi), List.getD_eq_default _ _ (by simpa using hi)]
          rfl
      rw [e, e, decide_eq_decide]
      exact add_le_add_iff_right b

/-- C174 for the wavelet `db2`: a fluctuation of the beam passes through. -/
example (as1 : Argsort ℝ) (as2 : Argsort ℕ) (a : ℕ → ℝ) (m : Mat ℝ) :
    PassesThrough (removeWavelet as1 as2 (Pywt.wavedec Pywt.db2) (Pywt.waverec Pywt.db2) (some 3) 5 true false) a m :=
  wavelet_profile as1 as2 _ Pywt.db2_good.1 Pywt.db2_good.2 (some 3) 5 true a m

/-- C174 for the default settings of the sorting-based method, which does not fail. -/
example (as2 : Argsort ℕ) (b : ℝ) (m : Mat ℝ) : ∃ as1 : Argsort ℝ,
    Shifted (fun _ => b) (removeStripeSorting as1 as2 (medianFilterRow 21) m) (removeStripeSorting as1 as2 (medianFilterRow 21) (addRows (fun _ => b) m)) := by
  obtain ⟨as1, ho⟩ := offsetOnly_exists
  refine ⟨as1, ?_⟩
  rcases sorting_offset as1 ho as2 (medianFilterRow 21) (median_rowFilter 21 (by norm_num)) b m with ⟨r, r', e1, e2, _, _, h⟩ | ⟨e, e1, _⟩
  · cases e1; cases e2; exact h
  · cases e1

/-- C174 for the normalization-based method with scipy's Gaussian filter, all projections as one chunk or in several. -/
example (as1 : Argsort ℝ) (as2 : Argsort ℕ) (k : ℕ) (a : ℕ → ℝ) (m : Mat ℝ) : PassesThrough (removeNormalization as1 as2 (Ndi.axis1 15 m.w) k false) a m :=
  normalization_profile as1 as2 _ k a m (gauss_lineFilter 15 m.w)

end Verif.StripeFilters
