import Verif.Props.StripeFilters
import Mathlib.Tactic.LinearCombination

/-! C93 — fitting-based stripe removal: scaling with sorting; a constant sinogram of odd width. -/

set_option linter.unusedSectionVars false
set_option linter.unusedSimpArgs false

namespace Verif.StripeFilters
open Verif.Sorting Verif.Fourier

/-- `k * m`. -/
def smulMat (k : ℝ) (m : Mat ℝ) : Mat ℝ := ⟨m.h, m.w, fun i j => k * m.get i j⟩

/-- An argsort that looks at the order of the values only: a positive factor does not change what it returns (ties included). -/
def OrderOnly (as : Argsort ℝ) : Prop := ∀ (r : ℕ) (l : List ℝ) (k : ℝ), 0 < k → as.run r (l.map fun x => k * x) = as.run r l

theorem getD_map_pair (k : ℝ) (comb : List (ℕ × ℝ)) (i : ℕ) :
    (comb.map fun p => (p.1, k * p.2)).getD i default = ((comb.getD i default).1, k * (comb.getD i default).2) := by
  rw [List.getD_eq_getElem?_getD, List.getD_eq_getElem?_getD, List.getElem?_map]
  cases comb[i]? with
  | some p => rfl
  | none =>
    show ((0 : ℕ), (0 : ℝ)) = (0, k * 0)
    rw [mul_zero]

theorem zip_map_pair (k : ℝ) (a : List ℕ) (l : List ℝ) : a.zip (l.map fun x => k * x) = (a.zip l).map fun p => (p.1, k * p.2) := by
  induction a generalizing l with
  | nil => rfl
  | cons x xs ih =>
    cases l with
    | nil => rfl
    | cons y ys => simp [ih]

theorem forwardLine_smul (as : Argsort ℝ) (ho : OrderOnly as) (r : ℕ) (k : ℝ) (hk : 0 < k) (l : List ℝ) :
    sortForwardLine (as.run r) (l.map fun x => k * x) =
      ((sortForwardLine (as.run r) l).1.map fun x => k * x, (sortForwardLine (as.run r) l).2) := by
  unfold sortForwardLine
  dsimp only
  rw [List.length_map, zip_map_pair]
  have e : (((List.range l.length).zip l).map fun p : ℕ × ℝ => (p.1, k * p.2)).map Prod.snd =
      (((List.range l.length).zip l).map Prod.snd).map fun x => k * x := by
    rw [List.map_map, List.map_map]
    rfl
  rw [e, ho r _ k hk]
  simp only [getD_map_pair, List.map_map]
  rfl

theorem backwardLine_smul (as : Argsort ℕ) (r : ℕ) (k : ℝ) (m : List ℝ) (idx : List ℕ) :
    sortBackwardLine (as.run r) (m.map fun x => k * x) idx = (sortBackwardLine (as.run r) m idx).map fun x => k * x := by
  unfold sortBackwardLine
  dsimp only
  rw [zip_map_pair]
  have e : ((idx.zip m).map fun p : ℕ × ℝ => (p.1, k * p.2)).map Prod.fst = (idx.zip m).map Prod.fst := by
    rw [List.map_map]
    rfl
  rw [e]
  simp only [getD_map_pair, List.map_map]
  rfl

theorem getD_smul (k : ℝ) (l : List ℝ) (j : ℕ) : (l.map fun x => k * x).getD j default = k * l.getD j default := by
  rw [List.getD_eq_getElem?_getD, List.getD_eq_getElem?_getD, List.getElem?_map]
  cases l[j]? with
  | some p => rfl
  | none =>
    show (0 : ℝ) = k * 0
    rw [mul_zero]

theorem line_smul (k : ℝ) (m : Mat ℝ) (r : ℕ) : line (smulMat k m).T r = (line m.T r).map fun x => k * x := by
  unfold line
  rw [List.map_map]
  rfl

theorem sortForward_smul (as : Argsort ℝ) (ho : OrderOnly as) (k : ℝ) (hk : 0 < k) (m : Mat ℝ) :
    sortForward as 0 (smulMat k m) = (smulMat k (sortForward as 0 m).1, (sortForward as 0 m).2) := by
  unfold sortForward
  simp only [if_true]
  simp only [line_smul, forwardLine_smul as ho _ k hk, getD_smul]
  rfl

theorem sortBackward_smul (as : Argsort ℕ) (k : ℝ) (m : Mat ℝ) (x : Mat ℕ) :
    sortBackward as 0 (smulMat k m) x = smulMat k (sortBackward as 0 m x) := by
  unfold sortBackward
  simp only [if_true]
  simp only [line_smul, backwardLine_smul, getD_smul]
  rfl

/-- **C93.** Scaling, with and without sorting: the result for `k` times the sinogram, `k` positive, is `k` times the result.  The Savitzky-Golay
filter and a user filter are assumed homogeneous, and the argsort to look at the order of the values only. -/
theorem fitting_scale_sorted (as1 : Argsort ℝ) (ho : OrderOnly as1) (as2 : Argsort ℕ) (savgol : ℕ → ℕ → Mat ℝ → Mat ℝ)
    (hsk : ∀ L o (m : Mat ℝ) (k : ℝ), savgol L o ⟨m.h, m.w, fun i j => k * m.get i j⟩ = ⟨(savgol L o m).h, (savgol L o m).w, fun i j => k * (savgol L o m).get i j⟩)
    (user : Option (Mat ℝ → Mat ℝ))
    (husr : ∀ f, user = some f → ∀ (m : Mat ℝ) (k : ℝ), f ⟨m.h, m.w, fun i j => k * m.get i j⟩ = ⟨(f m).h, (f m).w, fun i j => k * (f m).get i j⟩)
    (order : ℕ) (sigma : ℝ) (sort : Bool) (numChunk : ℕ) (sino out : Mat ℝ) (k : ℝ) (hk : 0 < k)
    (h : removeFitting as1 as2 savgol user order sigma sort numChunk sino = .ok out) :
    removeFitting as1 as2 savgol user order sigma sort numChunk ⟨sino.h, sino.w, fun i j => k * sino.get i j⟩ =
      .ok ⟨out.h, out.w, fun i j => k * out.get i j⟩ := by
  show removeFitting as1 as2 savgol user order sigma sort numChunk (smulMat k sino) = .ok (smulMat k out)
  have hk0 : k ≠ 0 := hk.ne'
  have hak : |k| ≠ 0 := abs_ne_zero.2 hk0
  unfold removeFitting at h ⊢
  dsimp only at h ⊢
  have eh : (smulMat k sino).h = sino.h := rfl
  have ew : (smulMat k sino).w = sino.w := rfl
  rw [eh, ew]
  cases hL : fitLength sino.h order numChunk with
  | error e => rw [hL] at h; cases h
  | ok L =>
    rw [hL] at h
    have h := Except.ok.inj h
    subst h
    have es : (if sort = true then (sortForward as1 0 (smulMat k sino)).1 else smulMat k sino) =
        smulMat k (if sort = true then (sortForward as1 0 sino).1 else sino) := by
      rw [sortForward_smul as1 ho k hk]
      cases sort <;> rfl
    rw [es, show ∀ (g : ℕ → Py (Mat ℝ)), (Except.ok L >>= g) = g L from fun _ => rfl]
    set s := if sort = true then (sortForward as1 0 sino).1 else sino with hs
    have ef : savgol L order (smulMat k s) = smulMat k (savgol L order s) := hsk L order s k
    rw [ef]
    set fit := savgol L order s with hfit
    have hm : ∀ m : Mat ℝ, meanAbs (smulMat k m) = |k| * meanAbs m := fun m => meanAbs_smul m _ k rfl rfl fun _ _ => rfl
    have fin : ∀ A B M x y : ℝ, k * x / (k * y) * (|k| * M * (k * A) / (|k| * B)) = k * (x / y * (M * A / B)) := by
      intro A B M x y
      rw [mul_div_mul_left _ _ hk0, mul_assoc |k|, mul_div_mul_left _ _ hak]
      ring
    have c1 : ∀ F : Mat ℝ, (⟨sino.h, sino.w, fun i j => (smulMat k s).get i j / (smulMat k fit).get i j *
        (meanAbs (smulMat k fit) * (smulMat k F).get i j / meanAbs (smulMat k F))⟩ : Mat ℝ) =
        smulMat k ⟨sino.h, sino.w, fun i j => s.get i j / fit.get i j * (meanAbs fit * F.get i j / meanAbs F)⟩ := by
      intro F
      unfold smulMat at hm ⊢
      congr 1
      funext i j
      dsimp only
      rw [hm, hm]
      exact fin _ _ _ _ _
    have fin2 : ∀ (X Y : Mat ℝ), X = smulMat k Y →
        (if sort = true then sortBackward as2 0 X (sortForward as1 0 (smulMat k sino)).2 else X) =
        smulMat k (if sort = true then sortBackward as2 0 Y (sortForward as1 0 sino).2 else Y) := by
      intro X Y hXY
      rw [hXY, sortForward_smul as1 ho k hk, sortBackward_smul]
      cases sort <;> rfl
    refine congrArg Except.ok (fin2 _ _ ?_)
    cases user with
    | none =>
      have : gaussianFilter (smulMat k fit) sigma (fitSigmaY sino.w : ℝ) (fitPad sino.h) =
          smulMat k (gaussianFilter fit sigma (fitSigmaY sino.w : ℝ) (fitPad sino.h)) := by
        have e : gaussianFilter (smulMat k fit) sigma (fitSigmaY sino.w : ℝ) (fitPad sino.h) =
            ⟨fit.h, fit.w, (gaussianFilter (smulMat k fit) sigma (fitSigmaY sino.w : ℝ) (fitPad sino.h)).get⟩ := rfl
        rw [e]
        show _ = (⟨fit.h, fit.w, _⟩ : Mat ℝ)
        congr 1
        funext i j
        exact gaussianFilter_smul fit k _ _ _ i j
      dsimp only
      rw [this]
      exact c1 _
    | some f =>
      have : f (smulMat k fit) = smulMat k (f fit) := husr f rfl fit k
      dsimp only
      rw [this]
      exact c1 _

/-- Non-vacuity: merge sort of the positions by value looks at the order only. -/
theorem orderOnly_exists : ∃ as : Argsort ℝ, OrderOnly as := by
  classical
  refine ⟨⟨fun _ l => (List.range l.length).mergeSort fun a b => decide (l.getD a 0 ≤ l.getD b 0), fun r keys => ⟨List.mergeSort_perm _ _, ?_⟩⟩, ?_⟩
  · have := List.pairwise_mergeSort (le := fun a b => decide (keys.getD a 0 ≤ keys.getD b 0))
      (fun a b c h1 h2 => by simp only [decide_eq_true_eq] at *; exact h1.trans h2)
      (fun a b => by simp only [Bool.or_eq_true, decide_eq_true_eq]; exact le_total _ _) (List.range keys.length)
    rw [List.pairwise_map]
    exact this.imp fun h => of_decide_eq_true h
  · intro r l k hk
    show (List.range (l.map fun x => k * x).length).mergeSort _ = (List.range l.length).mergeSort _
    rw [List.length_map]
    congr 1
    funext a b
    have e : ∀ a, (l.map fun x => k * x).getD a 0 = k * l.getD a 0 := fun a => getD_smul k l a
    rw [e, e, decide_eq_decide]
    exact mul_le_mul_iff_right₀ hk

example : ∃ as1 : Argsort ℝ, OrderOnly as1 ∧ ∀ as2 : Argsort ℕ, ∃ out,
    removeFitting as1 as2 (fun _ _ m => m) none 1 5 true 1 ⟨4, 4, fun i j => (i * j : ℝ) + 1⟩ = .ok out := by
  obtain ⟨as1, h⟩ := orderOnly_exists
  refine ⟨as1, h, fun as2 => ?_⟩
  have : fitLength 4 1 1 = .ok 3 := by decide
  unfold removeFitting
  dsimp only
  rw [this]
  exact ⟨_, rfl⟩

/-! ### constant sinograms of odd width -/

open Complex

/-- A third root of unity. -/
noncomputable def zeta : ℂ := exp (2 * Real.pi * I / 3)

theorem zeta_cube : zeta ^ 3 = 1 := by
  unfold zeta
  rw [← exp_nat_mul]
  have : ((3 : ℕ) : ℂ) * (2 * Real.pi * I / 3) = 2 * Real.pi * I := by push_cast; ring
  rw [this, exp_two_pi_mul_I]

theorem zeta_re : zeta.re = -1 / 2 := by
  unfold zeta
  have : (2 * (Real.pi : ℂ) * I / 3) = ((2 * Real.pi / 3 : ℝ) : ℂ) * I := by push_cast; ring
  rw [this, exp_ofReal_mul_I_re]
  have : 2 * Real.pi / 3 = Real.pi - Real.pi / 3 := by ring
  rw [this, Real.cos_pi_sub, Real.cos_pi_div_three]
  norm_num

theorem zeta_ne : zeta ≠ 1 := by
  intro h
  have := zeta_re
  rw [h] at this
  norm_num at this

theorem zeta_sq : zeta ^ 2 = -1 - zeta := by
  have h : (zeta - 1) * (zeta ^ 2 + zeta + 1) = 0 := by linear_combination zeta_cube
  rcases mul_eq_zero.1 h with h | h
  · exact absurd (sub_eq_zero.1 h) zeta_ne
  · linear_combination h

theorem exp_pos3 (k : ℕ) : exp (2 * Real.pi * I * (k / 3)) = zeta ^ k := by
  unfold zeta
  rw [← exp_nat_mul]
  congr 1
  ring

theorem exp_neg3 (k : ℕ) : exp (-(2 * Real.pi * I * (k / 3))) = zeta ^ (2 * k) := by
  rw [exp_neg, exp_pos3]
  have : zeta ^ (2 * k) * zeta ^ k = 1 := by
    rw [← pow_add, show 2 * k + k = 3 * k by ring, pow_mul, zeta_cube, one_pow]
  exact (eq_inv_of_mul_eq_one_left this).symm

/-- The Gaussian filter of a line of three equal pixels. -/
theorem gauss3 (m : Mat ℝ) (c sx sy : ℝ) (hh : m.h = 1) (hw : m.w = 3) (hc : ∀ i < m.h, ∀ j < m.w, m.get i j = c) :
    (gaussianFilter m sx sy 0).get 0 0 = c * (1 + 2 * Real.exp (-(1 / (2 * sx ^ 2)))) / 3 ∧
    (gaussianFilter m sx sy 0).get 0 1 = c * (2 + Real.exp (-(1 / (2 * sx ^ 2)))) / 3 ∧
    (gaussianFilter m sx sy 0).get 0 2 = c * (1 + 2 * Real.exp (-(1 / (2 * sx ^ 2)))) / 3 := by
  set a := Real.exp (-(1 / (2 * sx ^ 2))) with ha
  have g0 : gaussianWindow 1 3 sx sy 0 0 = a := by
    rw [ha]; unfold gaussianWindow; congr 1; norm_num
  have g1 : gaussianWindow 1 3 sx sy 0 1 = 1 := by
    unfold gaussianWindow; norm_num
  have g2 : gaussianWindow 1 3 sx sy 0 2 = a := by
    rw [ha]; unfold gaussianWindow; congr 1; norm_num
  have key : ∀ j, j < 3 → (gaussianFilter m sx sy 0).get 0 j =
      (((c : ℂ) / 3 * (a * zeta ^ 0 + (-2 * zeta ^ 2) * zeta ^ j + (-2 * zeta) * a * zeta ^ (2 * j))) * ((((-1 : ℝ) ^ j) : ℝ) : ℂ)).re := by
    intro j hj
    unfold gaussianFilter gaussianCore
    dsimp only
    rw [hh, hw]
    have v : ∀ j' : ℕ, j' < 3 → (if 0 ≤ 0 ∧ 0 < 1 then m.get (0 - 0) (edgeIdx 3 0 j')
      else m.get 0 (edgeIdx 3 0 j') / ((1 : ℕ) : ℝ)) = c := by
      intro j' hj'
      rw [if_pos (by omega)]
      exact hc 0 (by omega) _ (by unfold edgeIdx; omega)
    unfold idft2 dft2 idft dft
    congr 2
    · simp only [Nat.mul_zero, Nat.add_zero, Nat.zero_add, Finset.range_one, Finset.sum_singleton, Finset.sum_range_succ, Finset.range_zero, Finset.sum_empty, zero_add]
      rw [v 0 (by omega), v 1 (by omega), v 2 (by omega), g0, g1, g2]
      have p : ∀ k n : ℕ, exp (2 * Real.pi * I * ((k : ℂ) * (n : ℂ) / ((3 : ℕ) : ℂ))) = zeta ^ (k * n) := by
        intro k n
        rw [← exp_pos3]
        congr 1
        push_cast
        ring
      have q : ∀ k n : ℕ, exp (-(2 * Real.pi * I * ((k : ℂ) * (n : ℂ) / ((3 : ℕ) : ℂ)))) = zeta ^ (2 * (k * n)) := by
        intro k n
        rw [← exp_neg3]
        congr 1
        push_cast
        ring
      simp only [p, q]
      have r1 : exp (-(2 * Real.pi * I * (((0 : ℕ) : ℂ) * ((0 : ℕ) : ℂ) / ((1 : ℕ) : ℂ)))) = 1 := by simp
      have r2 : exp (2 * Real.pi * I * (((0 : ℕ) : ℂ) * ((0 : ℕ) : ℂ) / ((1 : ℕ) : ℂ))) = 1 := by simp
      rw [r1, r2]
      push_cast
      simp only [Nat.zero_mul, Nat.mul_zero, Nat.one_mul, Nat.mul_one, pow_zero, pow_one, mul_one, div_one]
      have z3 := zeta_cube
      have z2 := zeta_sq
      have z4 : zeta ^ 4 = zeta := by linear_combination zeta * z3
      have z8 : zeta ^ 8 = -1 - zeta := by linear_combination zeta ^ 5 * z3 + zeta ^ 2 * z3 + z2
      rw [z4, z8, z2]
      ring
    · simp
  have z3 := zeta_cube
  have z2 := zeta_sq
  have z4 : zeta ^ 4 = zeta := by linear_combination zeta * z3
  refine ⟨?_, ?_, ?_⟩
  · rw [key 0 (by omega)]
    rw [show ((c : ℂ) / 3 * (a * zeta ^ 0 + (-2 * zeta ^ 2) * zeta ^ 0 + (-2 * zeta) * a * zeta ^ (2 * 0))) * ((((-1 : ℝ) ^ 0) : ℝ) : ℂ) =
      ((c / 3 * (a + 2) : ℝ) : ℂ) + ((c / 3 * (2 - 2 * a) : ℝ) : ℂ) * zeta by push_cast; rw [z2]; ring]
    rw [add_re, re_ofReal_mul, ofReal_re, zeta_re]
    ring
  · rw [key 1 (by omega)]
    rw [show ((c : ℂ) / 3 * (a * zeta ^ 0 + (-2 * zeta ^ 2) * zeta ^ 1 + (-2 * zeta) * a * zeta ^ (2 * 1))) * ((((-1 : ℝ) ^ 1) : ℝ) : ℂ) =
      ((c / 3 * (a + 2) : ℝ) : ℂ) by push_cast; linear_combination ((c : ℂ) / 3 * (2 + 2 * a)) * z3]
    rw [ofReal_re]
    ring
  · rw [key 2 (by omega)]
    rw [show ((c : ℂ) / 3 * (a * zeta ^ 0 + (-2 * zeta ^ 2) * zeta ^ 2 + (-2 * zeta) * a * zeta ^ (2 * 2))) * ((((-1 : ℝ) ^ 2) : ℝ) : ℂ) =
      ((c / 3 * (3 * a) : ℝ) : ℂ) + ((c / 3 * (2 * a - 2) : ℝ) : ℂ) * zeta by
        push_cast; linear_combination (-2 * (c : ℂ) / 3) * z4 - (2 * (c : ℂ) / 3 * a * zeta) * z4 - (2 * (c : ℂ) / 3 * a) * z2]
    rw [add_re, re_ofReal_mul, ofReal_re, zeta_re]
    ring

/-- **C93.** Constant sinograms of odd width are not always returned unchanged: for one projection of three pixels and every non-zero `sigma` the
first pixel is wrong (the sign-alternation trick of the Gaussian filter is not a shift by half the spectrum for odd sizes). -/
theorem fitting_constant_refuted (as1 : Argsort ℝ) (as2 : Argsort ℕ) (savgol : ℕ → ℕ → Mat ℝ → Mat ℝ)
    (hsh : ∀ L o m, (savgol L o m).h = m.h ∧ (savgol L o m).w = m.w)
    (hsc : ∀ L o m c, o < L → L % 2 = 1 → (∀ i < m.h, ∀ j < m.w, m.get i j = c) → ∀ i < m.h, ∀ j < m.w, (savgol L o m).get i j = c)
    (sigma : ℝ) (hs : sigma ≠ 0) (c : ℝ) (hc : c ≠ 0) :
    ∃ out, removeFitting as1 as2 savgol none 0 sigma false 1 ⟨1, 3, fun _ _ => c⟩ = .ok out ∧ out.get 0 0 ≠ c := by
  have hL : fitLength 1 0 1 = .ok 1 := by decide
  unfold removeFitting
  dsimp only
  rw [hL]
  refine ⟨_, rfl, ?_⟩
  simp only [Bool.false_eq_true, if_false]
  have fh := (hsh 1 0 ⟨1, 3, fun _ _ => c⟩).1
  have fw := (hsh 1 0 ⟨1, 3, fun _ _ => c⟩).2
  have fc := hsc 1 0 ⟨1, 3, fun _ _ => c⟩ c (by omega) (by omega) (fun _ _ _ _ => rfl)
  dsimp only at fh fw fc
  generalize savgol 1 0 ⟨1, 3, fun _ _ => c⟩ = fit at *
  have hp : fitPad 1 = 0 := by decide
  rw [hp]
  obtain ⟨g0, g1, g2⟩ := gauss3 fit c sigma (fitSigmaY 3 : ℝ) fh fw (fun i hi j hj => fc i (by omega) j (by omega))
  set a := Real.exp (-(1 / (2 * sigma ^ 2))) with ha
  have ha0 : 0 < a := Real.exp_pos _
  have ha1 : a < 1 := by
    rw [ha, Real.exp_lt_one_iff]
    have : 0 < sigma ^ 2 := by positivity
    have : 0 < 1 / (2 * sigma ^ 2) := by positivity
    linarith
  have m1 : meanAbs fit = |c| := meanAbs_const fit c (by omega) (by omega) (fun i hi j hj => fc i (by omega) j (by omega))
  have m2 : meanAbs (gaussianFilter fit sigma (fitSigmaY 3 : ℝ) 0) = |c| * (4 + 5 * a) / 9 := by
    unfold meanAbs
    rw [show (gaussianFilter fit sigma (fitSigmaY 3 : ℝ) 0).h = 1 from fh, show (gaussianFilter fit sigma (fitSigmaY 3 : ℝ) 0).w = 3 from fw]
    simp only [Finset.range_one, Finset.sum_singleton, Finset.sum_range_succ]
    rw [g0, g1, g2]
    have e1 : |c * (1 + 2 * a) / 3| = |c| * (1 + 2 * a) / 3 := by
      rw [abs_div, abs_mul, abs_of_pos (show 0 < 1 + 2 * a by linarith), abs_of_pos (show (0 : ℝ) < 3 by norm_num)]
    have e2 : |c * (2 + a) / 3| = |c| * (2 + a) / 3 := by
      rw [abs_div, abs_mul, abs_of_pos (show 0 < 2 + a by linarith), abs_of_pos (show (0 : ℝ) < 3 by norm_num)]
    rw [e1, e2]
    push_cast
    ring
  rw [fc 0 (by omega) 0 (by omega), m1, m2, g0, div_self hc]
  intro h
  have hc' : |c| ≠ 0 := abs_ne_zero.2 hc
  have h4 : (4 + 5 * a) ≠ 0 := by linarith
  rw [one_mul, div_eq_iff (by positivity)] at h
  have : |c| * c * (3 * (1 + 2 * a) - (4 + 5 * a)) = 0 := by linear_combination 9 * h
  rcases mul_eq_zero.1 this with h5 | h5
  · exact (mul_ne_zero hc' hc) h5
  · linarith

/-- Non-vacuity: the identity is a filter with these properties. -/
example (as1 : Argsort ℝ) (as2 : Argsort ℕ) :
    ∃ out, removeFitting as1 as2 (fun _ _ m => m) none 0 5 false 1 ⟨1, 3, fun _ _ => 7⟩ = .ok out ∧ out.get 0 0 ≠ 7 :=
  fitting_constant_refuted as1 as2 _ (fun _ _ _ => ⟨rfl, rfl⟩) (fun _ _ _ _ _ _ h => h) 5 (by norm_num) 7 (by norm_num)

end Verif.StripeFilters
