import Verif.Model.BeamHardening
import Mathlib.Analysis.SpecialFunctions.Pow.Deriv
import Mathlib.Analysis.Calculus.MeanValue
import Mathlib.Analysis.Calculus.Deriv.MeanValue

/-! C32: the beam-hardening transformation maps `[0,1]` onto itself monotonically for every `q > 0`, `n ≥ 2`. -/

namespace Verif.BeamHardening

/-- `x^n - n x` strictly decreases on `[0, 1]`. -/
theorem aux_anti (n : ℝ) (hn : 2 ≤ n) : StrictAntiOn (fun x : ℝ => x ^ n - n * x) (Set.Icc 0 1) := by
  apply strictAntiOn_of_deriv_neg (convex_Icc 0 1)
  · apply ContinuousOn.sub
    · exact (Real.continuous_rpow_const (by linarith)).continuousOn
    · fun_prop
  · intro x hx
    rw [interior_Icc] at hx
    have h1 : HasDerivAt (fun x : ℝ => x ^ n) (n * x ^ (n - 1)) x := Real.hasDerivAt_rpow_const (Or.inl hx.1.ne')
    have h2 : HasDerivAt (fun x : ℝ => n * x) n x := by simpa using (hasDerivAt_id x).const_mul n
    have h3 : HasDerivAt (fun x : ℝ => x ^ n - n * x) (n * x ^ (n - 1) - n) x := h1.sub h2
    rw [h3.deriv]
    have : x ^ (n - 1) < 1 := Real.rpow_lt_one hx.1.le hx.2 (by linarith)
    nlinarith

/-- The inner ratio of logarithms. -/
noncomputable def ratio (q n x : ℝ) : ℝ := Real.log (1 - q * (x ^ n - n * x)) / Real.log (1 - q * (1 - n))

theorem ratio_zero (q n : ℝ) (hn : 2 ≤ n) : ratio q n 0 = 0 := by
  unfold ratio
  rw [Real.zero_rpow (by linarith)]
  simp

theorem den_pos (q n : ℝ) (hq : 0 < q) (hn : 2 ≤ n) : 0 < Real.log (1 - q * (1 - n)) := Real.log_pos (by nlinarith)

theorem ratio_one (q n : ℝ) (hq : 0 < q) (hn : 2 ≤ n) : ratio q n 1 = 1 := by
  unfold ratio
  rw [Real.one_rpow, mul_one]
  exact div_self (den_pos q n hq hn).ne'

theorem ratio_strictMono (q n : ℝ) (hq : 0 < q) (hn : 2 ≤ n) : StrictMonoOn (ratio q n) (Set.Icc 0 1) := by
  intro x hx y hy hxy
  have h := aux_anti n hn hx hy hxy
  have h0 : x ^ n - n * x ≤ 0 := by
    have := (aux_anti n hn).antitoneOn (Set.left_mem_Icc.2 zero_le_one) hx hx.1
    simpa [Real.zero_rpow (by linarith : n ≠ 0)] using this
  unfold ratio
  apply div_lt_div_of_pos_right _ (den_pos q n hq hn)
  apply Real.log_lt_log
  · nlinarith
  · simp only at h
    nlinarith

theorem nonLinear_false (q n x : ℝ) : nonLinear x q n false = ratio q n x := rfl

theorem nonLinear_true (q n x : ℝ) : nonLinear x q n true = 1 - ratio q n (1 - x) := rfl

/-- C32: for every `q > 0`, `n ≥ 2` and both values of `opt`, the transformation is strictly increasing on `[0,1]`, fixes both
ends, and hence keeps normalised data normalised. -/
theorem beam_hardening_monotone (q n : ℝ) (opt : Bool) (hq : 0 < q) (hn : 2 ≤ n) :
    StrictMonoOn (fun x => nonLinear x q n opt) (Set.Icc 0 1) ∧
    nonLinear 0 q n opt = 0 ∧ nonLinear 1 q n opt = 1 ∧
    ∀ x, 0 ≤ x → x ≤ 1 → 0 ≤ nonLinear x q n opt ∧ nonLinear x q n opt ≤ 1 := by
  have hmono : StrictMonoOn (fun x => nonLinear x q n opt) (Set.Icc 0 1) := by
    cases opt with
    | false => exact ratio_strictMono q n hq hn
    | true =>
      intro x hx y hy hxy
      simp only [nonLinear_true]
      have := ratio_strictMono q n hq hn (a := 1 - y) (b := 1 - x) ⟨by linarith [hy.2], by linarith [hy.1]⟩
        ⟨by linarith [hx.2], by linarith [hx.1]⟩ (by linarith)
      linarith
  have h0 : nonLinear 0 q n opt = 0 := by
    cases opt
    · rw [nonLinear_false, ratio_zero q n hn]
    · rw [nonLinear_true, sub_zero, ratio_one q n hq hn, sub_self]
  have h1 : nonLinear 1 q n opt = 1 := by
    cases opt
    · rw [nonLinear_false, ratio_one q n hq hn]
    · rw [nonLinear_true, sub_self, ratio_zero q n hn, sub_zero]
  refine ⟨hmono, h0, h1, fun x hx0 hx1 => ?_⟩
  have hx : x ∈ Set.Icc (0 : ℝ) 1 := ⟨hx0, hx1⟩
  have a := hmono.monotoneOn (Set.left_mem_Icc.2 zero_le_one) hx hx0
  have b := hmono.monotoneOn hx (Set.right_mem_Icc.2 zero_le_one) hx1
  rw [h0] at a
  rw [h1] at b
  exact ⟨a, b⟩

/-- C32 for whole images: on a normalised image the call returns an image of the same shape, still normalised, in which the
ordering of any two pixels is that of the input; an exponent below two is rejected. -/
theorem beam_hardening_image (mat : Mat ℝ) (q n : ℝ) (opt : Bool) (hq : 0 < q)
    (hm : ∀ i < mat.h, ∀ j < mat.w, 0 ≤ mat.get i j ∧ mat.get i j ≤ 1) :
    (n < 2 → beamHardening mat q n opt = .error .valueError) ∧
    (2 ≤ n → ∃ out, beamHardening mat q n opt = .ok out ∧ out.h = mat.h ∧ out.w = mat.w ∧
      (∀ i < mat.h, ∀ j < mat.w, 0 ≤ out.get i j ∧ out.get i j ≤ 1 ∧
        (mat.get i j = 0 → out.get i j = 0) ∧ (mat.get i j = 1 → out.get i j = 1) ∧
        ∀ i' < mat.h, ∀ j' < mat.w, (out.get i j < out.get i' j' ↔ mat.get i j < mat.get i' j'))) := by
  classical
  have hno : ¬ ∃ i < mat.h, ∃ j < mat.w, 2 ≤ mat.get i j := by
    rintro ⟨i, hi, j, hj, h⟩
    have := (hm i hi j hj).2
    linarith
  constructor
  · intro hn
    unfold beamHardening
    rw [if_neg hno, if_pos hn]
  · intro hn
    obtain ⟨mono, z, o, rng⟩ := beam_hardening_monotone q n opt hq hn
    refine ⟨⟨mat.h, mat.w, fun i j => nonLinear (mat.get i j) q n opt⟩, ?_, rfl, rfl, ?_⟩
    · unfold beamHardening
      rw [if_neg hno, if_neg (not_lt.2 hn)]
    · intro i hi j hj
      have hb := hm i hi j hj
      refine ⟨(rng _ hb.1 hb.2).1, (rng _ hb.1 hb.2).2, fun h => by simp only [h, z], fun h => by simp only [h, o], ?_⟩
      intro i' hi' j' hj'
      exact mono.lt_iff_lt hb (hm i' hi' j' hj')

/-- The hypotheses are met by the documented defaults `q = 0.005`, `n = 3` on an image with values `0, 1/2, 1`. -/
example : ∃ out, beamHardening ⟨1, 3, fun _ j => (j : ℝ) / 2⟩ (0.005 : ℝ) 3 false = .ok out ∧ out.get 0 0 < out.get 0 1 := by
  have h := (beam_hardening_image ⟨1, 3, fun _ j => (j : ℝ) / 2⟩ (0.005 : ℝ) 3 false (by norm_num) (by
    intro i _ j hj
    have : j < 3 := hj
    have h2 : (j : ℝ) ≤ 2 := by exact_mod_cast Nat.le_of_lt_succ this
    constructor
    · positivity
    · show (j : ℝ) / 2 ≤ 1
      linarith)).2 (by norm_num)
  obtain ⟨out, e, _, _, hh⟩ := h
  refine ⟨out, e, ?_⟩
  exact ((hh 0 (by simp) 0 (by simp)).2.2.2.2 0 (by simp) 1 (by simp)).2 (by simp)

end Verif.BeamHardening
