import Verif.Model.Recon
import Mathlib.Analysis.SpecialFunctions.Trigonometric.Bounds
import Mathlib.Tactic.Linarith
import Mathlib.Tactic.FieldSimp

/-! C106 — smoothing windows of the ramp filter. -/

set_option linter.unusedSectionVars false
set_option linter.unusedSimpArgs false

namespace Verif.Recon

/-- Twice the distance of sample `n` from the middle `(M - 1) / 2` of a window of length `M`. -/
def off (M n : ℕ) : ℕ := (2 * (n : ℤ) - ((M : ℤ) - 1)).natAbs

theorem off_cast (M n : ℕ) : (off M n : ℝ) = |2 * (n : ℝ) - ((M : ℝ) - 1)| := by
  unfold off
  have h : ((2 * (n : ℤ) - ((M : ℤ) - 1)).natAbs : ℝ) = ((|2 * (n : ℤ) - ((M : ℤ) - 1)| : ℤ) : ℝ) := by
    rw [← Int.natCast_natAbs]
    simp
  rw [h]
  push_cast
  rfl

theorem off_le (M n : ℕ) (hn : n < M) : off M n + 1 ≤ M := by unfold off; omega

/-- The cosine windows as a function of the cosine. -/
noncomputable def cosPoly (a0 a1 a2 a3 c : ℝ) : ℝ := a0 + a1 * c + a2 * (2 * c ^ 2 - 1) + a3 * (4 * c ^ 3 - 3 * c)

theorem generalCosine_eq (a0 a1 a2 a3 : ℝ) (M n : ℕ) (hM : 2 ≤ M) :
    generalCosine a0 a1 a2 a3 M n = cosPoly a0 a1 a2 a3 (Real.cos (Real.pi * ((off M n : ℝ) / ((M : ℝ) - 1)))) := by
  have hM1 : (0 : ℝ) < (M : ℝ) - 1 := by
    have : (2 : ℝ) ≤ M := by exact_mod_cast hM
    linarith
  unfold generalCosine cosPoly
  rw [if_neg (by omega)]
  dsimp only
  have hc : Real.cos (-Real.pi + 2 * Real.pi * n / ((M : ℝ) - 1)) = Real.cos (Real.pi * ((off M n : ℝ) / ((M : ℝ) - 1))) := by
    rw [off_cast]
    have e : Real.pi * (|2 * (n : ℝ) - ((M : ℝ) - 1)| / ((M : ℝ) - 1)) = |-Real.pi + 2 * Real.pi * n / ((M : ℝ) - 1)| := by
      rw [show -Real.pi + 2 * Real.pi * n / ((M : ℝ) - 1) = Real.pi * ((2 * (n : ℝ) - ((M : ℝ) - 1)) / ((M : ℝ) - 1)) by field_simp; ring,
        abs_mul, abs_of_pos Real.pi_pos, abs_div, abs_of_pos hM1]
    rw [e, Real.cos_abs]
  rw [Real.cos_two_mul, Real.cos_three_mul, hc]

/-- Conditions on the coefficients under which the window is a low-pass window. -/
structure LowPass (a0 a1 a2 a3 : ℝ) : Prop where
  mono : ∀ c d : ℝ, -1 ≤ c → c ≤ d → d ≤ 1 → cosPoly a0 a1 a2 a3 c ≤ cosPoly a0 a1 a2 a3 d
  strict : ∀ c : ℝ, -1 ≤ c → c < 1 → cosPoly a0 a1 a2 a3 c < 1
  low : 0 ≤ cosPoly a0 a1 a2 a3 (-1)
  top : cosPoly a0 a1 a2 a3 1 = 1

/-- A quadratic that bounds the difference quotient from below. -/
theorem lowPass_of (a0 a1 a2 a3 : ℝ) (h2 : 0 ≤ a2) (h3 : 0 ≤ a3) (h6 : 6 * a3 ≤ a2) (h : 0 < a1 - 4 * a2 + 9 * a3) (h0 : 0 ≤ a0 - a1 + a2 - a3)
    (ht : a0 + a1 + a2 + a3 = 1) : LowPass a0 a1 a2 a3 := by
  have key : ∀ c d : ℝ, -1 ≤ c → c ≤ d → d ≤ 1 →
      (d - c) * (a1 - 4 * a2 + 9 * a3) ≤ cosPoly a0 a1 a2 a3 d - cosPoly a0 a1 a2 a3 c := by
    intro c d hc hcd hd
    unfold cosPoly
    have e : (a0 + a1 * d + a2 * (2 * d ^ 2 - 1) + a3 * (4 * d ^ 3 - 3 * d)) - (a0 + a1 * c + a2 * (2 * c ^ 2 - 1) + a3 * (4 * c ^ 3 - 3 * c)) =
        (d - c) * (a1 + 2 * a2 * (c + d) + a3 * (4 * (c ^ 2 + c * d + d ^ 2) - 3)) := by ring
    rw [e]
    refine mul_le_mul_of_nonneg_left ?_ (by linarith)
    have h1 : 3 * (c + d) ^ 2 ≤ 4 * (c ^ 2 + c * d + d ^ 2) := by nlinarith [sq_nonneg (c - d)]
    have h4 : a3 * (3 * (c + d) ^ 2) ≤ a3 * (4 * (c ^ 2 + c * d + d ^ 2)) := mul_le_mul_of_nonneg_left h1 h3
    have h5 : 0 ≤ ((c + d) + 2) * (2 * a2 + 3 * a3 * ((c + d) - 2)) := by
      refine mul_nonneg (by linarith) ?_
      have : 3 * a3 * (-4) ≤ 3 * a3 * ((c + d) - 2) := mul_le_mul_of_nonneg_left (by linarith) (by linarith)
      linarith
    linarith
  refine ⟨fun c d hc hcd hd => ?_, fun c hc hc1 => ?_, ?_, ?_⟩
  · have := key c d hc hcd hd
    have h' : 0 ≤ (d - c) * (a1 - 4 * a2 + 9 * a3) := mul_nonneg (by linarith) (by linarith)
    linarith
  · have := key c 1 hc hc1.le le_rfl
    have h' : 0 < (1 - c) * (a1 - 4 * a2 + 9 * a3) := mul_pos (by linarith) (by linarith)
    have ht' : cosPoly a0 a1 a2 a3 1 = 1 := by unfold cosPoly; linarith
    linarith
  · unfold cosPoly; linarith
  · unfold cosPoly; linarith

theorem lp_hann : LowPass 0.5 0.5 0 0 := lowPass_of _ _ _ _ (by norm_num) (by norm_num) (by norm_num) (by norm_num) (by norm_num) (by norm_num)
theorem lp_hamming : LowPass 0.54 0.46 0 0 := lowPass_of _ _ _ _ (by norm_num) (by norm_num) (by norm_num) (by norm_num) (by norm_num) (by norm_num)
theorem lp_blackman : LowPass 0.42 0.5 0.08 0 := lowPass_of _ _ _ _ (by norm_num) (by norm_num) (by norm_num) (by norm_num) (by norm_num) (by norm_num)
theorem lp_nuttall : LowPass 0.3635819 0.4891775 0.1365995 0.0106411 :=
  lowPass_of _ _ _ _ (by norm_num) (by norm_num) (by norm_num) (by norm_num) (by norm_num) (by norm_num)

/-- What C106 asks of one window function `w` of length `M ≥ 2`, as a function of the offset from the middle. -/
structure Good (M : ℕ) (w : ℕ → ℝ) : Prop where
  mono : ∀ i < M, ∀ j < M, off M i ≤ off M j → w j ≤ w i
  low : ∀ i < M, 0 ≤ w i
  top : ∀ i < M, off M i = 0 → w i = 1
  strict : ∀ i < M, off M i ≠ 0 → w i < 1

theorem good_cosine (a0 a1 a2 a3 : ℝ) (h : LowPass a0 a1 a2 a3) (M : ℕ) (hM : 2 ≤ M) : Good M (generalCosine a0 a1 a2 a3 M) := by
  have hM1 : (0 : ℝ) < (M : ℝ) - 1 := by
    have : (2 : ℝ) ≤ M := by exact_mod_cast hM
    linarith
  have hr : ∀ i < M, 0 ≤ Real.pi * ((off M i : ℝ) / ((M : ℝ) - 1)) ∧ Real.pi * ((off M i : ℝ) / ((M : ℝ) - 1)) ≤ Real.pi := by
    intro i hi
    have h1 : ((off M i + 1 : ℕ) : ℝ) ≤ M := by exact_mod_cast off_le M i hi
    push_cast at h1
    refine ⟨mul_nonneg Real.pi_pos.le (div_nonneg (Nat.cast_nonneg _) hM1.le), ?_⟩
    have : (off M i : ℝ) / ((M : ℝ) - 1) ≤ 1 := (div_le_one hM1).2 (by linarith)
    calc _ ≤ Real.pi * 1 := mul_le_mul_of_nonneg_left this Real.pi_pos.le
      _ = _ := mul_one _
  refine ⟨fun i hi j hj hij => ?_, fun i hi => ?_, fun i hi h0 => ?_, fun i hi h0 => ?_⟩
  · rw [generalCosine_eq _ _ _ _ _ _ hM, generalCosine_eq _ _ _ _ _ _ hM]
    refine h.mono _ _ (Real.neg_one_le_cos _) (Real.cos_le_cos_of_nonneg_of_le_pi (hr i hi).1 (hr j hj).2 ?_) (Real.cos_le_one _)
    refine mul_le_mul_of_nonneg_left ?_ Real.pi_pos.le
    exact div_le_div_of_nonneg_right (by exact_mod_cast hij) hM1.le
  · rw [generalCosine_eq _ _ _ _ _ _ hM]
    exact h.low.trans (h.mono _ _ le_rfl (Real.neg_one_le_cos _) (Real.cos_le_one _))
  · rw [generalCosine_eq _ _ _ _ _ _ hM, h0]
    simpa using h.top
  · rw [generalCosine_eq _ _ _ _ _ _ hM]
    refine h.strict _ (Real.neg_one_le_cos _) ?_
    have hp : 0 < Real.pi * ((off M i : ℝ) / ((M : ℝ) - 1)) :=
      mul_pos Real.pi_pos (div_pos (by exact_mod_cast Nat.pos_of_ne_zero h0) hM1)
    have := Real.cos_lt_cos_of_nonneg_of_le_pi le_rfl (hr i hi).2 hp
    rwa [Real.cos_zero] at this

/-- Linear windows. -/
theorem good_linear (M : ℕ) (w : ℕ → ℝ) (D : ℝ) (hD : 0 < D) (hDM : (M : ℝ) - 1 ≤ D) (h : ∀ i < M, w i = 1 - (off M i : ℝ) / D)
    : Good M w := by
  refine ⟨fun i hi j hj hij => ?_, fun i hi => ?_, fun i hi h0 => ?_, fun i hi h0 => ?_⟩
  · rw [h i hi, h j hj]
    have : (off M i : ℝ) / D ≤ (off M j : ℝ) / D := div_le_div_of_nonneg_right (by exact_mod_cast hij) hD.le
    linarith
  · rw [h i hi]
    have h1 : ((off M i + 1 : ℕ) : ℝ) ≤ M := by exact_mod_cast off_le M i hi
    push_cast at h1
    have : (off M i : ℝ) / D ≤ 1 := (div_le_one hD).2 (by linarith)
    linarith
  · rw [h i hi, h0]
    simp
  · rw [h i hi]
    have : 0 < (off M i : ℝ) / D := div_pos (by exact_mod_cast Nat.pos_of_ne_zero h0) hD
    linarith

theorem good_bartlett (M : ℕ) (hM : 2 ≤ M) : Good M (bartlett M) := by
  have hM1 : (0 : ℝ) < (M : ℝ) - 1 := by
    have : (2 : ℝ) ≤ M := by exact_mod_cast hM
    linarith
  refine good_linear M _ ((M : ℝ) - 1) hM1 le_rfl fun i hi => ?_
  unfold bartlett
  rw [if_neg (by omega), off_cast]
  split
  · rename_i h
    have : 2 * (i : ℝ) ≤ (M : ℝ) - 1 := by
      have : ((2 * i : ℕ) : ℝ) ≤ ((M - 1 : ℕ) : ℝ) := by exact_mod_cast h
      rw [Nat.cast_sub (by omega)] at this
      push_cast at this
      exact this
    rw [abs_of_nonpos (by linarith)]
    field_simp
    ring
  · rename_i h
    have : (M : ℝ) - 1 ≤ 2 * (i : ℝ) := by
      have : ((M - 1 : ℕ) : ℝ) ≤ ((2 * i : ℕ) : ℝ) := by exact_mod_cast (by omega)
      rw [Nat.cast_sub (by omega)] at this
      push_cast at this
      exact this
    rw [abs_of_nonneg (by linarith)]
    field_simp
    ring

theorem good_triang (M : ℕ) (hM : 2 ≤ M) : Good M (triang M) := by
  have hM2 : (2 : ℝ) ≤ M := by exact_mod_cast hM
  by_cases he : M % 2 = 0
  · refine good_linear M _ (M : ℝ) (by linarith) (by linarith) fun i hi => ?_
    unfold triang
    rw [if_neg (by omega)]
    dsimp only
    rw [if_pos he]
    have hk : ((if i < (M + 1) / 2 then i + 1 else M - i : ℕ) : ℤ) * 2 - 1 = (M : ℤ) - off M i := by
      unfold off
      split <;> omega
    have hk' : ((if i < (M + 1) / 2 then i + 1 else M - i : ℕ) : ℝ) * 2 - 1 = (M : ℝ) - off M i := by exact_mod_cast hk
    rw [show 2 * ((if i < (M + 1) / 2 then i + 1 else M - i : ℕ) : ℝ) - 1 = (M : ℝ) - off M i by linarith]
    field_simp
  · refine good_linear M _ ((M : ℝ) + 1) (by linarith) (by linarith) fun i hi => ?_
    unfold triang
    rw [if_neg (by omega)]
    dsimp only
    rw [if_neg he]
    have hk : ((if i < (M + 1) / 2 then i + 1 else M - i : ℕ) : ℤ) * 2 = (M : ℤ) + 1 - off M i := by
      unfold off
      split <;> omega
    have hk' : ((if i < (M + 1) / 2 then i + 1 else M - i : ℕ) : ℝ) * 2 = (M : ℝ) + 1 - off M i := by exact_mod_cast hk
    rw [show 2 * ((if i < (M + 1) / 2 then i + 1 else M - i : ℕ) : ℝ) = (M : ℝ) + 1 - off M i by linarith]
    have : (M : ℝ) + 1 ≠ 0 := by linarith
    field_simp

theorem good_parzen (M : ℕ) (hM : 2 ≤ M) : Good M (parzen M) := by
  have hM2 : (2 : ℝ) ≤ M := by exact_mod_cast hM
  have hM0 : (0 : ℝ) < M := by linarith
  -- in terms of `u = off / M`
  have hu : ∀ i < M, parzen M i = if 2 * off M i ≤ M then 1 - 6 * ((off M i : ℝ) / M) ^ 2 + 6 * ((off M i : ℝ) / M) ^ 3
      else 2 * (1 - (off M i : ℝ) / M) ^ 3 := by
    intro i hi
    unfold parzen
    rw [if_neg (by omega)]
    dsimp only
    have ht : |(i : ℝ) - ((M : ℝ) - 1) / 2| = (off M i : ℝ) / 2 := by
      rw [off_cast, show (i : ℝ) - ((M : ℝ) - 1) / 2 = (2 * (i : ℝ) - ((M : ℝ) - 1)) / 2 by ring, abs_div]
      simp
    have hq : (off M i : ℝ) / 2 / ((M : ℝ) / 2) = (off M i : ℝ) / M := by field_simp
    rw [ht, hq]
    have hpar : off M i % 2 = (M + 1) % 2 := by unfold off; omega
    by_cases h : 2 * off M i ≤ M - 1
    · have h' : (off M i : ℝ) / 2 ≤ ((M : ℝ) - 1) / 4 := by
        have : ((2 * off M i : ℕ) : ℝ) ≤ ((M - 1 : ℕ) : ℝ) := by exact_mod_cast h
        rw [Nat.cast_sub (by omega)] at this
        push_cast at this
        linarith
      rw [if_pos h', if_pos (by omega)]
    · have h' : ¬ (off M i : ℝ) / 2 ≤ ((M : ℝ) - 1) / 4 := by
        have : ((M - 1 + 1 : ℕ) : ℝ) ≤ ((2 * off M i : ℕ) : ℝ) := by exact_mod_cast (by omega)
        rw [Nat.cast_add, Nat.cast_sub (by omega)] at this
        push_cast at this
        intro hc
        linarith
      rw [if_neg h']
      by_cases h2 : 2 * off M i ≤ M
      · rw [if_pos h2]
        have : (off M i : ℝ) / M = 1 / 2 := by
          have : 2 * off M i = M := by omega
          have : 2 * (off M i : ℝ) = M := by exact_mod_cast this
          rw [← this]
          have hpos : (0 : ℝ) < off M i := by linarith
          field_simp
        rw [this]
        norm_num
      · rw [if_neg h2]
  have hub : ∀ i < M, 0 ≤ (off M i : ℝ) / M ∧ (off M i : ℝ) / M < 1 := by
    intro i hi
    have h1 : ((off M i + 1 : ℕ) : ℝ) ≤ M := by exact_mod_cast off_le M i hi
    push_cast at h1
    exact ⟨div_nonneg (Nat.cast_nonneg _) hM0.le, (div_lt_one hM0).2 (by linarith)⟩
  have hhalf : ∀ i, 2 * off M i ≤ M → (off M i : ℝ) / M ≤ 1 / 2 := by
    intro i h
    have : 2 * (off M i : ℝ) ≤ M := by exact_mod_cast h
    rw [div_le_iff₀ hM0]
    linarith
  have hhalf' : ∀ i, ¬ 2 * off M i ≤ M → 1 / 2 < (off M i : ℝ) / M := by
    intro i h
    have : (M : ℝ) < 2 * (off M i : ℝ) := by exact_mod_cast (not_le.1 h)
    rw [lt_div_iff₀ hM0]
    linarith
  have p1 : ∀ u v : ℝ, 0 ≤ u → u ≤ v → v ≤ 1 / 2 → 1 - 6 * v ^ 2 + 6 * v ^ 3 ≤ 1 - 6 * u ^ 2 + 6 * u ^ 3 := by
    intro u v h0 h1 h2
    have : 0 ≤ (v - u) * (u * (1 - u) + v * (1 - v) - u * v) := by
      refine mul_nonneg (by linarith) ?_
      nlinarith
    nlinarith
  have p2 : ∀ u v : ℝ, u ≤ v → v ≤ 1 → 2 * (1 - v) ^ 3 ≤ 2 * (1 - u) ^ 3 := by
    intro u v h1 h2
    have := pow_le_pow_left₀ (by linarith : (0 : ℝ) ≤ 1 - v) (by linarith : 1 - v ≤ 1 - u) 3
    linarith
  refine ⟨fun i hi j hj hij => ?_, fun i hi => ?_, fun i hi h0 => ?_, fun i hi h0 => ?_⟩
  · have hle : (off M i : ℝ) / M ≤ (off M j : ℝ) / M := div_le_div_of_nonneg_right (by exact_mod_cast hij) hM0.le
    rw [hu i hi, hu j hj]
    by_cases h2 : 2 * off M j ≤ M
    · rw [if_pos h2, if_pos (by omega)]
      exact p1 _ _ (hub i hi).1 hle (hhalf j h2)
    · rw [if_neg h2]
      have hj2 : 2 * (1 - (off M j : ℝ) / M) ^ 3 ≤ 1 / 4 := by
        have := p2 (1 / 2) _ (hhalf' j h2).le (hub j hj).2.le
        norm_num at this ⊢
        linarith
      by_cases h1 : 2 * off M i ≤ M
      · rw [if_pos h1]
        have := p1 _ _ (hub i hi).1 (hhalf i h1) le_rfl
        norm_num at this hj2 ⊢
        linarith
      · rw [if_neg h1]
        exact p2 _ _ hle (hub j hj).2.le
  · rw [hu i hi]
    split
    · rename_i h
      have := p1 _ _ (hub i hi).1 (hhalf i h) le_rfl
      norm_num at this ⊢
      linarith
    · have := (hub i hi).2
      have := pow_nonneg (by linarith : (0 : ℝ) ≤ 1 - (off M i : ℝ) / M) 3
      linarith
  · rw [hu i hi, h0]
    simp
  · rw [hu i hi]
    have hpos : 0 < (off M i : ℝ) / M := div_pos (by exact_mod_cast Nat.pos_of_ne_zero h0) hM0
    split
    · rename_i h
      have := hhalf i h
      have : 0 < ((off M i : ℝ) / M) ^ 2 * (1 - (off M i : ℝ) / M) := mul_pos (by positivity) (by linarith)
      nlinarith
    · rename_i h
      have := p2 (1 / 2) _ (hhalf' i h).le (hub i hi).2.le
      norm_num at this ⊢
      linarith

/-- All named windows. -/
theorem good_window (f : Filter) (hf : f ≠ .other) (M : ℕ) (hM : 2 ≤ M) : Good M (smoothingWindow f M) := by
  cases f with
  | hann => exact good_cosine _ _ _ _ lp_hann M hM
  | hamming => exact good_cosine _ _ _ _ lp_hamming M hM
  | blackman => exact good_cosine _ _ _ _ lp_blackman M hM
  | nuttall => exact good_cosine _ _ _ _ lp_nuttall M hM
  | bartlett => exact good_bartlett M hM
  | triang => exact good_triang M hM
  | parzen => exact good_parzen M hM
  | other => exact absurd rfl hf

theorem window_short (f : Filter) (M n : ℕ) (hM : M ≤ 1) : smoothingWindow f M n = 1 := by
  cases f <;> simp [smoothingWindow, generalCosine, bartlett, parzen, triang, hM]

/-- C106: every smoothing window lies between 0 and 1 and never increases away from its middle sample(s) `(M - 1) / 2`; in particular it is
symmetric; it is 1 exactly in the middle. -/
theorem window_low_pass (f : Filter) (M i j : ℕ) (hi : i < M) (hj : j < M) :
    0 ≤ smoothingWindow f M i ∧ smoothingWindow f M i ≤ 1 ∧
    (|2 * (i : ℤ) - ((M : ℤ) - 1)| ≤ |2 * (j : ℤ) - ((M : ℤ) - 1)| → smoothingWindow f M j ≤ smoothingWindow f M i) ∧
    smoothingWindow f M (M - 1 - i) = smoothingWindow f M i ∧
    (f ≠ .other → 2 ≤ M → (smoothingWindow f M i = 1 ↔ 2 * i + 1 = M)) := by
  by_cases hf : f = .other
  · subst hf
    exact ⟨zero_le_one, le_rfl, fun _ => le_rfl, rfl, fun h => absurd rfl h⟩
  by_cases hM : 2 ≤ M
  · have g := good_window f hf M hM
    refine ⟨g.low i hi, ?_, fun h => g.mono i hi j hj (by
      unfold off
      rw [Int.abs_eq_natAbs, Int.abs_eq_natAbs] at h
      omega), ?_, fun _ _ => ?_⟩
    · by_cases h0 : off M i = 0
      · exact (g.top i hi h0).le
      · exact (g.strict i hi h0).le
    · have e : off M (M - 1 - i) = off M i := by unfold off; omega
      exact le_antisymm (g.mono i hi _ (by omega) e.ge) (g.mono _ (by omega) i hi e.le)
    · constructor
      · intro h
        by_contra hc
        have := g.strict i hi (by unfold off; omega)
        linarith
      · intro h
        exact g.top i hi (by unfold off; omega)
  · have hM1 : M ≤ 1 := by omega
    rw [window_short f M i hM1, window_short f M j hM1, window_short f M _ hM1]
    exact ⟨zero_le_one, le_rfl, fun _ => le_rfl, rfl, fun _ h => absurd h hM⟩

/-- C106 (partial): for an odd length, frequency zero (entry `M // 2` after `fftshift`) is kept, and the frequencies `k` and `-k` are damped
alike. -/
theorem window_frequency_partial (f : Filter) (M k : ℕ) (hM : M % 2 = 1) (hk : k ≤ M / 2) :
    smoothingWindow f M (M / 2) = 1 ∧ smoothingWindow f M (M / 2 + k) = smoothingWindow f M (M / 2 - k) := by
  constructor
  · by_cases hf : f = .other
    · subst hf
      rfl
    by_cases h2 : 2 ≤ M
    · exact ((window_low_pass f M (M / 2) 0 (by omega) (by omega)).2.2.2.2 hf h2).2 (by omega)
    · exact window_short f M _ (by omega)
  · have := (window_low_pass f M (M / 2 - k) 0 (by omega) (by omega)).2.2.2.1
    rw [show M - 1 - (M / 2 - k) = M / 2 + k by omega] at this
    exact this

/-- C106 refuted for even lengths: frequency zero is damped by every named window, and frequency -1 (entry `M // 2 - 1`) is damped exactly as
much as frequency zero, i.e. the window is displaced by half a sample; the default pad keeps an even number of columns even. -/
theorem window_even_refuted (f : Filter) (hf : f ≠ .other) (M : ℕ) (hM : M % 2 = 0) (h2 : 2 ≤ M) :
    smoothingWindow f M (M / 2) < 1 ∧ smoothingWindow f M (M / 2 - 1) = smoothingWindow f M (M / 2) ∧
    (∀ pad, (M + 2 * pad) % 2 = 0) := by
  have g := good_window f hf M h2
  refine ⟨g.strict _ (by omega) (by unfold off; omega), ?_, fun pad => by omega⟩
  have := (window_low_pass f M (M / 2) 0 (by omega) (by omega)).2.2.2.1
  rwa [show M - 1 - M / 2 = M / 2 - 1 by omega] at this

/-- Non-vacuity: five samples of the triangular windows. -/
example : smoothingWindow .triang 5 1 = 2 / 3 ∧ smoothingWindow .bartlett 5 1 = 1 / 2 ∧ smoothingWindow .triang 4 1 = 3 / 4 := by
  refine ⟨?_, ?_, ?_⟩ <;> norm_num [smoothingWindow, triang, bartlett]

end Verif.Recon
