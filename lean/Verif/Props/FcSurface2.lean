import Verif.Props.FcSurface

/-!
C115: what `reconstruct_surface_from_gradient_FC_method` returns for gradients that vary along one axis.
-/

set_option linter.unusedSectionVars false
set_option linter.unusedSimpArgs false

namespace Verif.PhaseFft
open Complex Finset Verif.Fourier Verif.Phase

/-! ### Cosine modes -/

/-- The `k`-th cosine on `n` points and its antiderivative `(n / (pi k)) sin`. -/
noncomputable def cosMode (n k : ℕ) (x : ℕ) : ℝ := Real.cos (Real.pi * k * (2 * x + 1) / (2 * n))
noncomputable def sinMode (n k : ℕ) (x : ℕ) : ℝ := Real.sin (Real.pi * k * (2 * x + 1) / (2 * n))

/-- `sinMode` is a primitive of `cosMode`, up to the factor: as functions of a real position. -/
theorem sinMode_primitive (n k : ℕ) (hn : 0 < n) (x : ℝ) :
    HasDerivAt (fun t : ℝ => Real.sin (Real.pi * k * (2 * t + 1) / (2 * n))) (Real.pi * k / n * Real.cos (Real.pi * k * (2 * x + 1) / (2 * n))) x := by
  have hn' : (n : ℝ) ≠ 0 := by exact_mod_cast hn.ne'
  have h1 : HasDerivAt (fun t : ℝ => Real.pi * k * (2 * t + 1) / (2 * n)) (Real.pi * k / n) x := by
    have h0 := (((hasDerivAt_id x).const_mul (2 : ℝ)).add_const 1).const_mul (Real.pi * k) |>.div_const (2 * (n : ℝ))
    have e : Real.pi * k * (2 * 1) / (2 * (n : ℝ)) = Real.pi * k / n := by field_simp
    rw [e] at h0
    exact h0
  have := h1.sin
  rw [mul_comm (Real.pi * k / n)]
  exact this

theorem cosMode_reflect (n k x : ℕ) (hx : x < 2 * n) : cosMode n k (2 * n - 1 - x) = cosMode n k x := by
  have hn : (n : ℝ) ≠ 0 := by exact_mod_cast (by omega : n ≠ 0)
  unfold cosMode
  rw [show (((2 * n - 1 - x : ℕ)) : ℝ) = 2 * n - 1 - x by rw [Nat.cast_sub (by omega), Nat.cast_sub (by omega)]; push_cast; ring]
  rw [show Real.pi * k * (2 * (2 * (n : ℝ) - 1 - x) + 1) / (2 * n) = k * (2 * Real.pi) - Real.pi * k * (2 * x + 1) / (2 * n) by field_simp; ring]
  exact Real.cos_nat_mul_two_pi_sub _ _

theorem cosMode_colOf (n k q : ℕ) (hq : q < 2 * n) : cosMode n k (colOf n q) = cosMode n k q := by
  unfold colOf
  split_ifs with h
  · rfl
  · rw [show n - 1 - (q - n) = 2 * n - 1 - q by omega, cosMode_reflect n k q hq]

/-- `cos(a + b) = e^{ia} e^{ib} / 2 + e^{-ia} e^{-ib} / 2` in the phases of the transform. -/
theorem cosMode_ph (n k q : ℕ) (hk0 : 0 < k) (hk : k < n) : ((cosMode n k q : ℝ) : ℂ) =
    (exp (Real.pi * k / (2 * n) * I) / 2) * ph (2 * n) (k * q) + (exp (-(Real.pi * k / (2 * n) * I)) / 2) * ph (2 * n) ((2 * n - k : ℕ) * q) := by
  have hn : (n : ℂ) ≠ 0 := by exact_mod_cast (by omega : n ≠ 0)
  have e2 : ph (2 * n) ((2 * n - k : ℕ) * q) = ph (2 * n) (-(k * q)) := by
    have := ph_neg_freq (2 * n) k (by omega) (by omega) (q : ℤ)
    rwa [Nat.mod_eq_of_lt (by omega)] at this
  rw [e2]
  unfold cosMode ph
  rw [ofReal_cos, Complex.cos]
  rw [add_div, div_mul_eq_mul_div (exp (Real.pi * k / (2 * n) * I)), div_mul_eq_mul_div (exp (-(Real.pi * k / (2 * n) * I))), ← exp_add, ← exp_add]
  push_cast
  congr 3
  · field_simp; ring
  · field_simp; ring

theorem sin_phase (α β c : ℝ) : ((exp (α * I) / 2) * (-I * c * exp (β * I)) + (exp (-(α * I)) / 2) * (I * c * exp (-(β * I)))).re =
    c * Real.sin (α + β) := by
  rw [show (exp (α * I) / 2) * (-I * c * exp (β * I)) + (exp (-(α * I)) / 2) * (I * c * exp (-(β * I))) =
      (c : ℂ) * Complex.sin ((α + β : ℝ) : ℂ) by
    rw [Complex.sin, show (((α + β : ℝ) : ℂ)) * I = α * I + β * I by push_cast; ring, exp_add,
      show -((α + β : ℝ) : ℂ) * I = -(α * I) + -(β * I) by push_cast; ring, exp_add]
    ring]
  rw [← ofReal_sin, ← ofReal_mul, ofReal_re]

/-! ### The multipliers on the axes -/

theorem ifft_zero (n : ℕ) : ifftshiftIdx (2 * n) 0 = n ∨ n = 0 := by
  unfold ifftshiftIdx
  rcases Nat.eq_zero_or_pos n with h | h
  · exact Or.inr h
  · left; rw [show 2 * n / 2 = n by omega, zero_add, Nat.mod_eq_of_lt (by omega)]

theorem ifft_pos {n k : ℕ} (hk : k < n) : ifftshiftIdx (2 * n) k = n + k := by
  unfold ifftshiftIdx
  rw [show 2 * n / 2 = n by omega, Nat.mod_eq_of_lt (by omega)]; omega

theorem ifft_neg {n k : ℕ} (hk0 : 0 < k) (hk : k < n) : ifftshiftIdx (2 * n) (2 * n - k) = n - k := by
  unfold ifftshiftIdx
  rw [show 2 * n / 2 = n by omega, show 2 * n - k + n = (n - k) + 2 * n by omega, Nat.add_mod_right, Nat.mod_eq_of_lt (by omega)]

theorem fcU_eq (h w i j : ℕ) : fcU (2 * h) (2 * w) i j = ((j : ℝ) - w) / (2 * w) := by
  unfold fcU
  rw [show 2 * w / 2 = w by omega]; push_cast; rfl

theorem fcV_eq (h w i j : ℕ) : fcV (2 * h) (2 * w) i j = ((i : ℝ) - h) / (2 * w) := by
  unfold fcV
  rw [show 2 * h / 2 = h by omega]; push_cast; rfl

theorem fcWin_eq (h w i j : ℕ) : fcWin (2 * h) (2 * w) i j =
    if i = h ∧ j = w then 0 else 1 / ((((j : ℝ) - w) / (2 * w)) ^ 2 + (((i : ℝ) - h) / (2 * w)) ^ 2) := by
  unfold fcWin
  rw [fcU_eq, fcV_eq, show 2 * h / 2 = h by omega, show 2 * w / 2 = w by omega]

/-- The default multiplier of the horizontal gradient. -/
noncomputable def mX (h w : ℕ) : ℕ → ℕ → ℂ := mG (2 * h) (2 * w) (fcU (2 * h) (2 * w)) (fcWin (2 * h) (2 * w))
/-- The default multiplier of the vertical gradient. -/
noncomputable def mY (h w : ℕ) : ℕ → ℕ → ℂ := mG (2 * h) (2 * w) (fcV (2 * h) (2 * w)) (fcWin (2 * h) (2 * w))

theorem mX_zero {h w : ℕ} (hh : 0 < h) (hw : 0 < w) : mX h w 0 0 = 0 := by
  unfold mX mG
  rw [(ifft_zero h).resolve_right hh.ne', (ifft_zero w).resolve_right hw.ne', fcWin_eq, if_pos ⟨rfl, rfl⟩]
  simp

theorem mY_zero {h w : ℕ} (hh : 0 < h) (hw : 0 < w) : mY h w 0 0 = 0 := by
  unfold mY mG
  rw [(ifft_zero h).resolve_right hh.ne', (ifft_zero w).resolve_right hw.ne', fcWin_eq, if_pos ⟨rfl, rfl⟩]
  simp

theorem mX_pos {h w k : ℕ} (hh : 0 < h) (hk0 : 0 < k) (hk : k < w) : mX h w 0 k = -I * ((2 * w / k : ℝ) : ℂ) := by
  unfold mX mG
  rw [(ifft_zero h).resolve_right hh.ne', ifft_pos hk, fcWin_eq, if_neg (by omega), fcU_eq]
  rw [mul_assoc, ← ofReal_mul]
  congr 2
  have hk' : (k : ℝ) ≠ 0 := by exact_mod_cast hk0.ne'
  have hw' : (w : ℝ) ≠ 0 := by exact_mod_cast (by omega : w ≠ 0)
  push_cast
  field_simp
  ring_nf

theorem mX_neg {h w k : ℕ} (hh : 0 < h) (hk0 : 0 < k) (hk : k < w) : mX h w 0 (2 * w - k) = I * ((2 * w / k : ℝ) : ℂ) := by
  unfold mX mG
  rw [(ifft_zero h).resolve_right hh.ne', ifft_neg hk0 hk, fcWin_eq, if_neg (by omega), fcU_eq]
  rw [mul_assoc, ← ofReal_mul, neg_mul, ← mul_neg, ← ofReal_neg]
  congr 2
  have hk' : (k : ℝ) ≠ 0 := by exact_mod_cast hk0.ne'
  have hw' : (w : ℝ) ≠ 0 := by exact_mod_cast (by omega : w ≠ 0)
  rw [Nat.cast_sub hk.le]
  field_simp
  ring_nf

theorem mY_pos {h w k : ℕ} (hw : 0 < w) (hk0 : 0 < k) (hk : k < h) : mY h w k 0 = -I * ((2 * w / k : ℝ) : ℂ) := by
  unfold mY mG
  rw [(ifft_zero w).resolve_right hw.ne', ifft_pos hk, fcWin_eq, if_neg (by omega), fcV_eq]
  rw [mul_assoc, ← ofReal_mul]
  congr 2
  have hk' : (k : ℝ) ≠ 0 := by exact_mod_cast hk0.ne'
  have hw' : (w : ℝ) ≠ 0 := by exact_mod_cast hw.ne'
  push_cast
  field_simp
  ring_nf

theorem mY_neg {h w k : ℕ} (hw : 0 < w) (hk0 : 0 < k) (hk : k < h) : mY h w (2 * h - k) 0 = I * ((2 * w / k : ℝ) : ℂ) := by
  unfold mY mG
  rw [(ifft_zero w).resolve_right hw.ne', ifft_neg hk0 hk, fcWin_eq, if_neg (by omega), fcV_eq]
  rw [mul_assoc, ← ofReal_mul, neg_mul, ← mul_neg, ← ofReal_neg]
  congr 2
  have hk' : (k : ℝ) ≠ 0 := by exact_mod_cast hk0.ne'
  have hw' : (w : ℝ) ≠ 0 := by exact_mod_cast hw.ne'
  rw [Nat.cast_sub hk.le]
  field_simp
  ring_nf

end Verif.PhaseFft
