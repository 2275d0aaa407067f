import Verif.Lemmas.FreqOp

/-!
Frequency-domain operators: eigenfunctions, linearity and odd multipliers.
-/

set_option linter.unusedSectionVars false
set_option linter.unusedSimpArgs false

namespace Verif.Fourier
open Complex Finset

theorem op_add (h w : ℕ) (mult : ℕ → ℕ → ℂ) (x y : ℕ → ℕ → ℂ) (i j : ℕ) :
    op h w mult (fun p q => x p q + y p q) i j = op h w mult x i j + op h w mult y i j := by
  unfold op
  rw [op_conv, op_conv, op_conv, ← Finset.sum_add_distrib]
  refine sum_congr rfl fun p _ => ?_
  rw [← Finset.sum_add_distrib]
  refine sum_congr rfl fun q _ => ?_
  ring

/-- Plane waves are eigenfunctions. -/
theorem op_eigen {h w : ℕ} (mult : ℕ → ℕ → ℂ) {k l : ℕ} (hk : k < h) (hl : l < w) (i j : ℕ) :
    op h w mult (fun p q : ℕ => ph h (k * p) * ph w (l * q)) i j = mult k l * (ph h (k * i) * ph w (l * j)) := by
  have hh : (h : ℂ) ≠ 0 := by exact_mod_cast (by omega : h ≠ 0)
  have hw : (w : ℂ) ≠ 0 := by exact_mod_cast (by omega : w ≠ 0)
  -- the plane wave is the inverse transform of one coefficient
  have delta : ∀ c : ℂ, ∀ p q : ℕ, idft2 h w (fun a b => if a = k ∧ b = l then c else 0) p q = c / (h * w) * (ph h (k * p) * ph w (l * q)) := by
    intro c p q
    unfold idft2 idft
    rw [Finset.sum_eq_single k]
    · dsimp only
      rw [Finset.sum_eq_single l]
      · rw [if_pos ⟨rfl, rfl⟩]
        unfold ph
        push_cast
        field_simp
      · intro b _ hb
        rw [if_neg (fun e => hb e.2), zero_mul]
      · intro hc; exact absurd (mem_range.2 hl) hc
    · intro a _ ha
      dsimp only
      rw [Finset.sum_eq_zero, zero_div, zero_mul]
      intro b _
      rw [if_neg (fun e => ha e.1), zero_mul]
    · intro hc; exact absurd (mem_range.2 hk) hc
  have hx : (fun p q : ℕ => ph h (k * p) * ph w (l * q)) = idft2 h w (fun a b => if a = k ∧ b = l then ((h : ℂ) * w) else 0) := by
    funext p q
    rw [delta, div_self (mul_ne_zero hh hw), one_mul]
  unfold op
  rw [hx, idft2_congr h w _ (fun a b => if a = k ∧ b = l then ((h : ℂ) * w) * mult k l else 0) i j (fun a ha b hb => by
    rw [dft2_idft2 h w _ a b ha hb]
    by_cases e : a = k ∧ b = l
    · rw [if_pos e, if_pos e, e.1, e.2]
    · rw [if_neg e, if_neg e, zero_mul]), delta]
  field_simp

/-! ### Odd multipliers -/

theorem kern_odd_col {h w : ℕ} {mult : ℕ → ℕ → ℂ} (he : ∀ k < h, ∀ l < w, mult k ((w - l) % w) = -mult k l) (a b : ℤ) :
    kern h w mult a (-b) = -kern h w mult a b := by
  unfold kern
  rw [← neg_div]
  congr 1
  rw [← Finset.sum_neg_distrib]
  refine sum_congr rfl fun k hk => ?_
  rw [← sum_neg_freq w, ← Finset.sum_neg_distrib]
  refine sum_congr rfl fun l hl => ?_
  have hl := mem_range.1 hl
  rw [he k (mem_range.1 hk) l hl, ph_neg_freq w l (by omega) hl, mul_neg, neg_neg, neg_mul]

theorem kern_odd_row {h w : ℕ} {mult : ℕ → ℕ → ℂ} (he : ∀ k < h, ∀ l < w, mult ((h - k) % h) l = -mult k l) (a b : ℤ) :
    kern h w mult (-a) b = -kern h w mult a b := by
  unfold kern
  rw [← neg_div]
  congr 1
  rw [← sum_neg_freq h, ← Finset.sum_neg_distrib]
  refine sum_congr rfl fun k hk => ?_
  rw [← Finset.sum_neg_distrib]
  refine sum_congr rfl fun l hl => ?_
  have hk := mem_range.1 hk
  rw [he k hk l (mem_range.1 hl), ph_neg_freq h k (by omega) hk, mul_neg, neg_neg, neg_mul]

/-- The alternating sum of an even sequence of even length vanishes. -/
theorem dft_nyquist (n : ℕ) (x : ℕ → ℂ) (hx : ∀ q < 2 * n, x (2 * n - 1 - q) = x q) : dft (2 * n) x n = 0 := by
  have hterm : ∀ q < 2 * n, exp (-(2 * Real.pi * I * ((n : ℂ) * q / ((2 * n : ℕ) : ℂ)))) = (-1 : ℂ) ^ q := by
    intro q hq
    have hn : (n : ℂ) ≠ 0 := by exact_mod_cast (by omega : n ≠ 0)
    rw [show -(2 * Real.pi * I * ((n : ℂ) * q / ((2 * n : ℕ) : ℂ))) = q * (-(Real.pi * I)) by push_cast; field_simp, exp_nat_mul, exp_neg,
      exp_pi_mul_I]
    norm_num
  have e : dft (2 * n) x n = ∑ q ∈ range (2 * n), x q * (-1 : ℂ) ^ q := by
    unfold dft
    refine sum_congr rfl fun q hq => ?_
    rw [hterm q (mem_range.1 hq)]
  have e2 : ∑ q ∈ range (2 * n), x q * (-1 : ℂ) ^ q = -∑ q ∈ range (2 * n), x q * (-1 : ℂ) ^ q := by
    conv_lhs => rw [← Finset.sum_range_reflect]
    rw [← Finset.sum_neg_distrib]
    refine sum_congr rfl fun q hq => ?_
    have hq := mem_range.1 hq
    rw [hx q hq]
    have : (-1 : ℂ) ^ (2 * n - 1 - q) * (-1) ^ q = -1 := by
      rw [← pow_add, show 2 * n - 1 - q + q = 2 * (n - 1) + 1 by omega, pow_succ, pow_mul]
      norm_num
    have h2 : (-1 : ℂ) ^ q * (-1) ^ q = 1 := by rw [← mul_pow]; norm_num
    have : (-1 : ℂ) ^ (2 * n - 1 - q) = -(-1) ^ q := by
      calc (-1 : ℂ) ^ (2 * n - 1 - q) = (-1 : ℂ) ^ (2 * n - 1 - q) * ((-1) ^ q * (-1) ^ q) := by rw [h2, mul_one]
        _ = -(-1) ^ q := by rw [← mul_assoc, this, neg_one_mul]
    rw [this, mul_neg]
  rw [e]
  have h4 := add_eq_zero_iff_eq_neg.2 e2
  rw [← two_mul] at h4
  exact (mul_eq_zero.1 h4).resolve_left two_ne_zero

/-- `mult` is odd along the columns, except at the highest frequency. -/
def OddCol (h n : ℕ) (mult : ℕ → ℕ → ℂ) : Prop := ∀ k < h, ∀ l < 2 * n, l ≠ n → mult k ((2 * n - l) % (2 * n)) = -mult k l
def OddRow (n w : ℕ) (mult : ℕ → ℕ → ℂ) : Prop := ∀ k < 2 * n, ∀ l < w, k ≠ n → mult ((2 * n - k) % (2 * n)) l = -mult k l

theorem neg_index {n l : ℕ} (hl : l < 2 * n) : (2 * n - l) % (2 * n) = n ↔ l = n := by
  rcases Nat.eq_zero_or_pos l with rfl | h0
  · simp; 
  · rw [Nat.mod_eq_of_lt (by omega)]; omega

/-- An odd multiplier makes an even image odd. -/
theorem op_odd_col {h n : ℕ} {mult : ℕ → ℕ → ℂ} (ho : OddCol h n mult) {x : ℕ → ℕ → ℂ}
    (hx : ∀ p < h, ∀ q < 2 * n, x p (2 * n - 1 - q) = x p q) (i j : ℕ) (hj : j < 2 * n) :
    op h (2 * n) mult x i (2 * n - 1 - j) = -op h (2 * n) mult x i j := by
  set m' : ℕ → ℕ → ℂ := fun k l => if l = n then 0 else mult k l with hm'
  have hop : ∀ i j, op h (2 * n) mult x i j = op h (2 * n) m' x i j := by
    intro i j
    unfold op
    refine idft2_congr _ _ _ _ _ _ fun k hk l hl => ?_
    by_cases hl' : l = n
    · rw [hl']
      have : dft2 h (2 * n) x k n = 0 := by
        unfold dft2
        unfold dft
        refine Finset.sum_eq_zero fun p hp => ?_
        have := dft_nyquist n (x p) (fun q hq => hx p (mem_range.1 hp) q hq)
        unfold dft at this
        dsimp only
        rw [this, zero_mul]
      rw [this, zero_mul, zero_mul]
    · rw [hm']; dsimp only; rw [if_neg hl']
  have hodd : ∀ k < h, ∀ l < 2 * n, m' k ((2 * n - l) % (2 * n)) = -m' k l := by
    intro k hk l hl
    rw [hm']
    dsimp only
    by_cases hl' : l = n
    · rw [if_pos ((neg_index hl).2 hl'), if_pos hl', neg_zero]
    · rw [if_neg (fun e => hl' ((neg_index hl).1 e)), if_neg hl', ho k hk l hl hl']
  rw [hop, hop]
  unfold op
  rw [op_conv, op_conv, ← Finset.sum_neg_distrib]
  refine sum_congr rfl fun p hp => ?_
  rw [← Finset.sum_range_reflect, ← Finset.sum_neg_distrib]
  refine sum_congr rfl fun q hq => ?_
  have hq := mem_range.1 hq
  rw [hx p (mem_range.1 hp) q hq, ← neg_mul, ← kern_odd_col hodd]
  congr 2
  rw [Nat.cast_sub (by omega), Nat.cast_sub (by omega), Nat.cast_sub (by omega), Nat.cast_sub (by omega)]
  push_cast
  ring

theorem op_odd_row {n w : ℕ} {mult : ℕ → ℕ → ℂ} (ho : OddRow n w mult) {x : ℕ → ℕ → ℂ}
    (hx : ∀ p < 2 * n, ∀ q < w, x (2 * n - 1 - p) q = x p q) (i j : ℕ) (hi : i < 2 * n) :
    op (2 * n) w mult x (2 * n - 1 - i) j = -op (2 * n) w mult x i j := by
  have h1 := op_odd_col (h := w) (n := n) (mult := fun k l => mult l k) (fun k hk l hl => ho l hl k hk)
    (x := fun p q => x q p) (fun p hp q hq => hx q hq p hp) j i hi
  have t1 := op_transpose (2 * n) w mult x j (2 * n - 1 - i)
  have t2 := op_transpose (2 * n) w mult x j i
  rw [← t1, ← t2]
  exact h1

end Verif.Fourier
