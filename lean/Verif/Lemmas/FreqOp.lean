import Verif.Lemmas.Fourier

/-!
Frequency-domain operators as circular convolutions.
-/

set_option linter.unusedSectionVars false
set_option linter.unusedSimpArgs false

namespace Verif.Fourier
open Complex Finset

/-- `exp(2 pi i t / N)`. -/
noncomputable def ph (N : ℕ) (t : ℤ) : ℂ := exp (2 * Real.pi * I * (t / N))

theorem ph_add (N : ℕ) (s t : ℤ) : ph N (s + t) = ph N s * ph N t := by
  unfold ph
  rw [← exp_add]
  congr 1
  push_cast
  ring

theorem ph_mul_N (N : ℕ) (hN : 0 < N) (t : ℤ) : ph N (N * t) = 1 := by
  unfold ph
  have hN' : (N : ℂ) ≠ 0 := by exact_mod_cast hN.ne'
  rw [show (2 * Real.pi * I * (((N * t : ℤ) : ℂ) / N) : ℂ) = t * (2 * Real.pi * I) by push_cast; field_simp]
  exact exp_int_mul_two_pi_mul_I t

theorem ph_zero (N : ℕ) : ph N 0 = 1 := by simp [ph]

theorem ph_conj (N : ℕ) (t : ℤ) : (starRingEnd ℂ) (ph N t) = ph N (-t) := by
  unfold ph
  rw [← exp_conj]
  congr 1
  simp only [map_mul, map_div₀, conj_ofReal, conj_I, map_ofNat, map_intCast, map_natCast]
  push_cast
  ring

/-- The convolution kernel of the multiplier `mult`. -/
noncomputable def kern (h w : ℕ) (mult : ℕ → ℕ → ℂ) (a b : ℤ) : ℂ :=
  (∑ k ∈ range h, ∑ l ∈ range w, mult k l * (ph h (k * a) * ph w (l * b))) / (h * w)

theorem sum4_comm {M : Type} [AddCommMonoid M] (h w : ℕ) (f : ℕ → ℕ → ℕ → ℕ → M) :
    ∑ k ∈ range h, ∑ l ∈ range w, ∑ i ∈ range h, ∑ j ∈ range w, f k l i j = ∑ i ∈ range h, ∑ j ∈ range w, ∑ k ∈ range h, ∑ l ∈ range w, f k l i j := by
  calc _ = ∑ k ∈ range h, ∑ i ∈ range h, ∑ l ∈ range w, ∑ j ∈ range w, f k l i j := sum_congr rfl fun k _ => sum_comm
    _ = ∑ i ∈ range h, ∑ k ∈ range h, ∑ l ∈ range w, ∑ j ∈ range w, f k l i j := sum_comm
    _ = ∑ i ∈ range h, ∑ k ∈ range h, ∑ j ∈ range w, ∑ l ∈ range w, f k l i j := sum_congr rfl fun i _ => sum_congr rfl fun k _ => sum_comm
    _ = _ := sum_congr rfl fun i _ => sum_comm

/-- Multiplying the spectrum is convolving with the kernel. -/
theorem op_conv (h w : ℕ) (mult : ℕ → ℕ → ℂ) (x : ℕ → ℕ → ℂ) (i j : ℕ) :
    idft2 h w (fun k l => dft2 h w x k l * mult k l) i j =
      ∑ p ∈ range h, ∑ q ∈ range w, kern h w mult ((i : ℤ) - p) ((j : ℤ) - q) * x p q := by
  unfold idft2 idft dft2 dft kern
  simp only [Finset.sum_mul, Finset.mul_sum, Finset.sum_div]
  rw [sum4_comm h w (fun k l p q => _)]
  refine sum_congr rfl fun p _ => sum_congr rfl fun q _ => sum_congr rfl fun k _ => sum_congr rfl fun l _ => ?_
  have e1 : ph h (k * ((i : ℤ) - p)) = exp (2 * Real.pi * I * (k * i / h)) * exp (-(2 * Real.pi * I * (k * p / h))) := by
    unfold ph
    rw [← exp_add]; congr 1; push_cast; ring
  have e2 : ph w (l * ((j : ℤ) - q)) = exp (2 * Real.pi * I * (l * j / w)) * exp (-(2 * Real.pi * I * (l * q / w))) := by
    unfold ph
    rw [← exp_add]; congr 1; push_cast; ring
  rw [e1, e2]
  ring

/-- Reindexing frequencies by `k -> -k`. -/
theorem sum_neg_freq {M : Type} [AddCommMonoid M] (N : ℕ) (f : ℕ → M) : ∑ k ∈ range N, f ((N - k) % N) = ∑ k ∈ range N, f k := by
  rcases Nat.eq_zero_or_pos N with rfl | hN
  · simp
  · refine Finset.sum_nbij' (fun k => (N - k) % N) (fun k => (N - k) % N) ?_ ?_ ?_ ?_ ?_
    · intro k _; exact mem_range.2 (Nat.mod_lt _ hN)
    · intro k _; exact mem_range.2 (Nat.mod_lt _ hN)
    · intro k hk
      have hk := mem_range.1 hk
      rcases Nat.eq_zero_or_pos k with rfl | h0
      · simp
      · rw [Nat.mod_eq_of_lt (a := N - k) (by omega), Nat.mod_eq_of_lt (by omega)]; omega
    · intro k hk
      have hk := mem_range.1 hk
      rcases Nat.eq_zero_or_pos k with rfl | h0
      · simp
      · rw [Nat.mod_eq_of_lt (a := N - k) (by omega), Nat.mod_eq_of_lt (by omega)]; omega
    · intro k _; rfl

theorem ph_neg_freq (N k : ℕ) (hN : 0 < N) (hk : k < N) (a : ℤ) : ph N (((N - k) % N : ℕ) * a) = ph N (-(k * a)) := by
  rcases Nat.eq_zero_or_pos k with rfl | h0
  · simp
  · rw [Nat.mod_eq_of_lt (by omega), Nat.cast_sub hk.le, show ((N : ℤ) - k) * a = N * a + -(k * a) by ring, ph_add, ph_mul_N N hN, one_mul]

/-- Even along the rows. -/
def EvenRow (h w : ℕ) (mult : ℕ → ℕ → ℂ) : Prop := ∀ k < h, ∀ l < w, mult ((h - k) % h) l = mult k l

/-- Even along the columns. -/
def EvenCol (h w : ℕ) (mult : ℕ → ℕ → ℂ) : Prop := ∀ k < h, ∀ l < w, mult k ((w - l) % w) = mult k l

theorem kern_neg_row {h w : ℕ} {mult : ℕ → ℕ → ℂ} (he : EvenRow h w mult) (a b : ℤ) : kern h w mult (-a) b = kern h w mult a b := by
  unfold kern
  congr 1
  rw [← sum_neg_freq h]
  refine sum_congr rfl fun k hk => sum_congr rfl fun l hl => ?_
  have hk := mem_range.1 hk
  rw [he k hk l (mem_range.1 hl), ph_neg_freq h k (by omega) hk, mul_neg, neg_neg]

theorem kern_neg_col {h w : ℕ} {mult : ℕ → ℕ → ℂ} (he : EvenCol h w mult) (a b : ℤ) : kern h w mult a (-b) = kern h w mult a b := by
  unfold kern
  congr 1
  refine sum_congr rfl fun k hk => ?_
  rw [← sum_neg_freq w]
  refine sum_congr rfl fun l hl => ?_
  have hl := mem_range.1 hl
  rw [he k (mem_range.1 hk) l hl, ph_neg_freq w l (by omega) hl, mul_neg, neg_neg]

theorem kern_period_row (h w : ℕ) (hh : 0 < h) (mult : ℕ → ℕ → ℂ) (a b : ℤ) : kern h w mult (a + h) b = kern h w mult a b := by
  unfold kern
  congr 1
  refine sum_congr rfl fun k _ => sum_congr rfl fun l _ => ?_
  rw [show (k : ℤ) * (a + h) = h * k + k * a by ring, ph_add, ph_mul_N h hh, one_mul]

theorem kern_period_col (h w : ℕ) (hw : 0 < w) (mult : ℕ → ℕ → ℂ) (a b : ℤ) : kern h w mult a (b + w) = kern h w mult a b := by
  unfold kern
  congr 1
  refine sum_congr rfl fun k _ => sum_congr rfl fun l _ => ?_
  rw [show (l : ℤ) * (b + w) = w * l + l * b by ring, ph_add, ph_mul_N w hw, one_mul]

/-- A real multiplier has a Hermitian kernel. -/
theorem kern_conj (h w : ℕ) (win : ℕ → ℕ → ℝ) (a b : ℤ) :
    (starRingEnd ℂ) (kern h w (fun k l => (win k l : ℂ)) a b) = kern h w (fun k l => (win k l : ℂ)) (-a) (-b) := by
  unfold kern
  rw [map_div₀, map_sum, map_mul, map_natCast, map_natCast]
  congr 1
  refine sum_congr rfl fun k _ => ?_
  rw [map_sum]
  refine sum_congr rfl fun l _ => ?_
  rw [map_mul, map_mul, ph_conj, ph_conj, conj_ofReal, mul_neg, mul_neg]

/-! ### Symmetries of the operator -/

/-- The operator with multiplier `mult`. -/
noncomputable def op (h w : ℕ) (mult : ℕ → ℕ → ℂ) (x : ℕ → ℕ → ℂ) : ℕ → ℕ → ℂ := idft2 h w fun k l => dft2 h w x k l * mult k l

theorem op_congr {h w : ℕ} {mult mult' : ℕ → ℕ → ℂ} {x y : ℕ → ℕ → ℂ} (hm : ∀ k < h, ∀ l < w, mult k l = mult' k l)
    (e : ∀ i < h, ∀ j < w, x i j = y i j) (i j : ℕ) : op h w mult x i j = op h w mult' y i j := by
  unfold op
  refine idft2_congr _ _ _ _ _ _ fun k hk l hl => ?_
  rw [hm k hk l hl, dft2_congr h w x y k l e]

theorem op_smul (h w : ℕ) (mult : ℕ → ℕ → ℂ) (c : ℂ) (x : ℕ → ℕ → ℂ) (i j : ℕ) :
    op h w mult (fun p q => c * x p q) i j = c * op h w mult x i j := by
  unfold op
  rw [← idft2_smul]
  refine idft2_congr _ _ _ _ _ _ fun k hk l hl => ?_
  rw [dft2_smul]; ring

theorem op_reflect_row {h w : ℕ} {mult : ℕ → ℕ → ℂ} (he : EvenRow h w mult) (x : ℕ → ℕ → ℂ) (i j : ℕ) (hi : i < h) :
    op h w mult (fun p q => x (h - 1 - p) q) i j = op h w mult x (h - 1 - i) j := by
  unfold op
  rw [op_conv, op_conv, ← Finset.sum_range_reflect]
  refine sum_congr rfl fun p hp => sum_congr rfl fun q _ => ?_
  have hp := mem_range.1 hp
  rw [show h - 1 - (h - 1 - p) = p by omega, ← kern_neg_row he]
  congr 2
  rw [Nat.cast_sub (by omega), Nat.cast_sub (by omega), Nat.cast_sub (by omega), Nat.cast_sub (by omega)]
  push_cast
  ring

theorem op_reflect_col {h w : ℕ} {mult : ℕ → ℕ → ℂ} (he : EvenCol h w mult) (x : ℕ → ℕ → ℂ) (i j : ℕ) (hj : j < w) :
    op h w mult (fun p q => x p (w - 1 - q)) i j = op h w mult x i (w - 1 - j) := by
  unfold op
  rw [op_conv, op_conv]
  refine sum_congr rfl fun p _ => ?_
  rw [← Finset.sum_range_reflect]
  refine sum_congr rfl fun q hq => ?_
  have hq := mem_range.1 hq
  rw [show w - 1 - (w - 1 - q) = q by omega, ← kern_neg_col he]
  congr 2
  rw [Nat.cast_sub (by omega), Nat.cast_sub (by omega), Nat.cast_sub (by omega), Nat.cast_sub (by omega)]
  push_cast
  ring

/-- Exchange of the two halves of `0, ..., 2n-1`. -/
def swap (n i : ℕ) : ℕ := if i < n then i + n else i - n

theorem swap_lt {n i : ℕ} (hi : i < 2 * n) : swap n i < 2 * n := by unfold swap; split_ifs <;> omega

theorem sum_swap {M : Type} [AddCommMonoid M] (n : ℕ) (f : ℕ → M) : ∑ i ∈ range (2 * n), f (swap n i) = ∑ i ∈ range (2 * n), f i := by
  rw [two_mul, sum_range_add, sum_range_add, add_comm]
  congr 1
  · refine sum_congr rfl fun i _ => ?_
    unfold swap
    rw [if_neg (by omega), show n + i - n = i by omega]
  · refine sum_congr rfl fun i hi => ?_
    unfold swap
    rw [if_pos (mem_range.1 hi), add_comm]

theorem kern_swap_row (n w : ℕ) (mult : ℕ → ℕ → ℂ) {i p : ℕ} (hi : i < 2 * n) (hp : p < 2 * n) (b : ℤ) :
    kern (2 * n) w mult ((i : ℤ) - (swap n p : ℕ)) b = kern (2 * n) w mult ((swap n i : ℕ) - (p : ℤ)) b := by
  unfold swap
  have hn : 0 < 2 * n := by omega
  have hper := fun a => kern_period_row (2 * n) w hn mult a b
  split_ifs with h1 h2 h2
  · rw [← hper]; congr 1; push_cast; ring
  · congr 1; omega
  · congr 1; omega
  · rw [← hper ((i - n : ℕ) - (p : ℤ))]; congr 1; omega

theorem kern_swap_col (h n : ℕ) (mult : ℕ → ℕ → ℂ) {j q : ℕ} (hj : j < 2 * n) (hq : q < 2 * n) (a : ℤ) :
    kern h (2 * n) mult a ((j : ℤ) - (swap n q : ℕ)) = kern h (2 * n) mult a ((swap n j : ℕ) - (q : ℤ)) := by
  unfold swap
  have hn : 0 < 2 * n := by omega
  have hper := fun b => kern_period_col h (2 * n) hn mult a b
  split_ifs with h1 h2 h2
  · rw [← hper]; congr 1; push_cast; ring
  · congr 1; omega
  · congr 1; omega
  · rw [← hper ((j - n : ℕ) - (q : ℤ))]; congr 1; omega

theorem swap_swap {n i : ℕ} (hi : i < 2 * n) : swap n (swap n i) = i := by unfold swap; split_ifs <;> omega

theorem op_swap_row (n w : ℕ) (mult : ℕ → ℕ → ℂ) (x : ℕ → ℕ → ℂ) (i j : ℕ) (hi : i < 2 * n) :
    op (2 * n) w mult (fun p q => x (swap n p) q) i j = op (2 * n) w mult x (swap n i) j := by
  unfold op
  rw [op_conv, op_conv]
  rw [← sum_swap n]
  refine sum_congr rfl fun p hp => sum_congr rfl fun q _ => ?_
  have hp := mem_range.1 hp
  rw [swap_swap hp, kern_swap_row n w mult hi hp]

theorem op_swap_col (h n : ℕ) (mult : ℕ → ℕ → ℂ) (x : ℕ → ℕ → ℂ) (i j : ℕ) (hj : j < 2 * n) :
    op h (2 * n) mult (fun p q => x p (swap n q)) i j = op h (2 * n) mult x i (swap n j) := by
  unfold op
  rw [op_conv, op_conv]
  refine sum_congr rfl fun p _ => ?_
  rw [← sum_swap n]
  refine sum_congr rfl fun q hq => ?_
  have hq := mem_range.1 hq
  rw [swap_swap hq, kern_swap_col h n mult hj hq]

theorem op_transpose (h w : ℕ) (mult : ℕ → ℕ → ℂ) (x : ℕ → ℕ → ℂ) (i j : ℕ) :
    op w h (fun k l => mult l k) (fun p q => x q p) i j = op h w mult x j i := by
  unfold op
  rw [op_conv, op_conv, sum_comm]
  refine sum_congr rfl fun p _ => sum_congr rfl fun q _ => ?_
  congr 1
  unfold kern
  rw [sum_comm, mul_comm (w : ℂ)]
  congr 1
  refine sum_congr rfl fun k _ => sum_congr rfl fun l _ => ?_
  ring

/-- A real even multiplier commutes with complex conjugation. -/
theorem op_conj {h w : ℕ} {win : ℕ → ℕ → ℝ} (h1 : EvenRow h w fun k l => (win k l : ℂ)) (h2 : EvenCol h w fun k l => (win k l : ℂ))
    (x : ℕ → ℕ → ℂ) (i j : ℕ) :
    op h w (fun k l => (win k l : ℂ)) (fun p q => (starRingEnd ℂ) (x p q)) i j = (starRingEnd ℂ) (op h w (fun k l => (win k l : ℂ)) x i j) := by
  unfold op
  rw [op_conv, op_conv, map_sum]
  refine sum_congr rfl fun p _ => ?_
  rw [map_sum]
  refine sum_congr rfl fun q _ => ?_
  rw [map_mul, kern_conj, kern_neg_row h1, kern_neg_col h2]

/-- A real multiplier is a Hermitian operator: `<x, T x>` is real. -/
theorem op_hermitian (h w : ℕ) (win : ℕ → ℕ → ℝ) (x : ℕ → ℕ → ℂ) :
    (∑ i ∈ range h, ∑ j ∈ range w, op h w (fun k l => (win k l : ℂ)) x i j * (starRingEnd ℂ) (x i j)).im = 0 := by
  rw [← conj_eq_iff_im]
  unfold op
  simp only [op_conv, Finset.sum_mul, map_sum, map_mul, kern_conj, conj_conj]
  rw [sum4_comm]
  refine sum_congr rfl fun i _ => sum_congr rfl fun j _ => sum_congr rfl fun p _ => sum_congr rfl fun q _ => ?_
  rw [neg_sub, neg_sub]
  ring

theorem dft2_idft2 (h w : ℕ) (y : ℕ → ℕ → ℂ) (k l : ℕ) (hk : k < h) (hl : l < w) : dft2 h w (idft2 h w y) k l = y k l := by
  unfold dft2
  have : (fun i => dft w (idft2 h w y i) l) = idft h (fun k => y k l) := by
    funext i
    unfold idft2
    have e : (fun j => idft h (fun k => idft w (y k) j) i) = fun j => (∑ k ∈ range h, idft w (y k) j * exp (2 * Real.pi * I * (k * i / h))) / h := rfl
    rw [e]
    unfold dft
    simp only [Finset.sum_div, Finset.sum_mul]
    rw [sum_comm]
    unfold idft
    rw [Finset.sum_div]
    refine sum_congr rfl fun k _ => ?_
    have := dft_idft w (y k) l hl
    dsimp only
    rw [← this]
    unfold dft
    rw [Finset.sum_mul, Finset.sum_div]
    refine sum_congr rfl fun j _ => ?_
    unfold idft
    ring
  rw [this]
  exact dft_idft h _ k hk

/-- The total of the result is the total of the argument times the multiplier at frequency zero. -/
theorem op_total {h w : ℕ} (hh : 0 < h) (hw : 0 < w) (mult : ℕ → ℕ → ℂ) (x : ℕ → ℕ → ℂ) :
    ∑ i ∈ range h, ∑ j ∈ range w, op h w mult x i j = (∑ i ∈ range h, ∑ j ∈ range w, x i j) * mult 0 0 := by
  have h0 : ∀ y : ℕ → ℕ → ℂ, dft2 h w y 0 0 = ∑ i ∈ range h, ∑ j ∈ range w, y i j := by
    intro y
    unfold dft2 dft
    simp
  rw [← h0, ← h0]
  exact dft2_idft2 h w _ 0 0 hh hw

end Verif.Fourier
