import Verif.Model.Phase
import Mathlib.Tactic.Ring
import Mathlib.Analysis.Real.Pi.Bounds
import Mathlib.Tactic.FieldSimp
import Mathlib.Tactic.LinearCombination
import Mathlib.Algebra.BigOperators.Ring.Finset
import Mathlib.Algebra.BigOperators.Field
import Mathlib.Algebra.BigOperators.Intervals

/-! C35, C36, C37 and the exactness of cosine-transform phase unwrapping. -/

set_option linter.unusedSectionVars false
set_option linter.unusedSimpArgs false

namespace Verif.Phase
open Real Finset

/-! ### C35 -/

theorem wrapToPi_spec (x : ℝ) : ∃ k : ℤ, wrapToPi x = x - 2 * π * k ∧ -π ≤ wrapToPi x ∧ wrapToPi x < π := by
  refine ⟨⌊(x + π) / (2 * π)⌋, ?_, ?_, ?_⟩
  · unfold wrapToPi pyMod; ring
  · have h := Int.floor_le ((x + π) / (2 * π))
    rw [le_div_iff₀ (by positivity)] at h
    unfold wrapToPi pyMod
    nlinarith
  · have h := Int.lt_floor_add_one ((x + π) / (2 * π))
    rw [div_lt_iff₀ (by positivity)] at h
    unfold wrapToPi pyMod
    nlinarith

/-- Two values of `[-π, π)` that differ by a multiple of `2π` are equal. -/
theorem eq_of_wrapped {a b : ℝ} {k : ℤ} (h : a = b - 2 * π * k) (ha : -π ≤ a ∧ a < π) (hb : -π ≤ b ∧ b < π) : a = b := by
  have hp := pi_pos
  have h1 : (k : ℝ) < 1 := by
    by_contra hc
    push Not at hc
    nlinarith [ha.1, hb.2]
  have h2 : (-1 : ℝ) < k := by
    by_contra hc
    push Not at hc
    nlinarith [ha.2, hb.1]
  have : k = 0 := by
    have h1' : k < 1 := by exact_mod_cast h1
    have h2' : -1 < k := by exact_mod_cast h2
    omega
  rw [h, this]; simp

/-- C35: the wrapped value lies in `[-π, π)`, differs from the input by a whole number of turns, is the only such value, and
wrapping is idempotent and invariant under adding whole turns. -/
theorem wrap_to_pi (x : ℝ) :
    (-π ≤ wrapToPi x ∧ wrapToPi x < π) ∧ (∃ k : ℤ, wrapToPi x = x - 2 * π * k) ∧
    (∀ y, -π ≤ y → y < π → (∃ k : ℤ, y = x - 2 * π * k) → y = wrapToPi x) ∧
    wrapToPi (wrapToPi x) = wrapToPi x ∧ ∀ k : ℤ, wrapToPi (x + 2 * π * k) = wrapToPi x := by
  obtain ⟨k, hk, h1, h2⟩ := wrapToPi_spec x
  have huniq : ∀ z (y : ℝ), -π ≤ y → y < π → (∃ k : ℤ, y = z - 2 * π * k) → y = wrapToPi z := by
    rintro z y hy1 hy2 ⟨l, hl⟩
    obtain ⟨k, hk, h1, h2⟩ := wrapToPi_spec z
    refine eq_of_wrapped (k := l - k) ?_ ⟨hy1, hy2⟩ ⟨h1, h2⟩
    rw [hl, hk]; push_cast; ring
  refine ⟨⟨h1, h2⟩, ⟨k, hk⟩, huniq x, ?_, ?_⟩
  · exact (huniq _ _ h1 h2 ⟨0, by simp⟩).symm
  · intro l
    refine (huniq _ _ h1 h2 ⟨k + l, ?_⟩).symm
    rw [hk]; push_cast; ring

/-- Wrapping leaves values of `[-π, π)` alone. -/
theorem wrapToPi_id {x : ℝ} (h1 : -π ≤ x) (h2 : x < π) : wrapToPi x = x :=
  ((wrap_to_pi x).2.2.1 x h1 h2 ⟨0, by simp⟩).symm

/-! ### cosine transform -/

/-- Dirichlet kernel. -/
theorem dirichlet (θ : ℝ) (M : ℕ) :
    sin (θ / 2) * (1 + 2 * ∑ k ∈ Finset.Ico 1 (M + 1), cos (k * θ)) = sin ((M + 1 / 2) * θ) := by
  induction M with
  | zero => simp; congr 1; ring
  | succ M ih =>
    rw [Finset.sum_Ico_succ_top (by omega)]
    have e : sin (((M + 1 : ℕ) + 1 / 2) * θ) - sin ((M + 1 / 2) * θ) = 2 * sin (θ / 2) * cos ((M + 1 : ℕ) * θ) := by
      rw [sin_sub_sin]
      congr 2
      · congr 2
        push_cast; ring
      · push_cast; ring
    linear_combination ih - e

/-- The kernel at the frequencies of the transform. -/
theorem dirichlet_int (N t : ℕ) (ht : 0 < t) (ht2 : t < 2 * N) :
    1 + 2 * ∑ k ∈ Finset.Ico 1 N, cos (k * (π * t / N)) = -(-1) ^ t := by
  have hN : 0 < N := by omega
  obtain ⟨M, rfl⟩ : ∃ M, N = M + 1 := ⟨N - 1, by omega⟩
  have h := dirichlet (π * t / (M + 1 : ℕ)) M
  have hN' : (0 : ℝ) < ((M + 1 : ℕ) : ℝ) := by positivity
  have e : ((M : ℝ) + 1 / 2) * (π * t / (M + 1 : ℕ)) = t * π - π * t / (M + 1 : ℕ) / 2 := by
    field_simp
    push_cast; ring
  rw [e, sin_sub, cos_nat_mul_pi, sin_nat_mul_pi] at h
  have hs : 0 < sin (π * t / (M + 1 : ℕ) / 2) := by
    apply sin_pos_of_pos_of_lt_pi
    · positivity
    · rw [div_div, div_lt_iff₀ (by positivity)]
      have : (t : ℝ) < 2 * (M + 1 : ℕ) := by exact_mod_cast ht2
      nlinarith [pi_pos]
  have h' : sin (π * t / (M + 1 : ℕ) / 2) * ((1 + 2 * ∑ k ∈ Finset.Ico 1 (M + 1), cos (k * (π * t / (M + 1 : ℕ)))) -
      (-(-1) ^ t)) = 0 := by rw [mul_sub, h]; ring
  rcases mul_eq_zero.1 h' with h0 | h0
  · exact absurd h0 hs.ne'
  · linarith

/-- Orthogonality of the rows of the inverse transform, `m ≤ n`. -/
theorem kernel_delta_le (N n m : ℕ) (hn : n < N) (hmn : m ≤ n) :
    1 + 2 * ∑ k ∈ Finset.Ico 1 N, cos (π * k * (2 * n + 1) / (2 * N)) * cos (π * k * (2 * m + 1) / (2 * N)) =
      if n = m then (N : ℝ) else 0 := by
  have hN : (0 : ℝ) < N := by exact_mod_cast (by omega : 0 < N)
  have hterm : ∀ k ∈ Finset.Ico 1 N, 2 * (cos (π * k * (2 * n + 1) / (2 * N)) * cos (π * k * (2 * m + 1) / (2 * N))) =
      cos (k * (π * (n - m : ℕ) / N)) + cos (k * (π * (n + m + 1 : ℕ) / N)) := by
    intro k _
    rw [← mul_assoc, two_mul_cos_mul_cos]
    congr 2
    · rw [Nat.cast_sub hmn]; field_simp; ring
    · push_cast; field_simp; ring
  rw [Finset.mul_sum, Finset.sum_congr rfl hterm, Finset.sum_add_distrib]
  have h1 := dirichlet_int N (n + m + 1) (by omega) (by omega)
  by_cases hnm : n = m
  · subst hnm
    rw [if_pos rfl]
    simp only [Nat.sub_self, Nat.cast_zero, mul_zero, zero_div, cos_zero, Finset.sum_const, Nat.card_Ico, nsmul_eq_mul, mul_one]
    have hodd : (-1 : ℝ) ^ (n + n + 1) = -1 := Odd.neg_one_pow ⟨n, by ring⟩
    rw [hodd] at h1
    rw [Nat.cast_sub (by omega)]
    push_cast at h1 ⊢
    linarith
  · rw [if_neg hnm]
    have h2 := dirichlet_int N (n - m) (by omega) (by omega)
    have hp : (-1 : ℝ) ^ (n + m + 1) = -(-1) ^ (n - m) := by
      rw [show n + m + 1 = (n - m) + 2 * m + 1 by omega, pow_succ, pow_add, pow_mul]
      simp
    rw [hp] at h1
    linarith

theorem kernel_delta (N n m : ℕ) (hn : n < N) (hm : m < N) :
    1 + 2 * ∑ k ∈ Finset.Ico 1 N, cos (π * k * (2 * n + 1) / (2 * N)) * cos (π * k * (2 * m + 1) / (2 * N)) =
      if n = m then (N : ℝ) else 0 := by
  rcases le_total m n with h | h
  · exact kernel_delta_le N n m hn h
  · have := kernel_delta_le N m n hm h
    rw [show (if n = m then (N : ℝ) else 0) = if m = n then (N : ℝ) else 0 by simp only [eq_comm], ← this]
    congr 2
    exact Finset.sum_congr rfl fun k _ => mul_comm _ _

/-- `idct` inverts `dct`. -/
theorem idct_dct (N : ℕ) (x : ℕ → ℝ) (n : ℕ) (hn : n < N) : idct N (dct N x) n = x n := by
  have hN : (0 : ℝ) < N := by exact_mod_cast (by omega : 0 < N)
  have key : dct N x 0 + 2 * ∑ k ∈ Finset.Ico 1 N, dct N x k * cos (π * k * (2 * n + 1) / (2 * N)) =
      2 * ∑ m ∈ Finset.range N, x m * (1 + 2 * ∑ k ∈ Finset.Ico 1 N, cos (π * k * (2 * n + 1) / (2 * N)) *
        cos (π * k * (2 * m + 1) / (2 * N))) := by
    have h0 : dct N x 0 = 2 * ∑ m ∈ Finset.range N, x m := by simp [dct]
    rw [h0]
    simp only [mul_add (x _), mul_one, Finset.sum_add_distrib]
    rw [mul_add]
    congr 1
    simp only [dct, Finset.mul_sum, Finset.sum_mul]
    rw [Finset.sum_comm]
    refine Finset.sum_congr rfl fun m _ => Finset.sum_congr rfl fun k _ => ?_
    ring
  unfold idct
  rw [key, Finset.sum_congr rfl (fun m hm => by rw [kernel_delta N n m hn (Finset.mem_range.1 hm)])]
  simp only [mul_ite, mul_zero, Finset.sum_ite_eq, Finset.mem_range, hn, if_true]
  field_simp

theorem dct_add (N : ℕ) (x y : ℕ → ℝ) (k : ℕ) : dct N (fun n => x n + y n) k = dct N x k + dct N y k := by
  simp [dct, add_mul, Finset.sum_add_distrib, mul_add]

theorem dct_smul (N : ℕ) (c : ℝ) (x : ℕ → ℝ) (k : ℕ) : dct N (fun n => c * x n) k = c * dct N x k := by
  simp only [dct, Finset.mul_sum]
  exact Finset.sum_congr rfl fun _ _ => by ring

theorem dct_congr (N : ℕ) (x y : ℕ → ℝ) (k : ℕ) (h : ∀ n < N, x n = y n) : dct N x k = dct N y k := by
  unfold dct
  congr 1
  exact Finset.sum_congr rfl fun n hn => by rw [h n (Finset.mem_range.1 hn)]

theorem idct_sub (N : ℕ) (x y : ℕ → ℝ) (k : ℕ) : idct N (fun n => x n - y n) k = idct N x k - idct N y k := by
  simp only [idct, sub_mul, Finset.sum_sub_distrib]
  ring

theorem idct_congr (N : ℕ) (x y : ℕ → ℝ) (n : ℕ) (hN : 0 < N) (h : ∀ k < N, x k = y k) : idct N x n = idct N y n := by
  unfold idct
  rw [h 0 hN]
  congr 3
  exact Finset.sum_congr rfl fun k hk => by rw [h k (Finset.mem_Ico.1 hk).2]

theorem idct_delta (N : ℕ) (c : ℝ) (n : ℕ) : idct N (fun k => if k = 0 then c else 0) n = c / (2 * N) := by
  unfold idct
  dsimp only
  rw [if_pos rfl, Finset.sum_eq_zero, mul_zero, add_zero]
  intro k hk
  rw [if_neg (by have := (Finset.mem_Ico.1 hk).1; omega), zero_mul]

/-- Summation by parts for the padded difference. -/
theorem diffPad_sum (N : ℕ) (x c : ℕ → ℝ) :
    ∑ n ∈ Finset.range N, diffPad N (fun j => x (j + 1) - x j) n * c n =
      -∑ n ∈ Finset.range (N - 1), (x (n + 1) - x n) * (c (n + 1) - c n) := by
  cases N with
  | zero => simp
  | succ M =>
    simp only [diffPad, Nat.add_sub_cancel]
    rw [Finset.sum_congr rfl (fun n _ => sub_mul _ _ (c n)), Finset.sum_sub_distrib]
    have h1 : ∑ n ∈ Finset.range (M + 1), (if n + 1 < M + 1 then x (n + 1) - x n else 0) * c n =
        ∑ n ∈ Finset.range M, (x (n + 1) - x n) * c n := by
      rw [Finset.sum_range_succ, if_neg (by omega), zero_mul, add_zero]
      exact Finset.sum_congr rfl fun n hn => by rw [if_pos (by have := Finset.mem_range.1 hn; omega)]
    have h2 : ∑ n ∈ Finset.range (M + 1), (if 0 < n then x (n - 1 + 1) - x (n - 1) else 0) * c n =
        ∑ n ∈ Finset.range M, (x (n + 1) - x n) * c (n + 1) := by
      rw [Finset.sum_range_succ', if_neg (by omega), zero_mul, add_zero]
      exact Finset.sum_congr rfl fun n hn => by rw [if_pos (by omega), Nat.add_sub_cancel]
    rw [h1, h2, ← Finset.sum_sub_distrib, ← Finset.sum_neg_distrib]
    exact Finset.sum_congr rfl fun n _ => by ring

/-- The padded second difference is symmetric. -/
theorem diffPad_symm (N : ℕ) (x c : ℕ → ℝ) :
    ∑ n ∈ Finset.range N, diffPad N (fun j => x (j + 1) - x j) n * c n =
    ∑ n ∈ Finset.range N, x n * diffPad N (fun j => c (j + 1) - c j) n := by
  rw [diffPad_sum, Finset.sum_congr rfl (fun n _ => mul_comm (x n) _), diffPad_sum]
  congr 1
  exact Finset.sum_congr rfl fun n _ => mul_comm _ _

/-- The cosine basis diagonalises the padded second difference. -/
theorem diffPad_cos (N k n : ℕ) (hn : n < N) :
    diffPad N (fun j => cos (π * k * (2 * (j + 1 : ℕ) + 1) / (2 * N)) - cos (π * k * (2 * j + 1) / (2 * N))) n =
      2 * (cos (π * k / N) - 1) * cos (π * k * (2 * n + 1) / (2 * N)) := by
  have hN : (0 : ℝ) < N := by exact_mod_cast (by omega : 0 < N)
  set θ := π * k / N with hθ
  have hc : ∀ x : ℝ, π * k * x / (2 * N) = θ * (x / 2) := by intro x; rw [hθ]; field_simp
  simp only [hc]
  have hsum : ∀ a : ℝ, cos (a + θ) + cos (a - θ) = 2 * cos θ * cos a := by
    intro a; rw [cos_add, cos_sub]; ring
  have hup : (if n + 1 < N then cos (θ * ((2 * (n + 1 : ℕ) + 1) / 2)) - cos (θ * ((2 * n + 1) / 2)) else 0) =
      cos (θ * ((2 * n + 1) / 2) + θ) - cos (θ * ((2 * n + 1) / 2)) := by
    split
    · congr 2; push_cast; ring
    · have hnN : n + 1 = N := by omega
      have : cos (θ * ((2 * n + 1) / 2) + θ) = cos (θ * ((2 * n + 1) / 2)) := by
        have e1 : θ * ((2 * n + 1) / 2) + θ = k * π + θ / 2 := by
          rw [hθ, ← hnN]; push_cast; field_simp; ring
        have e2 : θ * ((2 * n + 1) / 2) = k * π - θ / 2 := by
          rw [hθ, ← hnN]; push_cast; field_simp; ring
        rw [e1, e2, cos_add, cos_sub, sin_nat_mul_pi]; ring
      rw [this, sub_self]
  have hdn : (if 0 < n then cos (θ * ((2 * (n - 1 + 1 : ℕ) + 1) / 2)) - cos (θ * ((2 * (n - 1 : ℕ) + 1) / 2)) else 0) =
      cos (θ * ((2 * n + 1) / 2)) - cos (θ * ((2 * n + 1) / 2) - θ) := by
    split
    · rename_i h
      rw [Nat.sub_add_cancel h, Nat.cast_sub h]
      congr 2; push_cast; ring
    · have : n = 0 := by omega
      subst this
      have e : θ * ((2 * ((0 : ℕ) : ℝ) + 1) / 2) - θ = -(θ * ((2 * ((0 : ℕ) : ℝ) + 1) / 2)) := by push_cast; ring
      rw [e, cos_neg, sub_self]
  unfold diffPad
  rw [hup, hdn]
  linear_combination hsum (θ * ((2 * n + 1) / 2))

/-- `dct` turns the padded second difference into a multiplication. -/
theorem dct_diffPad (N : ℕ) (x : ℕ → ℝ) (k : ℕ) :
    dct N (diffPad N fun j => x (j + 1) - x j) k = 2 * (cos (π * k / N) - 1) * dct N x k := by
  unfold dct
  rw [diffPad_symm N x (fun n => cos (π * k * (2 * n + 1) / (2 * N))),
    Finset.sum_congr rfl (fun n hn => by rw [diffPad_cos N k n (Finset.mem_range.1 hn)])]
  simp only [Finset.mul_sum]
  exact Finset.sum_congr rfl fun _ _ => by ring

theorem dct_sum (N : ℕ) (x : ℕ → ℕ → ℝ) (w l k : ℕ) :
    dct N (fun i => dct w (x i) l) k = dct w (fun j => dct N (fun i => x i j) k) l := by
  simp only [dct, Finset.mul_sum, Finset.sum_mul]
  rw [Finset.sum_comm]
  exact Finset.sum_congr rfl fun _ _ => Finset.sum_congr rfl fun _ _ => by ring

theorem idctn_dctn (m : Mat ℝ) : (idctn (dctn m)).Eqv m := by
  refine ⟨rfl, rfl, fun i hi j hj => ?_⟩
  have hi : i < m.h := hi
  have hj : j < m.w := hj
  show idct m.h (fun k => idct m.w (fun l => dct m.h (fun i => dct m.w (m.get i) l) k) j) i = _
  have : (fun k => idct m.w (fun l => dct m.h (fun i => dct m.w (m.get i) l) k) j) = dct m.h (fun i => m.get i j) := by
    funext k
    rw [show (fun l => dct m.h (fun i => dct m.w (m.get i) l) k) = dct m.w (fun j => dct m.h (fun i => m.get i j) k) from
      funext fun l => dct_sum m.h m.get m.w l k, idct_dct _ _ _ hj]
  rw [this, idct_dct _ _ _ hi]

/-! ### C36 -/

/-- `m` is the phase `φ` known up to whole turns, and `φ` is sampled finely enough: neighbouring values differ by less
than half a turn. -/
structure WellSampled (m φ : Mat ℝ) : Prop where
  h : m.h = φ.h
  w : m.w = φ.w
  turns : ∀ i < φ.h, ∀ j < φ.w, ∃ k : ℤ, m.get i j = φ.get i j + 2 * π * k
  dx : ∀ i < φ.h, ∀ j, j + 1 < φ.w → |φ.get i (j + 1) - φ.get i j| < π
  dy : ∀ i, i + 1 < φ.h → ∀ j < φ.w, |φ.get (i + 1) j - φ.get i j| < π

theorem wrap_diff {a b x y : ℝ} (ha : ∃ k : ℤ, a = x + 2 * π * k) (hb : ∃ k : ℤ, b = y + 2 * π * k) (h : |x - y| < π) :
    wrapToPi (a - b) = x - y := by
  obtain ⟨k, rfl⟩ := ha
  obtain ⟨l, rfl⟩ := hb
  have := abs_lt.1 h
  rw [show x + 2 * π * k - (y + 2 * π * l) = (x - y) + 2 * π * ((k - l : ℤ) : ℝ) by push_cast; ring,
    (wrap_to_pi (x - y)).2.2.2.2, wrapToPi_id this.1.le this.2]

/-- C36, first part (Itoh): the wrapped neighbour differences of the wrapped phase are the true differences. -/
theorem wrapped_gradient_eq {m φ : Mat ℝ} (H : WellSampled m φ) :
    (∀ i < φ.h, ∀ j, j + 1 < φ.w → wrapToPi (m.get i (j + 1) - m.get i j) = φ.get i (j + 1) - φ.get i j) ∧
    (∀ i, i + 1 < φ.h → ∀ j < φ.w, wrapToPi (m.get (i + 1) j - m.get i j) = φ.get (i + 1) j - φ.get i j) :=
  ⟨fun i hi j hj => wrap_diff (H.turns i hi _ hj) (H.turns i hi _ (by omega)) (H.dx i hi j hj),
   fun i hi j hj => wrap_diff (H.turns _ hi _ hj) (H.turns i (by omega) _ hj) (H.dy i hi j hj)⟩

theorem diffPad_congr (n : ℕ) (r s : ℕ → ℝ) (j : ℕ) (hj : j < n) (h : ∀ j, j + 1 < n → r j = s j) :
    diffPad n r j = diffPad n s j := by
  unfold diffPad
  by_cases h1 : j + 1 < n <;> by_cases h2 : 0 < j
  · rw [if_pos h1, if_pos h2, if_pos h1, if_pos h2, h j h1, h (j - 1) (by omega)]
  · rw [if_pos h1, if_neg h2, if_pos h1, if_neg h2, h j h1]
  · rw [if_neg h1, if_pos h2, if_neg h1, if_pos h2, h (j - 1) (by omega)]
  · rw [if_neg h1, if_neg h2, if_neg h1, if_neg h2]

/-- The window is the eigenvalue of the second difference away from the origin, and does not vanish. -/
theorem cosineWindow_ne (h w k l : ℕ) (hk : k < h) (hl : l < w) : cosineWindow h w k l ≠ 0 := by
  unfold cosineWindow
  split
  · norm_num
  · rename_i hne
    have hlt : ∀ (n a : ℕ), a < n → a ≠ 0 → cos (π * a / n) < 1 := by
      intro n a han ha
      have hn : (0 : ℝ) < n := by exact_mod_cast (by omega : 0 < n)
      have ha' : (0 : ℝ) < a := by exact_mod_cast Nat.pos_of_ne_zero ha
      rw [← cos_zero]
      apply cos_lt_cos_of_nonneg_of_le_pi le_rfl
      · rw [div_le_iff₀ hn]
        have : (a : ℝ) ≤ n := by exact_mod_cast han.le
        nlinarith [pi_pos]
      · positivity
    have h1 := cos_le_one (π * k / h)
    have h2 := cos_le_one (π * l / w)
    by_cases hk0 : k = 0
    · have := hlt w l hl (fun h0 => hne ⟨hk0, h0⟩)
      intro hc; linarith
    · have := hlt h k hk hk0
      intro hc; linarith

/-- Mean value of an image. -/
noncomputable def mean (m : Mat ℝ) : ℝ := (∑ i ∈ Finset.range m.h, ∑ j ∈ Finset.range m.w, m.get i j) / (m.h * m.w)

/-- C36: `unwrap_phase_based_cosine_transform` recovers a well-sampled phase of any size exactly, up to its mean value. -/
theorem unwrap_cosine_exact {m φ : Mat ℝ} (H : WellSampled m φ) :
    (unwrapCosine m).Eqv ⟨φ.h, φ.w, fun i j => φ.get i j - mean φ⟩ := by
  refine ⟨H.h, H.w, fun i hi j hj => ?_⟩
  have hi : i < φ.h := by have : i < m.h := hi; rw [← H.h]; exact this
  have hj : j < φ.w := by have : j < m.w := hj; rw [← H.w]; exact this
  have hh0 : 0 < φ.h := by omega
  have hw0 : 0 < φ.w := by omega
  obtain ⟨hx, hy⟩ := wrapped_gradient_eq H
  -- the transform of the right-hand side
  have hrho : ∀ k l, (dctn (rho m)).get k l = (2 * (cos (π * k / φ.h) - 1) + 2 * (cos (π * l / φ.w) - 1)) * (dctn φ).get k l := by
    intro k l
    show dct m.h (fun i => dct m.w (fun j => diffPad m.w (fun j => wrapToPi (m.get i (j + 1) - m.get i j)) j +
      diffPad m.h (fun i => wrapToPi (m.get (i + 1) j - m.get i j)) i) l) k = _ * dct φ.h (fun i => dct φ.w (φ.get i) l) k
    rw [H.h, H.w]
    have e : ∀ i < φ.h, dct φ.w (fun j => diffPad φ.w (fun j => wrapToPi (m.get i (j + 1) - m.get i j)) j +
        diffPad φ.h (fun i => wrapToPi (m.get (i + 1) j - m.get i j)) i) l =
        2 * (cos (π * l / φ.w) - 1) * dct φ.w (φ.get i) l +
        dct φ.w (fun j => diffPad φ.h (fun i => φ.get (i + 1) j - φ.get i j) i) l := by
      intro i hi
      rw [← dct_diffPad, ← dct_add]
      apply dct_congr
      intro j hj
      rw [diffPad_congr φ.w _ _ j hj (fun j hj => hx i hi j hj), diffPad_congr φ.h _ _ i hi (fun i hi => hy i hi j hj)]
    rw [dct_congr φ.h _ _ k e, dct_add, dct_smul, dct_sum φ.h (fun i j => diffPad φ.h (fun i => φ.get (i + 1) j - φ.get i j) i)]
    have e2 : (fun j => dct φ.h (fun i => diffPad φ.h (fun i => φ.get (i + 1) j - φ.get i j) i) k) =
        fun j => 2 * (cos (π * k / φ.h) - 1) * dct φ.h (fun i => φ.get i j) k := by
      funext j
      exact dct_diffPad φ.h (fun i => φ.get i j) k
    rw [e2, dct_smul, ← dct_sum φ.h φ.get]
    ring
  have hquot : ∀ k < φ.h, ∀ l < φ.w, (dctn (rho m)).get k l / cosineWindow φ.h φ.w k l =
      (dctn φ).get k l - (if k = 0 then (if l = 0 then (dctn φ).get 0 0 else 0) else 0) := by
    intro k hk l hl
    rw [hrho]
    by_cases h00 : k = 0 ∧ l = 0
    · rw [h00.1, h00.2]; simp
    · have hw := cosineWindow_ne φ.h φ.w k l hk hl
      have e : 2 * (cos (π * k / φ.h) - 1) + 2 * (cos (π * l / φ.w) - 1) = cosineWindow φ.h φ.w k l := by
        unfold cosineWindow; rw [if_neg h00]; ring
      rw [e, mul_div_cancel_left₀ _ hw]
      have : (if k = 0 then (if l = 0 then (dctn φ).get 0 0 else 0) else 0) = 0 := by
        split
        · rw [if_neg (fun h => h00 ⟨by assumption, h⟩)]
        · rfl
      rw [this, sub_zero]
  show idct m.h (fun k => idct m.w (fun l => (dctn (rho m)).get k l / cosineWindow m.h m.w k l) j) i = φ.get i j - mean φ
  rw [H.h, H.w]
  have e : ∀ k < φ.h, idct φ.w (fun l => (dctn (rho m)).get k l / cosineWindow φ.h φ.w k l) j =
      idct φ.w (fun l => (dctn φ).get k l) j - (if k = 0 then (dctn φ).get 0 0 / (2 * φ.w) else 0) := by
    intro k hk
    rw [idct_congr φ.w _ _ j hw0 (hquot k hk), idct_sub]
    congr 1
    by_cases hk0 : k = 0
    · simp only [hk0, if_true]; exact idct_delta _ _ _
    · simp only [if_neg hk0]
      have := idct_delta φ.w 0 j
      simpa using this
  rw [idct_congr φ.h _ _ i hh0 e, idct_sub, idct_delta]
  have hinv := (idctn_dctn φ).2.2 i hi j hj
  have hinv' : idct φ.h (fun k => idct φ.w (fun l => (dctn φ).get k l) j) i = φ.get i j := hinv
  rw [hinv']
  congr 1
  have hd : (dctn φ).get 0 0 = 4 * ∑ i ∈ Finset.range φ.h, ∑ j ∈ Finset.range φ.w, φ.get i j := by
    show dct φ.h (fun i => dct φ.w (φ.get i) 0) 0 = _
    simp only [dct, Nat.cast_zero, mul_zero, zero_mul, zero_div, cos_zero, mul_one, Finset.mul_sum]
    exact Finset.sum_congr rfl fun _ _ => Finset.sum_congr rfl fun _ _ => by ring
  rw [hd, mean]
  have : (0 : ℝ) < φ.w := by exact_mod_cast hw0
  have : (0 : ℝ) < φ.h := by exact_mod_cast hh0
  field_simp
  ring

/-- A tilted plane through many turns, given modulo whole turns, satisfies the hypothesis. -/
example : WellSampled ⟨20, 30, fun i j => wrapToPi (i + 2 * j)⟩ ⟨20, 30, fun i j => (i : ℝ) + 2 * j⟩ where
  h := rfl
  w := rfl
  turns := by
    intro i _ j _
    obtain ⟨k, hk, _⟩ := wrapToPi_spec ((i : ℝ) + 2 * j)
    exact ⟨-k, by simp only [hk]; push_cast; ring⟩
  dx := by
    intro i _ j _
    have : ((i : ℝ) + 2 * ((j + 1 : ℕ) : ℝ)) - (i + 2 * j) = 2 := by push_cast; ring
    simp only [this]
    rw [abs_of_pos (by norm_num)]
    linarith [pi_gt_three]
  dy := by
    intro i _ j _
    have : (((i + 1 : ℕ) : ℝ) + 2 * (j : ℝ)) - (i + 2 * j) = 1 := by push_cast; ring
    simp only [this]
    rw [abs_of_pos (by norm_num)]
    linarith [pi_gt_three]

/-! ### C37 -/

/-- C37, as intended: the window of the transposed size is the transposed window. -/
def FcTransposes (h w : ℕ) : Prop := ∀ i < h, ∀ j < w, fcWin w h j i = fcWin h w i j

/-- C37 is false of the code: it holds for no size other than squares. -/
theorem fc_window_transpose_iff (h w : ℕ) (hh : 2 ≤ h) (hw : 2 ≤ w) : FcTransposes h w ↔ h = w := by
  constructor
  · intro H
    have h1 := H 0 (by omega) 0 (by omega)
    unfold fcWin fcU fcV at h1
    rw [if_neg (by omega), if_neg (by omega)] at h1
    have ph : (0 : ℝ) < h := by exact_mod_cast (by omega : 0 < h)
    have pw : (0 : ℝ) < w := by exact_mod_cast (by omega : 0 < w)
    have pa : (0 : ℝ) < ((h / 2 : ℕ) : ℝ) := by exact_mod_cast (by omega : 0 < h / 2)
    have pb : (0 : ℝ) < ((w / 2 : ℕ) : ℝ) := by exact_mod_cast (by omega : 0 < w / 2)
    set a := ((h / 2 : ℕ) : ℝ) with ha
    set b := ((w / 2 : ℕ) : ℝ) with hb
    have h2 : (h : ℝ) ^ 2 / (a ^ 2 + b ^ 2) = (w : ℝ) ^ 2 / (a ^ 2 + b ^ 2) := by
      have l : (1 : ℝ) / (((((0 : ℕ) : ℝ) - a) / h) ^ 2 + ((((0 : ℕ) : ℝ) - b) / h) ^ 2) = (h : ℝ) ^ 2 / (a ^ 2 + b ^ 2) := by
        rw [Nat.cast_zero, zero_sub, zero_sub, div_pow, div_pow, ← add_div, one_div_div, neg_sq, neg_sq]
      have r : (1 : ℝ) / (((((0 : ℕ) : ℝ) - b) / w) ^ 2 + ((((0 : ℕ) : ℝ) - a) / w) ^ 2) = (w : ℝ) ^ 2 / (a ^ 2 + b ^ 2) := by
        rw [Nat.cast_zero, zero_sub, zero_sub, div_pow, div_pow, ← add_div, one_div_div, neg_sq, neg_sq, add_comm (b ^ 2)]
      rw [← l, ← r]; exact h1
    have pab : 0 < a ^ 2 + b ^ 2 := by positivity
    have h3 : (h : ℝ) ^ 2 = (w : ℝ) ^ 2 := by
      rw [div_eq_div_iff pab.ne' pab.ne'] at h2
      exact mul_right_cancel₀ pab.ne' h2
    have h4 : (h : ℝ) = w := by nlinarith [sq_nonneg ((h : ℝ) - w)]
    exact_mod_cast h4
  · rintro rfl i _ j _
    unfold fcWin fcU fcV
    by_cases hc : i = h / 2 ∧ j = h / 2
    · rw [if_pos ⟨hc.2, hc.1⟩, if_pos hc]
    · rw [if_neg (fun h => hc ⟨h.2, h.1⟩), if_neg hc, add_comm]

/-- C37 refuted: a 100 × 200 image. -/
theorem fc_window_transpose_refuted : ¬ FcTransposes 100 200 :=
  fun H => absurd ((fc_window_transpose_iff 100 200 (by norm_num) (by norm_num)).1 H) (by norm_num)

/-- C37 (partial: square images only). -/
theorem fc_window_transpose_partial (n : ℕ) (hn : 2 ≤ n) : FcTransposes n n := (fc_window_transpose_iff n n hn hn).2 rfl

end Verif.Phase
