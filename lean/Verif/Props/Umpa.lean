import Verif.Model.Umpa
import Verif.Props.Shift

/-!
C52: the UMPA cost is the least-squares optimum.
-/

set_option linter.unusedSectionVars false
set_option linter.unusedSimpArgs false

namespace Verif.Umpa
open Finset Verif.Correlation

/-! ### Specification -/

/-- Windowed squared residual of the model `mat ≈ beta * Im + K * ref` at pixel `(i, j)` when the reference is displaced by
`(a - m, b - m)`: sum over all images and all window offsets. -/
noncomputable def residual (ref mat : Arr3 ℝ) (r m : ℕ) (win : ℕ → ℕ → ℝ) (i j a b : ℕ) (beta K : ℝ) : ℝ :=
  ∑ k ∈ range ref.d, ∑ u ∈ range (2 * r + 1), ∑ v ∈ range (2 * r + 1),
    win u v * (mat.get k (i - r + u) (j - r + v) - beta * imMean ref
      - K * ref.get k (i - m + a - r + u) (j - m + b - r + v)) ^ 2

/-- A window with non-negative weights of sum one (`window / np.sum(window)`, correlation.py:3339). -/
structure GoodWindow (r : ℕ) (win : ℕ → ℕ → ℝ) : Prop where
  nonneg : ∀ u < 2 * r + 1, ∀ v < 2 * r + 1, 0 ≤ win u v
  one : ∑ u ∈ range (2 * r + 1), ∑ v ∈ range (2 * r + 1), win u v = 1

/-- The pixel is far enough from the edges, the images have the same shape, and `(a, b)` is in the map. -/
structure Inside (ref mat : Arr3 ℝ) (r m i j a b : ℕ) : Prop where
  d : ref.d = mat.d
  h : ref.h = mat.h
  w : ref.w = mat.w
  i0 : r + m ≤ i
  i1 : i + (r + m) < ref.h
  j0 : r + m ≤ j
  j1 : j + (r + m) < ref.w
  a1 : a ≤ 2 * m
  b1 : b ≤ 2 * m

/-! ### Least squares over a finite set -/

section
variable {ι : Type} (s : Finset ι) (W I R : ι → ℝ) (c : ℝ)

theorem expand (beta K : ℝ) : ∑ x ∈ s, W x * (I x - beta * c - K * R x) ^ 2 =
    (∑ x ∈ s, W x * I x ^ 2) + beta ^ 2 * (∑ x ∈ s, W x * c ^ 2) + K ^ 2 * (∑ x ∈ s, W x * R x ^ 2)
      - 2 * beta * (∑ x ∈ s, W x * (c * I x)) - 2 * K * (∑ x ∈ s, W x * (R x * I x))
      + 2 * beta * K * (∑ x ∈ s, W x * (c * R x)) := by
  simp only [Finset.mul_sum, ← Finset.sum_add_distrib, ← Finset.sum_sub_distrib]
  exact Finset.sum_congr rfl fun x _ => by ring

/-- A point satisfying the normal equations minimises the weighted square sum. -/
theorem normal_min (hW : ∀ x ∈ s, 0 ≤ W x) {b0 k0 : ℝ}
    (h1 : b0 * (∑ x ∈ s, W x * c ^ 2) + k0 * (∑ x ∈ s, W x * (c * R x)) = ∑ x ∈ s, W x * (c * I x))
    (h2 : b0 * (∑ x ∈ s, W x * (c * R x)) + k0 * (∑ x ∈ s, W x * R x ^ 2) = ∑ x ∈ s, W x * (R x * I x))
    (beta K : ℝ) :
    ∑ x ∈ s, W x * (I x - b0 * c - k0 * R x) ^ 2 ≤ ∑ x ∈ s, W x * (I x - beta * c - K * R x) ^ 2 := by
  have hd : 0 ≤ ∑ x ∈ s, W x * (0 - (b0 - beta) * c - (k0 - K) * R x) ^ 2 :=
    Finset.sum_nonneg fun x hx => mul_nonneg (hW x hx) (sq_nonneg _)
  rw [expand s W (fun _ => 0) R c] at hd
  simp only [mul_zero, zero_mul, Finset.sum_const_zero, ne_eq, OfNat.ofNat_ne_zero, not_false_eq_true, zero_pow,
    sub_zero, zero_add] at hd
  rw [expand s W I R c, expand s W I R c, ← h1, ← h2]
  generalize ∑ x ∈ s, W x * c ^ 2 = t2 at *
  generalize ∑ x ∈ s, W x * R x ^ 2 = t3 at *
  generalize ∑ x ∈ s, W x * (c * R x) = t6 at *
  generalize ∑ x ∈ s, W x * I x ^ 2 = t1 at *
  nlinarith [hd]

/-- The same with the constant term fixed to zero. -/
theorem normal_min1 (hW : ∀ x ∈ s, 0 ≤ W x) {k0 : ℝ}
    (h2 : k0 * (∑ x ∈ s, W x * R x ^ 2) = ∑ x ∈ s, W x * (R x * I x)) (K : ℝ) :
    ∑ x ∈ s, W x * (I x - k0 * R x) ^ 2 ≤ ∑ x ∈ s, W x * (I x - K * R x) ^ 2 := by
  have := normal_min s W I R 0 hW (b0 := 0) (k0 := k0) (by simp) (by simpa using h2) 0 K
  simpa using this

/-- Weighted Cauchy-Schwarz, strict when `R` takes two values on positive weights. -/
theorem det_pos (hW : ∀ x ∈ s, 0 ≤ W x) (hc : c ≠ 0) {p q : ι} (hp : p ∈ s) (hq : q ∈ s) (hWp : 0 < W p)
    (hWq : 0 < W q) (hne : R p ≠ R q) :
    0 < (∑ x ∈ s, W x * c ^ 2) * (∑ x ∈ s, W x * R x ^ 2) - (∑ x ∈ s, W x * (c * R x)) ^ 2 := by
  set S := ∑ x ∈ s, W x with hS
  set M := ∑ x ∈ s, W x * R x with hM
  set Q := ∑ x ∈ s, W x * R x ^ 2 with hQ
  have hSp : 0 < S := Finset.sum_pos' hW ⟨p, hp, hWp⟩
  have e1 : ∑ x ∈ s, W x * c ^ 2 = S * c ^ 2 := by rw [hS, Finset.sum_mul]
  have e2 : ∑ x ∈ s, W x * (c * R x) = c * M := by
    rw [hM, Finset.mul_sum]; exact Finset.sum_congr rfl fun x _ => by ring
  have hv : 0 < ∑ x ∈ s, W x * (R x - M / S) ^ 2 := by
    refine Finset.sum_pos' (fun x hx => mul_nonneg (hW x hx) (sq_nonneg _)) ?_
    by_cases h : R p = M / S
    · exact ⟨q, hq, mul_pos hWq (by
        have : R q - M / S ≠ 0 := by rw [← h]; exact sub_ne_zero.2 hne.symm
        positivity)⟩
    · exact ⟨p, hp, mul_pos hWp (by
        have : R p - M / S ≠ 0 := sub_ne_zero.2 h
        positivity)⟩
  have ev : ∑ x ∈ s, W x * (R x - M / S) ^ 2 = Q - 2 * (M / S) * M + (M / S) ^ 2 * S := by
    rw [hQ, hM, hS, Finset.mul_sum, Finset.mul_sum, ← Finset.sum_sub_distrib, ← Finset.sum_add_distrib]
    exact Finset.sum_congr rfl fun x _ => by ring
  rw [ev] at hv
  have hv2 : 0 < S * Q - M ^ 2 := by
    have : Q - 2 * (M / S) * M + (M / S) ^ 2 * S = (S * Q - M ^ 2) / S := by field_simp; ring
    rw [this] at hv
    exact (div_pos_iff_of_pos_right hSp).1 hv
  rw [e1, e2]
  have : S * c ^ 2 * Q - (c * M) ^ 2 = c ^ 2 * (S * Q - M ^ 2) := by ring
  rw [this]; positivity

end

theorem cramer1 {t2 t3 t4 t5 t6 : ℝ} (h : t2 * t3 - t6 ^ 2 ≠ 0) :
    (t3 * t4 - t5 * t6) / (t2 * t3 - t6 ^ 2) * t2 + (t2 * t5 - t4 * t6) / (t2 * t3 - t6 ^ 2) * t6 = t4 := by
  rw [div_mul_eq_mul_div, div_mul_eq_mul_div, ← add_div, div_eq_iff h]; ring

theorem cramer2 {t2 t3 t4 t5 t6 : ℝ} (h : t2 * t3 - t6 ^ 2 ≠ 0) :
    (t3 * t4 - t5 * t6) / (t2 * t3 - t6 ^ 2) * t6 + (t2 * t5 - t4 * t6) / (t2 * t3 - t6 ^ 2) * t3 = t5 := by
  rw [div_mul_eq_mul_div, div_mul_eq_mul_div, ← add_div, div_eq_iff h]; ring

/-! ### The terms as sums over the block -/

/-- Weight, sample and reference values of the block cell `(k, u, v)`. -/
def wOf (win : ℕ → ℕ → ℝ) (c : ℕ × ℕ × ℕ) : ℝ := win c.2.1 c.2.2
def iOf (mat : Arr3 ℝ) (r i j : ℕ) (c : ℕ × ℕ × ℕ) : ℝ := mat.get c.1 (i - r + c.2.1) (j - r + c.2.2)
def rOf (ref : Arr3 ℝ) (r m i j a b : ℕ) (c : ℕ × ℕ × ℕ) : ℝ :=
  ref.get c.1 (i - m + a - r + c.2.1) (j - m + b - r + c.2.2)

theorem residual_eq (ref mat : Arr3 ℝ) (r m : ℕ) (win : ℕ → ℕ → ℝ) (i j a b : ℕ) (beta K : ℝ) :
    residual ref mat r m win i j a b beta K =
      ∑ c ∈ cells ref.d (2 * r + 1) (2 * r + 1), wOf win c * (iOf mat r i j c - beta * imMean ref
        - K * rOf ref r m i j a b c) ^ 2 :=
  sum3_eq ref.d (2 * r + 1) (2 * r + 1) fun k u v => win u v * (mat.get k (i - r + u) (j - r + v) - beta * imMean ref
      - K * ref.get k (i - m + a - r + u) (j - m + b - r + v)) ^ 2

theorem readPad_in {h w : ℕ} (x : ℕ → ℕ → ℝ) {i j r u v : ℕ} (hi : r ≤ i) (hi1 : i + r < h) (hj : r ≤ j)
    (hj1 : j + r < w) (hu : u < 2 * r + 1) (hv : v < 2 * r + 1) :
    readPad h w x ((i : ℤ) - r + u) ((j : ℤ) - r + v) = x (i - r + u) (j - r + v) := by
  unfold readPad
  rw [if_pos (by omega)]
  congr 1 <;> omega

/-- `correlate(sum over images of f, window, "same")` away from the edges is a sum over the block. -/
theorem correlateSame_block (A : Arr3 ℝ) (f : ℝ → ℝ) {r i j : ℕ} (win : ℕ → ℕ → ℝ) (hi : r ≤ i) (hi1 : i + r < A.h)
    (hj : r ≤ j) (hj1 : j + r < A.w) :
    correlateSame A.h A.w (sum0 A f) r win i j =
      ∑ c ∈ cells A.d (2 * r + 1) (2 * r + 1), wOf win c * f (A.get c.1 (i - r + c.2.1) (j - r + c.2.2)) := by
  have : ∑ c ∈ cells A.d (2 * r + 1) (2 * r + 1), wOf win c * f (A.get c.1 (i - r + c.2.1) (j - r + c.2.2))
      = sum3 A.d (2 * r + 1) (2 * r + 1) (fun k u v => win u v * f (A.get k (i - r + u) (j - r + v))) :=
    (sum3_eq _ _ _ (fun k u v => win u v * f (A.get k (i - r + u) (j - r + v)))).symm
  rw [this]
  unfold sum3 correlateSame sum0
  rw [Finset.sum_comm (s := range A.d)]
  refine Finset.sum_congr rfl fun u hu => ?_
  rw [Finset.sum_comm (s := range A.d)]
  refine Finset.sum_congr rfl fun v hv => ?_
  rw [readPad_in _ hi hi1 hj hj1 (Finset.mem_range.1 hu) (Finset.mem_range.1 hv), Finset.sum_mul]
  exact Finset.sum_congr rfl fun k _ => mul_comm _ _

theorem terms_eq {ref mat : Arr3 ℝ} {r m i j a b : ℕ} {win : ℕ → ℕ → ℝ} (hw : GoodWindow r win)
    (h : Inside ref mat r m i j a b) :
    terms ref mat r m win i j a b =
      { t1 := ∑ c ∈ cells ref.d (2 * r + 1) (2 * r + 1), wOf win c * iOf mat r i j c ^ 2
        t2 := ∑ c ∈ cells ref.d (2 * r + 1) (2 * r + 1), wOf win c * imMean ref ^ 2
        t3 := ∑ c ∈ cells ref.d (2 * r + 1) (2 * r + 1), wOf win c * rOf ref r m i j a b c ^ 2
        t4 := ∑ c ∈ cells ref.d (2 * r + 1) (2 * r + 1), wOf win c * (imMean ref * iOf mat r i j c)
        t5 := ∑ c ∈ cells ref.d (2 * r + 1) (2 * r + 1), wOf win c * (rOf ref r m i j a b c * iOf mat r i j c)
        t6 := ∑ c ∈ cells ref.d (2 * r + 1) (2 * r + 1), wOf win c * (imMean ref * rOf ref r m i j a b c) } := by
  obtain ⟨hd, hh, hww, i0, i1, j0, j1, a1, b1⟩ := h
  unfold terms
  congr 1
  · rw [correlateSame_block mat (· ^ 2) win (by omega) (by omega) (by omega) (by omega), hd]
    rfl
  · have : ∑ c ∈ cells ref.d (2 * r + 1) (2 * r + 1), wOf win c * imMean ref ^ 2
        = sum3 ref.d (2 * r + 1) (2 * r + 1) (fun _ u v => win u v * imMean ref ^ 2) :=
      (sum3_eq _ _ _ (fun _ u v => win u v * imMean ref ^ 2)).symm
    rw [this]
    unfold sum3
    simp only [← Finset.sum_mul, hw.one, Finset.sum_const, Finset.card_range, nsmul_eq_mul]
    ring
  · rw [correlateSame_block ref (· ^ 2) win (by omega) (by omega) (by omega) (by omega)]
    rfl
  · rw [correlateSame_block mat id win (by omega) (by omega) (by omega) (by omega), hd, Finset.mul_sum]
    exact Finset.sum_congr rfl fun c _ => by simp only [id, iOf]; ring
  · have : ∑ c ∈ cells ref.d (2 * r + 1) (2 * r + 1), wOf win c * (rOf ref r m i j a b c * iOf mat r i j c)
        = sum3 ref.d (2 * r + 1) (2 * r + 1) (fun k u v => win u v *
          (ref.get k (i - m + a - r + u) (j - m + b - r + v) * mat.get k (i - r + u) (j - r + v))) :=
      (sum3_eq _ _ _ (fun k u v => win u v *
          (ref.get k (i - m + a - r + u) (j - m + b - r + v) * mat.get k (i - r + u) (j - r + v)))).symm
    rw [this]
    unfold sum3 correlateValid
    refine Finset.sum_congr rfl fun k _ => Finset.sum_congr rfl fun u _ => Finset.sum_congr rfl fun v _ => ?_
    dsimp only
    rw [show i - (r + m) + (a + u) = i - m + a - r + u by omega, show j - (r + m) + (b + v) = j - m + b - r + v by omega]
    ring
  · rw [correlateSame_block ref id win (by omega) (by omega) (by omega) (by omega), Finset.mul_sum]
    exact Finset.sum_congr rfl fun c _ => by simp only [id, rOf]; ring

/-! ### The cost -/

/-- The fit is well posed with dark signal: non-zero mean of the reference and at least two different reference values
under positive window weights. -/
def Varied (ref : Arr3 ℝ) (r m : ℕ) (win : ℕ → ℕ → ℝ) (i j a b : ℕ) : Prop :=
  ∃ k < ref.d, ∃ k' < ref.d, ∃ u ≤ 2 * r, ∃ v ≤ 2 * r, ∃ u' ≤ 2 * r, ∃ v' ≤ 2 * r, 0 < win u v ∧ 0 < win u' v' ∧
    ref.get k (i - m + a - r + u) (j - m + b - r + v) ≠ ref.get k' (i - m + a - r + u') (j - m + b - r + v')

/-- Without dark signal: at least one non-zero reference value under a positive weight. -/
def NonZero (ref : Arr3 ℝ) (r m : ℕ) (win : ℕ → ℕ → ℝ) (i j a b : ℕ) : Prop :=
  ∃ k < ref.d, ∃ u ≤ 2 * r, ∃ v ≤ 2 * r, 0 < win u v ∧ ref.get k (i - m + a - r + u) (j - m + b - r + v) ≠ 0

theorem varied_det {ref mat : Arr3 ℝ} {r m i j a b : ℕ} {win : ℕ → ℕ → ℝ} (hw : GoodWindow r win)
    (h : Inside ref mat r m i j a b) (hm : imMean ref ≠ 0) (hv : Varied ref r m win i j a b) :
    0 < (terms ref mat r m win i j a b).t2 * (terms ref mat r m win i j a b).t3
      - (terms ref mat r m win i j a b).t6 ^ 2 := by
  rw [terms_eq hw h]
  obtain ⟨k, hk, k', hk', u, hu, v, hv, u', hu', v', hv', h1, h2, h3⟩ := hv
  exact det_pos _ _ _ _ (fun c hc => hw.nonneg _ (mem_cells.1 hc).2.1 _ (mem_cells.1 hc).2.2) hm (p := (k, u, v)) (q := (k', u', v'))
    (mem_cells.2 ⟨hk, Nat.lt_succ_of_le hu, Nat.lt_succ_of_le hv⟩) (mem_cells.2 ⟨hk', Nat.lt_succ_of_le hu', Nat.lt_succ_of_le hv'⟩) h1 h2 h3

theorem nonZero_t3 {ref mat : Arr3 ℝ} {r m i j a b : ℕ} {win : ℕ → ℕ → ℝ} (hw : GoodWindow r win)
    (h : Inside ref mat r m i j a b) (hv : NonZero ref r m win i j a b) :
    0 < (terms ref mat r m win i j a b).t3 := by
  rw [terms_eq hw h]
  obtain ⟨k, hk, u, hu, v, hv, h1, h2⟩ := hv
  refine Finset.sum_pos' (fun c hc => mul_nonneg (hw.nonneg _ (mem_cells.1 hc).2.1 _ (mem_cells.1 hc).2.2) (sq_nonneg _))
    ⟨(k, u, v), mem_cells.2 ⟨hk, Nat.lt_succ_of_le hu, Nat.lt_succ_of_le hv⟩, mul_pos h1 ?_⟩
  have : rOf ref r m i j a b (k, u, v) ≠ 0 := h2
  positivity

/-- The cost is the residual at the fitted parameters. -/
theorem cost_eq_residual {ref mat : Arr3 ℝ} {r m i j a b : ℕ} {win : ℕ → ℕ → ℝ} (hw : GoodWindow r win)
    (h : Inside ref mat r m i j a b) (dark : Bool) :
    cost dark (terms ref mat r m win i j a b) = residual ref mat r m win i j a b
      (fitBeta dark (used dark (terms ref mat r m win i j a b))) (fitK dark (used dark (terms ref mat r m win i j a b))) := by
  rw [residual_eq, expand, terms_eq hw h]
  cases dark
  · simp only [cost, used, fitBeta, fitK, Bool.false_eq_true, if_false]
    ring
  · simp only [cost, used, if_true]

/-- **C52.** With dark signal, the cost at every map entry is the minimum over transmission and dark-field parameters of the
windowed squared residual (attained at the returned parameters), provided the reference varies under the window. -/
theorem umpa_dark_optimal {ref mat : Arr3 ℝ} {r m i j a b : ℕ} {win : ℕ → ℕ → ℝ} (hw : GoodWindow r win)
    (h : Inside ref mat r m i j a b) (hm : imMean ref ≠ 0) (hv : Varied ref r m win i j a b) :
    (∃ beta K, cost true (terms ref mat r m win i j a b) = residual ref mat r m win i j a b beta K) ∧
    (∀ beta K, cost true (terms ref mat r m win i j a b) ≤ residual ref mat r m win i j a b beta K) := by
  refine ⟨⟨_, _, cost_eq_residual hw h true⟩, fun beta K => ?_⟩
  have hdet := (varied_det hw h hm hv).ne'
  rw [cost_eq_residual hw h true, residual_eq, residual_eq]
  rw [terms_eq hw h] at hdet
  simp only at hdet
  rw [terms_eq hw h]
  apply normal_min
  · exact fun c hc => hw.nonneg _ (mem_cells.1 hc).2.1 _ (mem_cells.1 hc).2.2
  · simp only [used, fitBeta, fitK, if_true]
    exact cramer1 hdet
  · simp only [used, fitBeta, fitK, if_true]
    exact cramer2 hdet

/-- **C52.** Without dark signal, the minimum is over the transmission alone. -/
theorem umpa_optimal {ref mat : Arr3 ℝ} {r m i j a b : ℕ} {win : ℕ → ℕ → ℝ} (hw : GoodWindow r win)
    (h : Inside ref mat r m i j a b) (hv : NonZero ref r m win i j a b) :
    (∃ K, cost false (terms ref mat r m win i j a b) = residual ref mat r m win i j a b 0 K) ∧
    (∀ K, cost false (terms ref mat r m win i j a b) ≤ residual ref mat r m win i j a b 0 K) := by
  refine ⟨⟨_, cost_eq_residual hw h false⟩, fun K => ?_⟩
  have ht3 := (nonZero_t3 hw h hv).ne'
  rw [cost_eq_residual hw h false, residual_eq, residual_eq]
  rw [terms_eq hw h] at ht3 ⊢
  simp only at ht3
  simp only [used, fitBeta, fitK, Bool.false_eq_true, if_false, zero_mul, sub_zero]
  apply normal_min1
  · exact fun c hc => hw.nonneg _ (mem_cells.1 hc).2.1 _ (mem_cells.1 hc).2.2
  · exact div_mul_cancel₀ _ ht3

/-- **C52.** The cost is never negative (no condition on the reference: the code's division by zero is read as 0 in the
model, and NaN/inf in numpy). -/
theorem umpa_cost_nonneg {ref mat : Arr3 ℝ} {r m i j a b : ℕ} {win : ℕ → ℕ → ℝ} (hw : GoodWindow r win)
    (h : Inside ref mat r m i j a b) (dark : Bool) : 0 ≤ cost dark (terms ref mat r m win i j a b) := by
  rw [cost_eq_residual hw h dark, residual_eq]
  exact Finset.sum_nonneg fun c hc => mul_nonneg (hw.nonneg _ (mem_cells.1 hc).2.1 _ (mem_cells.1 hc).2.2) (sq_nonneg _)

/-- **C52.** Exact data `mat = beta * Im + K * ref` (shifted) give cost zero and the exact transmission `|beta + K|` and
dark field `|K / (beta + K)|`. -/
theorem umpa_dark_exact {ref mat : Arr3 ℝ} {r m i j a b : ℕ} {win : ℕ → ℕ → ℝ} (hw : GoodWindow r win)
    (h : Inside ref mat r m i j a b) (hm : imMean ref ≠ 0) (hv : Varied ref r m win i j a b) {beta K : ℝ}
    (he : ∀ k < ref.d, ∀ u ≤ 2 * r, ∀ v ≤ 2 * r, mat.get k (i - r + u) (j - r + v)
      = beta * imMean ref + K * ref.get k (i - m + a - r + u) (j - m + b - r + v)) :
    cost true (terms ref mat r m win i j a b) = 0 ∧
      transDark (terms ref mat r m win i j a b) = (|beta + K|, |K / (beta + K)|) := by
  have hz : residual ref mat r m win i j a b beta K = 0 := by
    rw [residual_eq]
    refine Finset.sum_eq_zero fun c hc => ?_
    rw [mem_cells] at hc
    have := he c.1 hc.1 c.2.1 (by omega) c.2.2 (by omega)
    unfold iOf rOf
    rw [this]; ring
  have hdet := (varied_det hw h hm hv).ne'
  refine ⟨le_antisymm ?_ (umpa_cost_nonneg hw h true), ?_⟩
  · rw [← hz]; exact (umpa_dark_optimal hw h hm hv).2 beta K
  · have hK : fitK true (used true (terms ref mat r m win i j a b)) = K ∧
        fitBeta true (used true (terms ref mat r m win i j a b)) = beta := by
      rw [terms_eq hw h] at hdet ⊢
      simp only at hdet
      set s := cells ref.d (2 * r + 1) (2 * r + 1)
      have hI : ∀ c ∈ s, iOf mat r i j c = beta * imMean ref + K * rOf ref r m i j a b c := by
        intro c hc
        rw [mem_cells] at hc
        exact he c.1 hc.1 c.2.1 (by omega) c.2.2 (by omega)
      have e4 : ∑ c ∈ s, wOf win c * (imMean ref * iOf mat r i j c) =
          beta * (∑ c ∈ s, wOf win c * imMean ref ^ 2) + K * ∑ c ∈ s, wOf win c * (imMean ref * rOf ref r m i j a b c) := by
        rw [Finset.mul_sum, Finset.mul_sum, ← Finset.sum_add_distrib]
        exact Finset.sum_congr rfl fun c hc => by rw [hI c hc]; ring
      have e5 : ∑ c ∈ s, wOf win c * (rOf ref r m i j a b c * iOf mat r i j c) =
          beta * (∑ c ∈ s, wOf win c * (imMean ref * rOf ref r m i j a b c))
            + K * ∑ c ∈ s, wOf win c * rOf ref r m i j a b c ^ 2 := by
        rw [Finset.mul_sum, Finset.mul_sum, ← Finset.sum_add_distrib]
        exact Finset.sum_congr rfl fun c hc => by rw [hI c hc]; ring
      simp only [used, fitK, fitBeta, if_true]
      rw [e4, e5]
      constructor <;> (rw [div_eq_iff hdet]; ring)
    unfold transDark
    simp only [hK.1, hK.2]

/-- **C52.** Without dark signal, `mat = K * ref` (shifted) gives cost zero. -/
theorem umpa_exact {ref mat : Arr3 ℝ} {r m i j a b : ℕ} {win : ℕ → ℕ → ℝ} (hw : GoodWindow r win)
    (h : Inside ref mat r m i j a b) (hv : NonZero ref r m win i j a b) {K : ℝ}
    (he : ∀ k < ref.d, ∀ u ≤ 2 * r, ∀ v ≤ 2 * r, mat.get k (i - r + u) (j - r + v)
      = K * ref.get k (i - m + a - r + u) (j - m + b - r + v)) :
    cost false (terms ref mat r m win i j a b) = 0 := by
  have hz : residual ref mat r m win i j a b 0 K = 0 := by
    rw [residual_eq]
    refine Finset.sum_eq_zero fun c hc => ?_
    rw [mem_cells] at hc
    have := he c.1 hc.1 c.2.1 (by omega) c.2.2 (by omega)
    unfold iOf rOf
    rw [this]; ring
  refine le_antisymm ?_ (umpa_cost_nonneg hw h false)
  rw [← hz]; exact (umpa_optimal hw h hv).2 K

/-- **C52.** If the data are exact at one shift `(a, b)` and no other shift has zero cost, the shift returned by method
"diff" is less than one pixel from `(b - m, a - m)`. -/
theorem umpa_shift {ref mat : Arr3 ℝ} {r m i j a b : ℕ} {win : ℕ → ℕ → ℝ} (hw : GoodWindow r win)
    (h : ∀ a' ≤ 2 * m, ∀ b' ≤ 2 * m, Inside ref mat r m i j a' b') (ha : a ≤ 2 * m) (hb : b ≤ 2 * m) (dark : Bool)
    (hzero : cost dark (terms ref mat r m win i j a b) = 0)
    (honly : ∀ a' ≤ 2 * m, ∀ b' ≤ 2 * m, cost dark (terms ref mat r m win i j a' b') = 0 → a' = a ∧ b' = b)
    (size : Int) :
    ∃ x y, shiftAt ref mat r m win dark .diff size i j = .ok (x, y) ∧
      |x - ((b : ℝ) - m)| < 1 ∧ |y - ((a : ℝ) - m)| < 1 := by
  obtain ⟨y0, hy0, x0, hx0, hmin, q, hq, hok⟩ := locate_peak_min (m := costMap ref mat r m win dark i j)
    (by show 0 < 2 * m + 1; omega) (by show 0 < 2 * m + 1; omega) true .diff 2 size
  have hy0 : y0 < 2 * m + 1 := hy0
  have hx0 : x0 < 2 * m + 1 := hx0
  have hle : cost dark (terms ref mat r m win i j y0 x0) ≤ 0 := by
    rw [← hzero]
    exact hmin a (by show a < 2 * m + 1; omega) b (by show b < 2 * m + 1; omega)
  have hz := le_antisymm hle (umpa_cost_nonneg hw (h y0 (by omega) x0 (by omega)) dark)
  obtain ⟨rfl, rfl⟩ := honly y0 (by omega) x0 (by omega) hz
  obtain ⟨h1, h2⟩ := hok.2.2.2.2.2.1 rfl
  refine ⟨q.1 - m, q.2 - m, ?_, ?_, ?_⟩
  · unfold shiftAt
    simp only [bind, Except.bind, hq]
  · rwa [show q.1 - (m : ℝ) - (x0 - m) = q.1 - x0 by ring]
  · rwa [show q.2 - (m : ℝ) - (y0 - m) = q.2 - y0 by ring]

/-! ### Non-vacuity: one 1x1 window, margin 1, two images -/

def exUmRef : Arr3 ℝ := ⟨2, 3, 3, fun k i j => if k = 0 ∧ i = 0 ∧ j = 2 then 3 else 1⟩
def exUmMat : Arr3 ℝ := ⟨2, 3, 3, fun k _ _ => if k = 0 then 9 else 3⟩

theorem exUm_window : GoodWindow 0 (fun _ _ => 1) := ⟨fun _ _ _ _ => zero_le_one, by simp⟩

theorem exUm_inside (a b : ℕ) (ha : a ≤ 2) (hb : b ≤ 2) : Inside exUmRef exUmMat 0 1 1 1 a b :=
  ⟨rfl, rfl, rfl, by norm_num, by norm_num [exUmRef], by norm_num, by norm_num [exUmRef], by omega, by omega⟩

/-- The hypotheses of the optimality theorems hold at the map entry `(0, 2)`, and the data are three times the reference
there. -/
example : NonZero exUmRef 0 1 (fun _ _ => 1) 1 1 0 2 ∧ Varied exUmRef 0 1 (fun _ _ => 1) 1 1 0 2 ∧
    cost false (terms exUmRef exUmMat 0 1 (fun _ _ => 1) 1 1 0 2) = 0 := by
  have hn : NonZero exUmRef 0 1 (fun _ _ => 1) 1 1 0 2 :=
    ⟨0, by norm_num [exUmRef], 0, le_refl _, 0, le_refl _, one_pos, by norm_num [exUmRef]⟩
  refine ⟨hn, ?_, ?_⟩
  · exact ⟨0, by norm_num [exUmRef], 1, by norm_num [exUmRef], 0, le_refl _, 0, le_refl _, 0, le_refl _, 0, le_refl _,
      one_pos, one_pos, by norm_num [exUmRef]⟩
  · refine umpa_exact exUm_window (exUm_inside 0 2 (by norm_num) (le_refl _)) hn (K := 3) ?_
    intro k hk u hu v hv
    obtain rfl : u = 0 := by omega
    obtain rfl : v = 0 := by omega
    by_cases h0 : k = 0
    · subst h0; norm_num [exUmRef, exUmMat]
    · norm_num [exUmRef, exUmMat, h0]

end Verif.Umpa
