import Verif.Model.Correlation
import Mathlib.Algebra.Order.BigOperators.Ring.Finset
import Mathlib.Algebra.BigOperators.Ring.Finset
import Mathlib.Tactic.Linarith
import Mathlib.Tactic.FieldSimp
import Mathlib.Tactic.Ring
import Mathlib.Tactic.NormNum
import Mathlib.Tactic.LinearCombination

/-!
C50: the correlation coefficient is bounded by one and reaches one exactly at increasing affine copies.
-/

set_option linter.unusedSectionVars false
set_option linter.unusedSimpArgs false

namespace Verif.Correlation
open Finset

/-! ### Specification -/

/-- `f` is an affine copy of `g` with gain `a` and offset `b` on the whole block. -/
def AffineCopy (d h w : ℕ) (f g : ℕ → ℕ → ℕ → ℝ) (a b : ℝ) : Prop :=
  ∀ i < d, ∀ j < h, ∀ k < w, f i j k = a * g i j k + b

/-- `f` takes two different values in the block. -/
def NonConstant (d h w : ℕ) (f : ℕ → ℕ → ℕ → ℝ) : Prop :=
  ∃ i < d, ∃ j < h, ∃ k < w, ∃ i' < d, ∃ j' < h, ∃ k' < w, f i j k ≠ f i' j' k'

/-! ### Flattening the three loops -/

/-- The cells of the block. -/
def cells (d h w : ℕ) : Finset (ℕ × ℕ × ℕ) := range d ×ˢ range h ×ˢ range w

/-- Uncurried access. -/
def unc (f : ℕ → ℕ → ℕ → ℝ) (c : ℕ × ℕ × ℕ) : ℝ := f c.1 c.2.1 c.2.2

theorem sum3_eq (d h w : ℕ) (f : ℕ → ℕ → ℕ → ℝ) : sum3 d h w f = ∑ c ∈ cells d h w, unc f c := by
  unfold sum3 cells unc
  rw [Finset.sum_product]
  refine Finset.sum_congr rfl fun i _ => ?_
  rw [Finset.sum_product]

theorem card_cells (d h w : ℕ) : (cells d h w).card = d * h * w := by
  simp [cells, Finset.card_product, mul_assoc]

theorem mem_cells {d h w : ℕ} {c : ℕ × ℕ × ℕ} : c ∈ cells d h w ↔ c.1 < d ∧ c.2.1 < h ∧ c.2.2 < w := by
  simp [cells]

/-- Pearson coefficient over a finite set. -/
noncomputable def mean {ι : Type} (s : Finset ι) (f : ι → ℝ) : ℝ := (∑ c ∈ s, f c) / s.card
noncomputable def dev {ι : Type} (s : Finset ι) (f : ι → ℝ) (c : ι) : ℝ := f c - mean s f
noncomputable def var {ι : Type} (s : Finset ι) (f : ι → ℝ) : ℝ := ∑ c ∈ s, dev s f c * dev s f c
noncomputable def cov {ι : Type} (s : Finset ι) (f g : ι → ℝ) : ℝ := ∑ c ∈ s, dev s f c * dev s g c

theorem coefCpu_eq (d h w : ℕ) (f g : ℕ → ℕ → ℕ → ℝ) :
    coefCpu d h w f g =
      if Real.sqrt (var (cells d h w) (unc f) * var (cells d h w) (unc g)) ≠ 0 then
        cov (cells d h w) (unc f) (unc g) / Real.sqrt (var (cells d h w) (unc f) * var (cells d h w) (unc g))
      else 0 := by
  have hm : ∀ f : ℕ → ℕ → ℕ → ℝ, mean3 d h w f = mean (cells d h w) (unc f) := by
    intro f; unfold mean3 mean; rw [sum3_eq, card_cells]
  unfold coefCpu
  dsimp only
  rw [sum3_eq, sum3_eq, sum3_eq, hm f, hm g]
  rfl

section
variable {ι : Type} (s : Finset ι)

theorem var_nonneg (f : ι → ℝ) : 0 ≤ var s f := Finset.sum_nonneg fun c _ => mul_self_nonneg _

theorem cov_sq_le (f g : ι → ℝ) : cov s f g ^ 2 ≤ var s f * var s g := by
  have := Finset.sum_mul_sq_le_sq_mul_sq s (dev s f) (dev s g)
  simpa [cov, var, sq] using this

theorem mean_affine {f g : ι → ℝ} {a b : ℝ} (hs : s.Nonempty) (h : ∀ c ∈ s, f c = a * g c + b) :
    mean s f = a * mean s g + b := by
  have hc : (s.card : ℝ) ≠ 0 := by exact_mod_cast hs.card_pos.ne'
  unfold mean
  rw [Finset.sum_congr rfl h, Finset.sum_add_distrib, ← Finset.mul_sum, Finset.sum_const, nsmul_eq_mul]
  field_simp

theorem dev_affine {f g : ι → ℝ} {a b : ℝ} (h : ∀ c ∈ s, f c = a * g c + b) {c : ι} (hc : c ∈ s) :
    dev s f c = a * dev s g c := by
  unfold dev
  rw [mean_affine s ⟨c, hc⟩ h, h c hc]; ring

theorem var_affine {f g : ι → ℝ} {a b : ℝ} (h : ∀ c ∈ s, f c = a * g c + b) : var s f = a ^ 2 * var s g := by
  unfold var
  rw [Finset.mul_sum]
  refine Finset.sum_congr rfl fun c hc => ?_
  rw [dev_affine s h hc]; ring

theorem cov_affine_left {f g k : ι → ℝ} {a b : ℝ} (h : ∀ c ∈ s, f c = a * g c + b) :
    cov s f k = a * cov s g k := by
  unfold cov
  rw [Finset.mul_sum]
  refine Finset.sum_congr rfl fun c hc => ?_
  rw [dev_affine s h hc]; ring

theorem cov_comm (f g : ι → ℝ) : cov s f g = cov s g f := by
  unfold cov; exact Finset.sum_congr rfl fun c _ => mul_comm _ _

theorem cov_self (f : ι → ℝ) : cov s f f = var s f := rfl

theorem var_eq_zero {f : ι → ℝ} (h : var s f = 0) {c : ι} (hc : c ∈ s) : f c = mean s f := by
  have := (Finset.sum_eq_zero_iff_of_nonneg (fun c _ => mul_self_nonneg (dev s f c))).1 h c hc
  have := mul_self_eq_zero.1 this
  unfold dev at this; linarith

theorem var_pos {f : ι → ℝ} {c c' : ι} (hc : c ∈ s) (hc' : c' ∈ s) (hne : f c ≠ f c') : 0 < var s f := by
  rcases (var_nonneg s f).lt_or_eq with h | h
  · exact h
  · exact absurd ((var_eq_zero s h.symm hc).trans (var_eq_zero s h.symm hc').symm) hne

theorem var_const {f : ι → ℝ} {a : ℝ} (h : ∀ c ∈ s, f c = a) : var s f = 0 := by
  have := var_affine s (f := f) (g := f) (a := 0) (b := a) (fun c hc => by simp [h c hc])
  simpa using this

/-- Equality case of Cauchy-Schwarz for deviations. -/
theorem dev_of_cov_sq {f g : ι → ℝ} (h : cov s f g ^ 2 = var s f * var s g) (hg : 0 < var s g) {c : ι} (hc : c ∈ s) :
    dev s f c = cov s f g / var s g * dev s g c := by
  set t := cov s f g / var s g with ht
  have hz : ∑ c ∈ s, (dev s f c - t * dev s g c) ^ 2 = 0 := by
    have e : ∑ c ∈ s, (dev s f c - t * dev s g c) ^ 2 = var s f - 2 * t * cov s f g + t ^ 2 * var s g := by
      unfold var cov
      rw [Finset.mul_sum, Finset.mul_sum, ← Finset.sum_sub_distrib, ← Finset.sum_add_distrib]
      exact Finset.sum_congr rfl fun c _ => by ring
    rw [e, ht]
    have hg' := hg.ne'
    field_simp
    nlinarith [h]
  have := (Finset.sum_eq_zero_iff_of_nonneg (fun c _ => sq_nonneg (dev s f c - t * dev s g c))).1 hz c hc
  have := pow_eq_zero_iff (two_ne_zero) |>.1 this
  linarith

end

theorem nonConstant_pos {d h w : ℕ} {f : ℕ → ℕ → ℕ → ℝ} (hn : NonConstant d h w f) :
    0 < var (cells d h w) (unc f) := by
  obtain ⟨i, hi, j, hj, k, hk, i', hi', j', hj', k', hk', hne⟩ := hn
  exact var_pos _ (c := (i, j, k)) (c' := (i', j', k')) (mem_cells.2 ⟨hi, hj, hk⟩) (mem_cells.2 ⟨hi', hj', hk'⟩) hne

theorem not_nonConstant {d h w : ℕ} {f : ℕ → ℕ → ℕ → ℝ} (hn : ¬ NonConstant d h w f) :
    var (cells d h w) (unc f) = 0 := by
  by_contra hv
  have hv := (var_nonneg _ _).lt_of_ne' hv
  have hne : (cells d h w).Nonempty := by
    by_contra hne
    rw [Finset.not_nonempty_iff_eq_empty] at hne
    simp [var, hne] at hv
  obtain ⟨c0, hc0⟩ := hne
  refine hv.ne' (var_const _ (a := unc f c0) fun c hc => ?_)
  by_contra hx
  rw [mem_cells] at hc hc0
  exact hn ⟨c.1, hc.1, c.2.1, hc.2.1, c.2.2, hc.2.2, c0.1, hc0.1, c0.2.1, hc0.2.1, c0.2.2, hc0.2.2, hx⟩

theorem affine_unc {d h w : ℕ} {f g : ℕ → ℕ → ℕ → ℝ} {a b : ℝ} (hf : AffineCopy d h w f g a b) :
    ∀ c ∈ cells d h w, unc f c = a * unc g c + b := by
  intro c hc
  rw [mem_cells] at hc
  exact hf _ hc.1 _ hc.2.1 _ hc.2.2

/-! ### The coefficient -/

/-- **C50.** Every coefficient lies in `[-1, 1]`. -/
theorem coef_bounded (d h w : ℕ) (f g : ℕ → ℕ → ℕ → ℝ) : -1 ≤ coefCpu d h w f g ∧ coefCpu d h w f g ≤ 1 := by
  rw [coefCpu_eq, ← abs_le]
  set s := cells d h w
  split_ifs with h0
  · rw [abs_div, abs_of_nonneg (Real.sqrt_nonneg _), div_le_one (lt_of_le_of_ne (Real.sqrt_nonneg _) (Ne.symm h0))]
    exact Real.abs_le_sqrt (cov_sq_le s _ _)
  · simp

/-- The coefficient is 0 when the template or the patch is constant. -/
theorem coef_constant {d h w : ℕ} {f g : ℕ → ℕ → ℕ → ℝ} (hc : ¬ NonConstant d h w f ∨ ¬ NonConstant d h w g) :
    coefCpu d h w f g = 0 := by
  rw [coefCpu_eq, if_neg]
  rw [not_not]
  rcases hc with hc | hc <;> rw [not_nonConstant hc] <;> simp

theorem coef_of_var {d h w : ℕ} {f g : ℕ → ℕ → ℕ → ℝ} (hf : 0 < var (cells d h w) (unc f))
    (hg : 0 < var (cells d h w) (unc g)) :
    coefCpu d h w f g = cov (cells d h w) (unc f) (unc g) /
      Real.sqrt (var (cells d h w) (unc f) * var (cells d h w) (unc g)) := by
  rw [coefCpu_eq, if_pos (Real.sqrt_pos.2 (mul_pos hf hg)).ne']

theorem coef_affine {d h w : ℕ} {f g : ℕ → ℕ → ℕ → ℝ} {a b : ℝ} (hn : NonConstant d h w g) (ha : a ≠ 0)
    (hf : AffineCopy d h w f g a b) : coefCpu d h w f g = a / |a| := by
  have hg := nonConstant_pos hn
  have hv := var_affine _ (affine_unc hf)
  have hvf : 0 < var (cells d h w) (unc f) := by rw [hv]; positivity
  rw [coef_of_var hvf hg, cov_affine_left _ (affine_unc hf), cov_self, hv]
  have : a ^ 2 * var (cells d h w) (unc g) * var (cells d h w) (unc g) = (|a| * var (cells d h w) (unc g)) ^ 2 := by
    rw [mul_pow, sq_abs]; ring
  rw [this, Real.sqrt_sq (by positivity)]
  rw [mul_div_mul_right _ _ hg.ne']

/-- **C50.** The coefficient is 1 exactly when the template is an increasing affine copy of a non-constant patch. -/
theorem coef_eq_one_iff {d h w : ℕ} {f g : ℕ → ℕ → ℕ → ℝ} :
    coefCpu d h w f g = 1 ↔ NonConstant d h w g ∧ ∃ a b : ℝ, 0 < a ∧ AffineCopy d h w f g a b := by
  constructor
  · intro h1
    have hg : NonConstant d h w g := by
      by_contra hc; rw [coef_constant (Or.inr hc)] at h1; norm_num at h1
    have hf : NonConstant d h w f := by
      by_contra hc; rw [coef_constant (Or.inl hc)] at h1; norm_num at h1
    refine ⟨hg, ?_⟩
    have hg := nonConstant_pos hg
    have hf := nonConstant_pos hf
    rw [coef_of_var hf hg] at h1
    have hp := Real.sqrt_pos.2 (mul_pos hf hg)
    rw [div_eq_one_iff_eq hp.ne'] at h1
    set s := cells d h w
    have hsq : cov s (unc f) (unc g) ^ 2 = var s (unc f) * var s (unc g) := by
      rw [h1, Real.sq_sqrt (mul_pos hf hg).le]
    have hcp : 0 < cov s (unc f) (unc g) := by rw [h1]; exact hp
    refine ⟨cov s (unc f) (unc g) / var s (unc g),
      mean s (unc f) - cov s (unc f) (unc g) / var s (unc g) * mean s (unc g), div_pos hcp hg, ?_⟩
    intro i hi j hj k hk
    have := dev_of_cov_sq s hsq hg (c := (i, j, k)) (mem_cells.2 ⟨hi, hj, hk⟩)
    unfold dev at this
    change f i j k - _ = _ * (g i j k - _) at this
    linarith
  · rintro ⟨hn, a, b, ha, hf⟩
    rw [coef_affine hn ha.ne' hf, abs_of_pos ha, div_self ha.ne']

/-- The coefficient is -1 at a decreasing affine copy. -/
theorem coef_eq_neg_one {d h w : ℕ} {f g : ℕ → ℕ → ℕ → ℝ} {a b : ℝ} (hn : NonConstant d h w g) (ha : a < 0)
    (hf : AffineCopy d h w f g a b) : coefCpu d h w f g = -1 := by
  rw [coef_affine hn ha.ne hf, abs_of_neg ha, div_neg, div_self ha.ne]

theorem coef_comm (d h w : ℕ) (f g : ℕ → ℕ → ℕ → ℝ) : coefCpu d h w f g = coefCpu d h w g f := by
  rw [coefCpu_eq, coefCpu_eq, cov_comm, mul_comm (var _ (unc f))]

/-- Changing brightness and (positive) contrast of the template does not change the map. -/
theorem coef_gain_invariant {d h w : ℕ} {f f' g : ℕ → ℕ → ℕ → ℝ} {a b : ℝ} (ha : 0 < a)
    (hf : AffineCopy d h w f' f a b) : coefCpu d h w f' g = coefCpu d h w f g := by
  rw [coefCpu_eq, coefCpu_eq, cov_affine_left _ (affine_unc hf), var_affine _ (affine_unc hf)]
  have : a ^ 2 * var (cells d h w) (unc f) * var (cells d h w) (unc g)
      = a ^ 2 * (var (cells d h w) (unc f) * var (cells d h w) (unc g)) := by ring
  rw [this, Real.sqrt_mul (sq_nonneg a), Real.sqrt_sq ha.le]
  by_cases h0 : Real.sqrt (var (cells d h w) (unc f) * var (cells d h w) (unc g)) = 0
  · simp [h0]
  · rw [if_pos (mul_ne_zero ha.ne' h0), if_pos h0, mul_div_mul_left _ _ ha.ne']

/-! ### The map -/

/-- **C50.** `generate_correlation_map` succeeds exactly when the template fits and depths agree; then the map has
shape `(h0-h1+1, w0-w1+1)`, all its entries are in `[-1,1]`, and the entry at `(y, x)` is 1 exactly where the template is
an increasing affine copy of the (non-constant) patch of the reference at `(y, x)`. -/
theorem correlation_map_spec (ref mat : Arr3 ℝ) :
    (mat.h ≤ ref.h ∧ mat.w ≤ ref.w ∧ ref.d = mat.d →
      ∃ m, correlationMap ref mat = .ok m ∧ m.h + mat.h = ref.h + 1 ∧ m.w + mat.w = ref.w + 1 ∧
        ∀ y < m.h, ∀ x < m.w, -1 ≤ m.get y x ∧ m.get y x ≤ 1 ∧
          (m.get y x = 1 ↔
            NonConstant mat.d mat.h mat.w (fun i j k => ref.get i (y + j) (x + k)) ∧
            ∃ a b : ℝ, 0 < a ∧ AffineCopy mat.d mat.h mat.w mat.get (fun i j k => ref.get i (y + j) (x + k)) a b)) ∧
    (¬ (mat.h ≤ ref.h ∧ mat.w ≤ ref.w ∧ ref.d = mat.d) → correlationMap ref mat = .error .valueError) := by
  constructor
  · rintro ⟨hh, hw, hd⟩
    refine ⟨⟨ref.h - mat.h + 1, ref.w - mat.w + 1, fun y x => coefCpu mat.d mat.h mat.w mat.get (patch ref y x)⟩,
      ?_, ?_, ?_, ?_⟩
    · unfold correlationMap
      rw [if_neg (by omega), if_neg (by simpa using hd)]
    · show ref.h - mat.h + 1 + mat.h = _; omega
    · show ref.w - mat.w + 1 + mat.w = _; omega
    · intro y _ x _
      exact ⟨(coef_bounded _ _ _ _ _).1, (coef_bounded _ _ _ _ _).2, coef_eq_one_iff⟩
  · intro hn
    unfold correlationMap
    by_cases h1 : ref.h < mat.h ∨ ref.w < mat.w
    · rw [if_pos h1]
    · rw [if_neg h1, if_pos (by intro hd; exact hn ⟨by omega, by omega, hd⟩)]

theorem sum_shift (y h : ℕ) (f : ℕ → ℝ) : ∑ j ∈ Ico y (y + h), f j = ∑ j ∈ range h, f (y + j) := by
  rw [Finset.sum_Ico_eq_sum_range]; simp

/-- `gridDim` blocks of the given size cover the axis. -/
theorem grid_covers {size block n : ℕ} (hb : 0 < block) (hn : n < size) : n < gridDim size block * block := by
  unfold gridDim
  have := Nat.div_add_mod (size + block - 1) block
  have := Nat.mod_lt (size + block - 1) hb
  rw [mul_comm]; omega

/-- **C50.** The GPU branch gives the same map as the CPU branch for every block shape. -/
theorem correlation_map_gpu_eq_cpu (ref mat : Arr3 ℝ) {bx by' : ℕ} (hx : 0 < bx) (hy : 0 < by') :
    (∀ e, correlationMap ref mat = .error e → correlationMapGpu ref mat bx by' = .error e) ∧
    ∀ m, correlationMap ref mat = .ok m → ∃ m', correlationMapGpu ref mat bx by' = .ok m' ∧ m'.Eqv m := by
  unfold correlationMap correlationMapGpu
  by_cases h1 : ref.h < mat.h ∨ ref.w < mat.w
  · simp only [if_pos h1]; simp
  · simp only [if_neg h1]
    by_cases h2 : ref.d ≠ mat.d
    · simp only [if_pos h2]; simp
    · simp only [if_neg h2]
      refine ⟨by simp, ?_⟩
      rintro m ⟨⟩
      refine ⟨_, rfl, rfl, rfl, ?_⟩
      intro y hyy x hxx
      have hyy : y < ref.h - mat.h + 1 := hyy
      have hxx : x < ref.w - mat.w + 1 := hxx
      have hd : ref.d = mat.d := by simpa using h2
      dsimp only
      rw [if_pos ⟨grid_covers hx (lt_of_lt_of_le hxx (le_max_right _ _)),
        grid_covers hy (lt_of_lt_of_le hyy (le_max_left _ _))⟩]
      unfold threadGpu
      rw [if_pos ⟨hyy, hxx⟩]
      dsimp only
      simp only [sum_shift, Nat.add_sub_cancel_left]
      unfold coefCpu
      dsimp only
      rw [hd, mul_comm (∑ i ∈ range mat.d, _)]
      change (if Real.sqrt (_ * sum3 mat.d mat.h mat.w _) ≠ 0 then _ else none).getD 0 = _
      by_cases h0 : Real.sqrt ((sum3 mat.d mat.h mat.w fun i j k =>
            (mat.get i j k - mean3 mat.d mat.h mat.w mat.get) * (mat.get i j k - mean3 mat.d mat.h mat.w mat.get)) *
          sum3 mat.d mat.h mat.w fun i j k =>
            (patch ref y x i j k - mean3 mat.d mat.h mat.w (patch ref y x)) *
              (patch ref y x i j k - mean3 mat.d mat.h mat.w (patch ref y x))) = 0
      · rw [if_neg (not_not.2 h0)]
        rw [if_neg (not_not.2 (by exact h0))]
        rfl
      · rw [if_pos h0]
        rw [if_pos (by exact h0)]
        rfl

/-! ### Non-vacuity: a 3x3 reference that contains the 1x2 template with gain 2 at (1, 0) -/

def exRef : Arr3 ℝ := ⟨1, 2, 3, fun _ i j => if i = 1 ∧ j = 1 then 5 else 1⟩
def exMat : Arr3 ℝ := ⟨1, 1, 2, fun _ _ j => if j = 1 then 8 else 0⟩

example : ∃ m, correlationMap exRef exMat = .ok m ∧ m.h = 2 ∧ m.w = 2 ∧ m.get 1 0 = 1 ∧ m.get 0 0 = 0 ∧
    m.get 1 1 = -1 := by
  refine ⟨_, by unfold correlationMap; rw [if_neg (by simp [exRef, exMat]), if_neg (by simp [exRef, exMat])], rfl, rfl, ?_, ?_, ?_⟩
  · rw [coef_eq_one_iff]
    refine ⟨⟨0, by norm_num [exMat], 0, by norm_num [exMat], 0, by norm_num [exMat], 0, by norm_num [exMat], 0,
      by norm_num [exMat], 1, by norm_num [exMat], by norm_num [patch, exRef]⟩, 2, -2, by norm_num, ?_⟩
    intro i hi j hj k hk
    have hj : j < 1 := hj
    have hk : k < 2 := hk
    obtain rfl : j = 0 := by omega
    have : k = 0 ∨ k = 1 := by omega
    rcases this with rfl | rfl <;> norm_num [patch, exRef, exMat]
  · refine coef_constant (Or.inr ?_)
    rintro ⟨i, hi, j, hj, k, hk, i', hi', j', hj', k', hk', hne⟩
    have hj : j < 1 := hj
    have hj' : j' < 1 := hj'
    apply hne
    obtain rfl : j = 0 := by omega
    obtain rfl : j' = 0 := by omega
    simp [patch, exRef]
  · refine coef_eq_neg_one (a := -2) (b := 10) ⟨0, by norm_num [exMat], 0, by norm_num [exMat], 0, by norm_num [exMat], 0, by norm_num [exMat], 0,
      by norm_num [exMat], 1, by norm_num [exMat], by norm_num [patch, exRef]⟩ (by norm_num) ?_
    intro i hi j hj k hk
    have hj : j < 1 := hj
    have hk : k < 2 := hk
    obtain rfl : j = 0 := by omega
    have : k = 0 ∨ k = 1 := by omega
    rcases this with rfl | rfl <;> norm_num [patch, exRef, exMat]

end Verif.Correlation
