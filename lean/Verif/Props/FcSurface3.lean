import Verif.Props.FcSurface2

/-!
C115: final statements on `reconstruct_surface_from_gradient_FC_method` with its default window.
-/

set_option linter.unusedSectionVars false
set_option linter.unusedSimpArgs false

namespace Verif.PhaseFft
open Complex Finset Verif.Fourier Verif.Phase

/-! ### The operators on functions of one variable -/

theorem op_cosX {h w k : ℕ} (hh : 0 < h) (hk : k < w) (i j : ℕ) :
    (op (2 * h) (2 * w) (mX h w) (fun _ q => ((cosMode w k q : ℝ) : ℂ)) i j).re = 2 * w / k * sinMode w k j := by
  rcases Nat.eq_zero_or_pos k with rfl | hk0
  · have := op_eigen (h := 2 * h) (w := 2 * w) (mX h w) (k := 0) (l := 0) (by omega) (by omega) i j
    rw [mX_zero hh hk, zero_mul] at this
    rw [op_congr (mult' := mX h w) (y := fun p q : ℕ => ph (2 * h) ((0 : ℕ) * p) * ph (2 * w) ((0 : ℕ) * q)) (fun _ _ _ _ => rfl)
      (fun p _ q _ => by simp [cosMode, ph_zero]), this]
    simp
  · have e : (fun (_ q : ℕ) => ((cosMode w k q : ℝ) : ℂ)) = fun p q : ℕ =>
        (exp (Real.pi * k / (2 * w) * I) / 2) * (ph (2 * h) ((0 : ℕ) * p) * ph (2 * w) (k * q)) +
        (exp (-(Real.pi * k / (2 * w) * I)) / 2) * (ph (2 * h) ((0 : ℕ) * p) * ph (2 * w) ((2 * w - k : ℕ) * q)) := by
      funext p q
      rw [cosMode_ph w k q hk0 hk]
      simp [ph_zero]
    rw [e, op_comb, op_eigen _ (by omega) (by omega), op_eigen _ (by omega) (by omega), mX_pos hh hk0 hk, mX_neg hh hk0 hk]
    have e2 : ph (2 * w) ((2 * w - k : ℕ) * j) = ph (2 * w) (-(k * j)) := by
      have := ph_neg_freq (2 * w) k (by omega) (by omega) (j : ℤ)
      rwa [Nat.mod_eq_of_lt (by omega)] at this
    have e3 := sin_phase (Real.pi * k / (2 * w)) (Real.pi * k * j / w) (2 * w / k)
    have hw : (w : ℂ) ≠ 0 := by exact_mod_cast (by omega : w ≠ 0)
    have hwr : (w : ℝ) ≠ 0 := by exact_mod_cast (by omega : w ≠ 0)
    rw [e2]
    have a1 : ph (2 * w) (k * j) = exp (((Real.pi * k * j / w : ℝ) : ℂ) * I) := by
      unfold ph; congr 1; push_cast; field_simp
    have a2 : ph (2 * w) (-(k * j)) = exp (-(((Real.pi * k * j / w : ℝ) : ℂ) * I)) := by
      unfold ph; congr 1; push_cast; field_simp
    rw [a1, a2]
    simp only [Nat.cast_zero, zero_mul, ph_zero, one_mul]
    push_cast at e3 ⊢
    rw [e3]
    unfold sinMode
    congr 2
    field_simp
    ring

theorem op_cosY {h w k : ℕ} (hw : 0 < w) (hk : k < h) (i j : ℕ) :
    (op (2 * h) (2 * w) (mY h w) (fun p _ => ((cosMode h k p : ℝ) : ℂ)) i j).re = 2 * w / k * sinMode h k i := by
  rcases Nat.eq_zero_or_pos k with rfl | hk0
  · have := op_eigen (h := 2 * h) (w := 2 * w) (mY h w) (k := 0) (l := 0) (by omega) (by omega) i j
    rw [mY_zero hk hw, zero_mul] at this
    rw [op_congr (mult' := mY h w) (y := fun p q : ℕ => ph (2 * h) ((0 : ℕ) * p) * ph (2 * w) ((0 : ℕ) * q)) (fun _ _ _ _ => rfl)
      (fun p _ q _ => by simp [cosMode, ph_zero]), this]
    simp
  · have e : (fun (p _ : ℕ) => ((cosMode h k p : ℝ) : ℂ)) = fun p q : ℕ =>
        (exp (Real.pi * k / (2 * h) * I) / 2) * (ph (2 * h) (k * p) * ph (2 * w) ((0 : ℕ) * q)) +
        (exp (-(Real.pi * k / (2 * h) * I)) / 2) * (ph (2 * h) ((2 * h - k : ℕ) * p) * ph (2 * w) ((0 : ℕ) * q)) := by
      funext p q
      rw [cosMode_ph h k p hk0 hk]
      simp [ph_zero]
    rw [e, op_comb, op_eigen _ (by omega) (by omega), op_eigen _ (by omega) (by omega), mY_pos hw hk0 hk, mY_neg hw hk0 hk]
    have e2 : ph (2 * h) ((2 * h - k : ℕ) * i) = ph (2 * h) (-(k * i)) := by
      have := ph_neg_freq (2 * h) k (by omega) (by omega) (i : ℤ)
      rwa [Nat.mod_eq_of_lt (by omega)] at this
    have e3 := sin_phase (Real.pi * k / (2 * h)) (Real.pi * k * i / h) (2 * w / k)
    have hh : (h : ℂ) ≠ 0 := by exact_mod_cast (by omega : h ≠ 0)
    have hhr : (h : ℝ) ≠ 0 := by exact_mod_cast (by omega : h ≠ 0)
    rw [e2]
    have a1 : ph (2 * h) (k * i) = exp (((Real.pi * k * i / h : ℝ) : ℂ) * I) := by
      unfold ph; congr 1; push_cast; field_simp
    have a2 : ph (2 * h) (-(k * i)) = exp (-(((Real.pi * k * i / h : ℝ) : ℂ) * I)) := by
      unfold ph; congr 1; push_cast; field_simp
    rw [a1, a2]
    simp only [Nat.cast_zero, zero_mul, ph_zero, mul_one]
    push_cast at e3 ⊢
    rw [e3]
    unfold sinMode
    congr 2
    field_simp
    ring

theorem op_sum {ι : Type} (s : Finset ι) (h w : ℕ) (mult : ℕ → ℕ → ℂ) (c : ι → ℂ) (x : ι → ℕ → ℕ → ℂ) (i j : ℕ) :
    op h w mult (fun p q => ∑ k ∈ s, c k * x k p q) i j = ∑ k ∈ s, c k * op h w mult (x k) i j := by
  classical
  induction s using Finset.induction_on with
  | empty =>
    simp only [Finset.sum_empty]
    have := op_smul h w mult 0 (fun _ _ => 0) i j
    simp only [zero_mul] at this
    exact this
  | insert a s ha ih =>
    simp only [Finset.sum_insert ha]
    rw [op_add, op_smul, ih]

/-- **C115.** Gradients that vary along one axis each, given by their cosine series: the surface is the sum of the two series integrated term by term,
the constant terms (a tilt of the surface) being lost.  The factor `w / (pi k)` is the integral of the horizontal cosine; for the vertical cosine
the integral would be `h / (pi k)`. -/
theorem fc_axis_gradients {h w : ℕ} (hh : 0 < h) (hw : 0 < w) (a b : ℕ → ℝ) :
    ∃ out, surfaceFC ⟨h, w, fun _ j => ∑ k ∈ range w, a k * cosMode w k j⟩ ⟨h, w, fun i _ => ∑ k ∈ range h, b k * cosMode h k i⟩ false .default = .ok out ∧
      ∀ i < h, ∀ j < w, out.get i j =
        ∑ k ∈ Ico 1 w, a k * (w / (Real.pi * k)) * sinMode w k j + ∑ k ∈ Ico 1 h, b k * (w / (Real.pi * k)) * sinMode h k i := by
  set gx : Mat ℝ := ⟨h, w, fun _ j => ∑ k ∈ range w, a k * cosMode w k j⟩ with hgx
  set gy : Mat ℝ := ⟨h, w, fun i _ => ∑ k ∈ range h, b k * cosMode h k i⟩ with hgy
  refine ⟨_, surfaceFC_default gx gy false rfl rfl, fun i hi j hj => ?_⟩
  rw [correctNeg_false]
  unfold fcPlain
  rw [fcCore_get (gx := gx) (gy := gy) rfl rfl]
  show 1 / 2 / Real.pi * (op (2 * h) (2 * w) (mX h w) (dbl gx) (h + i) j + op (2 * h) (2 * w) (mY h w) (dbl gy) (h + i) j).re = _
  have e1 : op (2 * h) (2 * w) (mX h w) (dbl gx) (h + i) j = ∑ k ∈ range w, (a k : ℂ) * op (2 * h) (2 * w) (mX h w) (fun _ q => ((cosMode w k q : ℝ) : ℂ)) (h + i) j := by
    rw [← op_sum]
    refine op_congr (fun _ _ _ _ => rfl) (fun p _ q hq => ?_) _ _
    unfold dbl
    rw [double_get]
    show ((∑ k ∈ range w, a k * cosMode w k (colOf w q) : ℝ) : ℂ) = _
    push_cast
    refine sum_congr rfl fun k _ => ?_
    rw [cosMode_colOf w k q hq]
  have e2 : op (2 * h) (2 * w) (mY h w) (dbl gy) (h + i) j = ∑ k ∈ range h, (b k : ℂ) * op (2 * h) (2 * w) (mY h w) (fun p _ => ((cosMode h k p : ℝ) : ℂ)) i j := by
    have hs : i = swap h (h + i) := by unfold swap; split_ifs <;> omega
    rw [← op_sum]
    conv_rhs => rw [hs]
    rw [← op_swap_row h _ _ _ (h + i) j (by omega)]
    refine op_congr (fun _ _ _ _ => rfl) (fun p hp q _ => ?_) _ _
    unfold dbl
    rw [double_get]
    show ((∑ k ∈ range h, b k * cosMode h k (rowOf h p) : ℝ) : ℂ) = _
    push_cast
    refine sum_congr rfl fun k _ => ?_
    rw [← cosMode_colOf h k (swap h p) (swap_lt hp), ← rowOf_swap (swap_lt hp), swap_swap hp]
  rw [e1, e2, add_re, re_sum, re_sum]
  simp only [re_ofReal_mul]
  rw [sum_congr rfl fun k hk => by rw [op_cosX hh (mem_range.1 hk)], sum_congr rfl (s₁ := range h) fun k hk => by rw [op_cosY hw (mem_range.1 hk)]]
  rw [mul_add, mul_sum, mul_sum, Finset.range_eq_Ico, Finset.range_eq_Ico]
  rw [Finset.sum_eq_sum_Ico_succ_bot hw, Finset.sum_eq_sum_Ico_succ_bot hh]
  simp only [Nat.cast_zero, div_zero, zero_mul, mul_zero, zero_add]
  have hpi := Real.pi_ne_zero
  congr 1
  · refine sum_congr rfl fun k hk => ?_
    have : (k : ℝ) ≠ 0 := by have := (mem_Ico.1 hk).1; exact_mod_cast (by omega : k ≠ 0)
    field_simp
  · refine sum_congr rfl fun k hk => ?_
    have : (k : ℝ) ≠ 0 := by have := (mem_Ico.1 hk).1; exact_mod_cast (by omega : k ≠ 0)
    field_simp

/-! ### Symmetries -/

theorem shift_odd {n k : ℕ} (hk : k < 2 * n) (hkn : k ≠ n) :
    ((ifftshiftIdx (2 * n) ((2 * n - k) % (2 * n)) : ℕ) : ℝ) - (n : ℝ) = -(((ifftshiftIdx (2 * n) k : ℕ) : ℝ) - (n : ℝ)) := by
  unfold ifftshiftIdx
  rw [show 2 * n / 2 = n by omega]
  rcases Nat.eq_zero_or_pos k with rfl | h0
  · simp [Nat.mod_eq_of_lt (show n < 2 * n by omega)]
  · rw [Nat.mod_eq_of_lt (a := 2 * n - k) (by omega)]
    rcases lt_or_gt_of_ne hkn with hlt | hgt
    · rw [Nat.mod_eq_of_lt (a := k + n) (by omega), show 2 * n - k + n = (n - k) + 2 * n by omega, Nat.add_mod_right,
        Nat.mod_eq_of_lt (a := n - k) (by omega), Nat.cast_sub hlt.le]
      push_cast; ring
    · rw [Nat.mod_eq_of_lt (a := 2 * n - k + n) (by omega), show k + n = (k - n) + 2 * n by omega, Nat.add_mod_right,
        Nat.mod_eq_of_lt (a := k - n) (by omega), Nat.cast_sub hgt.le]
      push_cast [Nat.cast_sub hk.le]
      ring

theorem fcWin_row {h w : ℕ} {k : ℕ} (hk : k < 2 * h) (j : ℕ) :
    fcWin (2 * h) (2 * w) (ifftshiftIdx (2 * h) ((2 * h - k) % (2 * h))) j = fcWin (2 * h) (2 * w) (ifftshiftIdx (2 * h) k) j := by
  have := shift_neg hk
  rw [fcWin_eq, fcWin_eq, div_pow, div_pow, div_pow, this.1]
  simp only [this.2]

theorem fcWin_col {h w : ℕ} {l : ℕ} (hl : l < 2 * w) (i : ℕ) :
    fcWin (2 * h) (2 * w) i (ifftshiftIdx (2 * w) ((2 * w - l) % (2 * w))) = fcWin (2 * h) (2 * w) i (ifftshiftIdx (2 * w) l) := by
  have := shift_neg hl
  rw [fcWin_eq, fcWin_eq, div_pow, div_pow, div_pow, this.1]
  simp only [this.2]

theorem mX_oddCol (h w : ℕ) : OddCol (2 * h) w (mX h w) := by
  intro k hk l hl hn
  unfold mX mG
  rw [fcWin_col hl, fcU_eq, fcU_eq, shift_odd hl hn, neg_div]
  push_cast; ring

theorem mX_evenRow (h w : ℕ) : EvenRow (2 * h) (2 * w) (mX h w) := by
  intro k hk l hl
  unfold mX mG
  rw [fcWin_row hk, fcU_eq, fcU_eq]

theorem mY_oddRow (h w : ℕ) : OddRow h (2 * w) (mY h w) := by
  intro k hk l hl hn
  unfold mY mG
  rw [fcWin_row hk, fcV_eq, fcV_eq, shift_odd hk hn, neg_div]
  push_cast; ring

theorem mY_evenCol (h w : ℕ) : EvenCol (2 * h) (2 * w) (mY h w) := by
  intro k hk l hl
  unfold mY mG
  rw [fcWin_col hl, fcV_eq, fcV_eq]

theorem dbl_col (g : Mat ℝ) (p q : ℕ) (hq : q < 2 * g.w) : dbl g p (2 * g.w - 1 - q) = dbl g p q := by
  unfold dbl; rw [double_get, double_get, colOf_reflect hq]

theorem dbl_row (g : Mat ℝ) (p q : ℕ) (hp : p < 2 * g.h) : dbl g (2 * g.h - 1 - p) q = dbl g p q := by
  unfold dbl; rw [double_get, double_get, rowOf_reflect hp]

theorem dbl_mirror (g : Mat ℝ) (p q : ℕ) (hq : q < 2 * g.w) : dbl (mirror g) p q = dbl g p (swap g.w q) := by
  unfold dbl
  rw [double_get, double_get, ← colOf_flip hq]; rfl

theorem dbl_flip (g : Mat ℝ) (p q : ℕ) (hp : p < 2 * g.h) : dbl (flip g) p q = dbl g (swap g.h p) q := by
  unfold dbl
  rw [double_get, double_get, ← rowOf_flip hp]; rfl

theorem dbl_negate (g : Mat ℝ) (p q : ℕ) : dbl (negate g) p q = -dbl g p q := by
  unfold dbl
  rw [double_get, double_get, ← ofReal_neg]; rfl

theorem op_neg (h w : ℕ) (mult x : ℕ → ℕ → ℂ) (i j : ℕ) : op h w mult (fun p q => -x p q) i j = -op h w mult x i j := by
  have := op_smul h w mult (-1) x i j
  simp only [neg_one_mul] at this
  exact this

theorem fcPlain_get {gx gy : Mat ℝ} {h w : ℕ} (h1 : gx.h = h) (h2 : gx.w = w) (h3 : gy.h = h) (h4 : gy.w = w) (i j : ℕ) : (fcPlain gx gy).get i j =
    (1 / 2 / Real.pi) * (op (2 * h) (2 * w) (mX h w) (dbl gx) (h + i) j + op (2 * h) (2 * w) (mY h w) (dbl gy) (h + i) j).re := by
  subst h1 h2
  exact fcCore_get h3 h4 _ _ _ i j

theorem opX_mirror {g : Mat ℝ} {h w : ℕ} (h2 : g.w = w) (r j : ℕ) (hj : j < w) :
    op (2 * h) (2 * w) (mX h w) (dbl (negate (mirror g))) r j = op (2 * h) (2 * w) (mX h w) (dbl g) r (w - 1 - j) := by
  subst h2
  have hs : swap g.w j = 2 * g.w - 1 - (g.w - 1 - j) := by unfold swap; split_ifs <;> omega
  rw [op_congr (mult' := mX h g.w) (y := fun p q => -dbl g p (swap g.w q)) (fun _ _ _ _ => rfl) (fun p _ q hq => by
      rw [dbl_negate, dbl_mirror g p q hq]), op_neg, op_swap_col _ _ _ _ _ _ (by omega), hs,
      op_odd_col (mX_oddCol _ _) (fun p _ q hq => dbl_col g p q hq) _ _ (by omega), neg_neg]

theorem opY_mirror {g : Mat ℝ} {h w : ℕ} (h2 : g.w = w) (r j : ℕ) (hj : j < w) :
    op (2 * h) (2 * w) (mY h w) (dbl (mirror g)) r j = op (2 * h) (2 * w) (mY h w) (dbl g) r (w - 1 - j) := by
  subst h2
  have hs : swap g.w j = 2 * g.w - 1 - (g.w - 1 - j) := by unfold swap; split_ifs <;> omega
  rw [op_congr (mult' := mY h g.w) (y := fun p q => dbl g p (swap g.w q)) (fun _ _ _ _ => rfl) (fun p _ q hq => by
      rw [dbl_mirror g p q hq]), op_swap_col _ _ _ _ _ _ (by omega), hs, ← op_reflect_col (mY_evenCol _ _) _ _ _ (by omega)]
  exact op_congr (fun _ _ _ _ => rfl) (fun p _ q hq => dbl_col g p q hq) _ _

theorem opX_flip {g : Mat ℝ} {h w : ℕ} (h1 : g.h = h) (i j : ℕ) (hi : i < h) :
    op (2 * h) (2 * w) (mX h w) (dbl (flip g)) (h + i) j = op (2 * h) (2 * w) (mX h w) (dbl g) (h + (h - 1 - i)) j := by
  subst h1
  have hs : swap g.h (g.h + i) = 2 * g.h - 1 - (g.h + (g.h - 1 - i)) := by unfold swap; split_ifs <;> omega
  rw [op_congr (mult' := mX g.h w) (y := fun p q => dbl g (swap g.h p) q) (fun _ _ _ _ => rfl) (fun p hp q _ => by
      rw [dbl_flip g p q hp]), op_swap_row _ _ _ _ _ _ (by omega), hs, ← op_reflect_row (mX_evenRow _ _) _ _ _ (by omega)]
  exact op_congr (fun _ _ _ _ => rfl) (fun p hp q _ => dbl_row g p q hp) _ _

theorem opY_flip {g : Mat ℝ} {h w : ℕ} (h1 : g.h = h) (i j : ℕ) (hi : i < h) :
    op (2 * h) (2 * w) (mY h w) (dbl (negate (flip g))) (h + i) j = op (2 * h) (2 * w) (mY h w) (dbl g) (h + (h - 1 - i)) j := by
  subst h1
  have hs : swap g.h (g.h + i) = 2 * g.h - 1 - (g.h + (g.h - 1 - i)) := by unfold swap; split_ifs <;> omega
  rw [op_congr (mult' := mY g.h w) (y := fun p q => -dbl g (swap g.h p) q) (fun _ _ _ _ => rfl) (fun p hp q _ => by
      rw [dbl_negate, dbl_flip g p q hp]), op_neg, op_swap_row _ _ _ _ _ _ (by omega), hs,
      op_odd_row (mY_oddRow _ _) (fun p hp q _ => dbl_row g p q hp) _ _ (by omega), neg_neg]

theorem fcPlain_mirror {gx gy : Mat ℝ} (hh : gy.h = gx.h) (hw : gy.w = gx.w) :
    (fcPlain (negate (mirror gx)) (mirror gy)).Eqv (mirror (fcPlain gx gy)) := by
  refine ⟨rfl, rfl, fun i hi j hj => ?_⟩
  have hj : j < gx.w := hj
  have e := fcPlain_get (gx := gx) (gy := gy) rfl rfl hh hw i (gx.w - 1 - j)
  have e' := fcPlain_get (gx := negate (mirror gx)) (gy := mirror gy) (h := gx.h) (w := gx.w) rfl rfl hh hw i j
  rw [opX_mirror rfl _ _ hj, opY_mirror hw _ _ hj] at e'
  exact e'.trans e.symm

theorem fcPlain_flip {gx gy : Mat ℝ} (hh : gy.h = gx.h) (hw : gy.w = gx.w) :
    (fcPlain (flip gx) (negate (flip gy))).Eqv (flip (fcPlain gx gy)) := by
  refine ⟨rfl, rfl, fun i hi j hj => ?_⟩
  have hi : i < gx.h := hi
  have e := fcPlain_get (gx := gx) (gy := gy) rfl rfl hh hw (gx.h - 1 - i) j
  have e' := fcPlain_get (gx := flip gx) (gy := negate (flip gy)) (h := gx.h) (w := gx.w) rfl rfl hh hw i j
  rw [opX_flip rfl _ _ hi, opY_flip hh _ _ hi] at e'
  exact e'.trans e.symm

theorem mXY_square (n k l : ℕ) : mY n n l k = mX n n k l := by
  unfold mX mY mG
  have e1 : ∀ a b, fcV (2 * n) (2 * n) b a = fcU (2 * n) (2 * n) a b := fun a b => by rw [fcU_eq, fcV_eq]
  have e2 : ∀ a b, fcWin (2 * n) (2 * n) b a = fcWin (2 * n) (2 * n) a b := fun a b => by
    rw [fcWin_eq, fcWin_eq, add_comm]; simp only [and_comm]
  rw [e1, e2]

theorem dbl_transp (g : Mat ℝ) (p q : ℕ) (hp : p < 2 * g.w) (hq : q < 2 * g.h) : dbl (transp g) p q = dbl g (swap g.h q) (swap g.w p) := by
  unfold dbl
  rw [double_get, double_get, rowOf_swap hq, colOf_swap hp]; rfl

/-- The operators on the transposed image of a square image. -/
theorem op_transp_square {n : ℕ} {g : Mat ℝ} (hh : g.h = n) (hw : g.w = n) {mult mult' : ℕ → ℕ → ℂ} (hm : ∀ k l, mult' l k = mult k l)
    (i j : ℕ) (hi : i < n) (hj : j < n) :
    op (2 * n) (2 * n) mult' (dbl (transp g)) (n + i) j = op (2 * n) (2 * n) mult (dbl g) (n + j) i := by
  rw [show n + j = swap n j by unfold swap; split_ifs <;> omega]
  obtain ⟨t, ht, hti⟩ : ∃ t, t = n + i ∧ i = swap n t := ⟨n + i, rfl, by unfold swap; split_ifs <;> omega⟩
  rw [← ht, hti, ← op_swap_row n _ _ _ j _ (by omega), ← op_swap_col _ n _ _ _ t (by omega)]
  refine Eq.trans ?_ (op_transpose (2 * n) (2 * n) mult (fun p q => dbl g (swap n p) (swap n q)) t j)
  exact op_congr (fun k _ l _ => hm l k) (fun a ha b hb => by rw [dbl_transp g a b (by omega) (by omega), hh, hw]) t j

theorem fcPlain_transp {n : ℕ} {gx gy : Mat ℝ} (h1 : gx.h = n) (h2 : gx.w = n) (h3 : gy.h = n) (h4 : gy.w = n) :
    (fcPlain (transp gy) (transp gx)).Eqv (transp (fcPlain gx gy)) := by
  refine ⟨h4.trans h2.symm, h3.trans h1.symm, fun i hi j hj => ?_⟩
  have hi : i < n := h4 ▸ hi
  have hj : j < n := h3 ▸ hj
  have e := fcPlain_get (gx := gx) (gy := gy) h1 h2 h3 h4 j i
  have e' := fcPlain_get (gx := transp gy) (gy := transp gx) (h := n) (w := n) h4 h3 h2 h1 i j
  rw [op_transp_square (mult' := mY n n) (mult := mX n n) h1 h2 (fun k l => mXY_square n k l) i j hi hj] at e'
  rw [op_transp_square (mult' := mX n n) (mult := mY n n) h3 h4 (fun k l => (mXY_square n l k).symm) i j hi hj, add_comm] at e'
  exact e'.trans e.symm

/-- **C115.** With the default window: mirroring the surface (mirrored gradients, the horizontal one negated) and turning it upside down. -/
theorem fc_mirror (gx gy : Mat ℝ) (hh : gx.h = gy.h) (hw : gx.w = gy.w) : ∃ u, surfaceFC gx gy false .default = .ok u ∧
    (∃ v, surfaceFC (negate (mirror gx)) (mirror gy) false .default = .ok v ∧ v.Eqv (mirror u)) ∧
    (∃ v, surfaceFC (flip gx) (negate (flip gy)) false .default = .ok v ∧ v.Eqv (flip u)) := by
  refine ⟨_, surfaceFC_default gx gy false hh hw, ⟨_, surfaceFC_default _ _ false hh hw, ?_⟩, ⟨_, surfaceFC_default _ _ false hh hw, ?_⟩⟩
  · rw [correctNeg_false, correctNeg_false]; exact fcPlain_mirror hh.symm hw.symm
  · rw [correctNeg_false, correctNeg_false]; exact fcPlain_flip hh.symm hw.symm

/-- Rows and columns are treated alike: exchanging them in both gradients exchanges them in the surface. -/
def FcIsotropic (h w : ℕ) : Prop := ∀ gx gy u v : Mat ℝ, gx.h = h → gx.w = w → surfaceFC gx gy false .default = .ok u →
  surfaceFC (transp gy) (transp gx) false .default = .ok v → v.Eqv (transp u)

/-- **C115.** `FcIsotropic` holds exactly for square images (of at least two pixels): otherwise all vertical slopes are scaled by `w / h`. -/
theorem fc_isotropic_iff (h w : ℕ) (hh : 2 ≤ h) (hw : 2 ≤ w) : FcIsotropic h w ↔ h = w := by
  constructor
  · intro H
    obtain ⟨u, hu, eu⟩ := fc_axis_gradients (h := h) (w := w) (by omega) (by omega) (fun _ => 0) (fun k => if k = 1 then 1 else 0)
    obtain ⟨v, hv, ev⟩ := fc_axis_gradients (h := w) (w := h) (by omega) (by omega) (fun k => if k = 1 then 1 else 0) (fun _ => 0)
    have := H _ _ u v rfl rfl hu hv
    have hvw : v.h = w ∧ v.w = h := by
      have := (fc_surface_spec ⟨w, h, fun _ j => ∑ k ∈ range h, (if k = 1 then 1 else 0) * cosMode h k j⟩
        ⟨w, h, fun i _ => ∑ k ∈ range w, 0 * cosMode w k i⟩ false .default).1 ⟨rfl, rfl, trivial⟩
      obtain ⟨o, ho, h1, h2, -⟩ := this
      rw [hv] at ho
      obtain rfl : v = o := Except.ok.inj ho
      exact ⟨h1, h2⟩
    have e := this.2.2 0 (by rw [hvw.1]; omega) 0 (by rw [hvw.2]; omega)
    have e' : v.get 0 0 = u.get 0 0 := e
    rw [eu 0 (by omega) 0 (by omega), ev 0 (by omega) 0 (by omega)] at e'
    simp only [zero_mul, Finset.sum_const_zero, zero_add, add_zero, ite_mul, one_mul] at e'
    rw [Finset.sum_ite_eq' (Ico 1 h) 1, if_pos (by rw [mem_Ico]; omega), Finset.sum_ite_eq' (Ico 1 h) 1, if_pos (by rw [mem_Ico]; omega)] at e'
    have hs : 0 < sinMode h 1 0 := by
      unfold sinMode
      have h2 : (2 : ℝ) ≤ h := by exact_mod_cast hh
      have hp := Real.pi_pos
      apply Real.sin_pos_of_pos_of_lt_pi
      · positivity
      · rw [div_lt_iff₀ (by positivity)]
        push_cast
        nlinarith
    have e2 := mul_right_cancel₀ hs.ne' e'
    have hp := Real.pi_ne_zero
    push_cast at e2
    field_simp at e2
    exact_mod_cast e2
  · rintro rfl gx gy u v h1 h2 hu hv
    have s1 : gx.h = gy.h ∧ gx.w = gy.w := by
      by_contra hc
      rw [(fc_surface_spec gx gy false .default).2 (fun h => hc ⟨h.1, h.2.1⟩)] at hu
      exact nomatch hu
    rw [surfaceFC_default gx gy false s1.1 s1.2, correctNeg_false] at hu
    rw [surfaceFC_default (transp gy) (transp gx) false s1.2.symm s1.1.symm, correctNeg_false] at hv
    rw [← Except.ok.inj hu, ← Except.ok.inj hv]
    exact fcPlain_transp h1 h2 (s1.1 ▸ h1) (s1.2 ▸ h2)

/-- The gradient of a plane is reconstructed as that plane (up to its offset). -/
def FcPlanes (h w : ℕ) : Prop := ∀ (a b : ℝ) (u : Mat ℝ), surfaceFC ⟨h, w, fun _ _ => a⟩ ⟨h, w, fun _ _ => b⟩ false .default = .ok u →
  ∃ c : ℝ, ∀ i < h, ∀ j < w, u.get i j = a * j + b * i + c

/-- **C115.** Constant gradients give the zero surface: the tilt of the surface is lost, not only its mean. -/
theorem fc_constant_gradients {h w : ℕ} (hh : 0 < h) (hw : 0 < w) (a b : ℝ) :
    ∃ u, surfaceFC ⟨h, w, fun _ _ => a⟩ ⟨h, w, fun _ _ => b⟩ false .default = .ok u ∧ ∀ i < h, ∀ j < w, u.get i j = 0 := by
  obtain ⟨u, hu, eu⟩ := fc_axis_gradients hh hw (fun k => if k = 0 then a else 0) (fun k => if k = 0 then b else 0)
  refine ⟨u, ?_, fun i hi j hj => ?_⟩
  · have e1 : ∀ (n : ℕ) (c : ℝ) (x : ℕ), 0 < n → ∑ k ∈ range n, (if k = 0 then c else 0) * cosMode n k x = c := by
      intro n c x hn
      rw [Finset.sum_eq_single 0]
      · simp [cosMode]
      · intro k _ hk; rw [if_neg hk, zero_mul]
      · intro hc; exact absurd (mem_range.2 hn) hc
    simp only [e1 w a _ hw, e1 h b _ hh] at hu
    exact hu
  · rw [eu i hi j hj, Finset.sum_eq_zero, Finset.sum_eq_zero, add_zero]
    · intro k hk; rw [if_neg (by have := (mem_Ico.1 hk).1; omega), zero_mul, zero_mul]
    · intro k hk; rw [if_neg (by have := (mem_Ico.1 hk).1; omega), zero_mul, zero_mul]

theorem fc_planes_refuted (h w : ℕ) (hh : 0 < h) (hw : 2 ≤ w) : ¬ FcPlanes h w := by
  intro H
  obtain ⟨u, hu, e0⟩ := fc_constant_gradients (h := h) (w := w) hh (by omega) 1 0
  obtain ⟨c, hc⟩ := H 1 0 u hu
  have h0 := hc 0 hh 0 (by omega)
  have h1 := hc 0 hh 1 (by omega)
  rw [e0 0 hh 0 (by omega)] at h0
  rw [e0 0 hh 1 (by omega)] at h1
  push_cast at h0 h1
  linarith

/-- A non-trivial instance: the gradient of one horizontal wave on a 3 x 8 image is integrated exactly. -/
example : ∃ u, surfaceFC ⟨3, 8, fun _ j => ∑ k ∈ range 8, (if k = 2 then 1 else 0) * cosMode 8 k j⟩ ⟨3, 8, fun i _ => ∑ k ∈ range 3, 0 * cosMode 3 k i⟩ false .default = .ok u ∧
    u.get 1 5 = 8 / (Real.pi * 2) * sinMode 8 2 5 := by
  obtain ⟨u, hu, e⟩ := fc_axis_gradients (h := 3) (w := 8) (by norm_num) (by norm_num) (fun k => if k = 2 then 1 else 0) (fun _ => 0)
  refine ⟨u, hu, ?_⟩
  rw [e 1 (by norm_num) 5 (by norm_num)]
  simp only [zero_mul, Finset.sum_const_zero, add_zero, ite_mul, one_mul]
  rw [Finset.sum_ite_eq' (Ico 1 8) 2, if_pos (by simp)]
  norm_num

end Verif.PhaseFft
