import Verif.Model.NdiSpline
import Verif.Props.NdiGauss
import Verif.Props.Savgol
import Verif.Props.Dfi
import Verif.Props.ForwardProj
import Verif.Props.StackShift
import Verif.Props.Wedge180
import Verif.Props.Background
import Verif.Props.External
import Mathlib.LinearAlgebra.Matrix.Gershgorin

/-! The splines of `scipy.ndimage` go through the samples, are linear in them and keep constants: the laws assumed of them elsewhere. -/

set_option linter.unusedSectionVars false
set_option linter.unusedSimpArgs false

namespace Verif.Ndi
open Finset Matrix

/-- What is used of a B-spline of order `2 r + 1`. -/
structure GoodBeta (β : ℝ → ℝ) (r : ℕ) : Prop where
  nonneg : ∀ u, 0 ≤ β u
  even : ∀ u, β (-u) = β u
  zero : ∀ u, (r : ℝ) + 1 ≤ |u| → β u = 0
  mid : 1 / 2 < β 0
  unit : ∀ t, 0 ≤ t → t < 1 → ∑ o ∈ range (2 * r + 2), β (t - ((o : ℝ) - r)) = 1

/-- What is used of a boundary rule: indices inside are kept, the others brought inside. -/
structure GoodBnd (bnd : ℕ → ℤ → ℕ) : Prop where
  lt : ∀ n i, 0 < n → bnd n i < n
  id : ∀ n (k : ℕ), k < n → bnd n (k : ℤ) = k

theorem mirror_good : GoodBnd StripeFilters.mirrorIdx :=
  ⟨fun _ i hn => StripeFilters.mirrorIdx_lt hn i, fun n k hk => by
    have := StripeFilters.mirrorIdx_id (n := n) (i := (k : ℤ)) (by omega) (by omega)
    rw [this, Int.toNat_natCast]⟩

theorem reflect_good : GoodBnd Sorting.reflectIdx :=
  ⟨fun _ i hn => reflect_lt hn i, fun n k hk => by
    unfold Sorting.reflectIdx
    dsimp only
    rw [Int.emod_eq_of_lt (by omega) (by omega), Int.toNat_natCast, if_pos hk]⟩

theorem beta3_good : GoodBeta beta3 1 where
  nonneg u := by
    unfold beta3
    have h0 := abs_nonneg u
    split_ifs with h1 h2
    · nlinarith [pow_nonneg h0 3, mul_nonneg h0 h0]
    · have : 0 ≤ 2 - |u| := by linarith
      positivity
    · exact le_rfl
  even u := by unfold beta3; rw [abs_neg]
  zero u hu := by
    unfold beta3
    norm_num at hu
    rw [if_neg (by linarith), if_neg (by linarith)]
  mid := by
    unfold beta3
    norm_num
  unit t h0 h1 := by
    rw [show 2 * 1 + 2 = 4 from rfl]
    simp only [Finset.sum_range_succ, Finset.sum_range_zero, zero_add]
    push_cast
    have a0 : beta3 (t - (0 - 1)) = (1 - t) ^ 3 / 6 := by
      unfold beta3
      rw [abs_of_nonneg (by linarith), if_neg (by linarith), if_pos (by linarith)]
      ring
    have a1 : beta3 (t - (1 - 1)) = 2 / 3 - t ^ 2 + t ^ 3 / 2 := by
      unfold beta3
      rw [abs_of_nonneg (by linarith), if_pos (by linarith)]
      ring
    have a2 : beta3 (t - (2 - 1)) = 2 / 3 - (1 - t) ^ 2 + (1 - t) ^ 3 / 2 := by
      unfold beta3
      rw [abs_of_nonpos (by linarith)]
      by_cases ht : t = 0
      · subst ht; norm_num
      · have : 0 < t := lt_of_le_of_ne h0 (Ne.symm ht)
        rw [if_pos (by linarith)]
        ring
    have a3 : beta3 (t - (3 - 1)) = t ^ 3 / 6 := by
      unfold beta3
      rw [abs_of_nonpos (by linarith), if_neg (by linarith)]
      by_cases ht : t = 0
      · subst ht; norm_num
      · have : 0 < t := lt_of_le_of_ne h0 (Ne.symm ht)
        rw [if_pos (by linarith)]
        ring
    rw [a0, a1, a2, a3]
    ring

theorem beta5_good : GoodBeta beta5 2 where
  nonneg u := by
    unfold beta5
    have h0 := abs_nonneg u
    generalize |u| = v at *
    split_ifs with h1 h2 h3
    · have e1 : v ^ 2 ≤ 1 := by nlinarith
      have e2 : v ^ 5 ≤ v ^ 4 := by
        have := pow_nonneg h0 4
        nlinarith
      have := pow_nonneg h0 4
      nlinarith
    · have e : 17 / 40 + 5 * v / 8 - 7 * v ^ 2 / 4 + 5 * v ^ 3 / 4 - 3 * v ^ 4 / 8 + v ^ 5 / 24 = ((3 - v) ^ 5 - 6 * (2 - v) ^ 5) / 120 := by ring
      rw [e]
      have a : 0 < 2 - v := by linarith
      have b : 2 * (2 - v) ≤ 3 - v := by linarith
      have c : (2 * (2 - v)) ^ 5 ≤ (3 - v) ^ 5 := pow_le_pow_left₀ (by linarith) b 5
      have d : 0 ≤ (2 - v) ^ 5 := by positivity
      have : (2 * (2 - v)) ^ 5 = 32 * (2 - v) ^ 5 := by ring
      linarith
    · have : 0 ≤ 3 - v := by linarith
      positivity
    · exact le_rfl
  even u := by unfold beta5; rw [abs_neg]
  zero u hu := by
    unfold beta5
    norm_num at hu
    rw [if_neg (by linarith), if_neg (by linarith), if_neg (by linarith)]
  mid := by
    unfold beta5
    norm_num
  unit t h0 h1 := by
    rw [show 2 * 2 + 2 = 6 from rfl]
    simp only [Finset.sum_range_succ, Finset.sum_range_zero, zero_add]
    push_cast
    have p1 : ∀ u : ℝ, 0 ≤ u → u ≤ 1 → beta5 u = 11 / 20 - u ^ 2 / 2 + u ^ 4 / 4 - u ^ 5 / 12 := by
      intro u k0 k1
      unfold beta5
      rw [abs_of_nonneg k0]
      by_cases hu : u = 1
      · subst hu; norm_num
      · rw [if_pos (lt_of_le_of_ne k1 hu)]
    have p2 : ∀ u : ℝ, 1 ≤ u → u ≤ 2 → beta5 u = 17 / 40 + 5 * u / 8 - 7 * u ^ 2 / 4 + 5 * u ^ 3 / 4 - 3 * u ^ 4 / 8 + u ^ 5 / 24 := by
      intro u k0 k1
      unfold beta5
      rw [abs_of_nonneg (by linarith), if_neg (by linarith)]
      by_cases hu : u = 2
      · subst hu; norm_num
      · rw [if_pos (lt_of_le_of_ne k1 hu)]
    have p3 : ∀ u : ℝ, 2 ≤ u → u ≤ 3 → beta5 u = (3 - u) ^ 5 / 120 := by
      intro u k0 k1
      unfold beta5
      rw [abs_of_nonneg (by linarith), if_neg (by linarith), if_neg (by linarith)]
      by_cases hu : u = 3
      · subst hu; norm_num
      · rw [if_pos (lt_of_le_of_ne k1 hu)]
    have ev : ∀ u : ℝ, beta5 (-u) = beta5 u := fun u => by unfold beta5; rw [abs_neg]
    rw [show t - (3 - 2) = -(1 - t) by ring, show t - (4 - 2) = -(2 - t) by ring, show t - (5 - 2) = -(3 - t) by ring, ev, ev, ev,
      p3 _ (by linarith) (by linarith), p2 _ (by linarith) (by linarith), p1 (t - (2 - 2)) (by linarith) (by linarith),
      p1 (1 - t) (by linarith) (by linarith), p2 (2 - t) (by linarith) (by linarith), p3 (3 - t) (by linarith) (by linarith)]
    ring

variable {β : ℝ → ℝ} {r : ℕ} {bnd : ℕ → ℤ → ℕ}

theorem beta_ints (hβ : GoodBeta β r) : ∑ o ∈ range (2 * r + 1), β ((o : ℝ) - r) = 1 := by
  have h := hβ.unit 0 le_rfl one_pos
  rw [Finset.sum_range_succ, hβ.zero (0 - (((2 * r + 1 : ℕ) : ℝ) - r)) (by
    push_cast
    rw [show (0 : ℝ) - (2 * r + 1 - r) = -((r : ℝ) + 1) by ring, abs_neg]
    exact le_abs_self _), add_zero] at h
  rw [← h]
  exact Finset.sum_congr rfl fun o _ => by rw [zero_sub, hβ.even]

theorem filterMat_row (hβ : GoodBeta β r) (hb : GoodBnd bnd) {n : ℕ} (i : Fin n) : ∑ j, filterMat β r bnd n i j = 1 := by
  have hn : 0 < n := by have := i.2; omega
  unfold filterMat
  rw [Finset.sum_comm, ← beta_ints hβ]
  refine Finset.sum_congr rfl fun o _ => ?_
  rw [Finset.sum_eq_single (⟨bnd n ((i : ℕ) + o - r), hb.lt _ _ hn⟩ : Fin n)]
  · rw [if_pos rfl]
  · intro b _ h
    rw [if_neg fun e => h (Fin.ext e)]
  · simp

theorem filterMat_nonneg (hβ : GoodBeta β r) {n : ℕ} (i j : Fin n) : 0 ≤ filterMat β r bnd n i j :=
  Finset.sum_nonneg fun o _ => by split_ifs <;> [exact hβ.nonneg _; exact le_rfl]

theorem filterMat_unit (hβ : GoodBeta β r) (hb : GoodBnd bnd) (n : ℕ) : IsUnit (filterMat β r bnd n).det := by
  rw [isUnit_iff_ne_zero]
  apply det_ne_zero_of_sum_row_lt_diag
  intro k
  have hd : β 0 ≤ filterMat β r bnd n k k := by
    unfold filterMat
    have h := Finset.single_le_sum (f := fun o : ℕ => if (k : ℕ) = bnd n (((k : ℕ) : ℤ) + o - r) then β ((o : ℝ) - r) else 0)
      (fun o _ => by split_ifs <;> [exact hβ.nonneg _; exact le_rfl]) (Finset.mem_range.2 (show r < 2 * r + 1 by omega))
    rw [if_pos (by rw [add_sub_cancel_right, hb.id n k k.2]), sub_self] at h
    exact h
  have h1 : ∑ j ∈ Finset.univ.erase k, ‖filterMat β r bnd n k j‖ = 1 - filterMat β r bnd n k k := by
    rw [← filterMat_row hβ hb k, ← Finset.add_sum_erase _ _ (Finset.mem_univ k), add_sub_cancel_left]
    exact Finset.sum_congr rfl fun j _ => by rw [Real.norm_of_nonneg (filterMat_nonneg hβ k j)]
  rw [h1, Real.norm_of_nonneg (filterMat_nonneg hβ k k)]
  linarith [hβ.mid]

theorem coef_linear {n : ℕ} (f g : ℕ → ℝ) (a b : ℝ) (k : ℕ) :
    coef β r bnd n (fun i => a * f i + b * g i) k = a * coef β r bnd n f k + b * coef β r bnd n g k := by
  unfold coef
  by_cases hk : k < n
  · rw [dif_pos hk, dif_pos hk, dif_pos hk]
    have e : (fun i : Fin n => a * f i + b * g i) = a • (fun i : Fin n => f i) + b • fun i : Fin n => g i := by
      funext i
      simp
    rw [e, Matrix.mulVec_add, Matrix.mulVec_smul, Matrix.mulVec_smul]
    simp
  · rw [dif_neg hk, dif_neg hk, dif_neg hk]
    ring

theorem coef_one (hβ : GoodBeta β r) (hb : GoodBnd bnd) {n k : ℕ} (hk : k < n) (c : ℝ) : coef β r bnd n (fun _ => c) k = c := by
  unfold coef
  rw [dif_pos hk]
  have h1 : filterMat β r bnd n *ᵥ (fun _ => c) = fun _ => c := by
    funext i
    show ∑ j, filterMat β r bnd n i j * c = c
    rw [← Finset.sum_mul, filterMat_row hβ hb i, one_mul]
  have h2 : (filterMat β r bnd n)⁻¹ *ᵥ (fun _ => c) = fun _ => c := by
    conv_lhs => rw [← h1]
    rw [Matrix.mulVec_mulVec, Matrix.nonsing_inv_mul _ (filterMat_unit hβ hb n), Matrix.one_mulVec]
  rw [h2]

theorem coef_congr {n : ℕ} {f g : ℕ → ℝ} (h : ∀ i < n, f i = g i) : coef β r bnd n f = coef β r bnd n g := by
  unfold coef
  rw [show (fun i : Fin n => f i) = fun i : Fin n => g i from funext fun i => h i i.2]

/-- Linear in the samples. -/
theorem splineLine_linear (n : ℕ) (f g : ℕ → ℝ) (a b x : ℝ) :
    splineLine β r bnd n (fun i => a * f i + b * g i) x = a * splineLine β r bnd n f x + b * splineLine β r bnd n g x := by
  unfold splineLine curve
  rw [Finset.mul_sum, Finset.mul_sum, ← Finset.sum_add_distrib]
  refine Finset.sum_congr rfl fun o _ => ?_
  rw [coef_linear]
  ring

theorem splineLine_congr {n : ℕ} {f g : ℕ → ℝ} (h : ∀ i < n, f i = g i) (x : ℝ) : splineLine β r bnd n f x = splineLine β r bnd n g x := by
  unfold splineLine
  rw [coef_congr h]

/-- Constants are kept. -/
theorem splineLine_const (hβ : GoodBeta β r) (hb : GoodBnd bnd) {n : ℕ} (hn : 0 < n) (c x : ℝ) : splineLine β r bnd n (fun _ => c) x = c := by
  unfold splineLine curve
  have h := hβ.unit (x - ⌊x⌋) (by linarith [Int.floor_le x]) (by linarith [Int.lt_floor_add_one x])
  have e : ∀ o ∈ range (2 * r + 2), β (x - ((⌊x⌋ + o - r : ℤ) : ℝ)) * coef β r bnd n (fun _ => c) (bnd n (⌊x⌋ + o - r)) = β (x - ⌊x⌋ - ((o : ℝ) - r)) * c := by
    intro o _
    rw [coef_one hβ hb (hb.lt _ _ hn)]
    congr 2
    push_cast
    ring
  rw [Finset.sum_congr rfl e, ← Finset.sum_mul, h, one_mul]

/-- The curve goes through the samples. -/
theorem splineLine_exact (hβ : GoodBeta β r) (hb : GoodBnd bnd) {n k : ℕ} (hk : k < n) (f : ℕ → ℝ) : splineLine β r bnd n f k = f k := by
  have hn : 0 < n := by omega
  have hsol : (filterMat β r bnd n *ᵥ ((filterMat β r bnd n)⁻¹ *ᵥ fun i : Fin n => f i)) ⟨k, hk⟩ = f k := by
    rw [Matrix.mulVec_mulVec, Matrix.mul_nonsing_inv _ (filterMat_unit hβ hb n), Matrix.one_mulVec]
  rw [← hsol]
  unfold splineLine curve
  rw [Int.floor_natCast, Finset.sum_range_succ, hβ.zero _ (by
    push_cast
    rw [show (k : ℝ) - (k + (2 * r + 1) - r) = -((r : ℝ) + 1) by ring, abs_neg]
    exact le_abs_self _), zero_mul, add_zero]
  show _ = ∑ j, filterMat β r bnd n ⟨k, hk⟩ j * ((filterMat β r bnd n)⁻¹ *ᵥ fun i : Fin n => f i) j
  unfold filterMat
  simp only [Finset.sum_mul]
  rw [Finset.sum_comm]
  refine Finset.sum_congr rfl fun o _ => ?_
  rw [Finset.sum_eq_single (⟨bnd n ((k : ℕ) + o - r), hb.lt _ _ hn⟩ : Fin n)]
  · rw [if_pos rfl]
    unfold coef
    rw [dif_pos (hb.lt _ _ hn)]
    congr 1
    rw [← hβ.even]
    congr 1
    push_cast
    ring
  · intro b _ h
    rw [if_neg fun e => h (Fin.ext e), zero_mul]
  · simp

theorem splinePlane_exact (hβ : GoodBeta β r) (hb : GoodBnd bnd) : ForwardProj.Exact (splinePlane β r bnd) := by
  intro m i j hi hj
  unfold splinePlane
  rw [splineLine_exact hβ hb hi, splineLine_exact hβ hb hj]

theorem splinePlane_linear : ForwardProj.Linear (splinePlane β r bnd) := by
  intro m m' m'' a b h1 h2 h3 h4 h y x
  unfold splinePlane
  rw [h1, h2, h3, h4, ← splineLine_linear]
  refine splineLine_congr (fun i _ => ?_) y
  rw [← splineLine_linear]
  exact splineLine_congr (fun j _ => h i j) x

/-- **C125, C159.** The interpolation of `make_sinogram` has the properties assumed there. -/
theorem mapping5_exact : ForwardProj.Exact mapping5 := splinePlane_exact beta5_good reflect_good

theorem mapping5_linear : ForwardProj.Linear mapping5 := splinePlane_linear

/-- **C107, C108, C109.** The interpolation of the direct Fourier method has the properties assumed there. -/
theorem dfiSpline_exact : dfiSpline.Exact where
  line _ g _ hk := splineLine_exact beta3_good mirror_good hk g
  plane m i j hi hj := by
    show (⟨mapping5 _ _ _, mapping5 _ _ _⟩ : ℂ) = _
    rw [mapping5_exact ⟨m.h, m.w, fun i j => (m.get i j).re⟩ i j hi hj, mapping5_exact ⟨m.h, m.w, fun i j => (m.get i j).im⟩ i j hi hj]

theorem dfiSpline_linear : dfiSpline.Linear where
  line n g h α β t := splineLine_linear n g h α β t
  plane m m' α β y x h1 h2 := by
    refine Complex.ext ?_ ?_
    · show mapping5 _ y x = (α * (⟨mapping5 _ y x, mapping5 _ y x⟩ : ℂ) + β * (⟨mapping5 _ y x, mapping5 _ y x⟩ : ℂ)).re
      rw [Complex.add_re, Complex.mul_re, Complex.mul_re]
      have e := mapping5_linear ⟨m.h, m.w, fun i j => (m.get i j).re⟩ ⟨m.h, m.w, fun i j => (m.get i j).im⟩
        ⟨m.h, m.w, fun i j => α.re * (m.get i j).re - α.im * (m.get i j).im⟩ α.re (-α.im) rfl rfl rfl rfl (fun i j => by dsimp only; ring) y x
      have e' := mapping5_linear ⟨m'.h, m'.w, fun i j => (m'.get i j).re⟩ ⟨m'.h, m'.w, fun i j => (m'.get i j).im⟩
        ⟨m'.h, m'.w, fun i j => β.re * (m'.get i j).re - β.im * (m'.get i j).im⟩ β.re (-β.im) rfl rfl rfl rfl (fun i j => by dsimp only; ring) y x
      have e'' := mapping5_linear ⟨m.h, m.w, fun i j => α.re * (m.get i j).re - α.im * (m.get i j).im⟩
        ⟨m'.h, m'.w, fun i j => β.re * (m'.get i j).re - β.im * (m'.get i j).im⟩
        ⟨m.h, m.w, fun i j => (α * m.get i j + β * m'.get i j).re⟩ 1 1 rfl rfl h1 h2
        (fun i j => by simp only [Complex.add_re, Complex.mul_re]; ring) y x
      rw [one_mul, one_mul] at e''
      refine e''.trans ?_
      rw [e, e']
      ring
    · show mapping5 _ y x = (α * (⟨mapping5 _ y x, mapping5 _ y x⟩ : ℂ) + β * (⟨mapping5 _ y x, mapping5 _ y x⟩ : ℂ)).im
      rw [Complex.add_im, Complex.mul_im, Complex.mul_im]
      have e := mapping5_linear ⟨m.h, m.w, fun i j => (m.get i j).re⟩ ⟨m.h, m.w, fun i j => (m.get i j).im⟩
        ⟨m.h, m.w, fun i j => α.im * (m.get i j).re + α.re * (m.get i j).im⟩ α.im α.re rfl rfl rfl rfl (fun i j => rfl) y x
      have e' := mapping5_linear ⟨m'.h, m'.w, fun i j => (m'.get i j).re⟩ ⟨m'.h, m'.w, fun i j => (m'.get i j).im⟩
        ⟨m'.h, m'.w, fun i j => β.im * (m'.get i j).re + β.re * (m'.get i j).im⟩ β.im β.re rfl rfl rfl rfl (fun i j => rfl) y x
      have e'' := mapping5_linear ⟨m.h, m.w, fun i j => α.im * (m.get i j).re + α.re * (m.get i j).im⟩
        ⟨m'.h, m'.w, fun i j => β.im * (m'.get i j).re + β.re * (m'.get i j).im⟩
        ⟨m.h, m.w, fun i j => (α * m.get i j + β * m'.get i j).im⟩ 1 1 rfl rfl h1 h2
        (fun i j => by simp only [Complex.add_im, Complex.mul_im]; ring) y x
      rw [one_mul, one_mul] at e''
      refine e''.trans ?_
      rw [e, e']
      ring

/-- **C157.** Constants are kept. -/
theorem dfiSpline_keeps : Wedge180.KeepsConst dfiSpline := by
  intro n g c t hg h0 h1
  have hn : 0 < n := by
    rcases Nat.eq_zero_or_pos n with h | h
    · subst h
      norm_num at h1
      linarith
    · exact h
  exact (splineLine_congr hg t).trans (splineLine_const beta3_good mirror_good hn c t)

/-! ### Mode "nearest" -/

theorem nearestLine_exact (hb : GoodBnd bnd) {n k : ℕ} (hk : k < n) (f : ℕ → ℝ) : nearestLine bnd n f k = f k := by
  unfold nearestLine
  have hk' : (k : ℝ) + 1 ≤ n := by exact_mod_cast hk
  rw [max_eq_left (by positivity), min_eq_left (by linarith), show (k : ℝ) + 12 = ((k + 12 : ℕ) : ℝ) by push_cast; ring,
    splineLine_exact beta3_good hb (by omega)]
  unfold edgePad
  rw [Nat.add_sub_cancel, min_eq_left (by omega)]

/-- At whole positions outside the samples the first or the last one is returned. -/
theorem nearestLine_int (hb : GoodBnd bnd) {n : ℕ} (hn : 0 < n) (f : ℕ → ℝ) (z : ℤ) : nearestLine bnd n f z = f (max 0 (min z ((n : ℤ) - 1))).toNat := by
  unfold nearestLine
  set q : ℤ := min (max (z + 12) 0) ((n : ℤ) + 23) with hq
  obtain ⟨k, hk⟩ := Int.eq_ofNat_of_zero_le (show 0 ≤ q by omega)
  have e : min (max ((z : ℝ) + 12) 0) ((n : ℝ) + 23) = (k : ℝ) := by
    have h : ((q : ℤ) : ℝ) = ((k : ℤ) : ℝ) := by rw [hk]
    rw [hq] at h
    push_cast at h
    exact h
  rw [e, splineLine_exact beta3_good hb (show k < n + 24 by omega)]
  unfold edgePad
  congr 1
  omega

theorem nearestLine_affine (hb : GoodBnd bnd) (n : ℕ) (f : ℕ → ℝ) (a b x : ℝ) : nearestLine bnd n (fun i => a * f i + b) x = a * nearestLine bnd n f x + b := by
  unfold nearestLine
  generalize min (max (x + 12) 0) ((n : ℝ) + 23) = t
  have h := splineLine_linear (β := beta3) (r := 1) (bnd := bnd) (n + 24) (edgePad n f) (fun _ => 1) a b t
  rw [splineLine_const beta3_good hb (by omega), mul_one] at h
  rw [← h]
  exact splineLine_congr (fun i _ => by unfold edgePad; ring) t

theorem nearestLine_congr {n : ℕ} (hn : 0 < n) {f g : ℕ → ℝ} (h : ∀ i < n, f i = g i) (x : ℝ) : nearestLine bnd n f x = nearestLine bnd n g x := by
  unfold nearestLine
  exact splineLine_congr (fun i _ => by unfold edgePad; exact h _ (by omega)) _

/-- **C123, C124.** `ndi.zoom` of a list has the properties assumed there. -/
theorem zoomList_isZoom (hb : GoodBnd bnd) : Quality.IsZoom (zoomList bnd) where
  len l n _ := by simp [zoomList]
  affine l n a b hl := by
    unfold zoomList
    rw [List.map_map]
    refine List.map_congr_left fun k _ => ?_
    have hn : 0 < l.length := List.length_pos_iff.2 hl
    rw [List.length_map, Function.comp_apply, ← nearestLine_affine hb]
    refine nearestLine_congr hn (fun i hi => ?_) _
    rw [List.getD_eq_getElem _ _ (by rw [List.length_map]; exact hi), List.getD_eq_getElem _ _ hi, List.getElem_map]

/-! ### The smoothing of `calculate_threshold` -/

open StripeFilters in
theorem fitCoef_spec {m order : ℕ} (ho : order ≤ 2 * m) (x : Fin (2 * m + 1) → ℝ) (b : Fin (order + 1) → ℝ) (h : LeastSquares m order x b) :
    fitCoef m order x = b := by
  have h1 : savgolMat m order *ᵥ x = savgolMat m order *ᵥ ((savgolMat m order).transpose *ᵥ b) := by
    funext j
    have h2 := ls_normal h (Pi.single j 1)
    have h3 : ∀ k : Fin (2 * m + 1), polyAt (Pi.single j (1 : ℝ)) ((k : ℕ) - (m : ℝ)) = savgolMat m order j k := by
      intro k
      unfold polyAt savgolMat
      rw [Finset.sum_eq_single j]
      · rw [Pi.single_eq_same, one_mul]
      · intro c _ hc
        rw [Pi.single_eq_of_ne hc, zero_mul]
      · simp
    simp only [h3, sub_mul] at h2
    rw [Finset.sum_sub_distrib, sub_eq_zero] at h2
    show ∑ k, savgolMat m order j k * x k = ∑ k, savgolMat m order j k * ((savgolMat m order).transpose *ᵥ b) k
    simp only [mulVec_polyAt]
    rw [Finset.sum_congr rfl fun k _ => mul_comm (savgolMat m order j k) (x k), h2]
    exact Finset.sum_congr rfl fun k _ => mul_comm _ _
  unfold fitCoef
  rw [h1, Matrix.mulVec_mulVec, Matrix.mulVec_mulVec, Matrix.mul_assoc, Matrix.nonsing_inv_mul _ (gram_unit ho), Matrix.one_mulVec]

open StripeFilters in
theorem fitCoef_affine {m order : ℕ} (ho : order ≤ 2 * m) (x : Fin (2 * m + 1) → ℝ) (a b : ℝ) :
    fitCoef m order (fun k => a * x k + b) = fun j => a * fitCoef m order x j + if j = 0 then b else 0 := by
  have hc : fitCoef m order (fun _ => b) = fun j => if j = 0 then b else 0 := by
    refine fitCoef_spec ho _ _ fun b' => ?_
    have e : ∀ t : ℝ, polyAt (fun j : Fin (order + 1) => if j = 0 then b else 0) t = b := by
      intro t
      unfold polyAt
      rw [Finset.sum_eq_single 0]
      · simp
      · intro c _ hc
        dsimp only
        rw [if_neg hc, zero_mul]
      · simp
    simp only [e, sub_self]
    refine Finset.sum_le_sum fun k _ => ?_
    rw [zero_pow two_ne_zero]
    exact sq_nonneg _
  have hx : (fun k => a * x k + b) = a • x + fun _ => b := by funext k; simp
  have hl : fitCoef m order (a • x + fun _ => b) = a • fitCoef m order x + fitCoef m order fun _ => b := by
    unfold fitCoef
    rw [Matrix.mulVec_add, Matrix.mulVec_smul, Matrix.mulVec_add, Matrix.mulVec_smul]
  rw [hx, hl, hc]
  funext j
  simp

/-- **C124.** `sig.savgol_filter` has the properties assumed there. -/
theorem savgolList_isSavgol : Quality.IsSavgol savgolList where
  len l n := by simp [savgolList]
  affine l n a b ho h5 hn := by
    unfold savgolList
    rw [List.map_map, List.length_map]
    refine List.map_congr_left fun i hi => ?_
    rw [List.mem_range] at hi
    rw [Function.comp_apply]
    dsimp only
    set m := n / 2 with hm
    set s := min (i - m) (l.length - n) with hs
    have e : (fun k : Fin (2 * m + 1) => (l.map fun x => a * x + b).getD (s + k) 0) = fun k : Fin (2 * m + 1) => a * l.getD (s + k) 0 + b := by
      funext k
      have hk := k.2
      have : s + (k : ℕ) < l.length := by omega
      rw [List.getD_eq_getElem _ _ (by rw [List.length_map]; exact this), List.getD_eq_getElem _ _ this, List.getElem_map]
    rw [e, fitCoef_affine (by omega), Finset.mul_sum]
    simp only [Fin.sum_univ_succ, Fin.sum_univ_zero]
    simp
    ring

/-! ### Shifts -/

theorem shift3_exact : StackShift.ExactShift shift3 := by
  refine ⟨fun _ _ => ⟨rfl, rfl⟩, fun m dy dx i j hi hj h0 h1 h2 h3 => ?_⟩
  obtain ⟨p, hp⟩ := Int.eq_ofNat_of_zero_le h0
  obtain ⟨q, hq⟩ := Int.eq_ofNat_of_zero_le h2
  have ep : (i : ℝ) - (dy : ℝ) = (p : ℝ) := by exact_mod_cast congrArg (Int.cast : ℤ → ℝ) hp
  have eq : (j : ℝ) - (dx : ℝ) = (q : ℝ) := by exact_mod_cast congrArg (Int.cast : ℤ → ℝ) hq
  have bp : (p : ℝ) + 1 ≤ m.h := by exact_mod_cast (show p + 1 ≤ m.h by omega)
  have bq : (q : ℝ) + 1 ≤ m.w := by exact_mod_cast (show q + 1 ≤ m.w by omega)
  unfold shift3
  dsimp only
  rw [ep, eq, if_pos ⟨⟨Nat.cast_nonneg p, by linarith⟩, Nat.cast_nonneg q, by linarith⟩,
    splinePlane_exact beta3_good mirror_good m p q (by omega) (by omega), hp, hq]
  rfl

theorem shiftReflect_exact : StackShift.ExactShift shiftReflect := by
  refine ⟨fun _ _ => ⟨rfl, rfl⟩, fun m dy dx i j hi hj h0 h1 h2 h3 => ?_⟩
  obtain ⟨p, hp⟩ := Int.eq_ofNat_of_zero_le h0
  obtain ⟨q, hq⟩ := Int.eq_ofNat_of_zero_le h2
  have ep : (i : ℝ) - (dy : ℝ) = (p : ℝ) := by exact_mod_cast congrArg (Int.cast : ℤ → ℝ) hp
  have eq : (j : ℝ) - (dx : ℝ) = (q : ℝ) := by exact_mod_cast congrArg (Int.cast : ℤ → ℝ) hq
  unfold shiftReflect
  dsimp only
  rw [ep, eq, splinePlane_exact beta3_good reflect_good m p q (by omega) (by omega), hp, hq]
  rfl

theorem shiftNearest_exact (hb : GoodBnd bnd) : StackShift.ExactShift (shiftNearest bnd) := by
  refine ⟨fun _ _ => ⟨rfl, rfl⟩, fun m dy dx i j hi hj h0 h1 h2 h3 => ?_⟩
  obtain ⟨p, hp⟩ := Int.eq_ofNat_of_zero_le h0
  obtain ⟨q, hq⟩ := Int.eq_ofNat_of_zero_le h2
  have ep : (i : ℝ) - (dy : ℝ) = (p : ℝ) := by exact_mod_cast congrArg (Int.cast : ℤ → ℝ) hp
  have eq : (j : ℝ) - (dx : ℝ) = (q : ℝ) := by exact_mod_cast congrArg (Int.cast : ℤ → ℝ) hq
  unfold shiftNearest
  dsimp only
  rw [ep, eq, nearestLine_exact hb (by omega), nearestLine_exact hb (by omega), hp, hq]
  rfl

/-- **C130.** The shift of `astra_reconstruction` by whole columns, as assumed there. -/
theorem shiftNearest_cols (hb : GoodBnd bnd) (m : Mat ℝ) (k : ℤ) : (shiftNearest bnd (0, (k : ℝ)) m).w = m.w ∧ ∀ i < m.h, ∀ j < m.w,
    (shiftNearest bnd (0, (k : ℝ)) m).get i j = m.get i (max 0 (min ((j : ℤ) - k) (m.w - 1))).toNat := by
  refine ⟨rfl, fun i hi j hj => ?_⟩
  unfold shiftNearest
  dsimp only
  rw [sub_zero, nearestLine_exact hb hi, show (j : ℝ) - (k : ℝ) = (((j : ℤ) - k : ℤ) : ℝ) by push_cast; ring, nearestLine_int hb (by omega)]

open External in
/-- **C130**, with the shift of scipy: the centre of rotation comes to the middle. -/
theorem astra_center_ndi (hb : GoodBnd bnd) (m P : Mat ℝ) (f : ℝ → ℝ) (center : ℝ) (pad : ℕ) (k : ℤ) (hP : Widened P m f pad pad)
    (hk : ((m.w : ℝ) - 1) / 2 - center = k) (i j : ℕ) (hi : i < m.h) (hj : j < m.w) (h0 : 0 ≤ (pad : ℤ) + j + k)
    (h1 : (pad : ℤ) + j + k < m.w + 2 * pad) :
    (shiftNearest bnd (0, ((m.w : ℝ) - 1) / 2 - center) P).get i ((pad : ℤ) + j + k).toNat = f (m.get i j) ∧
    ((pad : ℝ) + center + k) = (((shiftNearest bnd (0, ((m.w : ℝ) - 1) / 2 - center) P).w : ℝ) - 1) / 2 :=
  astra_center (fun m s => shiftNearest bnd (0, s) m) m P f center pad k hP (shiftNearest_cols hb) hk i j hi hj h0 h1

/-! ### The claims with scipy's functions -/

open Quality in
/-- **C124**, with the functions of scipy: the threshold follows the grey values. -/
theorem threshold_affine_ndi (hb : GoodBnd bnd) (m : Mat ℝ) (bright : Bool) (a b t : ℝ) (ha : 0 < a)
    (ht : calculateThreshold (zoomList bnd) savgolList m bright = .ok t) :
    calculateThreshold (zoomList bnd) savgolList (affineImage a b m) bright = .ok (a * t + b) :=
  threshold_affine _ _ (zoomList_isZoom hb) savgolList_isSavgol m bright a b t ha ht

open Quality in
/-- **C123**, with the functions of scipy: the mask does not depend on scale and offset. -/
theorem mask_affine_ndi_partial (hb : GoodBnd bnd) (m : Mat ℝ) (snr a b : ℝ) (ha : 0 < a) (hh : 0 < m.h) (hw : 0 < m.w)
    (hg : Stripe.GoodSize (max m.h m.w)) : weightMask (zoomList bnd) (affineImage a b m) snr = weightMask (zoomList bnd) m snr :=
  mask_affine_partial _ (zoomList_isZoom hb) m snr a b ha hh hw hg

open ForwardProj in
/-- **C125**, with the interpolation of scipy: angle 0 gives the column sums, angle π/2 the row sums. -/
theorem sinogram_sums_ndi {m : Mat ℝ} {angles : List ℝ} {padRate : ℝ} {s : Mat ℝ} (hs : makeSinogram mapping5 m angles padRate .constant = .ok s)
    (hp : 1 ≤ pyTrunc (padRate * m.h) ∨ m.w % 2 = 1) (r j : ℕ) (hj : j < m.w) :
    (angles.getD r 0 = 0 → s.get r j = colSum m j) ∧
    (angles.getD r 0 = Real.pi / 2 → m.w % 2 = 1 → s.get r j = rowSum m (m.w - 1 - j)) ∧
    (angles.getD r 0 = Real.pi / 2 → m.w % 2 = 0 → s.get r j = if j = 0 then 0 else rowSum m (m.w - j)) :=
  sinogram_sums mapping5_exact hs hp r j hj

open ForwardProj in
/-- **C125**, with the interpolation of scipy: every unpadded row of an odd image has the sum of the image. -/
theorem sinogram_mass_ndi {m : Mat ℝ} {angles : List ℝ} {padRate : ℝ} {mode : PadMode} {s : Mat ℝ}
    (hs : makeSinogram mapping5 m angles padRate mode = .ok s) (hp : pyTrunc (padRate * m.h) = 0) (ho : m.w % 2 = 1) (r : ℕ) :
    ∑ j ∈ Finset.range m.w, s.get r j = ∑ i ∈ Finset.range m.h, ∑ j ∈ Finset.range m.w, m.get i j :=
  sinogram_mass mapping5_exact hs hp ho r

open ForwardProj in
/-- **C125**, with the interpolation of scipy: linear in the image. -/
theorem sinogram_linear_ndi {m m' m'' : Mat ℝ} {angles : List ℝ} {padRate : ℝ} {mode : PadMode}
    {s s' s'' : Mat ℝ} (h1 : m.h = m''.h ∧ m.w = m''.w) (h2 : m'.h = m''.h ∧ m'.w = m''.w) (a b : ℝ)
    (hm : ∀ i j, m''.get i j = a * m.get i j + b * m'.get i j)
    (hs : makeSinogram mapping5 m angles padRate mode = .ok s) (hs' : makeSinogram mapping5 m' angles padRate mode = .ok s')
    (hs'' : makeSinogram mapping5 m'' angles padRate mode = .ok s'') (r j : ℕ) : s''.get r j = a * s.get r j + b * s'.get r j :=
  sinogram_linear mapping5_linear h1 h2 a b hm hs hs' hs'' r j

end Verif.Ndi
