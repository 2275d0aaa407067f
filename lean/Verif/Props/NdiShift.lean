import Verif.Model.NdiShift
import Verif.Props.NdiGauss
import Verif.Props.Savgol
import Verif.Props.CenterMirror
import Mathlib.LinearAlgebra.Matrix.Gershgorin

/-! The cubic spline shift of scipy satisfies the laws assumed of it in C132; C132 with scipy's functions. -/

set_option linter.unusedSectionVars false
set_option linter.unusedSimpArgs false

namespace Verif.Ndi
open Finset Matrix Verif.StripeFilters Verif.VisualCenter

theorem mirrorIdx_flip {n : ℕ} (hn : 0 < n) (i : ℤ) : mirrorIdx n ((n : ℤ) - 1 - i) = n - 1 - mirrorIdx n i := by
  unfold mirrorIdx
  by_cases h1 : n ≤ 1
  · rw [if_pos h1, if_pos h1]; omega
  rw [if_neg h1, if_neg h1]
  dsimp only
  set p : ℤ := 2 * (n : ℤ) - 2 with hp
  have h0 := Int.emod_nonneg i (show p ≠ 0 by omega)
  have h2 := Int.emod_lt_of_pos i (show 0 < p by omega)
  have h3 := Int.emod_add_mul_ediv i p
  generalize hq : i / p = q at h3
  generalize hm : i % p = m at *
  by_cases hl : m < n
  · have e : ((n : ℤ) - 1 - i) % p = n - 1 - m := by
      rw [show (n : ℤ) - 1 - i = (n - 1 - m) + p * (-q) by rw [← h3]; ring, Int.add_mul_emod_self_left]
      exact Int.emod_eq_of_lt (by omega) (by omega)
    rw [e, if_pos (by omega), if_pos (by omega)]
    omega
  · have e : ((n : ℤ) - 1 - i) % p = n - 1 - m + p := by
      rw [show (n : ℤ) - 1 - i = (n - 1 - m + p) + p * (-q - 1) by rw [← h3]; ring, Int.add_mul_emod_self_left]
      exact Int.emod_eq_of_lt (by omega) (by omega)
    rw [e, if_neg (by omega), if_neg (by omega)]
    omega

theorem splineMat_row {n : ℕ} (i : Fin n) : ∑ j, splineMat n i j = 1 := by
  unfold splineMat
  have hn : 0 < n := by have := i.2; omega
  rw [Finset.sum_add_distrib, Finset.sum_add_distrib]
  have e : ∀ k : ℕ, k < n → (∑ j : Fin n, if (j : ℕ) = k then (1 / 6 : ℝ) else 0) = 1 / 6 := by
    intro k hk
    rw [Finset.sum_eq_single (⟨k, hk⟩ : Fin n)]
    · simp
    · intro b _ hb
      rw [if_neg fun e => hb (Fin.ext e)]
    · simp
  rw [e _ (mirrorIdx_lt hn _), e _ (mirrorIdx_lt hn _)]
  simp
  norm_num

theorem splineMat_unit (n : ℕ) : IsUnit (splineMat n).det := by
  rw [isUnit_iff_ne_zero]
  apply det_ne_zero_of_sum_row_lt_diag
  intro k
  have hnn : ∀ j, 0 ≤ splineMat n k j := by
    intro j
    unfold splineMat
    have : (0 : ℝ) ≤ 1 / 6 := by norm_num
    have : (0 : ℝ) ≤ 4 / 6 := by norm_num
    split_ifs <;> norm_num
  have hd : 4 / 6 ≤ splineMat n k k := by
    unfold splineMat
    rw [if_pos (rfl : k = k)]
    split_ifs <;> norm_num
  have h1 : ∑ j ∈ Finset.univ.erase k, ‖splineMat n k j‖ = 1 - splineMat n k k := by
    rw [← splineMat_row k, ← Finset.add_sum_erase _ _ (Finset.mem_univ k), add_sub_cancel_left]
    exact Finset.sum_congr rfl fun j _ => by rw [Real.norm_of_nonneg (hnn j)]
  rw [h1, Real.norm_of_nonneg (hnn k)]
  linarith

theorem splineCoef_congr {n : ℕ} {f g : ℕ → ℝ} (h : ∀ i < n, f i = g i) : splineCoef n f = splineCoef n g := by
  unfold splineCoef
  rw [show (fun i : Fin n => f i) = fun i : Fin n => g i from funext fun i => h i i.2]

theorem splineCoef_affine {n : ℕ} (f : ℕ → ℝ) (a b : ℝ) {k : ℕ} (hk : k < n) : splineCoef n (fun i => a * f i + b) k = a * splineCoef n f k + b := by
  unfold splineCoef
  rw [dif_pos hk, dif_pos hk]
  have h1 : splineMat n *ᵥ (fun _ => (1 : ℝ)) = fun _ => 1 := by
    funext i
    show ∑ j, splineMat n i j * 1 = 1
    simp only [mul_one]
    exact splineMat_row i
  have h2 : (splineMat n)⁻¹ *ᵥ (fun _ => (1 : ℝ)) = fun _ => 1 := by
    conv_lhs => rw [← h1]
    rw [Matrix.mulVec_mulVec, Matrix.nonsing_inv_mul _ (splineMat_unit n), Matrix.one_mulVec]
  have e : (fun i : Fin n => a * f i + b) = a • (fun i : Fin n => f i) + b • fun _ : Fin n => (1 : ℝ) := by
    funext i
    simp
  rw [e, Matrix.mulVec_add, Matrix.mulVec_smul, Matrix.mulVec_smul, h2]
  simp

theorem splineCoef_flip {n : ℕ} (f : ℕ → ℝ) {k : ℕ} (hk : k < n) : splineCoef n (fun i => f (n - 1 - i)) k = splineCoef n f (n - 1 - k) := by
  unfold splineCoef
  rw [dif_pos hk, dif_pos (show n - 1 - k < n by omega)]
  have hM : (splineMat n).submatrix Fin.revPerm Fin.revPerm = splineMat n := by
    funext i j
    show splineMat n (Fin.rev i) (Fin.rev j) = splineMat n i j
    have hi := i.2
    have hj := j.2
    have hn : 0 < n := by omega
    have m1 := mirrorIdx_lt hn (((i : ℕ) : ℤ) - 1)
    have m2 := mirrorIdx_lt hn (((i : ℕ) : ℤ) + 1)
    have f1 := mirrorIdx_flip hn (((i : ℕ) : ℤ) - 1)
    have f2 := mirrorIdx_flip hn (((i : ℕ) : ℤ) + 1)
    have r1 : (((Fin.rev i : Fin n) : ℕ) : ℤ) - 1 = (n : ℤ) - 1 - (((i : ℕ) : ℤ) + 1) := by rw [Fin.val_rev]; omega
    have r2 : (((Fin.rev i : Fin n) : ℕ) : ℤ) + 1 = (n : ℤ) - 1 - (((i : ℕ) : ℤ) - 1) := by rw [Fin.val_rev]; omega
    unfold splineMat
    rw [r1, r2, f1, f2]
    have e1 : ((Fin.rev j : Fin n) : ℕ) = n - 1 - mirrorIdx n (((i : ℕ) : ℤ) + 1) ↔ (j : ℕ) = mirrorIdx n (((i : ℕ) : ℤ) + 1) := by
      rw [Fin.val_rev]; omega
    have e2 : ((Fin.rev j : Fin n) : ℕ) = n - 1 - mirrorIdx n (((i : ℕ) : ℤ) - 1) ↔ (j : ℕ) = mirrorIdx n (((i : ℕ) : ℤ) - 1) := by
      rw [Fin.val_rev]; omega
    have e3 : Fin.rev j = Fin.rev i ↔ j = i := Fin.rev_inj
    simp only [e1, e2, e3]
    ring
  have hI : (splineMat n)⁻¹.submatrix Fin.revPerm Fin.revPerm = (splineMat n)⁻¹ := by
    rw [← Matrix.inv_submatrix_equiv, hM]
  show ∑ j, (splineMat n)⁻¹ ⟨k, hk⟩ j * f (n - 1 - j) = ∑ j, (splineMat n)⁻¹ ⟨n - 1 - k, _⟩ j * f j
  rw [← Equiv.sum_comp Fin.revPerm fun j : Fin n => (splineMat n)⁻¹ ⟨n - 1 - k, by omega⟩ j * f j]
  refine Finset.sum_congr rfl fun j _ => ?_
  have h1 := congrFun (congrFun hI ⟨k, hk⟩) j
  have h2 : ((splineMat n)⁻¹.submatrix Fin.revPerm Fin.revPerm) ⟨k, hk⟩ j = (splineMat n)⁻¹ ⟨n - 1 - k, by omega⟩ (Fin.revPerm j) := by
    show (splineMat n)⁻¹ (Fin.rev ⟨k, hk⟩) (Fin.rev j) = _
    rw [show (Fin.rev (⟨k, hk⟩ : Fin n)) = ⟨n - 1 - k, by omega⟩ from Fin.ext (by rw [Fin.val_rev]; dsimp only; omega)]
    rfl
  rw [← h1, h2]
  congr 2
  show n - 1 - (j : ℕ) = ((Fin.rev j : Fin n) : ℕ)
  rw [Fin.val_rev]
  omega

theorem bspline_congr {n : ℕ} (hn : 0 < n) {f g : ℕ → ℝ} (h : ∀ i < n, f i = g i) (x : ℝ) : bspline mirrorIdx n f x = bspline mirrorIdx n g x := by
  unfold bspline
  dsimp only
  rw [h _ (mirrorIdx_lt hn _), h _ (mirrorIdx_lt hn _), h _ (mirrorIdx_lt hn _), h _ (mirrorIdx_lt hn _)]

theorem bspline_affine (bnd : ℕ → ℤ → ℕ) (n : ℕ) (f : ℕ → ℝ) (a b x : ℝ) : bspline bnd n (fun i => a * f i + b) x = a * bspline bnd n f x + b := by
  unfold bspline
  dsimp only
  ring

theorem bspline_flip {n : ℕ} (hn : 0 < n) (f : ℕ → ℝ) {x : ℝ} (h0 : 0 ≤ x) (h1 : x ≤ (n : ℝ) - 1) :
    bspline mirrorIdx n (fun i => f (n - 1 - i)) x = bspline mirrorIdx n f ((n : ℝ) - 1 - x) := by
  have c1 : SliceMetric.clip x 0 ((n : ℝ) - 1) = x := by unfold SliceMetric.clip; rw [max_eq_left h0, min_eq_left h1]
  have c2 : SliceMetric.clip ((n : ℝ) - 1 - x) 0 ((n : ℝ) - 1) = (n : ℝ) - 1 - x := by
    unfold SliceMetric.clip; rw [max_eq_left (by linarith), min_eq_left (by linarith)]
  unfold bspline
  dsimp only
  rw [c1, c2]
  simp only [← mirrorIdx_flip hn]
  by_cases hi : x = (⌊x⌋ : ℝ)
  · have e : ⌊(n : ℝ) - 1 - x⌋ = (n : ℤ) - 1 - ⌊x⌋ := by
      rw [hi, Int.floor_intCast, show (n : ℝ) - 1 - (⌊x⌋ : ℝ) = (((n : ℤ) - 1 - ⌊x⌋ : ℤ) : ℝ) by push_cast; ring, Int.floor_intCast]
    have t1 : x - (⌊x⌋ : ℝ) = 0 := by linarith
    have t2 : (n : ℝ) - 1 - x - ((⌊(n : ℝ) - 1 - x⌋ : ℤ) : ℝ) = 0 := by rw [e]; push_cast; linarith
    rw [t1, t2, e]
    rw [show (n : ℤ) - 1 - (⌊x⌋ - 1) = (n : ℤ) - 1 - ⌊x⌋ + 1 by ring, show (n : ℤ) - 1 - (⌊x⌋ + 1) = (n : ℤ) - 1 - ⌊x⌋ - 1 by ring]
    ring
  · have lt : (⌊x⌋ : ℝ) < x := lt_of_le_of_ne (Int.floor_le x) (Ne.symm hi)
    have e : ⌊(n : ℝ) - 1 - x⌋ = (n : ℤ) - 1 - ⌊x⌋ - 1 := by
      rw [Int.floor_eq_iff]
      push_cast
      constructor
      · linarith [Int.lt_floor_add_one x]
      · linarith
    have t2 : (n : ℝ) - 1 - x - ((⌊(n : ℝ) - 1 - x⌋ : ℤ) : ℝ) = 1 - (x - ⌊x⌋) := by rw [e]; push_cast; ring
    rw [t2, e]
    rw [show (n : ℤ) - 1 - (⌊x⌋ - 1) = (n : ℤ) - 1 - ⌊x⌋ - 1 + 2 by ring, show (n : ℤ) - 1 - (⌊x⌋ + 1) = (n : ℤ) - 1 - ⌊x⌋ - 1 by ring,
      show (n : ℤ) - 1 - (⌊x⌋ + 2) = (n : ℤ) - 1 - ⌊x⌋ - 1 - 1 by ring, show (n : ℤ) - 1 - ⌊x⌋ - 1 + 1 = (n : ℤ) - 1 - ⌊x⌋ by ring]
    ring

/-- The spline goes through the samples: a shift by a whole number of columns moves the image. -/
theorem cubicShift_int (m : Mat ℝ) (z : ℤ) (i j : ℕ) (hj : j < m.w) (h0 : 0 ≤ (j : ℤ) - z) (h1 : (j : ℤ) - z < m.w) :
    (cubicShift m (z : ℝ)).get i j = m.get i ((j : ℤ) - z).toNat := by
  set k := ((j : ℤ) - z).toNat with hk
  have hkz : ((k : ℕ) : ℤ) = (j : ℤ) - z := Int.toNat_of_nonneg h0
  have hkn : k < m.w := by omega
  have hx : (j : ℝ) - (z : ℝ) = (k : ℝ) := by
    have := congrArg (Int.cast : ℤ → ℝ) hkz
    push_cast at this
    linarith
  have hk1 : (k : ℝ) ≤ (m.w : ℝ) - 1 := by
    have : ((k + 1 : ℕ) : ℝ) ≤ (m.w : ℝ) := by exact_mod_cast hkn
    push_cast at this
    linarith
  show (if 0 ≤ (j : ℝ) - (z : ℝ) ∧ (j : ℝ) - (z : ℝ) ≤ (m.w : ℝ) - 1 then bspline mirrorIdx m.w (splineCoef m.w (m.get i)) ((j : ℝ) - (z : ℝ)) else 0) = _
  rw [hx, if_pos ⟨Nat.cast_nonneg k, hk1⟩]
  unfold bspline
  dsimp only
  have c1 : SliceMetric.clip (k : ℝ) 0 ((m.w : ℝ) - 1) = k := by unfold SliceMetric.clip; rw [max_eq_left (Nat.cast_nonneg k), min_eq_left hk1]
  rw [c1, Int.floor_natCast]
  have hsol : (splineMat m.w *ᵥ ((splineMat m.w)⁻¹ *ᵥ fun i' : Fin m.w => m.get i i')) ⟨k, hkn⟩ = m.get i k := by
    rw [Matrix.mulVec_mulVec, Matrix.mul_nonsing_inv _ (splineMat_unit m.w), Matrix.one_mulVec]
  have hn : 0 < m.w := by omega
  have hrow : (splineMat m.w *ᵥ ((splineMat m.w)⁻¹ *ᵥ fun i' : Fin m.w => m.get i i')) ⟨k, hkn⟩ =
      1 / 6 * splineCoef m.w (m.get i) (mirrorIdx m.w ((k : ℤ) - 1)) + 4 / 6 * splineCoef m.w (m.get i) k +
        1 / 6 * splineCoef m.w (m.get i) (mirrorIdx m.w ((k : ℤ) + 1)) := by
    set c := (splineMat m.w)⁻¹ *ᵥ fun i' : Fin m.w => m.get i i' with hc
    have hcoef : ∀ l (hl : l < m.w), splineCoef m.w (m.get i) l = c ⟨l, hl⟩ := fun l hl => by unfold splineCoef; rw [dif_pos hl]
    have pick : ∀ (l : ℕ) (hl : l < m.w) (v : ℝ), ∑ j' : Fin m.w, (if (j' : ℕ) = l then v else 0) * c j' = v * splineCoef m.w (m.get i) l := by
      intro l hl v
      rw [Finset.sum_eq_single (⟨l, hl⟩ : Fin m.w)]
      · rw [if_pos rfl, hcoef l hl]
      · intro b _ hb
        rw [if_neg fun e => hb (Fin.ext e), zero_mul]
      · simp
    show ∑ j', splineMat m.w ⟨k, hkn⟩ j' * c j' = _
    have e : ∀ j' : Fin m.w, splineMat m.w ⟨k, hkn⟩ j' * c j' = (if (j' : ℕ) = mirrorIdx m.w ((k : ℤ) - 1) then 1 / 6 else 0) * c j' +
        (if (j' : ℕ) = k then 4 / 6 else 0) * c j' + (if (j' : ℕ) = mirrorIdx m.w ((k : ℤ) + 1) then 1 / 6 else 0) * c j' := by
      intro j'
      unfold splineMat
      have : (j' = (⟨k, hkn⟩ : Fin m.w)) ↔ (j' : ℕ) = k := Fin.ext_iff
      simp only [this]
      ring
    rw [Finset.sum_congr rfl fun j' _ => e j', Finset.sum_add_distrib, Finset.sum_add_distrib, pick _ (mirrorIdx_lt hn _), pick _ hkn,
      pick _ (mirrorIdx_lt hn _)]
  rw [hsol] at hrow
  rw [hrow, mirrorIdx_id (n := m.w) (i := (k : ℤ)) (by omega) (by omega), Int.toNat_natCast]
  norm_num
  ring

/-- The shift of the centre searches (C132). -/
theorem cubicShift_isShift : CenterMetric.IsShift cubicShift := by
  refine ⟨?_, ?_, ?_, ?_⟩
  · rintro m m' ⟨h1, h2, h3⟩ s i hi j hj
    show (if _ then bspline mirrorIdx m.w (splineCoef m.w (m.get i)) _ else 0) = if _ then bspline mirrorIdx m'.w (splineCoef m'.w (m'.get i)) _ else 0
    rw [← h2, splineCoef_congr fun k hk => h3 i hi k hk]
  · intro m a b s i hi j hj h0 h1
    show (if 0 ≤ (j : ℝ) - s ∧ (j : ℝ) - s ≤ (m.w : ℝ) - 1 then bspline mirrorIdx m.w (splineCoef m.w fun c => a * m.get i c + b) ((j : ℝ) - s) else 0) =
      a * (if 0 ≤ (j : ℝ) - s ∧ (j : ℝ) - s ≤ (m.w : ℝ) - 1 then bspline mirrorIdx m.w (splineCoef m.w (m.get i)) ((j : ℝ) - s) else 0) + b
    rw [if_pos ⟨h0, h1⟩, if_pos ⟨h0, h1⟩, ← bspline_affine]
    exact bspline_congr (by omega) (fun k hk => splineCoef_affine (m.get i) a b hk) _
  · intro m s i hi j hj
    show (if 0 ≤ (j : ℝ) - -s ∧ (j : ℝ) - -s ≤ (m.w : ℝ) - 1 then bspline mirrorIdx m.w (splineCoef m.w fun c => m.get i (m.w - 1 - c)) ((j : ℝ) - -s) else 0) =
      if 0 ≤ ((m.w - 1 - j : ℕ) : ℝ) - s ∧ ((m.w - 1 - j : ℕ) : ℝ) - s ≤ (m.w : ℝ) - 1 then
        bspline mirrorIdx m.w (splineCoef m.w (m.get i)) (((m.w - 1 - j : ℕ) : ℝ) - s) else 0
    have e : ((m.w - 1 - j : ℕ) : ℝ) - s = (m.w : ℝ) - 1 - ((j : ℝ) - -s) := by
      rw [Nat.cast_sub (by omega), Nat.cast_sub (by omega)]
      push_cast
      ring
    rw [e]
    by_cases hin : 0 ≤ (j : ℝ) - -s ∧ (j : ℝ) - -s ≤ (m.w : ℝ) - 1
    · rw [if_pos hin, if_pos ⟨by linarith [hin.2], by linarith [hin.1]⟩, ← bspline_flip (by omega) _ hin.1 hin.2]
      exact bspline_congr (by omega) (fun k hk => splineCoef_flip (m.get i) hk) _
    · rw [if_neg hin, if_neg fun h => hin ⟨by linarith [h.2], by linarith [h.1]⟩]
  · intro m s i hi j hj
    rfl

open CenterMetric Center in
/-- **C132**, with the filters of scipy: brightness and contrast. -/
theorem find_affine_ndi (o : Opts) (n' : ℕ) (m : Mat ℝ) (a b : ℝ) (ha : a ≠ 0) (hh : 2 ≤ m.h) (hw : 2 ≤ m.w) (start stop : Option ℝ)
    (step radius : ℝ) (dsp : Bool) (sc1 sc2 sc1' sc2' : List Sched.Ev) (r r' : Py ℝ)
    (h : findCenterVo cubicShift (gaussian 3 1) (gaussian 2 2) o m start stop step radius dsp sc1 sc2 = some r)
    (h' : findCenterVo cubicShift (gaussian 3 1) (gaussian 2 2) { o with ncore := n' } (aff a b m) start stop step radius dsp sc1' sc2' = some r') :
    r' = r :=
  find_affine cubicShift cubicShift_isShift _ _ (gaussian_isSmooth 3 1) (gaussian_isSmooth 2 2) o n' m a b ha hh hw start stop step radius dsp
    sc1 sc2 sc1' sc2' r r' h h'

open CenterMetric Center in
/-- **C132**, with the filters of scipy: direction of the scan. -/
theorem find_reverse_ndi_partial (o : Opts) (n' : ℕ) (m : Mat ℝ) (hh : 2 ≤ m.h) (hw : 2 ≤ m.w) (start stop : Option ℝ)
    (step radius : ℝ) (dsp : Bool) (hdsp : dsp = false ∨ m.h ≤ 1000 ∨ m.h / 900 ∣ m.h) (sc1 sc2 sc1' sc2' : List Sched.Ev) (r r' : Py ℝ)
    (h : findCenterVo cubicShift (gaussian 3 1) (gaussian 2 2) o m start stop step radius dsp sc1 sc2 = some r)
    (h' : findCenterVo cubicShift (gaussian 3 1) (gaussian 2 2) { o with ncore := n' } (flipud m) start stop step radius dsp sc1' sc2' = some r') :
    r' = r :=
  find_reverse_partial cubicShift cubicShift_isShift _ _ (gaussian_isSmooth 3 1) (gaussian_isSmooth 2 2) o n' m hh hw start stop step radius dsp hdsp
    sc1 sc2 sc1' sc2' r r' h h'

open CenterMetric Center in
/-- **C132**, with the filters of scipy: mirrored detector. -/
theorem find_mirror_ndi_partial (o : Opts) (n' : ℕ) (m : Mat ℝ) (hh : 0 < m.h) (hw : 0 < m.w) (a b : ℤ) (ha : 0 ≤ a)
    (hb : b ≤ (m.w : ℤ) - 1) (hab : a ≤ b) (step : ℝ) (hs : 0 < step) (N : ℕ) (raw c : ℝ)
    (hraw : OnlyBest (metricOf cubicShift o (gaussian 3 1 m)) (coarseList m.w (a : ℝ) b) raw)
    (hc : OnlyBest (metricOf cubicShift o (gaussian 2 2 m)) (fineList m.w raw (N * step / 2) step) c) (sc1 sc2 sc1' sc2' : List Sched.Ev) (r r' : Py ℝ)
    (h : findCenterVo cubicShift (gaussian 3 1) (gaussian 2 2) o m (some (a : ℝ)) (some (b : ℝ)) step (N * step / 2) false sc1 sc2 = some r)
    (h' : findCenterVo cubicShift (gaussian 3 1) (gaussian 2 2) { o with ncore := n' } m.fliplr (some ((m.w : ℝ) - 1 - b)) (some ((m.w : ℝ) - 1 - a))
      step (N * step / 2) false sc1' sc2' = some r') : r = .ok c ∧ r' = .ok ((m.w : ℝ) - 1 - c) :=
  find_mirror_partial cubicShift cubicShift_isShift _ _ (gaussian_isSmooth 3 1) (gaussian_isSmooth 2 2) o n' m hh hw a b ha hb hab step hs N raw c
    hraw hc sc1 sc2 sc1' sc2' r r' h h'

/-- The spline moves an image by three columns. -/
example : (cubicShift ⟨2, 5, fun i j => (10 * i + j : ℝ)⟩ (3 : ℤ)).get 1 4 = 11 := by
  rw [cubicShift_int _ 3 1 4 (by decide) (by decide) (by decide)]
  norm_num

end Verif.Ndi
