import Verif.Model.Savgol
import Verif.Props.StripeFilters
import Verif.Props.FittingScale
import Mathlib.LinearAlgebra.Matrix.ToLinearEquiv
import Mathlib.Algebra.Polynomial.Roots
import Mathlib.Algebra.Polynomial.Eval.Degree
import Mathlib.Tactic.LinearCombination

/-! C167 — `generate_fitted_image` is a polynomial fit in a sliding window. -/

set_option linter.unusedSectionVars false
set_option linter.unusedSimpArgs false

namespace Verif.StripeFilters
open Finset Matrix

/-! ### specification -/

/-- The polynomial with coefficients `b` (lowest first) at `t`. -/
def polyAt {n : ℕ} (b : Fin n → ℝ) (t : ℝ) : ℝ := ∑ j, b j * t ^ (j : ℕ)

/-- The polynomial `b` of degree at most `order` is a least-squares fit of the `2m+1` values `x`, taken at the positions `-m … m`. -/
def LeastSquares (m order : ℕ) (x : Fin (2 * m + 1) → ℝ) (b : Fin (order + 1) → ℝ) : Prop :=
  ∀ b' : Fin (order + 1) → ℝ, ∑ k, (x k - polyAt b ((k : ℕ) - (m : ℝ))) ^ 2 ≤ ∑ k, (x k - polyAt b' ((k : ℕ) - (m : ℝ))) ^ 2

/-! ### the coefficients -/

theorem mulVec_polyAt (m order : ℕ) (b : Fin (order + 1) → ℝ) (k : Fin (2 * m + 1)) :
    ((savgolMat m order).transpose *ᵥ b) k = polyAt b ((k : ℕ) - (m : ℝ)) := by
  unfold polyAt
  show ∑ j, (savgolMat m order).transpose k j * b j = _
  exact Finset.sum_congr rfl fun j _ => by
    show savgolMat m order j k * b j = _
    unfold savgolMat
    rw [mul_comm]

theorem gram_unit {m order : ℕ} (ho : order ≤ 2 * m) : IsUnit (savgolMat m order * (savgolMat m order).transpose).det := by
  rw [isUnit_iff_ne_zero]
  intro h0
  obtain ⟨v, hv, hz⟩ := Matrix.exists_mulVec_eq_zero_iff.2 h0
  apply hv
  have h1 : (savgolMat m order).transpose *ᵥ v = 0 := by
    have : ((savgolMat m order).transpose *ᵥ v) ⬝ᵥ ((savgolMat m order).transpose *ᵥ v) = 0 := by
      rw [Matrix.dotProduct_mulVec, Matrix.vecMul_transpose, Matrix.mulVec_mulVec, hz, zero_dotProduct]
    have h2 : ∑ k, ((savgolMat m order).transpose *ᵥ v) k * ((savgolMat m order).transpose *ᵥ v) k = 0 := this
    rw [Finset.sum_eq_zero_iff_of_nonneg fun k _ => mul_self_nonneg _] at h2
    funext k
    exact mul_self_eq_zero.1 (h2 k (Finset.mem_univ k))
  set p : Polynomial ℝ := ∑ j : Fin (order + 1), Polynomial.C (v j) * Polynomial.X ^ (j : ℕ) with hp
  have hdeg : p.natDegree < Fintype.card (Fin (2 * m + 1)) := by
    rw [Fintype.card_fin]
    refine lt_of_le_of_lt (Polynomial.natDegree_sum_le_of_forall_le (n := order) _ _ fun j _ => ?_) (by omega)
    exact (Polynomial.natDegree_C_mul_X_pow_le _ _).trans (by have := j.2; omega)
  have heval : ∀ t : ℝ, p.eval t = polyAt v t := by
    intro t
    rw [hp, Polynomial.eval_finset_sum]
    exact Finset.sum_congr rfl fun j _ => by simp
  have hinj : Function.Injective fun k : Fin (2 * m + 1) => ((k : ℕ) : ℝ) - (m : ℝ) := by
    intro a b hab
    have : ((a : ℕ) : ℝ) = ((b : ℕ) : ℝ) := by linarith [hab]
    exact Fin.ext (by exact_mod_cast this)
  have hp0 : p = 0 := Polynomial.eq_zero_of_natDegree_lt_card_of_eval_eq_zero p hinj (fun k => by
    rw [heval, ← mulVec_polyAt, h1]; rfl) hdeg
  funext j
  have : p.coeff (j : ℕ) = v j := by
    rw [hp, Polynomial.finset_sum_coeff]
    rw [Finset.sum_eq_single j]
    · simp
    · intro b _ hb
      rw [Polynomial.coeff_C_mul_X_pow, if_neg]
      intro e
      exact hb (Fin.ext e.symm)
    · simp
  rw [← this, hp0]
  rfl

/-- The coefficients reproduce polynomials at the centre. -/
theorem coeff_poly {m order : ℕ} (ho : order ≤ 2 * m) (b : Fin (order + 1) → ℝ) :
    ∑ k, savgolCoeff m order k * polyAt b ((k : ℕ) - (m : ℝ)) = b 0 := by
  have hA : savgolMat m order *ᵥ savgolCoeff m order = Pi.single 0 1 := by
    unfold savgolCoeff
    rw [Matrix.mulVec_mulVec, Matrix.mulVec_mulVec, Matrix.mul_nonsing_inv _ (gram_unit ho), Matrix.one_mulVec]
  have h1 : savgolCoeff m order ⬝ᵥ ((savgolMat m order).transpose *ᵥ b) = b 0 := by
    rw [Matrix.dotProduct_mulVec, Matrix.vecMul_transpose, hA, single_dotProduct, one_mul]
  rw [← h1]
  exact Finset.sum_congr rfl fun k _ => by rw [mulVec_polyAt]

theorem ls_normal {m order : ℕ} {x : Fin (2 * m + 1) → ℝ} {b : Fin (order + 1) → ℝ} (h : LeastSquares m order x b) (b' : Fin (order + 1) → ℝ) :
    ∑ k, (x k - polyAt b ((k : ℕ) - (m : ℝ))) * polyAt b' ((k : ℕ) - (m : ℝ)) = 0 := by
  set r := fun k : Fin (2 * m + 1) => x k - polyAt b ((k : ℕ) - (m : ℝ)) with hr
  set q := fun k : Fin (2 * m + 1) => polyAt b' ((k : ℕ) - (m : ℝ)) with hq
  have key : ∀ t : ℝ, 0 ≤ t ^ 2 * (∑ k, q k ^ 2) - 2 * t * ∑ k, r k * q k := by
    intro t
    have h1 := h fun j => b j + t * b' j
    have e : ∀ k : Fin (2 * m + 1), (x k - polyAt (fun j => b j + t * b' j) ((k : ℕ) - (m : ℝ))) ^ 2 = r k ^ 2 + (t ^ 2 * q k ^ 2 - 2 * t * (r k * q k)) := by
      intro k
      have : polyAt (fun j => b j + t * b' j) ((k : ℕ) - (m : ℝ)) = polyAt b ((k : ℕ) - (m : ℝ)) + t * q k := by
        rw [hq]
        unfold polyAt
        rw [Finset.mul_sum, ← Finset.sum_add_distrib]
        exact Finset.sum_congr rfl fun j _ => by ring
      rw [this]
      show _ = (x k - polyAt b ((k : ℕ) - (m : ℝ))) ^ 2 + (t ^ 2 * q k ^ 2 - 2 * t * ((x k - polyAt b ((k : ℕ) - (m : ℝ))) * q k))
      ring
    simp only [e] at h1
    rw [Finset.sum_add_distrib, Finset.sum_sub_distrib, ← Finset.mul_sum, ← Finset.mul_sum] at h1
    have h2 : ∑ k, (x k - polyAt b ((k : ℕ) - (m : ℝ))) ^ 2 = ∑ k, r k ^ 2 := rfl
    linarith
  set Q := ∑ k, q k ^ 2 with hQ
  set R := ∑ k, r k * q k with hR
  have hQ0 : 0 ≤ Q := Finset.sum_nonneg fun k _ => sq_nonneg _
  show R = 0
  by_contra hne
  have h1 := key (R / (Q + 1))
  have h2 : (R / (Q + 1)) ^ 2 * Q - 2 * (R / (Q + 1)) * R = -(R ^ 2 * (Q + 2) / (Q + 1) ^ 2) := by
    have : Q + 1 ≠ 0 := by linarith
    field_simp
    ring
  rw [h2] at h1
  have h3 : 0 < R ^ 2 * (Q + 2) / (Q + 1) ^ 2 := by
    have : 0 < R ^ 2 := by positivity
    positivity
  linarith

/-- C167: every value of the filter is the value at the centre of a least-squares polynomial fit of the window. -/
theorem savgol_fit {m order : ℕ} (ho : order ≤ 2 * m) {x : Fin (2 * m + 1) → ℝ} {b : Fin (order + 1) → ℝ} (h : LeastSquares m order x b) :
    ∑ k, savgolCoeff m order k * x k = polyAt b 0 := by
  have e : ∀ k, savgolCoeff m order k * x k = savgolCoeff m order k * polyAt b ((k : ℕ) - (m : ℝ)) +
      (x k - polyAt b ((k : ℕ) - (m : ℝ))) * polyAt ((savgolMat m order * (savgolMat m order).transpose)⁻¹ *ᵥ Pi.single 0 1) ((k : ℕ) - (m : ℝ)) := by
    intro k
    have e2 : savgolCoeff m order k = polyAt ((savgolMat m order * (savgolMat m order).transpose)⁻¹ *ᵥ Pi.single 0 1) ((k : ℕ) - (m : ℝ)) := by
      rw [← mulVec_polyAt]
      rfl
    rw [e2]
    ring
  simp only [e]
  rw [Finset.sum_add_distrib, ls_normal h, coeff_poly ho, add_zero]
  unfold polyAt
  rw [Fin.sum_univ_succ]
  simp

/-- Such a fit exists for every window. -/
theorem ls_exists {m order : ℕ} (ho : order ≤ 2 * m) (x : Fin (2 * m + 1) → ℝ) : ∃ b, LeastSquares m order x b := by
  set A := savgolMat m order with hA
  refine ⟨(A * A.transpose)⁻¹ *ᵥ (A *ᵥ x), fun b' => ?_⟩
  set b := (A * A.transpose)⁻¹ *ᵥ (A *ᵥ x) with hb
  have hn : A *ᵥ (x - A.transpose *ᵥ b) = 0 := by
    rw [Matrix.mulVec_sub, Matrix.mulVec_mulVec, hb, Matrix.mulVec_mulVec, Matrix.mul_nonsing_inv _ (gram_unit ho), Matrix.one_mulVec, sub_self]
  have ho2 : (x - A.transpose *ᵥ b) ⬝ᵥ (A.transpose *ᵥ (b - b')) = 0 := by
    rw [Matrix.dotProduct_mulVec, Matrix.vecMul_transpose, hn, zero_dotProduct]
  have e : ∀ k : Fin (2 * m + 1), (x k - polyAt b' ((k : ℕ) - (m : ℝ))) ^ 2 = (x k - polyAt b ((k : ℕ) - (m : ℝ))) ^ 2 +
      (2 * ((x - A.transpose *ᵥ b) k * (A.transpose *ᵥ (b - b')) k) + ((A.transpose *ᵥ (b - b')) k) ^ 2) := by
    intro k
    rw [Matrix.mulVec_sub, Pi.sub_apply, Pi.sub_apply, mulVec_polyAt, mulVec_polyAt]
    ring
  simp only [e]
  rw [Finset.sum_add_distrib, Finset.sum_add_distrib, ← Finset.mul_sum]
  have h2 : ∑ k, (x - A.transpose *ᵥ b) k * (A.transpose *ᵥ (b - b')) k = 0 := ho2
  rw [h2]
  have h3 : 0 ≤ ∑ k, ((A.transpose *ᵥ (b - b')) k) ^ 2 := Finset.sum_nonneg fun k _ => sq_nonneg _
  linarith

theorem mirrorIdx_id {n : ℕ} {i : ℤ} (h0 : 0 ≤ i) (h1 : i < n) : mirrorIdx n i = i.toNat := by
  unfold mirrorIdx
  by_cases hn : n ≤ 1
  · rw [if_pos hn]; omega
  · rw [if_neg hn]
    dsimp only
    by_cases hl : i < 2 * (n : ℤ) - 2
    · rw [Int.emod_eq_of_lt h0 hl, if_pos (by omega)]
    · have : n = 2 → False ∨ True := fun _ => Or.inr trivial
      omega

theorem mirrorIdx_left {n : ℕ} {i : ℤ} (h0 : i < 0) (h1 : -(n : ℤ) < i) : mirrorIdx n i = (-i).toNat := by
  unfold mirrorIdx
  rw [if_neg (by omega)]
  have e : i % (2 * (n : ℤ) - 2) = i + (2 * (n : ℤ) - 2) := by
    rw [← Int.add_emod_right]
    exact Int.emod_eq_of_lt (by omega) (by omega)
  dsimp only
  rw [e]
  by_cases h : (i + (2 * (n : ℤ) - 2)).toNat < n
  · rw [if_pos h]; omega
  · rw [if_neg h]; omega

theorem mirrorIdx_right {n : ℕ} {i : ℤ} (h0 : (n : ℤ) ≤ i) (h1 : i < 2 * (n : ℤ) - 1) : mirrorIdx n i = (2 * (n : ℤ) - 2 - i).toNat := by
  unfold mirrorIdx
  by_cases hn : n ≤ 1
  · omega
  rw [if_neg hn]
  dsimp only
  by_cases h2 : i = 2 * (n : ℤ) - 2
  · rw [h2, Int.emod_self]
    rw [if_pos (by simp; omega)]; omega
  · rw [Int.emod_eq_of_lt (by omega) (by omega), if_neg (by omega)]; omega

theorem mirrorIdx_lt {n : ℕ} (hn : 0 < n) (i : ℤ) : mirrorIdx n i < n := by
  unfold mirrorIdx
  by_cases h : n ≤ 1
  · rw [if_pos h]; exact hn
  · rw [if_neg h]
    dsimp only
    have h1 := Int.emod_nonneg i (show (2 * (n : ℤ) - 2) ≠ 0 by omega)
    have h2 := Int.emod_lt_of_pos i (show 0 < 2 * (n : ℤ) - 2 by omega)
    generalize i % (2 * (n : ℤ) - 2) = r at *
    split <;> omega

/-! ### C167 -/

/-- The line (a column for `axis=0`, a row for `axis=1`) number `j` of an image. -/
def lineOf (axis0 : Bool) (mat : Mat ℝ) (j i : ℕ) : ℝ := if axis0 then mat.get i j else mat.get j i

/-- The length of the lines. -/
def lineLen (axis0 : Bool) (mat : Mat ℝ) : ℕ := if axis0 then mat.h else mat.w

theorem fitted_line (mat out : Mat ℝ) (order numChunk : ℕ) (axis0 : Bool) (h : fittedImage mat order axis0 numChunk = .ok out) :
    ∃ m, fitLength (lineLen axis0 mat) order numChunk = .ok (2 * m + 1) ∧ order ≤ 2 * m ∧ out.h = mat.h ∧ out.w = mat.w ∧
      ∀ i j, lineOf axis0 out j i = savgolLine m order (lineLen axis0 mat) (lineOf axis0 mat j) i := by
  unfold fittedImage at h
  cases axis0 with
  | true =>
    rw [if_pos rfl] at h
    cases hL : fitLength mat.h order numChunk with
    | error e => rw [hL] at h; cases h
    | ok L =>
      rw [hL] at h
      obtain ⟨_, h2, _, _, h5⟩ := (fit_length_spec _ _ _ _).1 hL
      cases h
      refine ⟨L / 2, ?_, by omega, rfl, rfl, fun i j => rfl⟩
      show fitLength mat.h order numChunk = _
      rw [hL, show 2 * (L / 2) + 1 = L by omega]
  | false =>
    rw [if_neg (by simp)] at h
    cases hL : fitLength mat.w order numChunk with
    | error e => rw [hL] at h; cases h
    | ok L =>
      rw [hL] at h
      obtain ⟨_, h2, _, _, h5⟩ := (fit_length_spec _ _ _ _).1 hL
      cases h
      refine ⟨L / 2, ?_, by omega, rfl, rfl, fun i j => rfl⟩
      show fitLength mat.w order numChunk = _
      rw [hL, show 2 * (L / 2) + 1 = L by omega]

/-- C167: the fitted image has the shape of the image, and its value at position `i` of a line is the value at the centre of the least-squares polynomial
(degree at most `order`) of the `2m+1` pixels around it, `2m+1` being the largest odd number not above the length of the line divided by `num_chunk`.  Pixels
are numbered by `window`: inside the line they are the pixels themselves, beyond its ends those at the same distance on the other side of the end pixel. -/
theorem fitted_spec (mat out : Mat ℝ) (order numChunk : ℕ) (axis0 : Bool) (h : fittedImage mat order axis0 numChunk = .ok out) :
    out.h = mat.h ∧ out.w = mat.w ∧ ∃ m : ℕ, 0 < numChunk ∧ 2 * m + 1 ≤ lineLen axis0 mat / numChunk ∧ lineLen axis0 mat / numChunk ≤ 2 * m + 2 ∧ order ≤ 2 * m ∧
      ∃ window : ℕ → ℕ → ℕ, (∀ i k, window i k < lineLen axis0 mat) ∧
        (∀ i < lineLen axis0 mat, ∀ k < 2 * m + 1, (i + k < m → window i k = m - (i + k)) ∧
          (m ≤ i + k → i + k < m + lineLen axis0 mat → window i k = i + k - m) ∧
          (m + lineLen axis0 mat ≤ i + k → window i k = 2 * (lineLen axis0 mat - 1) - (i + k - m))) ∧
        ∀ i j, (∃ b : Fin (order + 1) → ℝ, LeastSquares m order (fun k => lineOf axis0 mat j (window i k)) b) ∧
          ∀ b : Fin (order + 1) → ℝ, LeastSquares m order (fun k => lineOf axis0 mat j (window i k)) b → lineOf axis0 out j i = polyAt b 0 := by
  obtain ⟨m, h1, h2, h3, h4, h5⟩ := fitted_line mat out order numChunk axis0 h
  obtain ⟨g1, g2, g3, g4, g5⟩ := (fit_length_spec _ _ _ _).1 h1
  have hpos : 0 < lineLen axis0 mat := by
    rcases Nat.eq_zero_or_pos (lineLen axis0 mat) with h0 | h0
    · rw [h0, Nat.zero_div] at g3; omega
    · exact h0
  refine ⟨h3, h4, m, g1, g3, by omega, h2, fun i k => mirrorIdx (lineLen axis0 mat) ((i : ℤ) + k - m), fun i k => mirrorIdx_lt hpos _, fun i hi k hk => ⟨fun hl => ?_, fun hl hr => ?_, fun hr => ?_⟩, fun i j => ?_⟩
  · have hn : 2 * m + 1 ≤ lineLen axis0 mat := le_trans g3 (Nat.div_le_self _ _)
    show mirrorIdx _ _ = _
    rw [mirrorIdx_left (by omega) (by omega)]
    omega
  · show mirrorIdx _ _ = _
    rw [mirrorIdx_id (by omega) (by omega)]
    omega
  · have hn : 2 * m + 1 ≤ lineLen axis0 mat := le_trans g3 (Nat.div_le_self _ _)
    show mirrorIdx _ _ = _
    rw [mirrorIdx_right (by omega) (by omega)]
    omega
  · refine ⟨ls_exists h2 fun k : Fin (2 * m + 1) => lineOf axis0 mat j (mirrorIdx (lineLen axis0 mat) ((i : ℤ) + (k : ℕ) - m)), fun b hb => ?_⟩
    rw [h5 i j]
    exact savgol_fit h2 hb

/-- C167 (partial): a line that is a polynomial of degree at most `order` is reproduced at all positions whose window lies inside the line. -/
theorem fitted_poly_partial (mat out : Mat ℝ) (order numChunk : ℕ) (axis0 : Bool) (h : fittedImage mat order axis0 numChunk = .ok out) (j : ℕ) (q : Polynomial ℝ)
    (hq : q.natDegree ≤ order) (hline : ∀ i < lineLen axis0 mat, lineOf axis0 mat j i = q.eval (i : ℝ)) (i : ℕ)
    (hi : lineLen axis0 mat / numChunk ≤ 2 * i + 2) (hi' : 2 * i + lineLen axis0 mat / numChunk ≤ 2 * lineLen axis0 mat - 1) :
    lineOf axis0 out j i = lineOf axis0 mat j i := by
  obtain ⟨m, h1, h2, h3, h4, h5⟩ := fitted_line mat out order numChunk axis0 h
  obtain ⟨g1, g2, g3, g4, g5⟩ := (fit_length_spec _ _ _ _).1 h1
  rw [h5]
  set n := lineLen axis0 mat with hn
  set c := q.comp (Polynomial.X + Polynomial.C (i : ℝ)) with hc
  have hcd : c.natDegree ≤ order := by
    rw [hc, Polynomial.natDegree_comp, Polynomial.natDegree_X_add_C, mul_one]
    exact hq
  have hce : ∀ t : ℝ, q.eval ((i : ℝ) + t) = polyAt (fun a : Fin (order + 1) => c.coeff (a : ℕ)) t := by
    intro t
    have : c.eval t = q.eval ((i : ℝ) + t) := by
      rw [hc, Polynomial.eval_comp]
      simp [add_comm]
    rw [← this, Polynomial.eval_eq_sum_range' (n := order + 1) (by omega)]
    unfold polyAt
    exact (Fin.sum_univ_eq_sum_range (fun a => c.coeff a * t ^ a) (order + 1)).symm
  unfold savgolLine
  have e : ∀ k : Fin (2 * m + 1), lineOf axis0 mat j (mirrorIdx n ((i : ℤ) + (k : ℕ) - m)) =
      polyAt (fun a : Fin (order + 1) => c.coeff (a : ℕ)) ((k : ℕ) - (m : ℝ)) := by
    intro k
    have hk := k.2
    have h6 : mirrorIdx n ((i : ℤ) + (k : ℕ) - m) = i + k - m := by
      rw [mirrorIdx_id (by omega) (by omega)]
      omega
    rw [h6, hline _ (by omega), ← hce]
    congr 1
    rw [Nat.cast_sub (by omega)]
    push_cast
    ring
  simp only [e]
  rw [coeff_poly h2, hline i (by omega)]
  have h0 := hce 0
  rw [add_zero] at h0
  rw [h0]
  unfold polyAt
  rw [Fin.sum_univ_succ]
  simp

/-- C167: constant lines are reproduced everywhere. -/
theorem fitted_constant (mat out : Mat ℝ) (order numChunk : ℕ) (axis0 : Bool) (h : fittedImage mat order axis0 numChunk = .ok out) (j : ℕ) (c : ℝ)
    (hline : ∀ i < lineLen axis0 mat, lineOf axis0 mat j i = c) (i : ℕ) : lineOf axis0 out j i = c := by
  obtain ⟨m, h1, h2, h3, h4, h5⟩ := fitted_line mat out order numChunk axis0 h
  obtain ⟨g1, g2, g3, g4, g5⟩ := (fit_length_spec _ _ _ _).1 h1
  have hpos : 0 < lineLen axis0 mat := by
    rcases Nat.eq_zero_or_pos (lineLen axis0 mat) with h0 | h0
    · rw [h0, Nat.zero_div] at g3; omega
    · exact h0
  rw [h5]
  unfold savgolLine
  have := coeff_poly h2 (fun a => if a = 0 then c else 0)
  rw [if_pos rfl] at this
  rw [← this]
  refine Finset.sum_congr rfl fun k _ => ?_
  rw [hline _ (mirrorIdx_lt hpos _)]
  unfold polyAt
  rw [Fin.sum_univ_succ]
  simp

/-- The hypotheses made on the filter in C93 hold for it. -/
theorem savgol_image (L o : ℕ) (m : Mat ℝ) : (savgolImage L o m).h = m.h ∧ (savgolImage L o m).w = m.w ∧
    (∀ k : ℝ, savgolImage L o ⟨m.h, m.w, fun i j => k * m.get i j⟩ = ⟨m.h, m.w, fun i j => k * (savgolImage L o m).get i j⟩) ∧
    ∀ c, o < L → L % 2 = 1 → (∀ i < m.h, ∀ j < m.w, m.get i j = c) → ∀ i < m.h, ∀ j < m.w, (savgolImage L o m).get i j = c := by
  refine ⟨rfl, rfl, fun k => ?_, fun c hL hodd hc i hi j hj => ?_⟩
  · unfold savgolImage savgolLine
    congr 1
    funext i j
    dsimp only
    rw [Finset.mul_sum]
    exact Finset.sum_congr rfl fun _ _ => by ring
  · unfold savgolImage savgolLine
    dsimp only
    have := coeff_poly (m := L / 2) (order := o) (by omega) (fun a => if a = 0 then c else 0)
    rw [if_pos rfl] at this
    rw [← this]
    refine Finset.sum_congr rfl fun k _ => ?_
    rw [hc _ (mirrorIdx_lt (by omega) _) j hj]
    unfold polyAt
    rw [Fin.sum_univ_succ]
    simp

/-- C93 with the filter itself: constant, non-zero sinograms of even sizes are returned unchanged by `remove_stripe_based_fitting`. -/
theorem fitting_constant_savgol_partial (as1 : Sorting.Argsort ℝ) (as2 : Sorting.Argsort ℕ) (order : ℕ) (sigma : ℝ) (sort : Bool) (numChunk : ℕ) (sino : Mat ℝ) (c : ℝ)
    (hc0 : c ≠ 0) (hc : ∀ i < sino.h, ∀ j < sino.w, sino.get i j = c) (he1 : sino.h % 2 = 0) (he2 : sino.w % 2 = 0) (hh : 0 < sino.h) (hw : 0 < sino.w)
    (hL : 0 < numChunk ∧ order + 1 < sino.h / numChunk) :
    ∃ out, removeFitting as1 as2 savgolImage none order sigma sort numChunk sino = .ok out ∧ out.h = sino.h ∧ out.w = sino.w ∧
      ∀ i < sino.h, ∀ j < sino.w, out.get i j = c := by
  have hex : ∃ L, fitLength sino.h order numChunk = .ok L := by
    generalize hs : sino.h / numChunk = s at hL
    rcases Nat.mod_two_eq_zero_or_one s with hm | hm
    · exact ⟨s - 1, (fit_length_spec _ _ _ _).2 ⟨hL.1, by omega, by omega, by omega, by omega⟩⟩
    · exact ⟨s, (fit_length_spec _ _ _ _).2 ⟨hL.1, by omega, by omega, by omega, by omega⟩⟩
  obtain ⟨L, hL'⟩ := hex
  exact fitting_constant_partial as1 as2 savgolImage (fun L o m => ⟨(savgol_image L o m).1, (savgol_image L o m).2.1⟩)
    (fun L o m => (savgol_image L o m).2.2.2) order sigma sort numChunk sino c hc0 hc he1 he2 hh hw L hL'

/-- C93 with the filter itself: for one projection of three pixels a constant sinogram is changed. -/
theorem fitting_constant_savgol_refuted (as1 : Sorting.Argsort ℝ) (as2 : Sorting.Argsort ℕ) (sigma : ℝ) (hs : sigma ≠ 0) (c : ℝ) (hc : c ≠ 0) :
    ∃ out, removeFitting as1 as2 savgolImage none 0 sigma false 1 ⟨1, 3, fun _ _ => c⟩ = .ok out ∧ out.get 0 0 ≠ c :=
  fitting_constant_refuted as1 as2 savgolImage (fun L o m => ⟨(savgol_image L o m).1, (savgol_image L o m).2.1⟩)
    (fun L o m => (savgol_image L o m).2.2.2) sigma hs c hc

/-- C93 with the filter itself: rescaling by a positive factor. -/
theorem fitting_scale_savgol (as1 : Sorting.Argsort ℝ) (ho : OrderOnly as1) (as2 : Sorting.Argsort ℕ) (order : ℕ) (sigma : ℝ) (sort : Bool) (numChunk : ℕ)
    (sino out : Mat ℝ) (k : ℝ) (hk : 0 < k) (h : removeFitting as1 as2 savgolImage none order sigma sort numChunk sino = .ok out) :
    removeFitting as1 as2 savgolImage none order sigma sort numChunk ⟨sino.h, sino.w, fun i j => k * sino.get i j⟩ =
      .ok ⟨out.h, out.w, fun i j => k * out.get i j⟩ :=
  fitting_scale_sorted as1 ho as2 savgolImage (fun L o m k => (savgol_image L o m).2.2.1 k) none (fun f hf => by cases hf) order sigma sort numChunk sino out k hk h

theorem sum_centred (n : ℕ) (a : ℝ) : ∑ k ∈ range n, ((k : ℝ) - a) = (n : ℝ) * ((n : ℝ) - 1) / 2 - n * a := by
  induction n with
  | zero => simp
  | succ n ih => rw [Finset.sum_range_succ, ih]; push_cast; ring

/-- C167 is false of the code at the ends of lines: a ramp of any odd length `2m+1 ≥ 3` fitted with `order=1` in one chunk does not start at its own first
value: the window is filled with mirrored pixels there, so that a straight line is fitted to a V. -/
theorem fitted_ramp_refuted (m w : ℕ) (hm : 1 ≤ m) (j : ℕ) : ∃ out, fittedImage ⟨2 * m + 1, w, fun i _ => (i : ℝ)⟩ 1 true 1 = .ok out ∧ 0 < out.get 0 j := by
  have hL : fitLength (2 * m + 1) 1 1 = .ok (2 * m + 1) := (fit_length_spec _ _ _ _).2 ⟨one_pos, by omega, by omega, by omega, by omega⟩
  refine ⟨savgolImage (2 * m + 1) 1 ⟨2 * m + 1, w, fun i _ => (i : ℝ)⟩, ?_, ?_⟩
  · unfold fittedImage
    rw [if_pos rfl]
    show (fitLength (2 * m + 1) 1 1).map _ = _
    rw [hL]
    rfl
  · show 0 < savgolLine ((2 * m + 1) / 2) 1 (2 * m + 1) (fun r => (r : ℝ)) 0
    rw [show (2 * m + 1) / 2 = m by omega]
    unfold savgolLine
    obtain ⟨b, hb⟩ := ls_exists (m := m) (order := 1) (by omega) fun k : Fin (2 * m + 1) => ((mirrorIdx (2 * m + 1) (((0 : ℕ) : ℤ) + (k : ℕ) - m) : ℕ) : ℝ)
    have h1 := savgol_fit (by omega) hb
    rw [h1]
    have h2 := ls_normal hb (fun a => if a = 0 then 1 else 0)
    have p1 : ∀ t : ℝ, polyAt (fun a : Fin (1 + 1) => if a = 0 then (1 : ℝ) else 0) t = 1 := by
      intro t
      unfold polyAt
      rw [Fin.sum_univ_two]
      simp
    have p2 : ∀ t : ℝ, polyAt b t = b 0 + b 1 * t := by
      intro t
      unfold polyAt
      rw [Fin.sum_univ_two]
      simp
    simp only [p1, p2, mul_one] at h2
    rw [Finset.sum_sub_distrib, Finset.sum_add_distrib, ← Finset.mul_sum, Finset.sum_const, Finset.card_univ, Fintype.card_fin, nsmul_eq_mul,
      Fin.sum_univ_eq_sum_range (fun k => ((k : ℝ) - (m : ℝ))) (2 * m + 1), sum_centred] at h2
    have h3 : 0 < ∑ k : Fin (2 * m + 1), ((mirrorIdx (2 * m + 1) (((0 : ℕ) : ℤ) + (k : ℕ) - m) : ℕ) : ℝ) := by
      refine Finset.sum_pos' (fun k _ => Nat.cast_nonneg _) ⟨⟨2 * m, by omega⟩, Finset.mem_univ _, ?_⟩
      rw [mirrorIdx_id (by push_cast; omega) (by push_cast; omega)]
      have : 0 < (((0 : ℕ) : ℤ) + ((2 * m : ℕ) : ℤ) - (m : ℤ)).toNat := by push_cast; omega
      exact_mod_cast this
    rw [p2, mul_zero, add_zero]
    push_cast at h2
    have h4 : ((2 : ℝ) * m + 1) * b 0 = ∑ k : Fin (2 * m + 1), ((mirrorIdx (2 * m + 1) (((0 : ℕ) : ℤ) + (k : ℕ) - m) : ℕ) : ℝ) := by
      push_cast
      linarith
    rw [← h4] at h3
    have h5 : (0 : ℝ) < 2 * m + 1 := by positivity
    exact (mul_pos_iff_of_pos_left h5).1 h3

/-- A fit of order 2 with windows of 5 rows: nine rows, `num_chunk = 1` would give 9, `num_chunk = 2` would be 4 → 3. -/
example : fitLength 9 2 1 = .ok 9 ∧ fitLength 9 2 2 = .ok 3 := by decide

end Verif.StripeFilters
