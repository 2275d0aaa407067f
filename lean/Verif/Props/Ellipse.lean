import Verif.Model.Calibration
import Mathlib.Algebra.Polynomial.Roots
import Mathlib.Algebra.BigOperators.Field
import Mathlib.Topology.MetricSpace.Bounded
import Mathlib.Topology.Order.Compact
import Mathlib.Topology.Algebra.Monoid
import Mathlib.Algebra.Polynomial.Eval.Degree
import Mathlib.Tactic.ComputeDegree
import Mathlib.Tactic.Linarith
import Mathlib.Tactic.Ring
import Mathlib.Tactic.FieldSimp
import Mathlib.Tactic.NormNum
import Mathlib.Tactic.Positivity
import Mathlib.Tactic.LinearCombination

/-!
C77 (ellipse fit) of the calibration module.
-/

set_option linter.unusedSectionVars false
set_option linter.unusedSimpArgs false

namespace Verif.Calibration
open Real

/-! ### Specification -/

/-- An ellipse: semi-axes, angle (rad) of the first axis to the x-axis, centre. -/
structure Ellipse where
  A : ℝ
  B : ℝ
  φ : ℝ
  xc : ℝ
  yc : ℝ

/-- The point lies on the ellipse. -/
def Ellipse.On (E : Ellipse) (p : ℝ × ℝ) : Prop :=
  (((p.1 - E.xc) * cos E.φ + (p.2 - E.yc) * sin E.φ) / E.A) ^ 2 +
    ((-(p.1 - E.xc) * sin E.φ + (p.2 - E.yc) * cos E.φ) / E.B) ^ 2 = 1

/-- `Σ_k row_k v_k`: value of the polynomial with coefficients `v`. -/
def dot (u v : Coef) : ℝ := ∑ k, u k * v k

/-- What `np.linalg.svd` guarantees of the last right singular vector of a matrix with at least six rows (and six
columns): a unit vector, and no unit vector gives a smaller `‖A v‖`. -/
structure IsLastSingular (rows : List Coef) (v : Coef) : Prop where
  unit : dot v v = 1
  least : ∀ u, dot u u = 1 → (rows.map fun r => (dot r v) ^ 2).sum ≤ (rows.map fun r => (dot r u) ^ 2).sum

/-! ### Conics -/

/-- The coefficients of the equation of the ellipse. -/
noncomputable def coefOf (E : Ellipse) : Coef :=
  let α := 1 / E.A ^ 2
  let β := 1 / E.B ^ 2
  let u := cos E.φ
  let w := sin E.φ
  let a := α * u ^ 2 + β * w ^ 2
  let b := 2 * u * w * (α - β)
  let c := α * w ^ 2 + β * u ^ 2
  ![a, b, c, -2 * a * E.xc - b * E.yc, -b * E.xc - 2 * c * E.yc, a * E.xc ^ 2 + b * E.xc * E.yc + c * E.yc ^ 2 - 1]

theorem dot_row (p : ℝ × ℝ) (v : Coef) :
    dot (row p) v = p.1 ^ 2 * v 0 + p.1 * p.2 * v 1 + p.2 ^ 2 * v 2 + p.1 * v 3 + p.2 * v 4 + v 5 := by
  simp [dot, row, Fin.sum_univ_six]

theorem dot_coefOf (E : Ellipse) (p : ℝ × ℝ) :
    dot (row p) (coefOf E) = (((p.1 - E.xc) * cos E.φ + (p.2 - E.yc) * sin E.φ) / E.A) ^ 2 +
    ((-(p.1 - E.xc) * sin E.φ + (p.2 - E.yc) * cos E.φ) / E.B) ^ 2 - 1 := by
  rw [dot_row]
  simp only [coefOf, div_pow]
  simp [Matrix.cons_val_zero, Matrix.cons_val_one]
  ring

theorem on_iff (E : Ellipse) (p : ℝ × ℝ) : E.On p ↔ dot (row p) (coefOf E) = 0 := by
  rw [dot_coefOf, sub_eq_zero]
  rfl

/-- Two conics equal as functions have equal coefficients. -/
theorem coef_ext (v w : Coef) (h : ∀ p, dot (row p) v = dot (row p) w) : v = w := by
  have h1 := h (0, 0)
  have h2 := h (1, 0)
  have h3 := h (-1, 0)
  have h4 := h (0, 1)
  have h5 := h (0, -1)
  have h6 := h (1, 1)
  simp only [dot_row] at h1 h2 h3 h4 h5 h6
  norm_num at h1 h2 h3 h4 h5 h6
  funext k
  fin_cases k <;> simp <;> linarith

/-- A conic through five points of the unit circle is a multiple of the circle. -/
theorem circle_unique (v : Coef) (S : Finset (ℝ × ℝ)) (hc : 5 ≤ S.card) (hS : ∀ p ∈ S, p.1 ^ 2 + p.2 ^ 2 = 1)
    (h0 : ∀ p ∈ S, dot (row p) v = 0) : v 1 = 0 ∧ v 2 = v 0 ∧ v 3 = 0 ∧ v 4 = 0 ∧ v 5 = - v 0 := by
  classical
  let P : Polynomial ℂ :=
    Polynomial.C ⟨(v 0 - v 2) / 4, -v 1 / 4⟩ * Polynomial.X ^ 4 + Polynomial.C ⟨v 3 / 2, -v 4 / 2⟩ * Polynomial.X ^ 3 +
    Polynomial.C ⟨(v 0 + v 2) / 2 + v 5, 0⟩ * Polynomial.X ^ 2 + Polynomial.C ⟨v 3 / 2, v 4 / 2⟩ * Polynomial.X +
    Polynomial.C ⟨(v 0 - v 2) / 4, v 1 / 4⟩
  have hP : P = 0 := by
    refine Polynomial.eq_zero_of_natDegree_lt_card_of_eval_eq_zero' P (S.image fun p => (⟨p.1, p.2⟩ : ℂ)) ?_ ?_
    · intro z hz
      obtain ⟨p, hp, rfl⟩ := Finset.mem_image.1 hz
      have hp1 := hS p hp
      have hp0 := h0 p hp
      rw [dot_row] at hp0
      simp only [P, Polynomial.eval_add, Polynomial.eval_mul, Polynomial.eval_C, Polynomial.eval_pow, Polynomial.eval_X]
      obtain ⟨X, Y⟩ := p
      dsimp only at hp0 hp1 ⊢
      apply Complex.ext
      · simp only [pow_succ, pow_zero, one_mul, Complex.add_re, Complex.mul_re, Complex.mul_im, Complex.zero_re]
        linear_combination (X ^ 2 - Y ^ 2) * hp0 - ((v 0 - v 2) / 4 * (1 + X ^ 2 + Y ^ 2) + (v 0 + v 2) / 2 * (X ^ 2 - Y ^ 2) +
          (v 3 * X - v 4 * Y) / 2) * hp1
      · simp only [pow_succ, pow_zero, one_mul, Complex.add_im, Complex.mul_re, Complex.mul_im, Complex.zero_im]
        linear_combination (2 * X * Y) * hp0 - (v 1 / 4 * (1 + X ^ 2 + Y ^ 2) + (v 0 + v 2) / 2 * (2 * X * Y) +
          (v 3 * Y + v 4 * X) / 2) * hp1
    · refine lt_of_le_of_lt (b := 4) ?_ ?_
      · simp only [P]
        compute_degree
      · rw [Finset.card_image_of_injective]
        · omega
        · rintro ⟨a, b⟩ ⟨c, d⟩ h
          simpa using h
  have c4 := congrArg (fun q => Polynomial.coeff q 4) hP
  have c3 := congrArg (fun q => Polynomial.coeff q 3) hP
  have c2 := congrArg (fun q => Polynomial.coeff q 2) hP
  simp [P, Polynomial.coeff_X, Polynomial.coeff_C, Complex.ext_iff] at c4 c3 c2
  refine ⟨?_, ?_, ?_, ?_, ?_⟩ <;> linarith

/-- A conic through five points of an ellipse is a multiple of that ellipse. -/
theorem conic_unique (E : Ellipse) (hA : 0 < E.A) (hB : 0 < E.B) (v : Coef) (S : Finset (ℝ × ℝ)) (hc : 5 ≤ S.card)
    (hS : ∀ p ∈ S, E.On p) (h0 : ∀ p ∈ S, dot (row p) v = 0) : ∃ l : ℝ, v = fun k => l * coefOf E k := by
  classical
  obtain ⟨A, B, φ, xc, yc⟩ := E
  dsimp only at hA hB
  set u := cos φ with hu
  set w := sin φ with hw
  have huw : w ^ 2 + u ^ 2 = 1 := sin_sq_add_cos_sq φ
  -- coordinates in which the ellipse is the unit circle
  let g : ℝ × ℝ → ℝ × ℝ := fun p =>
    (((p.1 - xc) * u + (p.2 - yc) * w) / A, (-(p.1 - xc) * w + (p.2 - yc) * u) / B)
  let v' : Coef := ![A ^ 2 * (v 0 * u ^ 2 + v 1 * u * w + v 2 * w ^ 2),
    A * B * (-2 * v 0 * u * w + v 1 * (u ^ 2 - w ^ 2) + 2 * v 2 * u * w),
    B ^ 2 * (v 0 * w ^ 2 - v 1 * u * w + v 2 * u ^ 2),
    A * (2 * v 0 * xc * u + v 1 * (xc * w + yc * u) + 2 * v 2 * yc * w + v 3 * u + v 4 * w),
    B * (-2 * v 0 * xc * w + v 1 * (xc * u - yc * w) + 2 * v 2 * yc * u - v 3 * w + v 4 * u),
    v 0 * xc ^ 2 + v 1 * xc * yc + v 2 * yc ^ 2 + v 3 * xc + v 4 * yc + v 5]
  have hx : ∀ p : ℝ × ℝ, p.1 = xc + A * (g p).1 * u - B * (g p).2 * w := by
    intro p
    simp only [g]
    field_simp
    linear_combination (-(p.1 - xc)) * huw
  have hy : ∀ p : ℝ × ℝ, p.2 = yc + A * (g p).1 * w + B * (g p).2 * u := by
    intro p
    simp only [g]
    field_simp
    linear_combination (-(p.2 - yc)) * huw
  have hv : ∀ p, dot (row p) v = dot (row (g p)) v' := by
    intro p
    rw [dot_row, dot_row]
    simp only [v']
    simp [Matrix.cons_val_zero, Matrix.cons_val_one]
    rw [hx p, hy p]
    ring_nf
  have hginj : Function.Injective g := by
    intro p q h
    ext
    · rw [hx p, hx q, h]
    · rw [hy p, hy q, h]
  obtain ⟨h1, h2, h3, h4, h5⟩ := circle_unique v' (S.image g) (by rwa [Finset.card_image_of_injective _ hginj])
    (by
      intro p hp
      obtain ⟨q, hq, rfl⟩ := Finset.mem_image.1 hp
      exact hS q hq)
    (by
      intro p hp
      obtain ⟨q, hq, rfl⟩ := Finset.mem_image.1 hp
      rw [← hv]
      exact h0 q hq)
  refine ⟨v' 0, coef_ext _ _ fun p => ?_⟩
  rw [hv, dot_row, h1, h2, h3, h4, h5]
  have e : dot (row p) (fun k => v' 0 * coefOf ⟨A, B, φ, xc, yc⟩ k) = v' 0 * dot (row p) (coefOf ⟨A, B, φ, xc, yc⟩) := by
    rw [dot_row, dot_row]
    ring
  rw [e, dot_coefOf]
  show _ = v' 0 * ((g p).1 ^ 2 + (g p).2 ^ 2 - 1)
  ring

/-! ### From the coefficients to the ellipse -/

theorem rad2deg_lt {x y : ℝ} : rad2deg x < rad2deg y ↔ x < y := by
  unfold rad2deg
  rw [div_lt_div_iff_of_pos_right pi_pos]
  constructor <;> intro h <;> linarith

theorem rad2deg_pi_div_two : rad2deg (π / 2) = 90 := by
  unfold rad2deg
  field_simp
  norm_num

theorem rad2deg_neg (x : ℝ) : rad2deg (-x) = - rad2deg x := by
  unfold rad2deg
  ring

theorem rad2deg_add (x y : ℝ) : rad2deg (x + y) = rad2deg x + rad2deg y := by
  unfold rad2deg
  ring

theorem rad2deg_sub (x y : ℝ) : rad2deg (x - y) = rad2deg x - rad2deg y := by
  unfold rad2deg
  ring

theorem rad2deg_pi : rad2deg π = 180 := by
  unfold rad2deg
  field_simp

theorem arctan2_polar (r t : ℝ) (hr : 0 < r) (h1 : -π < t) (h2 : t ≤ π) : arctan2 (r * sin t) (r * cos t) = t := by
  unfold arctan2
  have := Complex.arg_mul_cos_add_sin_mul_I hr (θ := t) ⟨h1, h2⟩
  refine Eq.trans ?_ this
  congr 1
  apply Complex.ext <;> simp [Complex.cos_ofReal_re, Complex.sin_ofReal_re, Complex.cos_ofReal_im, Complex.sin_ofReal_im]

theorem rollOf_pos (l k φ : ℝ) (hk : 0 < k) (hl : 0 < l) (h1 : -(π / 2) < φ) (h2 : φ < π / 2) (a b c : ℝ)
    (hac : a - c = l * (-k * cos (2 * φ))) (hb : b = l * (-k * sin (2 * φ))) : rollOf a b c = rad2deg φ := by
  have hs : sqrt ((a - c) ^ 2 + b ^ 2) = l * k := by
    rw [hac, hb, show (l * (-k * cos (2 * φ))) ^ 2 + (l * (-k * sin (2 * φ))) ^ 2 = (l * k) ^ 2 by
      linear_combination (l * k) ^ 2 * sin_sq_add_cos_sq (2 * φ)]
    exact sqrt_sq (by positivity)
  have hy : c - a - sqrt ((a - c) ^ 2 + b ^ 2) = -2 * l * k * sin φ ^ 2 := by
    rw [hs]
    have := hac
    rw [cos_two_mul] at this
    linear_combination -this + 2 * l * k * sin_sq_add_cos_sq φ
  have hx : b = -2 * l * k * sin φ * cos φ := by
    rw [hb, sin_two_mul]
    ring
  have hpi := pi_pos
  have hd := rad2deg_pi_div_two
  unfold rollOf
  dsimp only
  rw [hy, hx]
  have hhi : rad2deg φ < 90 := by rw [← hd]; exact rad2deg_lt.2 h2
  have hlo : -90 < rad2deg φ := by rw [← hd, ← rad2deg_neg]; exact rad2deg_lt.2 h1
  rcases lt_trichotomy φ 0 with h | h | h
  · have hsn : sin φ < 0 := sin_neg_of_neg_of_neg_pi_lt h (by linarith)
    have e : arctan2 (-2 * l * k * sin φ ^ 2) (-2 * l * k * sin φ * cos φ) = φ := by
      have := arctan2_polar (-2 * l * k * sin φ) φ (by have := mul_pos hl hk; nlinarith) (by linarith) (by linarith)
      refine Eq.trans ?_ this
      ring_nf
    rw [e, if_neg (show ¬ rad2deg φ > 90 from not_lt.2 hhi.le), if_neg (not_lt.2 hlo.le)]
  · subst h
    simp [arctan2, rad2deg]
    have : (⟨0, 0⟩ : ℂ) = 0 := rfl
    rw [this, Complex.arg_zero]
    norm_num
  · have hsn : 0 < sin φ := sin_pos_of_pos_of_lt_pi h (by linarith)
    have e : arctan2 (-2 * l * k * sin φ ^ 2) (-2 * l * k * sin φ * cos φ) = φ - π := by
      have := arctan2_polar (2 * l * k * sin φ) (φ - π) (by positivity) (by linarith) (by linarith)
      refine Eq.trans ?_ this
      rw [sin_sub_pi, cos_sub_pi]
      ring_nf
    have h3 : rad2deg (φ - π) = rad2deg φ - 180 := by rw [rad2deg_sub, rad2deg_pi]
    rw [e, h3, if_neg (show ¬ rad2deg φ - 180 > 90 by linarith), if_pos (by linarith)]
    ring

theorem rollOf_neg (l k φ : ℝ) (hk : 0 < k) (hl : l < 0) (h1 : -(π / 2) < φ) (h2 : φ < π / 2) (a b c : ℝ)
    (hac : a - c = l * (-k * cos (2 * φ))) (hb : b = l * (-k * sin (2 * φ))) :
    rollOf a b c = if 0 ≤ φ then rad2deg φ - 90 else rad2deg φ + 90 := by
  have hs : sqrt ((a - c) ^ 2 + b ^ 2) = -l * k := by
    rw [hac, hb, show (l * (-k * cos (2 * φ))) ^ 2 + (l * (-k * sin (2 * φ))) ^ 2 = (-l * k) ^ 2 by
      linear_combination (l * k) ^ 2 * sin_sq_add_cos_sq (2 * φ)]
    exact sqrt_sq (by nlinarith)
  have hy : c - a - sqrt ((a - c) ^ 2 + b ^ 2) = 2 * l * k * cos φ ^ 2 := by
    rw [hs]
    have := hac
    rw [cos_two_mul] at this
    linear_combination -this
  have hx : b = -2 * l * k * sin φ * cos φ := by
    rw [hb, sin_two_mul]
    ring
  have hpi := pi_pos
  have hd := rad2deg_pi_div_two
  have hcos : 0 < cos φ := cos_pos_of_mem_Ioo ⟨h1, h2⟩
  have e : arctan2 (2 * l * k * cos φ ^ 2) (-2 * l * k * sin φ * cos φ) = φ - π / 2 := by
    have := arctan2_polar (-2 * l * k * cos φ) (φ - π / 2)
      (by have := mul_pos (mul_pos (neg_pos.2 hl) hk) hcos; nlinarith) (by linarith) (by linarith)
    refine Eq.trans ?_ this
    rw [sin_sub_pi_div_two, cos_sub_pi_div_two]
    ring_nf
  unfold rollOf
  dsimp only
  rw [hy, hx, e, rad2deg_sub, hd]
  have hhi : rad2deg φ < 90 := by rw [← hd]; exact rad2deg_lt.2 h2
  have h0 : rad2deg 0 = 0 := by simp [rad2deg]
  rw [if_neg (show ¬ rad2deg φ - 90 > 90 by linarith)]
  by_cases h : 0 ≤ φ
  · have : 0 ≤ rad2deg φ := by rw [← h0]; exact not_lt.1 fun hh => absurd (rad2deg_lt.1 hh) (not_lt.2 h)
    rw [if_pos h, if_neg (by linarith)]
  · have : rad2deg φ < 0 := by rw [← h0]; exact rad2deg_lt.2 (not_le.1 h)
    rw [if_neg h, if_pos (by linarith)]
    ring

theorem ellipseOf_eq (v : Coef) (a0 b0 c0 d0 e0 f0 : ℝ) (h0 : v 0 = a0) (h1 : v 1 = b0) (h2 : v 2 = c0) (h3 : v 3 = d0)
    (h4 : v 4 = e0) (h5 : v 5 = f0) : ellipseOf v =
    if b0 ^ 2 - 4 * a0 * c0 = 0 then .error .valueError
    else if 2 * (a0 * e0 ^ 2 + c0 * d0 ^ 2 - b0 * d0 * e0 + (b0 ^ 2 - 4 * a0 * c0) * f0) *
      (a0 + c0 + sqrt ((a0 - c0) ^ 2 + b0 ^ 2)) < 0 then .error .valueError
    else if 2 * (a0 * e0 ^ 2 + c0 * d0 ^ 2 - b0 * d0 * e0 + (b0 ^ 2 - 4 * a0 * c0) * f0) *
      (a0 + c0 - sqrt ((a0 - c0) ^ 2 + b0 ^ 2)) < 0 then .error .valueError
    else if -2 * sqrt (2 * (a0 * e0 ^ 2 + c0 * d0 ^ 2 - b0 * d0 * e0 + (b0 ^ 2 - 4 * a0 * c0) * f0) *
      (a0 + c0 + sqrt ((a0 - c0) ^ 2 + b0 ^ 2))) / (b0 ^ 2 - 4 * a0 * c0) <
      -2 * sqrt (2 * (a0 * e0 ^ 2 + c0 * d0 ^ 2 - b0 * d0 * e0 + (b0 ^ 2 - 4 * a0 * c0) * f0) *
      (a0 + c0 - sqrt ((a0 - c0) ^ 2 + b0 ^ 2))) / (b0 ^ 2 - 4 * a0 * c0) then
      .ok (if rollOf a0 b0 c0 < 0 then 90 + rollOf a0 b0 c0 else -90 + rollOf a0 b0 c0,
        -2 * sqrt (2 * (a0 * e0 ^ 2 + c0 * d0 ^ 2 - b0 * d0 * e0 + (b0 ^ 2 - 4 * a0 * c0) * f0) *
          (a0 + c0 - sqrt ((a0 - c0) ^ 2 + b0 ^ 2))) / (b0 ^ 2 - 4 * a0 * c0),
        -2 * sqrt (2 * (a0 * e0 ^ 2 + c0 * d0 ^ 2 - b0 * d0 * e0 + (b0 ^ 2 - 4 * a0 * c0) * f0) *
          (a0 + c0 + sqrt ((a0 - c0) ^ 2 + b0 ^ 2))) / (b0 ^ 2 - 4 * a0 * c0),
        (2 * c0 * d0 - b0 * e0) / (b0 ^ 2 - 4 * a0 * c0), (2 * a0 * e0 - b0 * d0) / (b0 ^ 2 - 4 * a0 * c0))
    else
      .ok (rollOf a0 b0 c0,
        -2 * sqrt (2 * (a0 * e0 ^ 2 + c0 * d0 ^ 2 - b0 * d0 * e0 + (b0 ^ 2 - 4 * a0 * c0) * f0) *
          (a0 + c0 + sqrt ((a0 - c0) ^ 2 + b0 ^ 2))) / (b0 ^ 2 - 4 * a0 * c0),
        -2 * sqrt (2 * (a0 * e0 ^ 2 + c0 * d0 ^ 2 - b0 * d0 * e0 + (b0 ^ 2 - 4 * a0 * c0) * f0) *
          (a0 + c0 - sqrt ((a0 - c0) ^ 2 + b0 ^ 2))) / (b0 ^ 2 - 4 * a0 * c0),
        (2 * c0 * d0 - b0 * e0) / (b0 ^ 2 - 4 * a0 * c0), (2 * a0 * e0 - b0 * d0) / (b0 ^ 2 - 4 * a0 * c0)) := by
  subst h0 h1 h2 h3 h4 h5
  rfl

theorem ellipseOf_core (E : Ellipse) (hB : 0 < E.B) (hAB : E.B ≤ E.A) (l : ℝ) (hl : l ≠ 0) :
    ∃ k a b c, k = 1 / E.B ^ 2 - 1 / E.A ^ 2 ∧ a - c = l * (-k * cos (2 * E.φ)) ∧ b = l * (-k * sin (2 * E.φ)) ∧
    ellipseOf (fun k => l * coefOf E k) =
      .ok (if l < 0 ∧ E.B < E.A then (if rollOf a b c < 0 then 90 + rollOf a b c else -90 + rollOf a b c) else rollOf a b c,
        2 * E.A, 2 * E.B, E.xc, E.yc) := by
  obtain ⟨A, B, φ, xc, yc⟩ := E
  dsimp only at hB hAB ⊢
  have hA : 0 < A := lt_of_lt_of_le hB hAB
  obtain ⟨α, hα⟩ : ∃ α, α = 1 / A ^ 2 := ⟨_, rfl⟩
  obtain ⟨β, hβ⟩ : ∃ β, β = 1 / B ^ 2 := ⟨_, rfl⟩
  have hα0 : 0 < α := by rw [hα]; positivity
  have hβ0 : 0 < β := by rw [hβ]; positivity
  have hk : 0 ≤ β - α := by
    rw [hα, hβ]
    have : 1 / A ^ 2 ≤ 1 / B ^ 2 := one_div_le_one_div_of_le (by positivity) (by nlinarith)
    linarith
  obtain ⟨u, hu⟩ : ∃ u, u = cos φ := ⟨_, rfl⟩
  obtain ⟨w, hw⟩ : ∃ w, w = sin φ := ⟨_, rfl⟩
  have huw : w ^ 2 + u ^ 2 = 1 := by rw [hu, hw]; exact sin_sq_add_cos_sq φ
  have hv : (fun k => l * coefOf ⟨A, B, φ, xc, yc⟩ k) =
      let a := l * (α * u ^ 2 + β * w ^ 2)
      let b := l * (2 * u * w * (α - β))
      let c := l * (α * w ^ 2 + β * u ^ 2)
      ![a, b, c, -2 * a * xc - b * yc, -b * xc - 2 * c * yc, a * xc ^ 2 + b * xc * yc + c * yc ^ 2 - l] := by
    funext k
    rw [hα, hβ, hu, hw]
    fin_cases k <;> simp [coefOf] <;> ring
  rw [hv]
  dsimp only
  obtain ⟨a, ha⟩ : ∃ a, a = l * (α * u ^ 2 + β * w ^ 2) := ⟨_, rfl⟩
  obtain ⟨b, hb⟩ : ∃ b, b = l * (2 * u * w * (α - β)) := ⟨_, rfl⟩
  obtain ⟨c, hc⟩ : ∃ c, c = l * (α * w ^ 2 + β * u ^ 2) := ⟨_, rfl⟩
  rw [← ha, ← hb, ← hc]
  have hden : b ^ 2 - 4 * a * c = -4 * l ^ 2 * (α * β) := by
    rw [ha, hb, hc]
    linear_combination (-4 * l ^ 2 * α * β * (w ^ 2 + u ^ 2 + 1)) * huw
  have hden0 : b ^ 2 - 4 * a * c ≠ 0 := by
    rw [hden]
    have := mul_pos hα0 hβ0
    have : l ^ 2 * (α * β) ≠ 0 := by positivity
    intro h
    apply this
    linarith
  have hK : a * (-b * xc - 2 * c * yc) ^ 2 + c * (-2 * a * xc - b * yc) ^ 2 - b * (-2 * a * xc - b * yc) * (-b * xc - 2 * c * yc) +
      (b ^ 2 - 4 * a * c) * (a * xc ^ 2 + b * xc * yc + c * yc ^ 2 - l) = 4 * l ^ 3 * (α * β) := by
    linear_combination (-l) * hden
  have hac : a - c = l * (-(β - α) * cos (2 * φ)) := by
    rw [ha, hc, cos_two_mul', ← hu, ← hw]
    ring
  have hb' : b = l * (-(β - α) * sin (2 * φ)) := by
    rw [hb, sin_two_mul, ← hu, ← hw]
    ring
  have hsum : a + c = l * (α + β) := by
    rw [ha, hc]
    linear_combination l * (α + β) * huw
  have hs2 : (a - c) ^ 2 + b ^ 2 = (l * (β - α)) ^ 2 := by
    rw [hac, hb']
    linear_combination (l * (β - α)) ^ 2 * sin_sq_add_cos_sq (2 * φ)
  have hxc : (2 * c * (-2 * a * xc - b * yc) - b * (-b * xc - 2 * c * yc)) / (b ^ 2 - 4 * a * c) = xc := by
    rw [div_eq_iff hden0]
    ring
  have hyc : (2 * a * (-b * xc - 2 * c * yc) - b * (-2 * a * xc - b * yc)) / (b ^ 2 - 4 * a * c) = yc := by
    rw [div_eq_iff hden0]
    ring
  have hαA : α * A ^ 2 = 1 := by rw [hα]; field_simp
  have hβB : β * B ^ 2 = 1 := by rw [hβ]; field_simp
  -- the two lengths
  have t1 : sqrt (16 * l ^ 4 * α * β ^ 2) = 4 * l ^ 2 * (α * β) * A := by
    rw [show 16 * l ^ 4 * α * β ^ 2 = (4 * l ^ 2 * (α * β) * A) ^ 2 by
      linear_combination (-16 * l ^ 4 * α * β ^ 2) * hαA]
    exact sqrt_sq (by positivity)
  have t2 : sqrt (16 * l ^ 4 * α ^ 2 * β) = 4 * l ^ 2 * (α * β) * B := by
    rw [show 16 * l ^ 4 * α ^ 2 * β = (4 * l ^ 2 * (α * β) * B) ^ 2 by
      linear_combination (-16 * l ^ 4 * α ^ 2 * β) * hβB]
    exact sqrt_sq (by positivity)
  have hq : -4 * l ^ 2 * (α * β) ≠ 0 := by rw [← hden]; exact hden0
  have u1 : -2 * sqrt (16 * l ^ 4 * α * β ^ 2) / (-4 * l ^ 2 * (α * β)) = 2 * A := by
    rw [t1, div_eq_iff hq]
    ring
  have u2 : -2 * sqrt (16 * l ^ 4 * α ^ 2 * β) / (-4 * l ^ 2 * (α * β)) = 2 * B := by
    rw [t2, div_eq_iff hq]
    ring
  have p1 : ¬ 16 * l ^ 4 * α * β ^ 2 < 0 := not_lt.2 (by positivity)
  have p2 : ¬ 16 * l ^ 4 * α ^ 2 * β < 0 := not_lt.2 (by positivity)
  refine ⟨β - α, a, b, c, by rw [hα, hβ], hac, hb', ?_⟩
  rw [ellipseOf_eq _ a b c (-2 * a * xc - b * yc) (-b * xc - 2 * c * yc) (a * xc ^ 2 + b * xc * yc + c * yc ^ 2 - l)
    rfl rfl rfl rfl rfl rfl]
  rw [if_neg hden0, hxc, hyc, hK, hsum, hs2, hden]
  rcases lt_or_gt_of_ne hl with hneg | hpos
  · have hs : sqrt ((l * (β - α)) ^ 2) = -(l * (β - α)) := by
      rw [sqrt_sq_eq_abs, abs_of_nonpos (by nlinarith)]
    rw [hs, show 2 * (4 * l ^ 3 * (α * β)) * (l * (α + β) + -(l * (β - α))) = 16 * l ^ 4 * α ^ 2 * β by ring,
      show 2 * (4 * l ^ 3 * (α * β)) * (l * (α + β) - -(l * (β - α))) = 16 * l ^ 4 * α * β ^ 2 by ring,
      if_neg p1, if_neg p2, u1, u2]
    rcases lt_or_eq_of_le hAB with h | h
    · rw [if_pos (show 2 * B < 2 * A by linarith), if_pos (show l < 0 ∧ B < A from ⟨hneg, h⟩)]
    · subst h
      rw [if_neg (lt_irrefl _), if_neg (fun h => lt_irrefl _ h.2)]
  · have hs : sqrt ((l * (β - α)) ^ 2) = l * (β - α) := sqrt_sq (mul_nonneg hpos.le hk)
    rw [hs, show 2 * (4 * l ^ 3 * (α * β)) * (l * (α + β) + l * (β - α)) = 16 * l ^ 4 * α * β ^ 2 by ring,
      show 2 * (4 * l ^ 3 * (α * β)) * (l * (α + β) - l * (β - α)) = 16 * l ^ 4 * α ^ 2 * β by ring,
      if_neg p1, if_neg p2, u1, u2, if_neg (by linarith), if_neg (fun h => absurd h.1 (not_lt.2 (le_of_lt hpos)))]

theorem k_pos (E : Ellipse) (hB : 0 < E.B) (hAB : E.B < E.A) : 0 < 1 / E.B ^ 2 - 1 / E.A ^ 2 := by
  have : 1 / E.A ^ 2 < 1 / E.B ^ 2 := one_div_lt_one_div_of_lt (by positivity) (by nlinarith)
  linarith

/-- From any multiple of the equation of an ellipse the code recovers the ellipse. -/
theorem ellipseOf_coefOf (E : Ellipse) (hB : 0 < E.B) (hAB : E.B < E.A) (h1 : -(π / 2) < E.φ) (h2 : E.φ < π / 2)
    (l : ℝ) (hl : l ≠ 0) :
    ellipseOf (fun k => l * coefOf E k) = .ok (rad2deg E.φ, 2 * E.A, 2 * E.B, E.xc, E.yc) := by
  obtain ⟨k, a, b, c, hk, hac, hb, h⟩ := ellipseOf_core E hB hAB.le l hl
  have hk0 : 0 < k := hk ▸ k_pos E hB hAB
  rw [h]
  have hd := rad2deg_pi_div_two
  have hhi : rad2deg E.φ < 90 := by rw [← hd]; exact rad2deg_lt.2 h2
  have hlo : -90 < rad2deg E.φ := by rw [← hd, ← rad2deg_neg]; exact rad2deg_lt.2 h1
  rcases lt_or_gt_of_ne hl with hneg | hpos
  · rw [if_pos ⟨hneg, hAB⟩, rollOf_neg l k E.φ hk0 hneg h1 h2 a b c hac hb]
    by_cases h : 0 ≤ E.φ
    · rw [if_pos h, if_pos (by linarith)]
      ring_nf
    · rw [if_neg h, if_neg (by linarith)]
      ring_nf
  · rw [if_neg (fun h => absurd h.1 (not_lt.2 (le_of_lt hpos))), rollOf_pos l k E.φ hk0 hpos h1 h2 a b c hac hb]

/-- Vertical long axis. -/
theorem ellipseOf_vertical (E : Ellipse) (hB : 0 < E.B) (hAB : E.B < E.A) (h1 : E.φ = π / 2) (l : ℝ) (hl : l ≠ 0) :
    ellipseOf (fun k => l * coefOf E k) = .ok (-90, 2 * E.A, 2 * E.B, E.xc, E.yc) := by
  obtain ⟨k, a, b, c, hk, hac, hb, h⟩ := ellipseOf_core E hB hAB.le l hl
  have hk0 : 0 < k := hk ▸ k_pos E hB hAB
  rw [h]
  rw [h1, show 2 * (π / 2) = π by ring, cos_pi] at hac
  rw [h1, show 2 * (π / 2) = π by ring, sin_pi] at hb
  have hb0 : b = 0 := by rw [hb]; ring
  have hac' : a - c = l * k := by rw [hac]; ring
  have hca : c - a = -(l * k) := by linarith
  subst hb0
  rcases lt_or_gt_of_ne hl with hneg | hpos
  · have hr : rollOf a 0 c = 0 := by
      have hs : sqrt ((a - c) ^ 2 + 0 ^ 2) = -(l * k) := by
        rw [hac', show (l * k) ^ 2 + 0 ^ 2 = (-(l * k)) ^ 2 by ring]
        exact sqrt_sq (by nlinarith)
      unfold rollOf
      dsimp only
      rw [hs, hca, sub_self]
      have h0 : arctan2 0 0 = 0 := by
        unfold arctan2
        have : (⟨0, 0⟩ : ℂ) = 0 := rfl
        rw [this, Complex.arg_zero]
      rw [h0]
      norm_num [rad2deg]
    rw [if_pos ⟨hneg, hAB⟩, hr]
    norm_num
  · have hr : rollOf a 0 c = -90 := by
      have hs : sqrt ((a - c) ^ 2 + 0 ^ 2) = l * k := by
        rw [hac', show (l * k) ^ 2 + 0 ^ 2 = (l * k) ^ 2 by ring]
        exact sqrt_sq (by positivity)
      unfold rollOf
      dsimp only
      rw [hs, hca]
      have h0 : arctan2 (-(l * k) - l * k) 0 = -(π / 2) := by
        have := arctan2_polar (2 * l * k) (-(π / 2)) (by positivity) (by linarith [pi_pos]) (by linarith [pi_pos])
        refine Eq.trans ?_ this
        rw [sin_neg, cos_neg, sin_pi_div_two, cos_pi_div_two]
        ring_nf
      rw [h0, rad2deg_neg, rad2deg_pi_div_two]
      norm_num
    rw [if_neg (fun h => absurd h.1 (not_lt.2 (le_of_lt hpos))), hr]

/-- A circle. -/
theorem ellipseOf_circle (E : Ellipse) (hB : 0 < E.B) (hAB : E.A = E.B) (l : ℝ) (hl : l ≠ 0) :
    ellipseOf (fun k => l * coefOf E k) = .ok (0, 2 * E.A, 2 * E.A, E.xc, E.yc) := by
  obtain ⟨k, a, b, c, hk, hac, hb, h⟩ := ellipseOf_core E hB hAB.ge l hl
  have hk0 : k = 0 := by rw [hk, hAB]; ring
  rw [h, if_neg (fun h => absurd h.2 (by rw [hAB]; exact lt_irrefl _))]
  have hb0 : b = 0 := by rw [hb, hk0]; ring
  have hac0 : a - c = 0 := by rw [hac, hk0]; ring
  have hca0 : c - a = 0 := by linarith
  have hr : rollOf a b c = 0 := by
    unfold rollOf
    dsimp only
    rw [hac0, hca0, hb0]
    have h0 : arctan2 0 0 = 0 := by
      unfold arctan2
      have : (⟨0, 0⟩ : ℂ) = 0 := rfl
      rw [this, Complex.arg_zero]
    norm_num [h0, rad2deg]
  rw [hr, hAB]

/-! ### C77 -/

theorem singular_of_zero (rows : List Coef) (v q : Coef) (hv : IsLastSingular rows v) (hq : dot q q ≠ 0)
    (h : ∀ r ∈ rows, dot r q = 0) : ∀ r ∈ rows, dot r v = 0 := by
  have hqpos : 0 < dot q q := lt_of_le_of_ne (Finset.sum_nonneg fun k _ => mul_self_nonneg _) (Ne.symm hq)
  have hu := hv.least (fun k => q k / sqrt (dot q q)) (by
    have : dot (fun k => q k / sqrt (dot q q)) (fun k => q k / sqrt (dot q q)) = dot q q / (sqrt (dot q q) ^ 2) := by
      simp only [dot, div_mul_div_comm, Finset.sum_div, pow_two]
    rw [this, sq_sqrt hqpos.le, div_self hq])
  have h0 : (rows.map fun r => (dot r (fun k => q k / sqrt (dot q q))) ^ 2).sum = 0 := by
    apply List.sum_eq_zero
    intro x hx
    obtain ⟨r, hr, rfl⟩ := List.mem_map.1 hx
    have : dot r (fun k => q k / sqrt (dot q q)) = dot r q / sqrt (dot q q) := by
      simp only [dot, mul_div_assoc', Finset.sum_div]
    rw [this, h r hr]
    simp
  rw [h0] at hu
  intro r hr
  have : (dot r v) ^ 2 ≤ (rows.map fun r => (dot r v) ^ 2).sum :=
    List.single_le_sum (by
      intro x hx
      obtain ⟨r, _, rfl⟩ := List.mem_map.1 hx
      exact sq_nonneg _) _ (List.mem_map.2 ⟨r, hr, rfl⟩)
  have h2 : (dot r v) ^ 2 = 0 := le_antisymm (le_trans this hu) (sq_nonneg _)
  exact pow_eq_zero_iff (two_ne_zero) |>.1 h2

/-- The coefficient vector found from points of an ellipse is a non-zero multiple of its equation. -/
theorem svd_finds (E : Ellipse) (hA : 0 < E.A) (hB : 0 < E.B) (pts : List (ℝ × ℝ)) (hon : ∀ p ∈ pts, E.On p)
    (S : Finset (ℝ × ℝ)) (hS : 5 ≤ S.card) (hsub : ∀ p ∈ S, p ∈ pts) (v : Coef) (hv : IsLastSingular (pts.map row) v) :
    ∃ l, l ≠ 0 ∧ v = fun k => l * coefOf E k := by
  have hq : dot (coefOf E) (coefOf E) ≠ 0 := by
    intro h
    have h0 : ∀ k, coefOf E k = 0 := by
      intro k
      have := (Finset.sum_eq_zero_iff_of_nonneg (fun k _ => mul_self_nonneg (coefOf E k))).1 h k (Finset.mem_univ k)
      exact mul_self_eq_zero.1 this
    have h1 := dot_coefOf E (E.xc, E.yc)
    rw [dot_row, h0, h0, h0, h0, h0, h0] at h1
    simp at h1
  have hz := singular_of_zero (pts.map row) v (coefOf E) hv hq (by
    intro r hr
    obtain ⟨p, hp, rfl⟩ := List.mem_map.1 hr
    exact (on_iff E p).1 (hon p hp))
  obtain ⟨l, hl⟩ := conic_unique E hA hB v S hS (fun p hp => hon p (hsub p hp))
    (fun p hp => hz _ (List.mem_map.2 ⟨p, hsub p hp, rfl⟩))
  refine ⟨l, ?_, hl⟩
  rintro rfl
  have := hv.unit
  rw [hl] at this
  simp [dot] at this

/-- C77: from at least six points of an ellipse, five of them distinct, `fit_points_to_ellipse` returns the angle of the
long axis in degrees, the lengths of both axes, and the centre, wherever the ellipse is and whatever its shape. -/
theorem fit_ellipse (svd : List Coef → Coef) (hsvd : ∀ rows, 6 ≤ rows.length → IsLastSingular rows (svd rows))
    (E : Ellipse) (hB : 0 < E.B) (hAB : E.B < E.A) (h1 : -(π / 2) < E.φ) (h2 : E.φ ≤ π / 2)
    (xs ys : List ℝ) (hlen : xs.length = ys.length) (hn : 6 ≤ xs.length) (hon : ∀ p ∈ xs.zip ys, E.On p)
    (S : Finset (ℝ × ℝ)) (hS : 5 ≤ S.card) (hsub : ∀ p ∈ S, p ∈ xs.zip ys) :
    fitEllipse svd xs ys =
      .ok (if E.φ = π / 2 then -90 else E.φ * 180 / π, 2 * E.A, 2 * E.B, E.xc, E.yc) := by
  unfold fitEllipse
  rw [if_neg (by simp [hlen])]
  obtain ⟨l, hl, hv⟩ := svd_finds E (lt_trans hB hAB) hB (xs.zip ys) hon S hS hsub _
    (hsvd ((xs.zip ys).map row) (by simp [List.length_zip, ← hlen, hn]))
  rw [hv]
  by_cases h : E.φ = π / 2
  · rw [if_pos h, ellipseOf_vertical E hB hAB h l hl]
  · rw [if_neg h, ellipseOf_coefOf E hB hAB h1 (lt_of_le_of_ne h2 h) l hl]
    rfl

/-- C77: likewise for a circle; the angle is then 0. -/
theorem fit_circle (svd : List Coef → Coef) (hsvd : ∀ rows, 6 ≤ rows.length → IsLastSingular rows (svd rows))
    (R xc yc : ℝ) (hR : 0 < R)
    (xs ys : List ℝ) (hlen : xs.length = ys.length) (hn : 6 ≤ xs.length)
    (hon : ∀ p ∈ xs.zip ys, (p.1 - xc) ^ 2 + (p.2 - yc) ^ 2 = R ^ 2)
    (S : Finset (ℝ × ℝ)) (hS : 5 ≤ S.card) (hsub : ∀ p ∈ S, p ∈ xs.zip ys) :
    fitEllipse svd xs ys = .ok (0, 2 * R, 2 * R, xc, yc) := by
  unfold fitEllipse
  rw [if_neg (by simp [hlen])]
  obtain ⟨l, hl, hv⟩ := svd_finds ⟨R, R, 0, xc, yc⟩ hR hR (xs.zip ys) (by
      intro p hp
      have := hon p hp
      simp only [Ellipse.On, cos_zero, sin_zero, mul_one, mul_zero, add_zero, zero_add, div_pow]
      rw [← add_div, this, div_self (by positivity)]) S hS hsub _
    (hsvd ((xs.zip ys).map row) (by simp [List.length_zip, ← hlen, hn]))
  rw [hv]
  exact ellipseOf_circle ⟨R, R, 0, xc, yc⟩ hR rfl l hl

/-- C77: unequal lengths raise `ValueError`. -/
theorem fit_length_error (svd : List Coef → Coef) (xs ys : List ℝ) (h : xs.length ≠ ys.length) :
    fitEllipse svd xs ys = .error .valueError := by
  unfold fitEllipse
  rw [if_pos h]

theorem rollOf_range (a b c : ℝ) : -90 ≤ rollOf a b c ∧ rollOf a b c ≤ 90 := by
  unfold rollOf
  dsimp only
  have h1 : -180 < rad2deg (arctan2 (c - a - sqrt ((a - c) ^ 2 + b ^ 2)) b) := by
    rw [← rad2deg_pi, ← rad2deg_neg]
    exact rad2deg_lt.2 (Complex.neg_pi_lt_arg _)
  have h2 : rad2deg (arctan2 (c - a - sqrt ((a - c) ^ 2 + b ^ 2)) b) ≤ 180 := by
    rw [← rad2deg_pi]
    exact not_lt.1 fun h => absurd (rad2deg_lt.1 h) (not_lt.2 (Complex.arg_le_pi _))
  generalize rad2deg (arctan2 (c - a - sqrt ((a - c) ^ 2 + b ^ 2)) b) = r at h1 h2
  split_ifs <;> constructor <;> linarith

/-- C77: whatever the points, if there is a result then the axes are ordered and non-negative and the angle is between -90
and 90 degrees. -/
theorem fit_range (svd : List Coef → Coef) (xs ys : List ℝ) (roll major minor xc yc : ℝ)
    (h : fitEllipse svd xs ys = .ok (roll, major, minor, xc, yc)) :
    0 ≤ minor ∧ minor ≤ major ∧ -90 ≤ roll ∧ roll ≤ 90 := by
  unfold fitEllipse at h
  by_cases hl : xs.length ≠ ys.length
  · rw [if_pos hl] at h
    cases h
  rw [if_neg hl] at h
  generalize svd ((xs.zip ys).map row) = v at h
  rw [ellipseOf_eq v _ _ _ _ _ _ rfl rfl rfl rfl rfl rfl] at h
  generalize v 0 = a at h
  generalize v 1 = b at h
  generalize v 2 = c at h
  generalize v 3 = d at h
  generalize v 4 = e at h
  generalize v 5 = f at h
  have hr := rollOf_range a b c
  generalize rollOf a b c = ro at h hr
  by_cases hden : b ^ 2 - 4 * a * c = 0
  · rw [if_pos hden] at h
    cases h
  rw [if_neg hden] at h
  generalize hs : sqrt ((a - c) ^ 2 + b ^ 2) = s at h
  have hs2 : s ^ 2 = (a - c) ^ 2 + b ^ 2 := by rw [← hs]; exact sq_sqrt (by positivity)
  generalize hK : a * e ^ 2 + c * d ^ 2 - b * d * e + (b ^ 2 - 4 * a * c) * f = K at h
  by_cases ha : 2 * K * (a + c + s) < 0
  · rw [if_pos ha] at h
    cases h
  rw [if_neg ha] at h
  by_cases hb : 2 * K * (a + c - s) < 0
  · rw [if_pos hb] at h
    cases h
  rw [if_neg hb] at h
  have hprod : (2 * K * (a + c + s)) * (2 * K * (a + c - s)) = -(4 * K ^ 2 * (b ^ 2 - 4 * a * c)) := by
    linear_combination (-4 * K ^ 2) * hs2
  have hpos : 0 ≤ -2 * sqrt (2 * K * (a + c + s)) / (b ^ 2 - 4 * a * c) ∧
      0 ≤ -2 * sqrt (2 * K * (a + c - s)) / (b ^ 2 - 4 * a * c) := by
    rcases lt_or_gt_of_ne hden with hn | hp
    · exact ⟨div_nonneg_of_nonpos (by linarith [sqrt_nonneg (2 * K * (a + c + s))]) hn.le,
        div_nonneg_of_nonpos (by linarith [sqrt_nonneg (2 * K * (a + c - s))]) hn.le⟩
    · have h0 : 0 ≤ (2 * K * (a + c + s)) * (2 * K * (a + c - s)) := mul_nonneg (not_lt.1 ha) (not_lt.1 hb)
      rw [hprod] at h0
      have hK0 : K = 0 := by
        by_contra hne
        have : 0 < 4 * K ^ 2 * (b ^ 2 - 4 * a * c) := by positivity
        linarith
      rw [hK0]
      simp
  generalize -2 * sqrt (2 * K * (a + c + s)) / (b ^ 2 - 4 * a * c) = p at h hpos
  generalize -2 * sqrt (2 * K * (a + c - s)) / (b ^ 2 - 4 * a * c) = q at h hpos
  by_cases hpq : p < q
  · rw [if_pos hpq] at h
    simp only [Except.ok.injEq, Prod.mk.injEq] at h
    obtain ⟨h1, h2, h3, -, -⟩ := h
    rw [← h1, ← h2, ← h3]
    refine ⟨hpos.1, hpq.le, ?_⟩
    split_ifs <;> constructor <;> linarith
  · rw [if_neg hpq] at h
    simp only [Except.ok.injEq, Prod.mk.injEq] at h
    obtain ⟨h1, h2, h3, -, -⟩ := h
    rw [← h1, ← h2, ← h3]
    exact ⟨hpos.2, not_lt.1 hpq, hr⟩

/-- Fewer than six points: the last row of the thin decomposition lies in the row space (that is all the rows of `vh` span
if the rows of the matrix are independent), so that it is orthogonal to the equation of every conic through the points.
Five points that determine an ellipse therefore never give (a multiple of) its equation, although the fit raises no error
of its own. -/
theorem fit_five_points_refuted (E : Ellipse) (pts : List (ℝ × ℝ)) (hon : ∀ p ∈ pts, E.On p) (v : Coef) (hunit : dot v v = 1)
    (hspan : v ∈ Submodule.span ℝ {r | r ∈ pts.map row}) (l : ℝ) : v ≠ fun k => l * coefOf E k := by
  intro h
  have horth : dot v (coefOf E) = 0 := by
    refine Submodule.span_induction (p := fun x _ => dot x (coefOf E) = 0) ?_ ?_ ?_ ?_ hspan
    · intro r hr
      obtain ⟨p, hp, rfl⟩ := List.mem_map.1 hr
      exact (on_iff E p).1 (hon p hp)
    · simp [dot]
    · intro x y _ _ hx hy
      have : dot (x + y) (coefOf E) = dot x (coefOf E) + dot y (coefOf E) := by
        simp only [dot, Pi.add_apply, add_mul, Finset.sum_add_distrib]
      rw [this, hx, hy, add_zero]
    · intro a x _ hx
      have : dot (a • x) (coefOf E) = a * dot x (coefOf E) := by
        simp only [dot, Pi.smul_apply, smul_eq_mul, mul_assoc, Finset.mul_sum]
      rw [this, hx, mul_zero]
  have : dot v v = l * dot v (coefOf E) := by
    conv_lhs => rw [h]
    conv_rhs => rw [h]
    simp only [dot, Finset.mul_sum]
    exact Finset.sum_congr rfl fun k _ => by ring
  rw [hunit, horth] at this
  simp at this

/-- The assumption on `np.linalg.svd` can be met. -/
theorem svd_exists : ∃ svd : List Coef → Coef, ∀ rows, IsLastSingular rows (svd rows) := by
  have key : ∀ rows : List Coef, ∃ v, IsLastSingular rows v := by
    intro rows
    have hcomp : IsCompact {u : Coef | dot u u = 1} := by
      apply Metric.isCompact_of_isClosed_isBounded
      · apply isClosed_eq _ continuous_const
        unfold dot
        fun_prop
      · refine (Metric.isBounded_closedBall (x := (0 : Coef)) (r := 1)).subset ?_
        intro u hu
        rw [Metric.mem_closedBall, dist_pi_le_iff zero_le_one]
        intro k
        have h1 : u k * u k ≤ dot u u := Finset.single_le_sum (f := fun k => u k * u k)
          (fun k _ => mul_self_nonneg _) (Finset.mem_univ k)
        rw [show dot u u = 1 from hu] at h1
        rw [Real.dist_eq, Pi.zero_apply, sub_zero]
        exact abs_le_one_iff_mul_self_le_one.2 h1
    have hne : {u : Coef | dot u u = 1}.Nonempty := ⟨![1, 0, 0, 0, 0, 0], by simp [dot, Fin.sum_univ_six]⟩
    have hcont : Continuous fun u : Coef => (rows.map fun r => (dot r u) ^ 2).sum := by
      apply continuous_list_sum
      intro r _
      unfold dot
      fun_prop
    obtain ⟨v, hv, hmin⟩ := hcomp.exists_isMinOn hne hcont.continuousOn
    exact ⟨v, hv, fun u hu => hmin hu⟩
  exact ⟨fun rows => (key rows).choose, fun rows => (key rows).choose_spec⟩

/-- Six points of the ellipse `(x/2)² + y² = 1`. -/
example : ∃ (svd : List Coef → Coef) (xs ys : List ℝ), xs.length = 6 ∧
    fitEllipse svd xs ys = .ok (0, 4, 2, 0, 0) := by
  obtain ⟨svd, h⟩ := svd_exists
  refine ⟨svd, [2, -2, 0, 0, 6 / 5, -6 / 5], [0, 0, 1, -1, 4 / 5, 4 / 5], rfl, ?_⟩
  have := fit_ellipse svd (fun rows _ => h rows) ⟨2, 1, 0, 0, 0⟩ (by norm_num) (by norm_num)
    (by simp only [Left.neg_neg_iff]; positivity) (by show (0 : ℝ) ≤ π / 2; positivity)
    [2, -2, 0, 0, 6 / 5, -6 / 5] [0, 0, 1, -1, 4 / 5, 4 / 5] rfl (by simp)
    (by
      intro p hp
      simp only [List.zip_cons_cons, List.zip_nil_right, List.mem_cons, List.not_mem_nil, or_false] at hp
      rcases hp with rfl | rfl | rfl | rfl | rfl | rfl <;> simp only [Ellipse.On, cos_zero, sin_zero] <;> norm_num)
    {(2, 0), (-2, 0), (0, 1), (0, -1), (6 / 5, 4 / 5)}
    (by
      rw [Finset.card_insert_of_notMem, Finset.card_insert_of_notMem, Finset.card_insert_of_notMem,
        Finset.card_insert_of_notMem, Finset.card_singleton]
      all_goals simp
      all_goals norm_num)
    (by
      intro p hp
      simp only [Finset.mem_insert, Finset.mem_singleton] at hp
      rcases hp with rfl | rfl | rfl | rfl | rfl <;> simp)
  rw [this, if_neg (by show ¬ (0 : ℝ) = π / 2; positivity)]
  norm_num

end Verif.Calibration
