import Verif.Model.Polar
import Verif.Props.Correction
import Verif.Props.Ellipse
import Verif.Props.Regularization
import Verif.Props.Center
import Mathlib.Data.List.GetD

/-! C89–C91 — polar coordinates, regularisation filter, rotation of a 1D window. -/

set_option linter.unusedSectionVars false
set_option linter.unusedSimpArgs false

namespace Verif.Polar
open Verif.Sorting Verif.Correction Verif.Calibration Verif.Regularization Real

/-! ### C89: polar maps -/

theorem clip_mem (x lo hi : ℝ) (h : lo ≤ hi) : lo ≤ clip x lo hi ∧ clip x lo hi ≤ hi := by
  unfold clip
  exact ⟨le_min (le_max_right _ _) h, min_le_right _ _⟩

theorem clip_id (x lo hi : ℝ) (h1 : lo ≤ x) (h2 : x ≤ hi) : clip x lo hi = x := by
  unfold clip
  rw [max_eq_left h1, min_eq_left h2]

theorem one_le_cast {n : ℕ} (h : 1 ≤ n) : (0 : ℝ) ≤ (n : ℝ) - 1 := by
  have : (1 : ℝ) ≤ n := by exact_mod_cast h
  linarith

/-- C89: every coordinate produced by the two generators lies inside the image it indexes. -/
theorem polar_coordinates_inside (wr hr wp hp i j : ℕ) (h1 : 1 ≤ wr) (h2 : 1 ≤ hr) (h3 : 1 ≤ wp) (h4 : 1 ≤ hp) :
    (0 ≤ (rectFromPolar wr hr wp hp i j).1 ∧ (rectFromPolar wr hr wp hp i j).1 ≤ (wr : ℝ) - 1) ∧
    (0 ≤ (rectFromPolar wr hr wp hp i j).2 ∧ (rectFromPolar wr hr wp hp i j).2 ≤ (hr : ℝ) - 1) ∧
    (0 ≤ (polarFromRect wp hp wr hr i j).1 ∧ (polarFromRect wp hp wr hr i j).1 ≤ (wp : ℝ) - 1) ∧
    (0 ≤ (polarFromRect wp hp wr hr i j).2 ∧ (polarFromRect wp hp wr hr i j).2 ≤ (hp : ℝ) - 1) :=
  ⟨clip_mem _ _ _ (one_le_cast h1), clip_mem _ _ _ (one_le_cast h2), clip_mem _ _ _ (one_le_cast h3), clip_mem _ _ _ (one_le_cast h4)⟩

/-- The point (x, y) of an `n × n` image that position (radius index `rho`, angle index `tau`) of its `hp × wp` polar image stands for: angles
run over a full turn, radii from 0 to the largest whole radius inside the image. -/
noncomputable def polarPoint (n wp hp : ℕ) (rho tau : ℝ) : ℝ × ℝ :=
  let R : ℝ := (((n - 1) / 2 : ℕ) : ℝ)
  (((n : ℝ) - 1) / 2 + rho * R / ((wp : ℝ) - 1) * cos (2 * π * tau / ((hp : ℝ) - 1)),
   ((n : ℝ) - 1) / 2 + rho * R / ((wp : ℝ) - 1) * sin (2 * π * tau / ((hp : ℝ) - 1)))

theorem rMax_sq (n : ℕ) (hn : 1 ≤ n) : rMax n n = (((n - 1) / 2 : ℕ) : ℝ) := by
  unfold rMax center
  rw [max_self]
  have : ⌊((n : ℝ) - 1) * (1 / 2)⌋ = (((n - 1) / 2 : ℕ) : ℤ) := by
    rw [Int.floor_eq_iff]
    have h1 : ((n - 1 : ℕ) : ℝ) = (n : ℝ) - 1 := by push_cast [hn]; ring
    rw [← h1]
    have h2 : 2 * ((n - 1) / 2) ≤ n - 1 := Nat.mul_div_le _ _
    have h3 : n - 1 < 2 * ((n - 1) / 2) + 2 := by omega
    have h2' : (2 : ℝ) * (((n - 1) / 2 : ℕ) : ℝ) ≤ ((n - 1 : ℕ) : ℝ) := by exact_mod_cast h2
    have h3' : ((n - 1 : ℕ) : ℝ) < 2 * (((n - 1) / 2 : ℕ) : ℝ) + 2 := by exact_mod_cast h3
    rw [Int.cast_natCast]
    constructor <;> linarith
  rw [this, Int.cast_natCast]

theorem radius_le (n : ℕ) (hn : 1 ≤ n) : (((n - 1) / 2 : ℕ) : ℝ) ≤ ((n : ℝ) - 1) / 2 := by
  have h2 : 2 * ((n - 1) / 2) ≤ n - 1 := Nat.mul_div_le _ _
  have h2' : (2 : ℝ) * (((n - 1) / 2 : ℕ) : ℝ) ≤ ((n - 1 : ℕ) : ℝ) := by exact_mod_cast h2
  have h1 : ((n - 1 : ℕ) : ℝ) = (n : ℝ) - 1 := by push_cast [hn]; ring
  linarith

/-- C89: for square images the forward coordinates are exactly the polar grid — nothing is cut by the clipping; the first and the last
row are the same ray. -/
theorem forward_exact (n wp hp i j : ℕ) (hn : 1 ≤ n) (hwp : 2 ≤ wp) (hj : j < wp) :
    rectFromPolar n n wp hp i j = polarPoint n wp hp j i ∧
    (2 ≤ hp → rectFromPolar n n wp hp 0 j = rectFromPolar n n wp hp (hp - 1) j) := by
  have key : ∀ i, rectFromPolar n n wp hp i j = polarPoint n wp hp j i := by
    intro i
    unfold rectFromPolar polarPoint linspace
    dsimp only
    rw [rMax_sq n hn]
    set R : ℝ := (((n - 1) / 2 : ℕ) : ℝ) with hR
    have hR0 : 0 ≤ R := by rw [hR]; positivity
    have hRn : R ≤ ((n : ℝ) - 1) / 2 := radius_le n hn
    have hw : (1 : ℝ) ≤ (wp : ℝ) - 1 := by
      have : (2 : ℝ) ≤ wp := by exact_mod_cast hwp
      linarith
    have hjw : (j : ℝ) ≤ (wp : ℝ) - 1 := by
      have : ((j + 1 : ℕ) : ℝ) ≤ wp := by exact_mod_cast hj
      push_cast at this
      linarith
    set r : ℝ := (j : ℝ) * R / ((wp : ℝ) - 1) with hr
    have e1 : (0 : ℝ) + (j : ℝ) * ((R - 0) / ((wp : ℝ) - 1)) = r := by rw [hr]; ring
    have hr0 : 0 ≤ r := by rw [hr]; positivity
    have hrR : r ≤ R := by
      rw [hr, div_le_iff₀ (by linarith)]
      nlinarith
    have e2 : (i : ℝ) * 2 * π / ((hp : ℝ) - 1) = 2 * π * i / ((hp : ℝ) - 1) := by ring
    have e3 : center n = ((n : ℝ) - 1) / 2 := by unfold center; ring
    rw [e1, e2, e3]
    set t := 2 * π * i / ((hp : ℝ) - 1)
    have hc : |r * cos t| ≤ r := by
      rw [abs_mul, abs_of_nonneg hr0]
      exact mul_le_of_le_one_right hr0 (abs_cos_le_one t)
    have hs : |r * sin t| ≤ r := by
      rw [abs_mul, abs_of_nonneg hr0]
      exact mul_le_of_le_one_right hr0 (abs_sin_le_one t)
    rw [abs_le] at hc hs
    rw [clip_id _ _ _ (by linarith) (by linarith), clip_id _ _ _ (by linarith) (by linarith)]
  refine ⟨key i, fun hh => ?_⟩
  rw [key, key]
  have hne : (hp : ℝ) - 1 ≠ 0 := by
    have : (2 : ℝ) ≤ hp := by exact_mod_cast hh
    linarith
  have e : (((hp - 1 : ℕ) : ℕ) : ℝ) = (hp : ℝ) - 1 := by push_cast [(by omega : 1 ≤ hp)]; ring
  unfold polarPoint
  dsimp only
  rw [e, mul_div_assoc (2 * π), mul_div_assoc (2 * π), div_self hne]
  simp

/-- Full claim: the backward coordinates of a pixel are the position of that pixel in the polar grid, so that going to polar coordinates and
back looks every pixel up where it came from. -/
def RoundTrip (n wp hp i j : ℕ) : Prop :=
  polarPoint n wp hp (polarFromRect wp hp n n i j).1 (polarFromRect wp hp n n i j).2 = ((j : ℝ), (i : ℝ))

theorem sqrt_eq_of (x y : ℝ) : ∃ t, 0 < t ∧ t ≤ 2 * π ∧ π + arctan2 (-y) (-x) = t ∧
    (x, y) = (sqrt (x ^ 2 + y ^ 2) * cos t, sqrt (x ^ 2 + y ^ 2) * sin t) := by
  refine ⟨π + arctan2 (-y) (-x), ?_, ?_, rfl, ?_⟩
  · unfold arctan2
    linarith [Complex.neg_pi_lt_arg ⟨-x, -y⟩]
  · unfold arctan2
    linarith [Complex.arg_le_pi ⟨-x, -y⟩]
  · have hn : ‖(⟨-x, -y⟩ : ℂ)‖ = sqrt (x ^ 2 + y ^ 2) := by
      rw [Complex.norm_eq_sqrt_sq_add_sq]
      simp
    have h1 := Complex.norm_mul_cos_arg (⟨-x, -y⟩ : ℂ)
    have h2 := Complex.norm_mul_sin_arg (⟨-x, -y⟩ : ℂ)
    rw [hn] at h1 h2
    rw [add_comm π, cos_add_pi, sin_add_pi]
    unfold arctan2
    dsimp only at h1 h2
    ext
    · dsimp only; linarith
    · dsimp only; linarith

theorem sqrt_scale (a b k : ℝ) (hk : 0 ≤ k) : sqrt ((a * k) ^ 2 + (b * k) ^ 2) = sqrt (a ^ 2 + b ^ 2) * k := by
  rw [show (a * k) ^ 2 + (b * k) ^ 2 = (a ^ 2 + b ^ 2) * k ^ 2 by ring, sqrt_mul (by positivity), sqrt_sq hk]

theorem arctan2_scale (y x k : ℝ) (hk : 0 < k) : arctan2 (y * k) (x * k) = arctan2 y x := by
  unfold arctan2
  rw [← Complex.arg_real_mul (⟨x, y⟩ : ℂ) hk]
  congr 1
  apply Complex.ext
  · simp [mul_comm]
  · simp [mul_comm]

/-- C89, what the code does: the angle comes back exactly, the radius is too large by the factor wp/(wp − 1) — the round trip magnifies
the image about its centre by that factor, as far as the magnified radius stays in the polar image. -/
theorem round_trip_partial (n wp hp i j : ℕ) (hn : 3 ≤ n) (hwp : 2 ≤ wp) (hhp : 2 ≤ hp) (hi : i < n) (hj : j < n)
    (hin : sqrt (((j : ℝ) - ((n : ℝ) - 1) / 2) ^ 2 + ((i : ℝ) - ((n : ℝ) - 1) / 2) ^ 2) * wp ≤ (((n - 1) / 2 : ℕ) : ℝ) * ((wp : ℝ) - 1)) :
    polarPoint n wp hp (polarFromRect wp hp n n i j).1 (polarFromRect wp hp n n i j).2 =
      (((n : ℝ) - 1) / 2 + (wp : ℝ) / ((wp : ℝ) - 1) * ((j : ℝ) - ((n : ℝ) - 1) / 2),
       ((n : ℝ) - 1) / 2 + (wp : ℝ) / ((wp : ℝ) - 1) * ((i : ℝ) - ((n : ℝ) - 1) / 2)) := by
  unfold polarFromRect polarPoint
  dsimp only
  rw [rMax_sq n (by omega)]
  have hR0 : (0 : ℝ) < (((n - 1) / 2 : ℕ) : ℝ) := by
    have : 0 < (n - 1) / 2 := by omega
    exact_mod_cast this
  set R : ℝ := (((n - 1) / 2 : ℕ) : ℝ) with hR
  have e3 : center n = ((n : ℝ) - 1) / 2 := by unfold center; ring
  have ej : (((n - 1 - j : ℕ) : ℕ) : ℝ) = (n : ℝ) - 1 - j := by
    rw [Nat.cast_sub (by omega), Nat.cast_sub (by omega)]; simp
  have ei : (((n - 1 - i : ℕ) : ℕ) : ℝ) = (n : ℝ) - 1 - i := by
    rw [Nat.cast_sub (by omega), Nat.cast_sub (by omega)]; simp
  rw [e3, ej, ei]
  set dx : ℝ := (j : ℝ) - ((n : ℝ) - 1) / 2 with hdx
  set dy : ℝ := (i : ℝ) - ((n : ℝ) - 1) / 2 with hdy
  have hw0 : (0 : ℝ) < wp := by exact_mod_cast (by omega : 0 < wp)
  have hw1 : (0 : ℝ) < (wp : ℝ) - 1 := by
    have : (2 : ℝ) ≤ wp := by exact_mod_cast hwp
    linarith
  have hh1 : (0 : ℝ) < (hp : ℝ) - 1 := by
    have : (2 : ℝ) ≤ hp := by exact_mod_cast hhp
    linarith
  have hk : 0 < (wp : ℝ) / R := div_pos hw0 hR0
  have ex : ((n : ℝ) - 1 - j - ((n : ℝ) - 1) / 2) * wp / R = (-dx) * ((wp : ℝ) / R) := by rw [hdx]; ring
  have ey : ((n : ℝ) - 1 - i - ((n : ℝ) - 1) / 2) * wp / R = (-dy) * ((wp : ℝ) / R) := by rw [hdy]; ring
  rw [ex, ey, sqrt_scale _ _ _ hk.le, arctan2_scale _ _ _ hk]
  obtain ⟨t, ht1, ht2, ht3, ht4⟩ := sqrt_eq_of dx dy
  have hneg : sqrt ((-dx) ^ 2 + (-dy) ^ 2) = sqrt (dx ^ 2 + dy ^ 2) := by congr 1; ring
  rw [ht3, hneg]
  set d := sqrt (dx ^ 2 + dy ^ 2) with hd
  have hd0 : 0 ≤ d := sqrt_nonneg _
  have c1 : clip (d * ((wp : ℝ) / R)) 0 ((wp : ℝ) - 1) = d * ((wp : ℝ) / R) := by
    apply clip_id
    · positivity
    · rw [← mul_div_assoc, div_le_iff₀ hR0]
      linarith
  have c2 : clip (t * ((hp : ℝ) - 1) / (2 * π)) 0 ((hp : ℝ) - 1) = t * ((hp : ℝ) - 1) / (2 * π) := by
    have hp2 : (0 : ℝ) < 2 * π := by positivity
    apply clip_id
    · positivity
    · rw [div_le_iff₀ hp2]
      nlinarith
  rw [c1, c2]
  have ht : 2 * π * (t * ((hp : ℝ) - 1) / (2 * π)) / ((hp : ℝ) - 1) = t := by field_simp
  have hr : d * ((wp : ℝ) / R) * R / ((wp : ℝ) - 1) = (wp : ℝ) / ((wp : ℝ) - 1) * d := by field_simp
  rw [ht, hr]
  have h1 : dx = d * cos t := congrArg Prod.fst ht4
  have h2 : dy = d * sin t := congrArg Prod.snd ht4
  conv_rhs => rw [h1, h2]
  ext
  · dsimp only; ring
  · dsimp only; ring

/-- C89 is false of the code: in an image with odd side n ≥ 5 no pixel at a whole distance from the centre along the row, other than
the centre itself and the rim, is looked up where it came from. -/
theorem round_trip_refuted (c k : ℕ) (hk1 : 1 ≤ k) (hk2 : k < c) : ¬ RoundTrip (2 * c + 1) (2 * c + 1) (2 * c + 1) c (c + k) := by
  have hc : 2 ≤ c := by omega
  have ec : (((2 * c + 1 : ℕ) : ℝ) - 1) / 2 = c := by push_cast; ring
  have eR : ((2 * c + 1 - 1) / 2 : ℕ) = c := by omega
  have hcr : (2 : ℝ) ≤ c := by exact_mod_cast hc
  have hk1r : (1 : ℝ) ≤ k := by exact_mod_cast hk1
  have hk2r : (k : ℝ) + 1 ≤ c := by exact_mod_cast hk2
  intro h
  unfold RoundTrip at h
  rw [round_trip_partial (2 * c + 1) (2 * c + 1) (2 * c + 1) c (c + k) (by omega) (by omega) (by omega) (by omega) (by omega)] at h
  · have h1 := congrArg Prod.fst h
    dsimp only at h1
    rw [ec] at h1
    push_cast at h1
    have h2c : (2 * (c : ℝ) + 1 - 1) ≠ 0 := by linarith
    have : (2 * (c : ℝ) + 1) / (2 * c + 1 - 1) * k = k := by linarith
    rw [div_mul_eq_mul_div, div_eq_iff h2c] at this
    linarith
  · rw [ec, eR]
    push_cast
    have : sqrt (((c : ℝ) + k - c) ^ 2 + ((c : ℝ) - c) ^ 2) = k := by
      rw [show ((c : ℝ) + k - c) ^ 2 + ((c : ℝ) - c) ^ 2 = (k : ℝ) ^ 2 by ring, sqrt_sq (by linarith)]
    rw [this]
    nlinarith

/-- C89: shapes.  Both transforms reject images that are not square and coordinate arrays of another shape, and return an array of the
shape of the image otherwise, sampled at the coordinates. -/
theorem transform_slice_spec (forward : Bool) (m : Mat ℝ) (coord : Option ((ℕ × ℕ) × (ℕ × ℕ) × (ℕ → ℕ → ℝ × ℝ))) :
    (m.h ≠ m.w → transformSlice forward m coord = .error .valueError) ∧
    (∀ sx sy f, coord = some (sx, sy, f) → sx ≠ (m.h, m.w) ∨ sy ≠ (m.h, m.w) → transformSlice forward m coord = .error .valueError) ∧
    (m.h = m.w → (∀ sx sy f, coord = some (sx, sy, f) → sx = (m.h, m.w) ∧ sy = (m.h, m.w)) →
      ∃ out, transformSlice forward m coord = .ok out ∧ out.h = m.h ∧ out.w = m.w ∧
        (∀ sx sy f, coord = some (sx, sy, f) → ∀ i j y x : ℕ, f i j = ((x : ℝ), (y : ℝ)) → y < m.h → x < m.w → out.get i j = m.get y x)) := by
  unfold transformSlice
  refine ⟨fun h => by rw [if_pos h], ?_, ?_⟩
  · rintro sx sy f rfl h
    by_cases hh : m.h ≠ m.w
    · rw [if_pos hh]
    · rw [if_neg hh]
      dsimp only
      rw [if_pos h]
  · intro h hc
    rw [if_neg (not_not_intro h)]
    cases coord with
    | none => exact ⟨_, rfl, rfl, rfl, fun _ _ _ h => by cases h⟩
    | some q =>
      obtain ⟨sx, sy, f⟩ := q
      have := hc sx sy f rfl
      dsimp only
      rw [if_neg (by rintro (h | h); exact h this.1; exact h this.2)]
      refine ⟨_, rfl, rfl, rfl, ?_⟩
      rintro sx' sy' f' hq i j y x hf hy hx
      have hq := Option.some.inj hq
      have : f' = f := by
        have := congrArg (fun p => p.2.2) hq
        exact this.symm
      subst this
      dsimp only
      rw [hf]
      exact sample_int m.h m.w m.get y x hy hx

/-! ### C90: regularisation filter -/

/-- C90: the result does not depend on the number of processes nor on their interleaving, and every row (column, for axis = 0) is
filtered on its own: the value plus the correction computed from that row. -/
theorem regularization_filter_spec (alpha : ℝ) (axis ncore : ℕ) (sched : List Sched.Ev) (mat : Mat ℝ) (r : Py (Mat ℝ))
    (hw : 2 ≤ if axis = 0 then mat.h else mat.w) (h : regularizationFilter alpha axis ncore sched mat = some r) :
    ∃ out, r = .ok out ∧ out.h = mat.h ∧ out.w = mat.w ∧
      ∀ i < mat.h, ∀ j < mat.w, out.get i j = mat.get i j +
        if axis = 0 then listCoe mat.h alpha (fun k => mat.get k j) i else listCoe mat.w alpha (mat.get i) j := by
  unfold regularizationFilter at h
  dsimp only at h
  by_cases ha : axis = 0
  · simp only [if_pos ha] at h hw
    rw [if_neg (by rintro ⟨h1, _⟩; have : mat.h < 2 := h1; omega)] at h
    cases hp : Sched.parMap mat.T.h ncore (fun i => regularize1d alpha mat.T.w (mat.T.get i)) sched with
    | none => rw [hp] at h; cases h
    | some rows =>
      rw [hp] at h
      have h := Option.some.inj h
      refine ⟨_, h.symm, rfl, rfl, ?_⟩
      intro i hi j hj
      have := Center.parMap_eq _ _ _ _ _ hp
      subst this
      rw [if_pos ha]
      show ((List.range mat.w).map fun i => regularize1d alpha mat.h (fun k => mat.get k i)).getD j (fun _ => 0) i = _
      rw [List.getD_eq_getElem _ _ (by simpa using hj)]
      simp [regularize1d]
  · simp only [if_neg ha] at h hw
    rw [if_neg (by omega)] at h
    cases hp : Sched.parMap mat.h ncore (fun i => regularize1d alpha mat.w (mat.get i)) sched with
    | none => rw [hp] at h; cases h
    | some rows =>
      rw [hp] at h
      have h := Option.some.inj h
      refine ⟨_, h.symm, rfl, rfl, ?_⟩
      intro i hi j hj
      have := Center.parMap_eq _ _ _ _ _ hp
      subst this
      rw [if_neg ha]
      show ((List.range mat.h).map fun i => regularize1d alpha mat.w (mat.get i)).getD i (fun _ => 0) j = _
      rw [List.getD_eq_getElem _ _ (by simpa using hi)]
      simp [regularize1d]

/-- C90: lines that are constant along the filtered axis are returned unchanged; adding a constant to a line adds it to the result, and the
filter is linear. -/
theorem regularization_filter_linear (alpha : ℝ) (ncore : ℕ) (sched : List Sched.Ev) (a b c : ℝ) (h w : ℕ) (f g : ℕ → ℕ → ℝ) (hw : 2 ≤ w)
    (rf rg rs : Py (Mat ℝ)) (hf : regularizationFilter alpha 1 ncore sched ⟨h, w, f⟩ = some rf)
    (hg : regularizationFilter alpha 1 ncore sched ⟨h, w, g⟩ = some rg)
    (hs : regularizationFilter alpha 1 ncore sched ⟨h, w, fun i j => a * f i j + b * g i j + c⟩ = some rs) :
    ∃ of og os, rf = .ok of ∧ rg = .ok og ∧ rs = .ok os ∧
      (∀ i < h, ∀ j < w, os.get i j = a * of.get i j + b * og.get i j + c) ∧
      (∀ i < h, (∀ j < w, f i j = f i 0) → ∀ j < w, of.get i j = f i j) := by
  obtain ⟨of, e1, _, _, s1⟩ := regularization_filter_spec alpha 1 ncore sched _ rf (by simpa using hw) hf
  obtain ⟨og, e2, _, _, s2⟩ := regularization_filter_spec alpha 1 ncore sched _ rg (by simpa using hw) hg
  obtain ⟨os, e3, _, _, s3⟩ := regularization_filter_spec alpha 1 ncore sched _ rs (by simpa using hw) hs
  refine ⟨of, og, os, e1, e2, e3, ?_, ?_⟩
  · intro i hi j hj
    rw [s1 i hi j hj, s2 i hi j hj, s3 i hi j hj]
    simp only [if_neg (by decide : ¬ (1 : ℕ) = 0)]
    rw [listCoe_affine hw]
    ring
  · intro i hi hcst j hj
    rw [s1 i hi j hj]
    simp only [if_neg (by decide : ¬ (1 : ℕ) = 0)]
    rw [listCoe_const hw alpha (f i) (f i 0) (fun k hk => hcst k hk)]
    ring

/-- C90: `axis=0` is the filter along rows of the transposed image, transposed back. -/
theorem regularization_filter_axis (alpha : ℝ) (ncore : ℕ) (sched : List Sched.Ev) (mat : Mat ℝ) :
    regularizationFilter alpha 0 ncore sched mat = (regularizationFilter alpha 1 ncore sched mat.T).map fun r => r.map fun o => o.T := by
  unfold regularizationFilter
  dsimp only
  rw [if_pos rfl, if_neg (by decide : ¬ (1 : ℕ) = 0)]
  by_cases h : mat.T.w < 2 ∧ 0 < mat.T.h
  · rw [if_pos h, if_pos h]; rfl
  · rw [if_neg h, if_neg h]
    cases Sched.parMap mat.T.h ncore (fun i => regularize1d alpha mat.T.w (mat.T.get i)) sched <;> rfl

/-- C90: images with a single column (row, for axis = 0) are rejected. -/
theorem regularization_filter_error (alpha : ℝ) (ncore : ℕ) (sched : List Sched.Ev) (mat : Mat ℝ) (h : 0 < mat.h) (hw : mat.w < 2) :
    regularizationFilter alpha 1 ncore sched mat = some (.error .indexError) := by
  unfold regularizationFilter
  simp [h, hw]

/-! ### C91: rotation of a window -/

/-- Linear interpolation of a sequence at a real position. -/
noncomputable def lerp (win : ℕ → ℝ) (t : ℝ) : ℝ := (1 - Int.fract t) * win ⌊t⌋₊ + Int.fract t * win (⌊t⌋₊ + 1)

theorem sample_rows (h w : ℕ) (win : ℕ → ℝ) (y x : ℝ) (h0 : 0 ≤ x) (h1 : x ≤ (w : ℝ) - 1) (hw : 1 ≤ w) :
    sample h w (fun _ k => win k) y x = lerp win x := by
  unfold sample lerp
  dsimp only
  have hf0 : 0 ≤ ⌊x⌋ := Int.floor_nonneg.2 h0
  have hf1 : ⌊x⌋ < w := by
    rw [Int.floor_lt]
    push_cast
    linarith
  have e0 : reflectIdx w ⌊x⌋ = ⌊x⌋₊ := by
    rw [reflectIdx_id w _ hf0 hf1]; rfl
  have efr : x - (⌊x⌋ : ℝ) = Int.fract x := rfl
  rw [e0, efr]
  by_cases hi : ⌊x⌋ + 1 < w
  · have e1 : reflectIdx w (⌊x⌋ + 1) = ⌊x⌋₊ + 1 := by
      rw [reflectIdx_id w _ (by omega) hi]
      have : ⌊x⌋₊ = ⌊x⌋.toNat := rfl
      omega
    rw [e1]
    ring
  · have hxe : Int.fract x = 0 := by
      have : ⌊x⌋ = (w : ℤ) - 1 := by omega
      unfold Int.fract
      have h2 := Int.floor_le x
      rw [this] at h2 ⊢
      push_cast at h2 ⊢
      linarith
    rw [hxe]
    ring

theorem lerp_int (win : ℕ → ℝ) (k : ℕ) : lerp win k = win k := by
  unfold lerp
  simp

theorem lerp_mirror (win : ℕ → ℝ) (c : ℕ) (hs : ∀ k ≤ c, win (c - k) = win (c + k)) (r : ℝ) (h0 : 0 ≤ r) (h1 : r ≤ c) :
    lerp win (c - r) = lerp win (c + r) := by
  obtain ⟨k, hk⟩ : ∃ k : ℕ, ⌊r⌋ = k := Int.eq_ofNat_of_zero_le (Int.floor_nonneg.2 h0)
  have hkr : (k : ℝ) ≤ r := by have := Int.floor_le r; rw [hk] at this; exact_mod_cast this
  have hrk : r < k + 1 := by have := Int.lt_floor_add_one r; rw [hk] at this; exact_mod_cast this
  by_cases hr : r = k
  · subst hr
    have hkc : k ≤ c := by exact_mod_cast h1
    have e1 : (c : ℝ) - k = ((c - k : ℕ) : ℝ) := by push_cast [hkc]; ring
    have e2 : (c : ℝ) + k = ((c + k : ℕ) : ℝ) := by push_cast; ring
    rw [e1, e2, lerp_int, lerp_int, hs k hkc]
  · have hlt : (k : ℝ) < r := lt_of_le_of_ne hkr (Ne.symm hr)
    have hkc : k + 1 ≤ c := by
      have : (k : ℝ) < c := by linarith
      exact_mod_cast this
    have f1 : ⌊(c : ℝ) - r⌋ = ((c - (k + 1) : ℕ) : ℤ) := by
      rw [Int.floor_eq_iff]
      push_cast [hkc]
      constructor <;> linarith
    have f2 : ⌊(c : ℝ) + r⌋ = ((c + k : ℕ) : ℤ) := by
      rw [Int.floor_eq_iff]
      push_cast
      constructor <;> linarith
    have n1 : ⌊(c : ℝ) - r⌋₊ = c - (k + 1) := by
      have : ⌊(c : ℝ) - r⌋₊ = ⌊(c : ℝ) - r⌋.toNat := rfl
      rw [this, f1]; exact Int.toNat_natCast _
    have n2 : ⌊(c : ℝ) + r⌋₊ = c + k := by
      have : ⌊(c : ℝ) + r⌋₊ = ⌊(c : ℝ) + r⌋.toNat := rfl
      rw [this, f2]; exact Int.toNat_natCast _
    unfold lerp
    rw [n1, n2]
    unfold Int.fract
    rw [f1, f2, hs (k + 1) hkc, show c - (k + 1) + 1 = c - k by omega, hs k (by omega), show c + k + 1 = c + (k + 1) by omega]
    push_cast [hkc]
    ring

/-- Distance of entry (i, j) from the centre `c`. -/
noncomputable def dist (c i j : ℕ) : ℝ := sqrt (((j : ℝ) - c) ^ 2 + ((i : ℝ) - c) ^ 2)

theorem arctan2_neg_iff (y x : ℝ) : arctan2 y x < 0 ↔ y < 0 := by
  unfold arctan2
  exact Complex.arg_neg_iff

theorem windowCoord_eq (width0 i j : ℕ) (hj : j < width0) :
    windowCoord width0 i j = if i < width0 / 2 then ((width0 / 2 : ℕ) : ℝ) - min (dist (width0 / 2) i j) ((width0 / 2 : ℕ) : ℝ)
      else ((width0 / 2 : ℕ) : ℝ) + min (dist (width0 / 2) i j) ((width0 / 2 : ℕ) : ℝ) := by
  unfold windowCoord
  dsimp only
  set width := if width0 % 2 = 0 then width0 + 1 else width0 with hwd
  have hc : width / 2 = width0 / 2 := by
    rw [hwd]; split_ifs <;> omega
  have hodd : width = 2 * (width0 / 2) + 1 := by
    rw [hwd]; split_ifs <;> omega
  rw [hc]
  set c := width0 / 2 with hcdef
  have ex : ((width - 1 - j : ℕ) : ℝ) - c = c - j := by
    rw [hodd, show 2 * c + 1 - 1 - j = 2 * c - j by omega, Nat.cast_sub (by omega)]
    push_cast
    ring
  have hr : sqrt ((((width - 1 - j : ℕ) : ℝ) - c) ^ 2 + ((i : ℝ) - c) ^ 2) = dist c i j := by
    rw [ex]
    unfold dist
    congr 1
    ring
  have hd0 : 0 ≤ dist c i j := sqrt_nonneg _
  have hcl : clip (dist c i j) 0 c = min (dist c i j) c := by
    unfold clip; rw [max_eq_left hd0]
  rw [hr, hcl]
  have hc0 : (0 : ℝ) ≤ c := by positivity
  have hm0 : 0 ≤ min (dist c i j) (c : ℝ) := le_min hd0 hc0
  have hm1 : min (dist c i j) (c : ℝ) ≤ c := min_le_right _ _
  have hwc : ((width : ℝ) - 1) = 2 * c := by rw [hodd]; push_cast; ring
  by_cases hi : i < c
  · have hneg : arctan2 ((i : ℝ) - c) (((width - 1 - j : ℕ) : ℝ) - c) < 0 := by
      rw [arctan2_neg_iff]
      have : (i : ℝ) < c := by exact_mod_cast hi
      linarith
    rw [if_pos hneg, if_pos hi, clip_id _ _ _ (by linarith) (by linarith)]
    ring
  · have hneg : ¬ arctan2 ((i : ℝ) - c) (((width - 1 - j : ℕ) : ℝ) - c) < 0 := by
      rw [arctan2_neg_iff]
      have : (c : ℝ) ≤ i := by exact_mod_cast (by omega : c ≤ i)
      linarith
    rw [if_neg hneg, if_neg hi, clip_id _ _ _ (by linarith) (by linarith)]
    ring

/-- C91: the 2D window is a square of the length of the 1D window, and its central column is the 1D window itself. -/
theorem window_central_column (width0 : ℕ) (win : ℕ → ℝ) (hw : 2 ≤ width0) :
    (window2d width0 win).h = width0 ∧ (window2d width0 win).w = width0 ∧
    ∀ i < width0, (window2d width0 win).get i (width0 / 2) = win i := by
  refine ⟨rfl, rfl, ?_⟩
  intro i hi
  unfold window2d
  dsimp only
  have hd : dist (width0 / 2) i (width0 / 2) = |(i : ℝ) - ((width0 / 2 : ℕ) : ℝ)| := by
    unfold dist
    rw [sub_self, show (0 : ℝ) ^ 2 + ((i : ℝ) - ((width0 / 2 : ℕ) : ℝ)) ^ 2 = ((i : ℝ) - ((width0 / 2 : ℕ) : ℝ)) ^ 2 by ring, sqrt_sq_eq_abs]
  have hco : windowCoord width0 i (width0 / 2) = i := by
    rw [windowCoord_eq _ _ _ (by omega), hd]
    by_cases h : i < width0 / 2
    · have hr : (i : ℝ) < ((width0 / 2 : ℕ) : ℝ) := by exact_mod_cast h
      have h0 : (0 : ℝ) ≤ i := by positivity
      rw [if_pos h, abs_of_neg (by linarith), min_eq_left (by linarith)]
      ring
    · have hr : ((width0 / 2 : ℕ) : ℝ) ≤ i := by exact_mod_cast (by omega : width0 / 2 ≤ i)
      have h2 : (i : ℝ) ≤ 2 * ((width0 / 2 : ℕ) : ℝ) := by exact_mod_cast (by omega : i ≤ 2 * (width0 / 2))
      rw [if_neg h, abs_of_nonneg (by linarith), min_eq_left (by linarith)]
      ring
  have h1 : (i : ℝ) ≤ (width0 : ℝ) - 1 := by
    have : ((i + 1 : ℕ) : ℝ) ≤ width0 := by exact_mod_cast hi
    push_cast at this
    linarith
  rw [hco, sample_rows _ _ _ _ _ (by positivity) h1 (by omega), lerp_int]

/-- C91: for a symmetric window of odd length the 2D window is rotationally symmetric: every entry is the interpolated 1D window at its
distance from the centre, cut at the half width. -/
theorem window_radial (c : ℕ) (win : ℕ → ℝ) (hs : ∀ k ≤ c, win (c - k) = win (c + k)) (i j : ℕ) (hi : i < 2 * c + 1) (hj : j < 2 * c + 1) :
    (window2d (2 * c + 1) win).get i j = lerp win (c + min (dist c i j) c) := by
  unfold window2d
  dsimp only
  have hcc : (2 * c + 1) / 2 = c := by omega
  have hd0 : 0 ≤ dist c i j := sqrt_nonneg _
  have hc0 : (0 : ℝ) ≤ c := by positivity
  have hm0 : 0 ≤ min (dist c i j) (c : ℝ) := le_min hd0 hc0
  have hm1 : min (dist c i j) (c : ℝ) ≤ c := min_le_right _ _
  have hw : (((2 * c + 1 : ℕ) : ℝ) - 1) = 2 * c := by push_cast; ring
  have hco := windowCoord_eq (2 * c + 1) i j hj
  rw [hcc] at hco
  rw [hco]
  by_cases h : i < c
  · rw [if_pos h, sample_rows _ _ _ _ _ (by linarith) (by rw [hw]; linarith) (by omega), lerp_mirror win c hs _ hm0 hm1]
  · rw [if_neg h, sample_rows _ _ _ _ _ (by linarith) (by rw [hw]; linarith) (by omega)]

/-- C91: without symmetry the upper half is taken from the first half of the window and the lower half (with the central row) from the second;
along the central row the window is the mirrored second half. -/
theorem window_halves (c : ℕ) (win : ℕ → ℝ) (i j : ℕ) (hi : i < 2 * c + 1) (hj : j < 2 * c + 1) :
    (window2d (2 * c + 1) win).get i j = lerp win (if i < c then c - min (dist c i j) c else c + min (dist c i j) c) ∧
    (window2d (2 * c + 1) win).get c j = win (c + (if j < c then c - j else j - c)) := by
  have key : ∀ i, (window2d (2 * c + 1) win).get i j = lerp win (if i < c then c - min (dist c i j) c else c + min (dist c i j) c) := by
    intro i
    unfold window2d
    dsimp only
    have hcc : (2 * c + 1) / 2 = c := by omega
    have hd0 : 0 ≤ dist c i j := sqrt_nonneg _
    have hc0 : (0 : ℝ) ≤ c := by positivity
    have hm0 : 0 ≤ min (dist c i j) (c : ℝ) := le_min hd0 hc0
    have hm1 : min (dist c i j) (c : ℝ) ≤ c := min_le_right _ _
    have hw : (((2 * c + 1 : ℕ) : ℝ) - 1) = 2 * c := by push_cast; ring
    have hco := windowCoord_eq (2 * c + 1) i j hj
    rw [hcc] at hco
    rw [hco]
    by_cases h : i < c
    · rw [if_pos h, sample_rows _ _ _ _ _ (by linarith) (by rw [hw]; linarith) (by omega)]
    · rw [if_neg h, sample_rows _ _ _ _ _ (by linarith) (by rw [hw]; linarith) (by omega)]
  refine ⟨key i, ?_⟩
  rw [key c, if_neg (lt_irrefl c)]
  have hd : dist c c j = |(j : ℝ) - c| := by
    unfold dist
    rw [sub_self, show ((j : ℝ) - c) ^ 2 + (0 : ℝ) ^ 2 = ((j : ℝ) - c) ^ 2 by ring, sqrt_sq_eq_abs]
  rw [hd]
  by_cases h : j < c
  · have hr : (j : ℝ) < c := by exact_mod_cast h
    have h0 : (0 : ℝ) ≤ j := by positivity
    rw [if_pos h, abs_of_neg (by linarith), min_eq_left (by linarith)]
    have : (c : ℝ) + -((j : ℝ) - c) = ((c + (c - j) : ℕ) : ℝ) := by push_cast [h.le]; ring
    rw [this, lerp_int]
  · have hr : (c : ℝ) ≤ j := by exact_mod_cast (by omega : c ≤ j)
    have h2 : (j : ℝ) ≤ 2 * c := by exact_mod_cast (by omega : j ≤ 2 * c)
    rw [if_neg h, abs_of_nonneg (by linarith), min_eq_left (by linarith)]
    have : (c : ℝ) + ((j : ℝ) - c) = ((c + (j - c) : ℕ) : ℝ) := by push_cast [(by omega : c ≤ j)]; ring
    rw [this, lerp_int]

/-- Non-vacuity: a triangular window of length 5. -/
example : (window2d 5 fun k => if k ≤ 2 then (k : ℝ) else 4 - k).get 2 2 = 2 := by
  have := (window_central_column 5 (fun k => if k ≤ 2 then (k : ℝ) else 4 - k) (by omega)).2.2 2 (by omega)
  rw [show (5 : ℕ) / 2 = 2 from rfl] at this
  rw [this]
  norm_num

example : ∀ k ≤ 2, (fun k : ℕ => if k ≤ 2 then (k : ℝ) else 4 - k) (2 - k) = (fun k : ℕ => if k ≤ 2 then (k : ℝ) else 4 - k) (2 + k) := by
  intro k hk
  interval_cases k <;> norm_num

/-- Non-vacuity of the round trip: a 5 × 5 image, the pixel right of the centre. -/
example : ¬ RoundTrip 5 5 5 2 3 := round_trip_refuted 2 1 (by decide) (by decide)

end Verif.Polar
