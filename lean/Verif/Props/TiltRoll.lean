import Verif.Props.Ellipse

/-!
C78 (tilt and roll from the positions of a sphere).
-/

set_option linter.unusedSectionVars false
set_option linter.unusedSimpArgs false

namespace Verif.Calibration
open Real

/-! ### Specification -/

/-- `ab` (slope, intercept) is a straight line of least squares: what `np.polyfit(x, y, 1)` returns. -/
def IsLsq (ab : ℝ × ℝ) (xs ys : List ℝ) : Prop :=
  ∀ a b : ℝ, ((xs.zip ys).map fun p => (p.2 - (ab.1 * p.1 + ab.2)) ^ 2).sum ≤
    ((xs.zip ys).map fun p => (p.2 - (a * p.1 + b)) ^ 2).sum

/-- A smoothing filter: same length, and the result stays within the range of the data. -/
structure IsSmooth (gauss : List ℝ → List ℝ) : Prop where
  len : ∀ l, (gauss l).length = l.length
  range : ∀ l lo hi, (∀ x ∈ l, lo ≤ x ∧ x ≤ hi) → ∀ y ∈ gauss l, lo ≤ y ∧ y ≤ hi

/-! ### Lemmas -/

theorem foldl_max_mem (l : List ℝ) (x : ℝ) : l.foldl max x ∈ x :: l ∧ ∀ y ∈ x :: l, y ≤ l.foldl max x := by
  induction l generalizing x with
  | nil => simp
  | cons a l ih =>
    obtain ⟨h1, h2⟩ := ih (max x a)
    simp only [List.foldl_cons]
    have hx : x ≤ l.foldl max (max x a) := le_trans (le_max_left x a) (h2 _ (by simp))
    have ha : a ≤ l.foldl max (max x a) := le_trans (le_max_right x a) (h2 _ (by simp))
    constructor
    · rcases List.mem_cons.1 h1 with h | h
      · rw [h]
        rcases max_cases x a with ⟨h, _⟩ | ⟨h, _⟩ <;> rw [h] <;> simp
      · simp [h]
    · intro y hy
      rcases List.mem_cons.1 hy with rfl | hy
      · exact hx
      · rcases List.mem_cons.1 hy with rfl | hy
        · exact ha
        · exact h2 y (by simp [hy])

theorem npMaxE_spec (l : List ℝ) (hl : l ≠ []) : ∃ m, npMaxE l = .ok m ∧ m ∈ l ∧ ∀ y ∈ l, y ≤ m := by
  cases l with
  | nil => exact absurd rfl hl
  | cons a l => exact ⟨_, rfl, (foldl_max_mem l a).1, (foldl_max_mem l a).2⟩

theorem npMaxE_const (l : List ℝ) (hl : l ≠ []) (c : ℝ) (h : ∀ y ∈ l, y = c) : npMaxE l = .ok c := by
  obtain ⟨m, hm, h1, _⟩ := npMaxE_spec l hl
  rw [hm, h m h1]

theorem distList_nonneg (a b : ℝ) (xs ys : List ℝ) : ∀ d ∈ distList a b xs ys, 0 ≤ d := by
  intro d hd
  obtain ⟨p, _, rfl⟩ := List.mem_map.1 hd
  positivity

theorem distList_length (a b : ℝ) (xs ys : List ℝ) (h : xs.length = ys.length) : (distList a b xs ys).length = xs.length := by
  simp [distList, h]

theorem pairDist_nonneg (l : List (ℝ × ℝ)) : ∀ d ∈ pairDist l, 0 ≤ d := by
  induction l with
  | nil => simp [pairDist]
  | cons p l ih =>
    intro d hd
    simp only [pairDist, List.mem_append, List.mem_map] at hd
    rcases hd with ⟨q, _, rfl⟩ | hd
    · positivity
    · exact ih d hd

theorem pairDist_ne_nil (l : List (ℝ × ℝ)) (h : 2 ≤ l.length) : pairDist l ≠ [] := by
  match l, h with
  | p :: q :: l, _ => simp [pairDist]

theorem pairDist_nil (l : List (ℝ × ℝ)) (h : l.length < 2) : pairDist l = [] := by
  match l, h with
  | [], _ => rfl
  | [p], _ => rfl

theorem arctan2_quadrant (x y : ℝ) (hx : 0 ≤ x) (hy : 0 ≤ y) : 0 ≤ rad2deg (arctan2 y x) ∧ rad2deg (arctan2 y x) ≤ 90 := by
  have h1 : 0 ≤ arctan2 y x := Complex.arg_nonneg_iff.2 hy
  have h2 : arctan2 y x ≤ π / 2 := Complex.arg_le_pi_div_two_iff.2 (Or.inl hx)
  constructor
  · unfold rad2deg
    positivity
  · rw [← rad2deg_pi_div_two]
    exact not_lt.1 fun h => absurd (rad2deg_lt.1 h) (not_lt.2 h2)

theorem arctan2_pos (x y : ℝ) (hx : 0 < x) : arctan2 y x = arctan (y / x) := by
  have hr : 0 < sqrt (x ^ 2 + y ^ 2) := sqrt_pos.2 (by positivity)
  have h1 := arctan2_polar (sqrt (x ^ 2 + y ^ 2)) (arctan (y / x)) hr (by linarith [neg_pi_div_two_lt_arctan (y / x), pi_pos])
    (by linarith [arctan_lt_pi_div_two (y / x), pi_pos])
  have h2 : sqrt (1 + (y / x) ^ 2) = sqrt (x ^ 2 + y ^ 2) / x := by
    rw [show 1 + (y / x) ^ 2 = (x ^ 2 + y ^ 2) / x ^ 2 by field_simp, sqrt_div (by positivity), sqrt_sq hx.le]
  rw [sin_arctan, cos_arctan, h2] at h1
  refine Eq.trans ?_ h1
  congr 1
  · field_simp
  · field_simp

theorem linearFit_ok (polyfit : List ℝ → List ℝ → ℝ × ℝ) (gauss : List ℝ → List ℝ) (hg : IsSmooth gauss) (xs ys : List ℝ)
    (hlen : xs.length = ys.length) (hn : 2 ≤ xs.length) :
    ∃ major minor, linearFit polyfit gauss xs ys =
      .ok (rad2deg (arctan2 (2 * minor) major), rad2deg (arctan (polyfit xs ys).1)) ∧
      npMaxE (pairDist (xs.zip ys)) = .ok major ∧
      npMaxE (gauss (distList (polyfit xs ys).1 (polyfit xs ys).2 xs ys)) = .ok minor ∧ 0 ≤ major ∧ 0 ≤ minor := by
  have hne : xs ≠ [] := by
    intro h
    simp [h] at hn
  obtain ⟨major, h1, h2, _⟩ := npMaxE_spec (pairDist (xs.zip ys)) (pairDist_ne_nil _ (by simp [hlen] at hn ⊢; omega))
  obtain ⟨minor, h3, h4, _⟩ := npMaxE_spec (gauss (distList (polyfit xs ys).1 (polyfit xs ys).2 xs ys)) (by
    intro h
    have := hg.len (distList (polyfit xs ys).1 (polyfit xs ys).2 xs ys)
    rw [h, distList_length _ _ _ _ hlen] at this
    simp at this
    omega)
  have hm : 0 ≤ minor := by
    by_cases hd : distList (polyfit xs ys).1 (polyfit xs ys).2 xs ys = []
    · have := hg.len (distList (polyfit xs ys).1 (polyfit xs ys).2 xs ys)
      rw [hd] at this h4
      simp at this
      rw [this] at h4
      simp at h4
    · obtain ⟨hi, _, _, hhi⟩ := npMaxE_spec _ hd
      exact (hg.range _ 0 hi (fun x hx => ⟨distList_nonneg _ _ _ _ x hx, hhi x hx⟩) _ h4).1
  refine ⟨major, minor, ?_, h1, h3, pairDist_nonneg _ _ h2, hm⟩
  unfold linearFit polyfitE
  rw [if_neg hne]
  simp only [bind, Except.bind, pure, Except.pure]
  rw [h1]
  simp only
  rw [h3]
  norm_num

/-- Points on a straight line: least squares finds it. -/
theorem lsq_exact (polyfit : List ℝ → List ℝ → ℝ × ℝ) (xs ys : List ℝ) (hp : IsLsq (polyfit xs ys) xs ys) (m q : ℝ)
    (hon : ∀ p ∈ xs.zip ys, p.2 = m * p.1 + q) :
    ∀ p ∈ xs.zip ys, p.2 = (polyfit xs ys).1 * p.1 + (polyfit xs ys).2 := by
  have h0 : ((xs.zip ys).map fun p => (p.2 - (m * p.1 + q)) ^ 2).sum = 0 := by
    apply List.sum_eq_zero
    intro x hx
    obtain ⟨p, hp, rfl⟩ := List.mem_map.1 hx
    rw [hon p hp]
    ring
  have h1 := hp m q
  rw [h0] at h1
  intro p hp'
  have : (p.2 - ((polyfit xs ys).1 * p.1 + (polyfit xs ys).2)) ^ 2 ≤
      ((xs.zip ys).map fun p => (p.2 - ((polyfit xs ys).1 * p.1 + (polyfit xs ys).2)) ^ 2).sum :=
    List.single_le_sum (by
      intro x hx
      obtain ⟨r, _, rfl⟩ := List.mem_map.1 hx
      exact sq_nonneg _) _ (List.mem_map.2 ⟨p, hp', rfl⟩)
  have h2 := le_antisymm (le_trans this h1) (sq_nonneg _)
  have h3 := pow_eq_zero_iff (two_ne_zero) |>.1 h2
  linarith

theorem dist_zero (polyfit : List ℝ → List ℝ → ℝ × ℝ) (gauss : List ℝ → List ℝ) (hg : IsSmooth gauss)
    (xs ys : List ℝ) (hp : IsLsq (polyfit xs ys) xs ys) (m q : ℝ) (hon : ∀ p ∈ xs.zip ys, p.2 = m * p.1 + q) :
    ∀ d ∈ gauss (distList (polyfit xs ys).1 (polyfit xs ys).2 xs ys), d = 0 := by
  intro d hd
  have h := hg.range _ 0 0 (by
    intro x hx
    obtain ⟨p, hp', rfl⟩ := List.mem_map.1 hx
    have := lsq_exact polyfit xs ys hp m q hon p hp'
    have e : (polyfit xs ys).1 * p.1 - p.2 + (polyfit xs ys).2 = 0 := by linarith
    rw [e]
    simp) d hd
  exact le_antisymm h.2 h.1

/-! ### C78 -/

/-- C78: exactly which inputs are rejected: unequal lengths, an unknown method, fewer than two points. -/
theorem tilt_roll_errors (svd : List Coef → Coef) (polyfit : List ℝ → List ℝ → ℝ × ℝ) 
    (gauss : List ℝ → List ℝ) (hg : IsSmooth gauss) (xs ys : List ℝ) (hp : IsLsq (polyfit xs ys) xs ys) (method : String) :
    (∃ e, findTiltRoll svd polyfit gauss xs ys method = .error e) ↔
      xs.length ≠ ys.length ∨ (method ≠ "linear" ∧ method ≠ "ellipse") ∨ xs.length < 2 := by
  unfold findTiltRoll
  by_cases h1 : xs.length ≠ ys.length
  · rw [if_pos h1]
    simp [h1]
  rw [if_neg h1]
  have hlen := not_not.1 h1
  by_cases h2 : ¬ (method = "linear" ∨ method = "ellipse")
  · rw [if_pos h2]
    have := not_or.1 h2
    simp [this]
  rw [if_neg h2]
  have hm := not_not.1 h2
  by_cases hn : 2 ≤ xs.length
  · obtain ⟨major, minor, h3, -, h5, -, -⟩ := linearFit_ok polyfit gauss hg xs ys hlen hn
    have hne : xs ≠ [] := by
      intro h
      simp [h] at hn
    constructor
    · rintro ⟨e, he⟩
      exfalso
      rw [h3] at he
      by_cases h4 : method = "linear"
      · rw [if_pos h4] at he
        cases he
      · rw [if_neg h4] at he
        unfold polyfitE at he
        rw [if_neg hne] at he
        simp only [bind, Except.bind] at he
        rw [h5] at he
        simp only at he
        split_ifs at he
        unfold ellipseFit at he
        unfold fitEllipse at he
        rw [if_neg h1] at he
        cases hE : ellipseOf (svd ((xs.zip ys).map row)) with
        | ok r => rw [hE] at he; cases he
        | error e' =>
          have : e' = .valueError := by
            rw [ellipseOf_eq _ _ _ _ _ _ _ rfl rfl rfl rfl rfl rfl] at hE
            split_ifs at hE <;> cases hE <;> rfl
          rw [hE, this] at he
          cases he
    · rintro (h | h | h)
      · exact absurd hlen h
      · exact absurd hm (by simp [h])
      · omega
  · have hlt : xs.length < 2 := by omega
    refine ⟨fun _ => Or.inr (Or.inr hlt), fun _ => ?_⟩
    have hlin : ∃ e, linearFit polyfit gauss xs ys = .error e := by
      unfold linearFit polyfitE
      by_cases hne : xs = []
      · rw [if_pos hne]
        exact ⟨_, rfl⟩
      · rw [if_neg hne]
        simp only [bind, Except.bind]
        rw [pairDist_nil _ (by simp; omega)]
        exact ⟨_, rfl⟩
    obtain ⟨e, he⟩ := hlin
    rw [he]
    by_cases h4 : method = "linear"
    · rw [if_pos h4]
      exact ⟨_, rfl⟩
    · rw [if_neg h4]
      unfold polyfitE
      by_cases hne : xs = []
      · rw [if_pos hne]
        exact ⟨_, rfl⟩
      · rw [if_neg hne]
        simp only [bind, Except.bind]
        have hd := dist_zero polyfit gauss hg xs ys hp 0 (ys.headD 0) (by
          match xs, ys, hlen, hlt, hne with
          | [x], [y], _, _, _ => simp)
        rw [npMaxE_const _ (by
          intro h
          have := hg.len (distList (polyfit xs ys).1 (polyfit xs ys).2 xs ys)
          rw [h, distList_length _ _ _ _ hlen] at this
          exact hne (List.length_eq_zero_iff.1 this.symm)) 0 hd]
        simp only
        rw [if_pos (by norm_num)]
        exact ⟨_, rfl⟩

/-- C78: points on a straight line give tilt 0 and the direction of the line, with both methods. -/
theorem tilt_roll_collinear (svd : List Coef → Coef) (polyfit : List ℝ → List ℝ → ℝ × ℝ) 
    (gauss : List ℝ → List ℝ) (hg : IsSmooth gauss) (xs ys : List ℝ) (hp : IsLsq (polyfit xs ys) xs ys) (hlen : xs.length = ys.length) (m q : ℝ)
    (hon : ∀ p ∈ xs.zip ys, p.2 = m * p.1 + q) (p1 p2 : ℝ × ℝ) (hp1 : p1 ∈ xs.zip ys) (hp2 : p2 ∈ xs.zip ys)
    (hne : p1.1 ≠ p2.1) (method : String) (hm : method = "linear" ∨ method = "ellipse") :
    findTiltRoll svd polyfit gauss xs ys method = .ok (0, arctan m * 180 / π) := by
  have hn : 2 ≤ xs.length := by
    match xs, ys, hlen with
    | [], _, _ => simp at hp1
    | [x], [y], _ =>
      simp at hp1 hp2
      rw [hp1, hp2] at hne
      exact absurd rfl hne
    | x :: x' :: xs, _, _ => simp
  obtain ⟨major, minor, h3, h4, h5, h6, h7⟩ := linearFit_ok polyfit gauss hg xs ys hlen hn
  have hd := dist_zero polyfit gauss hg xs ys hp m q hon
  have hnil : gauss (distList (polyfit xs ys).1 (polyfit xs ys).2 xs ys) ≠ [] := by
    intro h
    have := hg.len (distList (polyfit xs ys).1 (polyfit xs ys).2 xs ys)
    rw [h, distList_length _ _ _ _ hlen] at this
    simp at this
    omega
  have hz := npMaxE_const _ hnil 0 hd
  have hmin : minor = 0 := by
    rw [hz] at h5
    exact (Except.ok.inj h5).symm
  have hslope : (polyfit xs ys).1 = m := by
    have e1 := lsq_exact polyfit xs ys hp m q hon p1 hp1
    have e2 := lsq_exact polyfit xs ys hp m q hon p2 hp2
    rw [hon p1 hp1] at e1
    rw [hon p2 hp2] at e2
    have : (m - (polyfit xs ys).1) * (p1.1 - p2.1) = 0 := by linarith
    rcases mul_eq_zero.1 this with h | h
    · linarith
    · exact absurd (by linarith) hne
  have hres : linearFit polyfit gauss xs ys = .ok (0, arctan m * 180 / π) := by
    rw [h3, hmin, hslope, mul_zero]
    have : arctan2 0 major = 0 := by
      unfold arctan2
      rw [show (⟨major, 0⟩ : ℂ) = (major : ℂ) from rfl]
      exact Complex.arg_ofReal_of_nonneg h6
    rw [this]
    simp [rad2deg]
  have hxs : xs ≠ [] := by
    intro h
    simp [h] at hn
  unfold findTiltRoll
  rw [if_neg (not_not.2 hlen), if_neg (not_not.2 hm), hres]
  by_cases h : method = "linear"
  · rw [if_pos h]
  · rw [if_neg h]
    unfold polyfitE
    rw [if_neg hxs]
    simp only [bind, Except.bind]
    rw [hz]
    simp only
    rw [if_pos (by norm_num)]

/-- C78: points of an ellipse (at least six, five of them distinct) that the line fit does not take for a straight line: the
tilt is the angle whose tangent is the ratio of the axes, the roll is the direction of the long axis. -/
theorem tilt_roll_ellipse (svd : List Coef → Coef) (hsvd : ∀ rows, 6 ≤ rows.length → IsLastSingular rows (svd rows))
    (polyfit : List ℝ → List ℝ → ℝ × ℝ) (gauss : List ℝ → List ℝ)
    (E : Ellipse) (hB : 0 < E.B) (hAB : E.B < E.A) (h1 : -(π / 2) < E.φ) (h2 : E.φ < π / 2)
    (xs ys : List ℝ) (hlen : xs.length = ys.length) (hn : 6 ≤ xs.length) (hon : ∀ p ∈ xs.zip ys, E.On p)
    (S : Finset (ℝ × ℝ)) (hS : 5 ≤ S.card) (hsub : ∀ p ∈ S, p ∈ xs.zip ys)
    (hd : ∃ d ∈ gauss (distList (polyfit xs ys).1 (polyfit xs ys).2 xs ys), 1 ≤ d) :
    findTiltRoll svd polyfit gauss xs ys "ellipse" = .ok (arctan (E.B / E.A) * 180 / π, E.φ * 180 / π) := by
  have hxs : xs ≠ [] := by
    intro h
    simp [h] at hn
  obtain ⟨d, hd1, hd2⟩ := hd
  obtain ⟨mx, h3, h4, h5⟩ := npMaxE_spec _ (List.ne_nil_of_mem hd1)
  unfold findTiltRoll
  rw [if_neg (not_not.2 hlen), if_neg (not_not.2 (Or.inr rfl)), if_neg (by decide)]
  unfold polyfitE
  rw [if_neg hxs]
  simp only [bind, Except.bind]
  rw [h3]
  simp only
  rw [if_neg (by
    have := h5 d hd1
    norm_num
    linarith)]
  unfold ellipseFit
  rw [fit_ellipse svd hsvd E hB hAB h1 h2.le xs ys hlen hn hon S hS hsub, if_neg h2.ne]
  simp only
  rw [arctan2_pos _ _ (by linarith), mul_div_mul_left _ _ (by norm_num : (2 : ℝ) ≠ 0)]
  rfl

/-- C78: the two angles are always between 0 and 90, and between -90 and 90 degrees. -/
theorem tilt_roll_range (svd : List Coef → Coef) (polyfit : List ℝ → List ℝ → ℝ × ℝ)
    (gauss : List ℝ → List ℝ) (hg : IsSmooth gauss) (xs ys : List ℝ) (hn : 2 ≤ xs.length) (method : String) (tilt roll : ℝ)
    (h : findTiltRoll svd polyfit gauss xs ys method = .ok (tilt, roll)) :
    0 ≤ tilt ∧ tilt ≤ 90 ∧ -90 ≤ roll ∧ roll ≤ 90 := by
  unfold findTiltRoll at h
  by_cases h1 : xs.length ≠ ys.length
  · rw [if_pos h1] at h
    cases h
  rw [if_neg h1] at h
  have hlen := not_not.1 h1
  by_cases h2 : ¬ (method = "linear" ∨ method = "ellipse")
  · rw [if_pos h2] at h
    cases h
  rw [if_neg h2] at h
  obtain ⟨major, minor, h3, h4, h5, h6, h7⟩ := linearFit_ok polyfit gauss hg xs ys hlen hn
  have hlin : ∀ t r, linearFit polyfit gauss xs ys = .ok (t, r) → 0 ≤ t ∧ t ≤ 90 ∧ -90 ≤ r ∧ r ≤ 90 := by
    intro t r htr
    rw [h3] at htr
    simp only [Except.ok.injEq, Prod.mk.injEq] at htr
    rw [← htr.1, ← htr.2]
    have hq := arctan2_quadrant major (2 * minor) h6 (by linarith)
    refine ⟨hq.1, hq.2, ?_, ?_⟩
    · rw [← rad2deg_pi_div_two, ← rad2deg_neg]
      exact (rad2deg_lt.2 (neg_pi_div_two_lt_arctan _)).le
    · rw [← rad2deg_pi_div_two]
      exact (rad2deg_lt.2 (arctan_lt_pi_div_two _)).le
  by_cases hm : method = "linear"
  · rw [if_pos hm] at h
    exact hlin _ _ h
  · rw [if_neg hm] at h
    unfold polyfitE at h
    rw [if_neg (by intro h; simp [h] at hn)] at h
    simp only [bind, Except.bind] at h
    rw [h5] at h
    simp only at h
    split_ifs at h
    · exact hlin _ _ h
    · unfold ellipseFit at h
      cases hf : fitEllipse svd xs ys with
      | error e =>
        rw [hf] at h
        cases e <;> simp only at h
        · cases h
        · exact hlin _ _ h
        · cases h
        · cases h
        · cases h
      | ok r =>
        obtain ⟨ro, mj, mn, xc, yc⟩ := r
        rw [hf] at h
        simp only [pure, Except.pure, Except.ok.injEq, Prod.mk.injEq] at h
        obtain ⟨q1, q2, q3, q4⟩ := fit_range svd xs ys ro mj mn xc yc hf
        rw [← h.1, ← h.2]
        have hq := arctan2_quadrant mj mn (by linarith) q1
        exact ⟨hq.1, hq.2, q3, q4⟩

/-- C78: a sphere on a circle of radius `A` whose axis is tilted by `θ` towards the beam moves on an ellipse with axes `A` and
`A sin θ`.  The tilt the code reports is `arctan (sin θ)`: smaller than `θ` for every tilt between 0 and 90 degrees. -/
theorem tilt_underestimated (A θ : ℝ) (hA : 0 < A) (h1 : 0 < θ) (h2 : θ < π / 2) :
    arctan (A * sin θ / A) * 180 / π < θ * 180 / π := by
  rw [mul_div_cancel_left₀ _ hA.ne']
  have hc : 0 < cos θ := cos_pos_of_mem_Ioo ⟨by linarith, h2⟩
  have hs : 0 < sin θ := sin_pos_of_pos_of_lt_pi h1 (by linarith [pi_pos])
  have hc1 : cos θ < 1 := by
    have := sin_sq_add_cos_sq θ
    nlinarith
  have ht : sin θ < tan θ := by
    rw [tan_eq_sin_div_cos, lt_div_iff₀ hc]
    nlinarith
  have : arctan (sin θ) < θ := by
    have h3 := arctan_strictMono ht
    rwa [arctan_tan (by linarith) h2] at h3
  rw [div_lt_div_iff_of_pos_right pi_pos]
  linarith

/-- A straight line. -/
example (svd : List Coef → Coef) :
    findTiltRoll svd (fun _ _ => (2, 1)) id [0, 1, 2] [1, 3, 5] "ellipse" = .ok (0, arctan 2 * 180 / π) :=
  tilt_roll_collinear svd _ id ⟨fun _ => rfl, fun _ _ _ h => h⟩ [0, 1, 2] [1, 3, 5]
    (by
      intro a b
      have : (([0, 1, 2] : List ℝ).zip [1, 3, 5]).map (fun p => (p.2 - ((2 : ℝ) * p.1 + 1)) ^ 2) = [0, 0, 0] := by norm_num
      dsimp only
      rw [this]
      apply le_trans (b := 0) (by simp)
      apply List.sum_nonneg
      intro x hx
      obtain ⟨p, _, rfl⟩ := List.mem_map.1 hx
      positivity)
    rfl 2 1 (by
      intro p hp
      simp at hp
      rcases hp with rfl | rfl | rfl <;> norm_num)
    (0, 1) (1, 3) (by simp) (by simp) (by simp) "ellipse" (Or.inr rfl)

/-- An ellipse with axes 4 and 2. -/
example : ∃ svd, findTiltRoll svd (fun _ _ => (0, 0)) id [2, -2, 0, 0, 6 / 5, -6 / 5] [0, 0, 1, -1, 4 / 5, 4 / 5] "ellipse" =
    .ok (arctan (1 / 2) * 180 / π, 0) := by
  obtain ⟨svd, h⟩ := svd_exists
  refine ⟨svd, ?_⟩
  have := tilt_roll_ellipse svd (fun rows _ => h rows) (fun _ _ => (0, 0)) id ⟨2, 1, 0, 0, 0⟩ (by norm_num) (by norm_num)
    (by simp only [Left.neg_neg_iff]; positivity) (by show (0 : ℝ) < π / 2; positivity)
    [2, -2, 0, 0, 6 / 5, -6 / 5] [0, 0, 1, -1, 4 / 5, 4 / 5] rfl (by simp)
    (by
      intro p hp
      simp only [List.zip_cons_cons, List.zip_nil_right, List.mem_cons, List.not_mem_nil, or_false] at hp
      rcases hp with rfl | rfl | rfl | rfl | rfl | rfl <;> simp only [Ellipse.On, cos_zero, sin_zero] <;> norm_num)
    {(2, 0), (-2, 0), (0, 1), (0, -1), (6 / 5, 4 / 5)}
    (by
      rw [Finset.card_insert_of_notMem, Finset.card_insert_of_notMem, Finset.card_insert_of_notMem,
        Finset.card_insert_of_notMem, Finset.card_singleton]
      all_goals simp
      all_goals norm_num)
    (by
      intro p hp
      simp only [Finset.mem_insert, Finset.mem_singleton] at hp
      rcases hp with rfl | rfl | rfl | rfl | rfl <;> simp)
    ⟨1, by simp [distList], le_refl _⟩
  rw [this]
  norm_num

end Verif.Calibration
