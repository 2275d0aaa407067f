import Verif.Props.UmpaFull3

/-!
C139: how the UMPA result scales with the intensities of sample and reference; non-vacuity of C137 - C139.
-/

set_option linter.unusedSectionVars false
set_option linter.unusedSimpArgs false

namespace Verif.UmpaFull
open Finset Verif.Correlation Verif.LocalShifts Verif.GpuShifts Verif.Umpa
open Verif.Fourier (edgeIdx)

/-! ### Peaks of a scaled map -/

/-- All entries multiplied by `c`. -/
def times (c : ℝ) (m : Mat ℝ) : Mat ℝ := ⟨m.h, m.w, fun i j => c * m.get i j⟩

theorem argmaxTo_scale {c : ℝ} (hc : 0 < c) (f : ℕ → ℝ) (n : ℕ) : argmaxTo (fun k => c * f k) n = argmaxTo f n := by
  induction n with
  | zero => rfl
  | succ n ih =>
    unfold argmaxTo
    rw [ih]
    by_cases h : f (argmaxTo f n) < f (n + 1)
    · rw [if_pos h, if_pos (mul_lt_mul_of_pos_left h hc)]
    · rw [if_neg h, if_neg (fun q => h (lt_of_mul_lt_mul_left q hc.le))]

theorem argmax2_scale {c : ℝ} (hc : 0 < c) (m : Mat ℝ) : argmax2 (times c m) = argmax2 m := by
  unfold argmax2 times
  dsimp only
  rw [argmaxTo_scale hc]

/-- The coefficients of the fitted polynomials are multiplied by the factor of the data, as those of every (minimum norm) least-squares fit
(`np.polyfit`, `np.linalg.lstsq`); nothing is asked of `method="diff"`. -/
def Homogeneous : Method ℝ → Prop
  | .diff => True
  | .polyFit fit1 fit2 => (∀ c : ℝ, ∀ n f, fit1 n (fun k => c * f k) = (c * (fit1 n f).1, c * (fit1 n f).2)) ∧
      ∀ c : ℝ, ∀ h w g, fit2 h w (fun i j => c * g i j) = (c * (fit2 h w g).1, c * (fit2 h w g).2.1, c * (fit2 h w g).2.2.1, c * (fit2 h w g).2.2.2.1,
        c * (fit2 h w g).2.2.2.2.1, c * (fit2 h w g).2.2.2.2.2)

theorem locate1d_scale_diff {c : ℝ} (hc : 0 < c) (n : ℕ) (f : ℕ → ℝ) : locate1d n (fun k => c * f k) (.diff : Method ℝ) = locate1d n f .diff := by
  unfold locate1d npArgmax
  by_cases hn : n = 0
  · rw [if_pos hn, if_pos hn]; rfl
  · rw [if_neg hn, if_neg hn, argmaxTo_scale hc]
    simp only [bind, Except.bind]
    generalize argmaxTo f (n - 1) = p
    by_cases hp : p < n - 1 ∧ 0 < p
    · rw [if_pos hp, if_pos hp]
      have e2 : c * f (p + 1) + c * f (p - 1) - 2 * (c * f p) = c * (f (p + 1) + f (p - 1) - 2 * f p) := by ring
      have e1 : -((c * f (p + 1) - c * f (p - 1)) / 2) = c * -((f (p + 1) - f (p - 1)) / 2) := by ring
      rw [e1, e2]
      by_cases hd : f (p + 1) + f (p - 1) - 2 * f p = 0
      · rw [if_neg (by rw [hd, mul_zero]; exact fun h => h rfl), if_neg (by rw [hd]; exact fun h => h rfl)]
      · rw [if_pos (mul_ne_zero hc.ne' hd), if_pos hd, mul_div_mul_left _ _ hc.ne']
    · rw [if_neg hp, if_neg hp]

theorem ite_mul' (c : ℝ) (P : Prop) [Decidable P] (x y : ℝ) (h : y = c * x) : (if P then y else 0) = c * (if P then x else 0) := by
  by_cases hP : P
  · rw [if_pos hP, if_pos hP, h]
  · rw [if_neg hP, if_neg hP, mul_zero]

theorem locate1d_scale {c : ℝ} (hc : 0 < c) (method : Method ℝ) (hm : Homogeneous method) (n : ℕ) (f : ℕ → ℝ) :
    locate1d n (fun k => c * f k) method = locate1d n f method := by
  cases method with
  | diff => exact locate1d_scale_diff hc n f
  | polyFit fit1 fit2 =>
    unfold locate1d npArgmax
    dsimp only
    rw [hm.1 c n f]
    by_cases hn : n = 0
    · rw [if_pos hn, if_pos hn]; rfl
    · rw [if_neg hn, if_neg hn, argmaxTo_scale hc]
      simp only [bind, Except.bind]
      generalize (fit1 n f).1 = a
      generalize (fit1 n f).2 = b
      by_cases ha : a = 0
      · rw [if_neg (by rw [ha, mul_zero]; exact fun h => h rfl), if_neg (by rw [ha]; exact fun h => h rfl)]
      · rw [if_pos (mul_ne_zero hc.ne' ha), if_pos ha, show -(c * b) / (2 * (c * a)) = -b / (2 * a) by
          rw [show -(c * b) = c * -b by ring, show 2 * (c * a) = c * (2 * a) by ring, mul_div_mul_left _ _ hc.ne']]

theorem locate2d_scale_diff {c : ℝ} (hc : 0 < c) (m : Mat ℝ) : locate2d (times c m) (.diff : Method ℝ) = locate2d m .diff := by
  unfold locate2d
  rw [argmax2_scale hc]
  cases h : argmax2 m with
  | error e => rfl
  | ok p =>
    obtain ⟨y0, x0⟩ := p
    simp only [bind, Except.bind]
    unfold times
    dsimp only
    rw [ite_mul' c _ ((m.get y0 (x0 + 1) - m.get y0 (x0 - 1)) / 2)
        ((c * m.get y0 (x0 + 1) - c * m.get y0 (x0 - 1)) / 2) (by ring),
      ite_mul' c _ (m.get y0 (x0 + 1) + m.get y0 (x0 - 1) - 2 * m.get y0 x0)
        (c * m.get y0 (x0 + 1) + c * m.get y0 (x0 - 1) - 2 * (c * m.get y0 x0)) (by ring),
      ite_mul' c _ ((m.get (y0 + 1) x0 - m.get (y0 - 1) x0) / 2)
        ((c * m.get (y0 + 1) x0 - c * m.get (y0 - 1) x0) / 2) (by ring),
      ite_mul' c _ (m.get (y0 + 1) x0 + m.get (y0 - 1) x0 - 2 * m.get y0 x0)
        (c * m.get (y0 + 1) x0 + c * m.get (y0 - 1) x0 - 2 * (c * m.get y0 x0)) (by ring),
      ite_mul' c _ ((m.get (y0 + 1) (x0 + 1) + m.get (y0 - 1) (x0 - 1) - m.get (y0 + 1) (x0 - 1) - m.get (y0 - 1) (x0 + 1)) / 4)
        ((c * m.get (y0 + 1) (x0 + 1) + c * m.get (y0 - 1) (x0 - 1) - c * m.get (y0 + 1) (x0 - 1) - c * m.get (y0 - 1) (x0 + 1)) / 4) (by ring)]
    generalize (if ¬(x0 = 0 ∨ x0 = m.w - 1) then (m.get y0 (x0 + 1) - m.get y0 (x0 - 1)) / 2 else 0) = d1
    generalize (if ¬(x0 = 0 ∨ x0 = m.w - 1) then m.get y0 (x0 + 1) + m.get y0 (x0 - 1) - 2 * m.get y0 x0 else 0) = d2
    generalize (if ¬(y0 = 0 ∨ y0 = m.h - 1) then (m.get (y0 + 1) x0 - m.get (y0 - 1) x0) / 2 else 0) = d3
    generalize (if ¬(y0 = 0 ∨ y0 = m.h - 1) then m.get (y0 + 1) x0 + m.get (y0 - 1) x0 - 2 * m.get y0 x0 else 0) = d4
    generalize (if ¬(y0 = 0 ∨ y0 = m.h - 1) ∧ ¬(x0 = 0 ∨ x0 = m.w - 1) then
      (m.get (y0 + 1) (x0 + 1) + m.get (y0 - 1) (x0 - 1) - m.get (y0 + 1) (x0 - 1) - m.get (y0 - 1) (x0 + 1)) / 4 else 0) = d5
    have e : (c * d5) ^ 2 - c * d2 * (c * d4) = c ^ 2 * (d5 ^ 2 - d2 * d4) := by ring
    have e1 : c * d4 * (c * d1) - c * d5 * (c * d3) = c ^ 2 * (d4 * d1 - d5 * d3) := by ring
    have e2 : c * d2 * (c * d3) - c * d5 * (c * d1) = c ^ 2 * (d2 * d3 - d5 * d1) := by ring
    have hc2 : c ^ 2 ≠ 0 := pow_ne_zero _ hc.ne'
    rw [e, e1, e2, mul_div_mul_left _ _ hc2, mul_div_mul_left _ _ hc2]
    by_cases hn : d5 ^ 2 - d2 * d4 = 0
    · rw [if_neg (by rw [hn, mul_zero]; exact fun h => h rfl), if_neg (by rw [hn]; exact fun h => h rfl)]
    · rw [if_pos (mul_ne_zero hc2 hn), if_pos hn]

theorem locate2d_scale {c : ℝ} (hc : 0 < c) (method : Method ℝ) (hm : Homogeneous method) (m : Mat ℝ) : locate2d (times c m) method = locate2d m method := by
  cases method with
  | diff => exact locate2d_scale_diff hc m
  | polyFit fit1 fit2 =>
    have hd := locate2d_scale_diff hc m
    unfold locate2d at hd ⊢
    rw [argmax2_scale hc] at hd ⊢
    cases h : argmax2 m with
    | error e => rfl
    | ok p =>
      obtain ⟨y0, x0⟩ := p
      rw [h] at hd
      simp only [bind, Except.bind] at hd ⊢
      have e : fit2 (times c m).h (times c m).w (times c m).get = _ := hm.2 c m.h m.w m.get
      rw [e]
      show (if ¬(y0 = 0 ∨ y0 = m.h - 1) ∨ ¬(x0 = 0 ∨ x0 = m.w - 1) then _ else _) = _
      by_cases hcheck : ¬(y0 = 0 ∨ y0 = m.h - 1) ∨ ¬(x0 = 0 ∨ x0 = m.w - 1)
      · rw [if_pos hcheck, if_pos hcheck]
        dsimp only
        generalize (fit2 m.h m.w m.get).2.1 = a1
        generalize (fit2 m.h m.w m.get).2.2.1 = a2
        generalize (fit2 m.h m.w m.get).2.2.2.1 = a3
        generalize (fit2 m.h m.w m.get).2.2.2.2.1 = a4
        generalize (fit2 m.h m.w m.get).2.2.2.2.2 = a5
        have hc2 : c ^ 2 ≠ 0 := pow_ne_zero _ hc.ne'
        rw [show c * a4 * (c * a4) - 4 * (c * a3) * (c * a5) = c ^ 2 * (a4 * a4 - 4 * a3 * a5) by ring,
          show 2 * (c * a1) * (c * a5) - c * a2 * (c * a4) = c ^ 2 * (2 * a1 * a5 - a2 * a4) by ring,
          show 2 * (c * a2) * (c * a3) - c * a1 * (c * a4) = c ^ 2 * (2 * a2 * a3 - a1 * a4) by ring, mul_div_mul_left _ _ hc2, mul_div_mul_left _ _ hc2]
        by_cases hn : a4 * a4 - 4 * a3 * a5 = 0
        · rw [if_neg (by rw [hn, mul_zero]; exact fun h => h rfl), if_neg (by rw [hn]; exact fun h => h rfl)]
        · rw [if_pos (mul_ne_zero hc2 hn), if_pos hn]
          rfl
      · rw [if_neg hcheck, if_neg hcheck]
        exact hd

theorem locatePeak_scale {c : ℝ} (hc : 0 < c) (method : Method ℝ) (hm : Homogeneous method) (m : Mat ℝ) (dim size : Int) (mp : Bool) :
    locatePeak (times c m) true method dim size mp = locatePeak m true method dim size mp := by
  have hmax : ∀ m : Mat ℝ, locatePeak (times c m) true method dim size true = locatePeak m true method dim size true := by
    intro m
    unfold locatePeak flipPeak
    simp only [bind, Except.bind, if_true, argmax2_scale hc]
    cases h : argmax2 m with
    | error e => rfl
    | ok p =>
      obtain ⟨y, x⟩ := p
      simp only [Bool.true_eq_false, if_false]
      have hi : peakInterior (times c m) (winSize method size) method dim y x =
          peakInterior m (winSize method size) method dim y x := by
        unfold peakInterior
        have l1 := fun (row col n : ℕ) => locate2d_scale hc method hm ⟨n, n, fun i j => m.get (row + i) (col + j)⟩
        unfold times at l1 ⊢
        dsimp only at l1 ⊢
        simp only [locate1d_scale hc method hm, l1]
      have hr : ∀ px py, peakRow (times c m) (winSize method size) method px py =
          peakRow m (winSize method size) method px py := by
        intro px py
        unfold peakRow times
        dsimp only
        simp only [locate1d_scale hc method hm]
      have hcl : ∀ px py, peakCol (times c m) (winSize method size) method px py =
          peakCol m (winSize method size) method px py := by
        intro px py
        unfold peakCol times
        dsimp only
        simp only [locate1d_scale hc method hm]
      simp only [hi, hr, hcl]
  cases mp with
  | true => exact hmax m
  | false =>
    have hf : ∀ m : Mat ℝ, locatePeak m true method dim size false =
        (flipPeak m false).bind fun m' => locatePeak m' true method dim size true := by
      intro m
      unfold locatePeak
      cases h : flipPeak m false with
      | error e => rfl
      | ok m' => rfl
    rw [hf, hf]
    have : flipPeak (times c m) false = (flipPeak m false).map (times c) := by
      unfold flipPeak
      simp only [bind, Except.bind, argmax2_scale hc, Bool.false_eq_true, if_false]
      cases h : argmax2 m with
      | error e => rfl
      | ok p =>
        show Except.ok _ = Except.ok _
        congr 1
        unfold times
        dsimp only
        congr 1
        funext i j
        ring
    rw [this]
    cases h : flipPeak m false with
    | error e => rfl
    | ok m' => exact hmax m'

/-! ### Terms of scaled stacks -/

/-- A stack with all intensities multiplied by `c`. -/
def scaled (c : ℝ) (a : Arr3 ℝ) : Arr3 ℝ := ⟨a.d, a.h, a.w, fun k i j => c * a.get k i j⟩

theorem correlateSame_smul (h w : ℕ) (x : ℕ → ℕ → ℝ) (s : ℝ) (r : ℕ) (win : ℕ → ℕ → ℝ) (i j : ℕ) :
    correlateSame h w (fun p q => s * x p q) r win i j = s * correlateSame h w x r win i j := by
  unfold correlateSame
  rw [Finset.mul_sum]
  refine Finset.sum_congr rfl fun u _ => ?_
  rw [Finset.mul_sum]
  refine Finset.sum_congr rfl fun v _ => ?_
  unfold readPad
  split
  · ring
  · ring

theorem sum0_sq (c : ℝ) (a : Arr3 ℝ) : sum0 (scaled c a) (· ^ 2) = fun p q => c ^ 2 * sum0 a (· ^ 2) p q := by
  funext p q
  unfold sum0 scaled
  rw [Finset.mul_sum]
  exact Finset.sum_congr rfl fun k _ => by dsimp only; ring

theorem sum0_id (c : ℝ) (a : Arr3 ℝ) : sum0 (scaled c a) id = fun p q => c * sum0 a id p q := by
  funext p q
  unfold sum0 scaled
  rw [Finset.mul_sum]
  exact Finset.sum_congr rfl fun k _ => rfl

theorem imMean_scaled (c : ℝ) (a : Arr3 ℝ) : imMean (scaled c a) = c * imMean a := by
  unfold imMean
  rw [sum0_id]
  simp only [← Finset.mul_sum]
  show (c * _ / _) / _ = _
  have e1 : (scaled c a).h = a.h := rfl
  have e2 : (scaled c a).w = a.w := rfl
  have e3 : (scaled c a).d = a.d := rfl
  rw [e1, e2, e3]
  ring

theorem terms_scaled (s c : ℝ) (ref mat : Arr3 ℝ) (r m : ℕ) (win : ℕ → ℕ → ℝ) (i j a b : ℕ) :
    let t := terms ref mat r m win i j a b
    terms (scaled s ref) (scaled c mat) r m win i j a b =
      ⟨c ^ 2 * t.t1, s ^ 2 * t.t2, s ^ 2 * t.t3, s * c * t.t4, s * c * t.t5, s ^ 2 * t.t6⟩ := by
  dsimp only
  unfold terms
  dsimp only
  rw [imMean_scaled, sum0_sq, sum0_sq, sum0_id, sum0_id]
  simp only [correlateSame_smul]
  have e1 : ∀ (z : ℝ) (x : Arr3 ℝ), (scaled z x).h = x.h := fun _ _ => rfl
  have e2 : ∀ (z : ℝ) (x : Arr3 ℝ), (scaled z x).w = x.w := fun _ _ => rfl
  have e3 : ∀ (z : ℝ) (x : Arr3 ℝ), (scaled z x).d = x.d := fun _ _ => rfl
  simp only [e1, e2, e3, correlateSame_smul]
  congr 1
  · ring
  · ring
  · rw [Finset.mul_sum]
    refine Finset.sum_congr rfl fun k _ => ?_
    unfold correlateValid scaled
    dsimp only
    rw [Finset.mul_sum]
    refine Finset.sum_congr rfl fun u _ => ?_
    rw [Finset.mul_sum]
    refine Finset.sum_congr rfl fun v _ => ?_
    ring
  · ring

theorem fit_scaled (dark : Bool) {s c : ℝ} (hs : s ≠ 0) (t : Terms) :
    let t' : Terms := ⟨c ^ 2 * t.t1, s ^ 2 * t.t2, s ^ 2 * t.t3, s * c * t.t4, s * c * t.t5, s ^ 2 * t.t6⟩
    fitK dark (used dark t') = c / s * fitK dark (used dark t) ∧ fitBeta dark (used dark t') = c / s * fitBeta dark (used dark t) ∧
      cost dark t' = c ^ 2 * cost dark t := by
  dsimp only
  have h4 : s ^ 4 ≠ 0 := pow_ne_zero _ hs
  have hK : fitK dark (used dark ⟨c ^ 2 * t.t1, s ^ 2 * t.t2, s ^ 2 * t.t3, s * c * t.t4, s * c * t.t5, s ^ 2 * t.t6⟩) =
      c / s * fitK dark (used dark t) := by
    cases dark
    · simp only [fitK, used, Bool.false_eq_true, if_false]
      by_cases h3 : t.t3 = 0
      · rw [h3]; simp
      · field_simp
    · simp only [fitK, used, if_true]
      by_cases hd : t.t2 * t.t3 - t.t6 ^ 2 = 0
      · rw [hd, show s ^ 2 * t.t2 * (s ^ 2 * t.t3) - (s ^ 2 * t.t6) ^ 2 = s ^ 4 * (t.t2 * t.t3 - t.t6 ^ 2) by ring, hd]; simp
      · rw [show s ^ 2 * t.t2 * (s ^ 2 * t.t3) - (s ^ 2 * t.t6) ^ 2 = s ^ 4 * (t.t2 * t.t3 - t.t6 ^ 2) by ring,
          show s ^ 2 * t.t2 * (s * c * t.t5) - s * c * t.t4 * (s ^ 2 * t.t6) = s ^ 3 * c * (t.t2 * t.t5 - t.t4 * t.t6) by ring]
        generalize t.t2 * t.t3 - t.t6 ^ 2 = D at hd
        field_simp
  have hB : fitBeta dark (used dark ⟨c ^ 2 * t.t1, s ^ 2 * t.t2, s ^ 2 * t.t3, s * c * t.t4, s * c * t.t5, s ^ 2 * t.t6⟩) =
      c / s * fitBeta dark (used dark t) := by
    cases dark
    · simp [fitBeta, used]
    · simp only [fitBeta, used, if_true]
      by_cases hd : t.t2 * t.t3 - t.t6 ^ 2 = 0
      · rw [hd, show s ^ 2 * t.t2 * (s ^ 2 * t.t3) - (s ^ 2 * t.t6) ^ 2 = s ^ 4 * (t.t2 * t.t3 - t.t6 ^ 2) by ring, hd]; simp
      · rw [show s ^ 2 * t.t2 * (s ^ 2 * t.t3) - (s ^ 2 * t.t6) ^ 2 = s ^ 4 * (t.t2 * t.t3 - t.t6 ^ 2) by ring,
          show s ^ 2 * t.t3 * (s * c * t.t4) - s * c * t.t5 * (s ^ 2 * t.t6) = s ^ 3 * c * (t.t3 * t.t4 - t.t5 * t.t6) by ring]
        generalize t.t2 * t.t3 - t.t6 ^ 2 = D at hd
        field_simp
  refine ⟨hK, hB, ?_⟩
  unfold cost
  dsimp only
  rw [hK, hB]
  generalize fitK dark (used dark t) = k
  generalize fitBeta dark (used dark t) = e
  cases dark <;> simp only [used, Bool.false_eq_true, if_false, if_true] <;> field_simp <;> ring

theorem transDark_scaled {s c : ℝ} (hs : 0 < s) (hc : 0 < c) (t : Terms) :
    transDark ⟨c ^ 2 * t.t1, s ^ 2 * t.t2, s ^ 2 * t.t3, s * c * t.t4, s * c * t.t5, s ^ 2 * t.t6⟩ = (c / s * (transDark t).1, (transDark t).2) := by
  obtain ⟨h1, h2, -⟩ := fit_scaled true (c := c) hs.ne' t
  unfold transDark
  dsimp only
  rw [h1, h2]
  have hp : 0 < c / s := div_pos hc hs
  rw [← mul_add, abs_mul, abs_of_pos hp, mul_div_mul_left _ _ hp.ne']

/-! ### The result -/

/-- Specification: the pixel with the transmission multiplied by `k` when it is computed at all. -/
def Out.rescale (k : ℝ) (dark : Bool) (q : Out) : Out := { q with trans := if dark then k * q.trans else q.trans }

theorem gpuPixel_scaled {s c : ℝ} (hs : 0 < s) (hc : 0 < c) (ref mat : Arr3 ℝ) (r m : ℕ) (win : ℕ → ℕ → ℝ) (dark : Bool) (i j : ℕ) :
    gpuPixel m dark (terms (scaled s ref) (scaled c mat) r m win i j) = (gpuPixel m dark (terms ref mat r m win i j)).rescale (c / s) dark ∧
    ∀ method, Homogeneous method → ∀ size, cpuPixel m dark method size (terms (scaled s ref) (scaled c mat) r m win i j) =
      (cpuPixel m dark method size (terms ref mat r m win i j)).map (Out.rescale (c / s) dark) := by
  have hT : ∀ a b, terms (scaled s ref) (scaled c mat) r m win i j a b = _ := terms_scaled s c ref mat r m win i j
  have hcost : (fun a b => cost dark (terms (scaled s ref) (scaled c mat) r m win i j a b)) =
      fun a b => c ^ 2 * cost dark (terms ref mat r m win i j a b) := by
    funext a b
    rw [hT a b]
    exact (fit_scaled dark hs.ne' _).2.2
  have htd : ∀ a b, transDark (terms (scaled s ref) (scaled c mat) r m win i j a b) =
      (c / s * (transDark (terms ref mat r m win i j a b)).1, (transDark (terms ref mat r m win i j a b)).2) := by
    intro a b
    rw [hT a b]
    exact transDark_scaled hs hc _
  have hc2 : 0 < c ^ 2 := by positivity
  have hcpu : ∀ method, Homogeneous method → ∀ size, cpuPixel m dark method size (terms (scaled s ref) (scaled c mat) r m win i j) =
      (cpuPixel m dark method size (terms ref mat r m win i j)).map (Out.rescale (c / s) dark) := by
    intro method hm size
    have hl := locatePeak_scale hc2 method hm ⟨2 * m + 1, 2 * m + 1, fun a b => cost dark (terms ref mat r m win i j a b)⟩ 2 size false
    unfold times at hl
    dsimp only at hl
    unfold cpuPixel
    rw [hcost, hl]
    cases h : locatePeak ⟨2 * m + 1, 2 * m + 1, fun a b => cost dark (terms ref mat r m win i j a b)⟩ true method 2 size false with
    | error e => rfl
    | ok p =>
      obtain ⟨x, y⟩ := p
      simp only [bind, Except.bind]
      cases dark with
      | false => rfl
      | true =>
        simp only [if_true]
        cases h1 : pyIndex (2 * m + 1) (npRound y) with
        | error e => rfl
        | ok a =>
          simp only
          cases h2 : pyIndex (2 * m + 1) (npRound x) with
          | error e => rfl
          | ok b =>
            simp only [htd a b]
            rfl
  refine ⟨?_, hcpu⟩
  obtain ⟨y, x, hmin⟩ := exists_firstMin m (fun a b => cost dark (terms ref mat r m win i j a b))
  have hmin' : FirstMin m (fun a b => cost dark (terms (scaled s ref) (scaled c mat) r m win i j a b)) y x := by
    rw [hcost]
    exact ⟨hmin.1, hmin.2.1, fun a ha b hb => mul_le_mul_of_nonneg_left (hmin.2.2.1 a ha b hb) hc2.le,
      fun a ha b hb hlt => mul_lt_mul_of_pos_left (hmin.2.2.2 a ha b hb hlt) hc2⟩
  by_cases hin : Inner m y x
  · have h1 := hcpu .diff trivial 3
    rw [gpuPixel_inner dark _ hmin' hin 3, gpuPixel_inner dark _ hmin hin 3] at h1
    exact Except.ok.inj h1
  · rw [gpuPixel_edge dark _ hmin' hin, gpuPixel_edge dark _ hmin hin, htd]
    cases dark <;> rfl

/-- **C139.** `find_local_shifts_umpa` on the GPU, or on the CPU with `method="diff"` or `method="poly_fit"`: multiplying all sample intensities by `c > 0` and all reference
intensities by `s > 0` changes neither the shifts nor the dark signal, and multiplies the transmission by `c / s`. -/
theorem umpa_scaled (o : Opts) (f : Recon.Filter) {ref mat : Arr3 ℝ} {r m : ℕ} {chunkSize : Option ℤ} (dark : Bool) (h : Fits ref mat r m chunkSize)
    (ho : Homogeneous o.method) (hb : 0 < o.block.1 ∧ 0 < o.block.2) {s c : ℝ} (hs : 0 < s) (hc : 0 < c) :
    ∃ xy xy' td td', findUmpa o f ref mat r m chunkSize dark = .ok (xy, td) ∧
      findUmpa o f (scaled s ref) (scaled c mat) r m chunkSize dark = .ok (xy', td') ∧ xy' = xy ∧
      td'.isSome = td.isSome ∧ ∀ g g', td = some g → td' = some g' → ∀ i < ref.h, ∀ j < ref.w,
        ∃ t v : ℝ, g i j = .ok (t, v) ∧ g' i j = .ok (c / s * t, v) := by
  have h' : Fits (scaled s ref) (scaled c mat) r m chunkSize := ⟨h.d, h.h, h.w, h.edge, h.high, h.wide, h.chunks⟩
  obtain ⟨p, p1, p2, p3⟩ := pixels_spec o f dark h (fun _ _ => hb)
  obtain ⟨q, q1, q2, q3⟩ := pixels_spec o f dark h' (fun _ _ => hb)
  obtain ⟨xy, td, e1, e2, e3, e4⟩ := findUmpa_of_pixels h p1
  obtain ⟨xy', td', k1, k2, k3, k4⟩ := findUmpa_of_pixels h' q1
  have hI : ∀ i j, Interior (scaled s ref) r m i j ↔ Interior ref r m i j := fun i j => Iff.rfl
  have hpq : ∀ i j, Interior ref r m i j → ∃ z, p i j = .ok z ∧ q i j = .ok (z.rescale (c / s) dark) := by
    intro i j hij
    obtain ⟨g1, g2⟩ := gpuPixel_scaled hs hc ref mat r m (window f r) dark i j
    rw [p2 i j hij, q2 i j hij]
    by_cases hg : (o.gpu && o.cuda) = true
    · rw [if_pos hg, if_pos hg, g1]
      exact ⟨_, rfl, rfl⟩
    · rw [if_neg hg, if_neg hg, g2 o.method ho]
      obtain ⟨x, y, a, b, -, -, -, -, c5⟩ := cpuPixel_spec ref mat r m (window f r) dark o.method o.size i j
      rw [c5]
      exact ⟨_, rfl, rfl⟩
  refine ⟨xy, xy', td, td', e1, k1, ?_, ?_, ?_⟩
  · funext i j
    rw [k2, e2]
    by_cases hij : Interior ref r m i j
    · obtain ⟨z, z1, z2⟩ := hpq i j hij
      rw [z1, z2]; rfl
    · rw [p3 i j hij, q3 i j hij]
  · cases dark with
    | false => rw [e3 rfl, k3 rfl]
    | true =>
      obtain ⟨g, rfl, -⟩ := e4 rfl
      obtain ⟨g', rfl, -⟩ := k4 rfl
      rfl
  · rintro g g' rfl rfl i hi j hj
    cases dark with
    | false => exact absurd (e3 rfl) (by simp)
    | true =>
      obtain ⟨g0, t0, hg⟩ := e4 rfl
      obtain ⟨g0', t0', hg'⟩ := k4 rfl
      have := Option.some.inj t0
      subst this
      have := Option.some.inj t0'
      subst this
      have hint : Interior ref r m (clampTo (m + r) ref.h i) (clampTo (m + r) ref.w j) := by
        have := h.high; have := h.wide; have := h.edge
        unfold Interior clampTo
        omega
      obtain ⟨z, z1, z2⟩ := hpq _ _ hint
      rw [hg, hg']
      have hh : (scaled s ref).h = ref.h := rfl
      have hw : (scaled s ref).w = ref.w := rfl
      rw [hh, hw, z1, z2]
      exact ⟨z.trans, z.dark, rfl, rfl⟩

/-! ### Non-vacuity -/

theorem window_zero (f : Recon.Filter) : window f 0 0 0 = 1 := by
  have h := (window_good f 0).one
  simpa using h

theorem exUm_fits : Fits exUmRef exUmMat 0 1 none :=
  ⟨rfl, rfl, rfl, by norm_num, by norm_num [exUmRef], by norm_num [exUmRef], by
    rw [numChunk_none (by norm_num [exUmRef])]; norm_num [exUmRef]⟩

theorem exUm_interior : Interior exUmRef 0 1 1 1 := by unfold Interior exUmRef; norm_num

/-- The hypotheses of `umpa_recovers` hold for two 3 x 3 images whose sample is three times the reference displaced by (1, -1). -/
example (f : Recon.Filter) (gpu : Bool) : ∃ xy td x y, findUmpa ⟨gpu, true, (16, 16), .diff, 3⟩ f exUmRef exUmMat 0 1 none false = .ok (xy, td) ∧
    xy 1 1 = .ok (x, y) ∧ |x - ((2 : ℕ) - (1 : ℕ))| < 1 ∧ |y - ((0 : ℕ) - (1 : ℕ))| < 1 := by
  have hn : NonZero exUmRef 0 1 (window f 0) 1 1 0 2 :=
    ⟨0, by norm_num [exUmRef], 0, le_refl _, 0, le_refl _, by rw [window_zero]; exact one_pos, by norm_num [exUmRef]⟩
  obtain ⟨xy, td, x, y, h1, h2, h3, h4, -⟩ := umpa_recovers ⟨gpu, true, (16, 16), .diff, 3⟩ f false exUm_fits rfl (by norm_num) exUm_interior
    (a := 0) (b := 2) (by norm_num) (le_refl _) (beta := 0) (K := 3) (fun _ => rfl) (by simpa using hn)
    (fun k hk u hu v hv => by
      obtain rfl : u = 0 := by omega
      obtain rfl : v = 0 := by omega
      by_cases h0 : k = 0
      · subst h0; norm_num [exUmRef, exUmMat]
      · norm_num [exUmRef, exUmMat, h0])
    (fun a' ha' b' hb' hz => by
      rw [cost_eq_residual (window_good f 0) (exUm_inside a' b' ha' hb')] at hz
      by_contra hne
      generalize fitK false (used false (terms exUmRef exUmMat 0 1 (window f 0) 1 1 a' b')) = K at hz
      have hne' : ¬ (a' = 0 ∧ b' = 2) := hne
      have hb0 : fitBeta false (used false (terms exUmRef exUmMat 0 1 (window f 0) 1 1 a' b')) = 0 := rfl
      rw [hb0] at hz
      unfold Umpa.residual at hz
      have e1 : exUmRef.get 0 a' b' = 1 := by simp [exUmRef, hne']
      have e2 : exUmRef.get 1 a' b' = 1 := by simp [exUmRef]
      have e3 : exUmMat.get 0 1 1 = 9 := by simp [exUmMat]
      have e4 : exUmMat.get 1 1 1 = 3 := by simp [exUmMat]
      have hd : exUmRef.d = 2 := rfl
      simp [hd, Finset.sum_range_succ, window_zero, e1, e2, e3, e4] at hz
      nlinarith [sq_nonneg (9 - K), sq_nonneg (3 - K), sq_nonneg (K - 6)])
  exact ⟨xy, td, x, y, h1, h2, h3, h4⟩

/-- The hypotheses of `umpa_full` and `umpa_scaled` hold for it too. -/
example (f : Recon.Filter) := umpa_scaled ⟨true, true, (16, 16), .diff, 3⟩ f true exUm_fits trivial (by norm_num) (s := 2) (c := 3) (by norm_num) (by norm_num)

/-- Non-vacuity: the least-squares parabola through three values and the least-squares quadratic of a 3 x 3 window, which `np.polyfit` and `np.linalg.lstsq`
return for windows of size 3 (`a0` is left out, `locate_peak` does not use it). -/
noncomputable def exPoly : Method ℝ :=
  .polyFit (fun _ f => ((f 2 + f 0 - 2 * f 1) / 2, f 1 - f 0 - (f 2 + f 0 - 2 * f 1) / 2))
    (fun _ _ g =>
      let a3 := ((g 0 0 - 2 * g 0 1 + g 0 2) + (g 1 0 - 2 * g 1 1 + g 1 2) + (g 2 0 - 2 * g 2 1 + g 2 2)) / 6
      let a5 := ((g 0 0 - 2 * g 1 0 + g 2 0) + (g 0 1 - 2 * g 1 1 + g 2 1) + (g 0 2 - 2 * g 1 2 + g 2 2)) / 6
      let a4 := (g 2 2 + g 0 0 - g 2 0 - g 0 2) / 4
      (0, (g 0 2 - g 0 0 + g 1 2 - g 1 0 + g 2 2 - g 2 0) / 6 - 2 * a3 - a4, (g 2 0 - g 0 0 + g 2 1 - g 0 1 + g 2 2 - g 0 2) / 6 - 2 * a5 - a4, a3, a4, a5))

theorem exPoly_homogeneous : Homogeneous exPoly := by
  refine ⟨fun c n f => ?_, fun c h w g => ?_⟩
  · dsimp only
    refine Prod.ext ?_ ?_ <;> dsimp only <;> ring
  · dsimp only
    refine Prod.ext ?_ (Prod.ext ?_ (Prod.ext ?_ (Prod.ext ?_ (Prod.ext ?_ ?_)))) <;> dsimp only <;> ring

example (f : Recon.Filter) := umpa_scaled ⟨false, false, (16, 16), exPoly, 3⟩ f true exUm_fits exPoly_homogeneous (by norm_num) (s := 2) (c := 3) (by norm_num) (by norm_num)

end Verif.UmpaFull
