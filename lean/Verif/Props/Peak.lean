import Verif.Model.Peak
import Verif.Props.Correlation
import Mathlib.Tactic.IntervalCases
import Mathlib.Tactic.Positivity

/-!
C51: sub-pixel peak location.
-/

set_option linter.unusedSectionVars false
set_option linter.unusedSimpArgs false

namespace Verif.Correlation

/-! ### Specification -/

/-- `p` is the first position of the largest of `f 0, ..., f (n-1)`. -/
def FirstMax {K : Type _} [LinearOrder K] (n : ℕ) (f : ℕ → K) (p : ℕ) : Prop :=
  p < n ∧ (∀ k < n, f k ≤ f p) ∧ ∀ k < p, f k < f p

/-- `(y, x)` is the first position (row by row) of the largest entry. -/
def FirstMax2 {K : Type _} [LinearOrder K] (m : Mat K) (y x : ℕ) : Prop :=
  y < m.h ∧ x < m.w ∧ (∀ i < m.h, ∀ j < m.w, m.get i j ≤ m.get y x) ∧
    ∀ i < m.h, ∀ j < m.w, (i < y ∨ i = y ∧ j < x) → m.get i j < m.get y x

/-- `(a, b, c)` minimises the sum of squared residuals of `a k^2 + b k + c` for the data `f 0, ..., f (n-1)`. -/
def LeastSquares1 {K : Type _} [Field K] [LinearOrder K] (n : ℕ) (f : ℕ → K) (a b c : K) : Prop :=
  ∀ a' b' c' : K, ∑ k ∈ Finset.range n, (a * (k : K) ^ 2 + b * k + c - f k) ^ 2
    ≤ ∑ k ∈ Finset.range n, (a' * (k : K) ^ 2 + b' * k + c' - f k) ^ 2

variable {K : Type _} [Field K] [LinearOrder K] [IsStrictOrderedRing K]

/-! ### argmax -/

theorem argmaxTo_spec (f : ℕ → K) (n : ℕ) :
    argmaxTo f n ≤ n ∧ (∀ k ≤ n, f k ≤ f (argmaxTo f n)) ∧ ∀ k < argmaxTo f n, f k < f (argmaxTo f n) := by
  induction n with
  | zero =>
    refine ⟨le_refl _, fun k hk => ?_, fun k hk => ?_⟩
    · obtain rfl : k = 0 := by omega
      exact le_refl _
    · exact absurd hk (by simp [argmaxTo])
  | succ n ih =>
    obtain ⟨h1, h2, h3⟩ := ih
    unfold argmaxTo
    split_ifs with hc
    · refine ⟨le_refl _, fun k hk => ?_, fun k hk => ?_⟩
      · rcases Nat.lt_or_ge k (n + 1) with h | h
        · exact (h2 k (by omega)).trans hc.le
        · obtain rfl : k = n + 1 := by omega
          exact le_refl _
      · exact lt_of_le_of_lt (h2 k (by omega)) hc
    · refine ⟨by omega, fun k hk => ?_, h3⟩
      rcases Nat.lt_or_ge k (n + 1) with h | h
      · exact h2 k (by omega)
      · obtain rfl : k = n + 1 := by omega
        exact not_lt.1 hc

theorem firstMax_unique {n : ℕ} {f : ℕ → K} {p q : ℕ} (hp : FirstMax n f p) (hq : FirstMax n f q) : p = q := by
  rcases lt_trichotomy p q with h | h | h
  · exact absurd (hp.2.1 q hq.1) (not_le.2 (hq.2.2 p h))
  · exact h
  · exact absurd (hq.2.1 p hp.1) (not_le.2 (hp.2.2 q h))

theorem npArgmax_spec {n : ℕ} (hn : 0 < n) (f : ℕ → K) : ∃ p, npArgmax n f = .ok p ∧ FirstMax n f p := by
  obtain ⟨h1, h2, h3⟩ := argmaxTo_spec f (n - 1)
  refine ⟨argmaxTo f (n - 1), ?_, by omega, fun k hk => h2 k (by omega), h3⟩
  unfold npArgmax; rw [if_neg hn.ne']

theorem npArgmax_eq {n : ℕ} {f : ℕ → K} {p : ℕ} (hp : FirstMax n f p) : npArgmax n f = .ok p := by
  have hn : 0 < n := lt_of_le_of_lt (Nat.zero_le _) hp.1
  obtain ⟨q, hq, hs⟩ := npArgmax_spec hn f
  rw [hq, firstMax_unique hs hp]

theorem firstMax2_unique {m : Mat K} {y x y' x' : ℕ} (h : FirstMax2 m y x) (h' : FirstMax2 m y' x') :
    y = y' ∧ x = x' := by
  obtain ⟨a1, a2, a3, a4⟩ := h
  obtain ⟨b1, b2, b3, b4⟩ := h'
  by_contra hne
  have : (y < y' ∨ y = y' ∧ x < x') ∨ (y' < y ∨ y' = y ∧ x' < x) := by omega
  rcases this with hc | hc
  · exact absurd (a3 y' b1 x' b2) (not_le.2 (b4 y a1 x a2 hc))
  · exact absurd (b3 y a1 x a2) (not_le.2 (a4 y' b1 x' b2 hc))

theorem argmax2_spec {m : Mat K} (hh : 0 < m.h) (hw : 0 < m.w) :
    ∃ y x, argmax2 m = .ok (y, x) ∧ FirstMax2 m y x := by
  set g : ℕ → K := fun k => m.get (k / m.w) (k % m.w) with hg
  obtain ⟨h1, h2, h3⟩ := argmaxTo_spec g (m.h * m.w - 1)
  set p := argmaxTo g (m.h * m.w - 1) with hp
  have hpos : 0 < m.h * m.w := Nat.mul_pos hh hw
  have flat : ∀ i < m.h, ∀ j < m.w, g (i * m.w + j) = m.get i j ∧ i * m.w + j < m.h * m.w := by
    intro i hi j hj
    refine ⟨?_, ?_⟩
    · rw [hg]; dsimp only
      rw [mul_comm, Nat.mul_add_div hw, Nat.div_eq_of_lt hj, Nat.mul_add_mod, Nat.mod_eq_of_lt hj, Nat.add_zero]
    · calc i * m.w + j < i * m.w + m.w := by omega
        _ = (i + 1) * m.w := by ring
        _ ≤ m.h * m.w := Nat.mul_le_mul_right _ hi
  have hpd : p / m.w < m.h := (Nat.div_lt_iff_lt_mul hw).2 (by omega)
  have hpm : p % m.w < m.w := Nat.mod_lt _ hw
  have hpp : p / m.w * m.w + p % m.w = p := Nat.div_add_mod' p m.w
  refine ⟨p / m.w, p % m.w, ?_, hpd, hpm, ?_, ?_⟩
  · unfold argmax2
    rw [if_neg (by omega)]
  · intro i hi j hj
    obtain ⟨e1, e2⟩ := flat i hi j hj
    rw [← e1]
    exact h2 _ (by omega)
  · intro i hi j hj hlt
    obtain ⟨e1, e2⟩ := flat i hi j hj
    rw [← e1]
    apply h3
    rcases hlt with hlt | ⟨rfl, hlt⟩
    · calc i * m.w + j < i * m.w + m.w := by omega
        _ = (i + 1) * m.w := by ring
        _ ≤ p / m.w * m.w := Nat.mul_le_mul_right _ hlt
        _ ≤ p := Nat.div_mul_le_self p m.w
    · omega

theorem argmax2_eq {m : Mat K} {y x : ℕ} (h : FirstMax2 m y x) : argmax2 m = .ok (y, x) := by
  obtain ⟨y', x', he, hs⟩ := argmax2_spec (m := m) (by have := h.1; omega) (by have := h.2.1; omega)
  obtain ⟨rfl, rfl⟩ := firstMax2_unique h hs
  exact he

/-! ### One dimension -/

/-- `-d1/d2` for a maximum: at most half a pixel. -/
theorem offset_half {l c r : K} (hl : l ≤ c) (hr : r ≤ c) (hd : r + l - 2 * c ≠ 0) :
    |-((r - l) / 2) / (r + l - 2 * c)| ≤ 1 / 2 := by
  have hneg : r + l - 2 * c < 0 := lt_of_le_of_ne (by linarith) hd
  rw [abs_le, le_div_iff_of_neg hneg, div_le_iff_of_neg hneg]
  constructor <;> linarith

theorem locate1d_diff_interior {n : ℕ} {f : ℕ → K} {p : ℕ} (hp : FirstMax n f p) (h0 : 0 < p) (h1 : p + 1 < n) :
    ∃ r, locate1d n f .diff = .ok r ∧
      r.val = if f (p + 1) + f (p - 1) - 2 * f p = 0 then (p : K)
        else p + -((f (p + 1) - f (p - 1)) / 2) / (f (p + 1) + f (p - 1) - 2 * f p) := by
  unfold locate1d
  rw [npArgmax_eq hp]
  simp only [bind, Except.bind]
  rw [if_pos ⟨by omega, h0⟩]
  by_cases hd : f (p + 1) + f (p - 1) - 2 * f p = 0
  · rw [if_neg (not_not.2 hd), if_pos hd]; exact ⟨_, rfl, rfl⟩
  · rw [if_pos hd, if_neg hd]; exact ⟨_, rfl, rfl⟩

/-- **C51.** Method "diff" at an interior maximum moves the position by at most half a pixel; it does not move it when
the two neighbours are equal, and it moves towards the larger neighbour. -/
theorem locate1d_diff_half {n : ℕ} {f : ℕ → K} {p : ℕ} (hp : FirstMax n f p) (h0 : 0 < p) (h1 : p + 1 < n) :
    ∃ r, locate1d n f .diff = .ok r ∧ |r.val - p| ≤ 1 / 2 ∧ (f (p - 1) = f (p + 1) → r.val = p) ∧
      (f (p - 1) < f (p + 1) → (p : K) < r.val) ∧ (f (p + 1) < f (p - 1) → r.val < (p : K)) := by
  obtain ⟨r, hr, hv⟩ := locate1d_diff_interior hp h0 h1
  have hl : f (p - 1) ≤ f p := hp.2.1 _ (by omega)
  have hrr : f (p + 1) ≤ f p := hp.2.1 _ (by omega)
  refine ⟨r, hr, ?_, ?_, ?_, ?_⟩
  · rw [hv]
    split_ifs with hd
    · simp
    · rw [add_sub_cancel_left]
      exact offset_half hl hrr hd
  · intro he
    rw [hv, he]; simp
  · intro hlt
    have hneg : f (p + 1) + f (p - 1) - 2 * f p < 0 := by linarith
    rw [hv, if_neg hneg.ne]
    have : 0 < -((f (p + 1) - f (p - 1)) / 2) / (f (p + 1) + f (p - 1) - 2 * f p) :=
      div_pos_of_neg_of_neg (by linarith) hneg
    linarith
  · intro hlt
    have hneg : f (p + 1) + f (p - 1) - 2 * f p < 0 := by linarith
    rw [hv, if_neg hneg.ne]
    have : -((f (p + 1) - f (p - 1)) / 2) / (f (p + 1) + f (p - 1) - 2 * f p) < 0 :=
      div_neg_of_pos_of_neg (by linarith) hneg
    linarith

/-- **C51.** Method "diff" returns the vertex exactly when the data are a downward parabola around the maximum. -/
theorem locate1d_diff_parabola {n : ℕ} {f : ℕ → K} {p : ℕ} {a t c : K} (hp : FirstMax n f p) (h0 : 0 < p)
    (h1 : p + 1 < n) (ha : 0 < a)
    (hf : ∀ k : ℕ, (k = p - 1 ∨ k = p ∨ k = p + 1) → f k = c - a * ((k : K) - t) ^ 2) :
    ∃ r, locate1d n f .diff = .ok r ∧ r.val = t := by
  obtain ⟨r, hr, hv⟩ := locate1d_diff_interior hp h0 h1
  refine ⟨r, hr, ?_⟩
  have e1 := hf (p - 1) (Or.inl rfl)
  have e2 := hf p (Or.inr (Or.inl rfl))
  have e3 := hf (p + 1) (Or.inr (Or.inr rfl))
  push_cast [Nat.cast_sub (show 1 ≤ p by omega)] at e1 e3
  have hd : f (p + 1) + f (p - 1) - 2 * f p = -2 * a := by rw [e1, e2, e3]; ring
  have hn : f (p + 1) - f (p - 1) = -4 * a * ((p : K) - t) := by rw [e1, e3]; ring
  have ha' := ha.ne'
  rw [hv, hd, hn, if_neg (by simpa using ha')]
  field_simp
  ring

/-- A maximum at either end is returned as it is. -/
theorem locate1d_diff_edge {n : ℕ} {f : ℕ → K} {p : ℕ} (hp : FirstMax n f p) (he : p = 0 ∨ p + 1 = n) :
    locate1d n f .diff = .ok (.int p) := by
  unfold locate1d
  rw [npArgmax_eq hp]
  simp only [bind, Except.bind]
  rw [if_neg (by omega)]

/-- A quadratic that vanishes at 0, 1, 2 is zero. -/
theorem quad_zero {a b c : K} (h : ∀ k : ℕ, k < 3 → a * (k : K) ^ 2 + b * k + c = 0) : a = 0 ∧ b = 0 ∧ c = 0 := by
  have e0 := h 0 (by norm_num)
  have e1 := h 1 (by norm_num)
  have e2 := h 2 (by norm_num)
  norm_num at e0 e1 e2
  refine ⟨?_, ?_, ?_⟩ <;> linarith

/-- **C51.** Method "poly_fit" with a least-squares fit returns the vertex of exactly parabolic data of length at least
3 whenever it lies strictly inside the data range. -/
theorem locate1d_poly_parabola {n : ℕ} {f : ℕ → K} {a t c : K}
    (fit1 : ℕ → (ℕ → K) → K × K) (fit2 : ℕ → ℕ → (ℕ → ℕ → K) → K × K × K × K × K × K)
    (hfit : ∃ c0, LeastSquares1 n f (fit1 n f).1 (fit1 n f).2 c0) (hn : 3 ≤ n) (ha : 0 < a)
    (hf : ∀ k < n, f k = c - a * ((k : K) - t) ^ 2) (h0 : 0 < t) (h1 : t < (n : K) - 1) :
    ∃ r, locate1d n f (.polyFit fit1 fit2) = .ok r ∧ r.val = t := by
  obtain ⟨c0, hls⟩ := hfit
  obtain ⟨p, hp, -⟩ := npArgmax_spec (show 0 < n by omega) f
  set A := (fit1 n f).1 with hA
  set B := (fit1 n f).2 with hB
  have hz : ∑ k ∈ Finset.range n, (A * (k : K) ^ 2 + B * k + c0 - f k) ^ 2 = 0 := by
    apply le_antisymm _ (Finset.sum_nonneg fun k _ => sq_nonneg _)
    refine (hls (-a) (2 * a * t) (c - a * t ^ 2)).trans (le_of_eq ?_)
    refine Finset.sum_eq_zero fun k hk => ?_
    rw [hf k (Finset.mem_range.1 hk)]; ring
  have hz' := (Finset.sum_eq_zero_iff_of_nonneg (fun k _ => sq_nonneg _)).1 hz
  have hq := quad_zero (a := A + a) (b := B - 2 * a * t) (c := c0 - (c - a * t ^ 2)) (fun k hk => by
    have := pow_eq_zero_iff (two_ne_zero) |>.1 (hz' k (Finset.mem_range.2 (by omega)))
    rw [hf k (by omega)] at this
    linear_combination this)
  have eA : A = -a := by linarith [hq.1]
  have eB : B = 2 * a * t := by linarith [hq.2.1]
  have ha' := ha.ne'
  have hs : -B / (2 * A) = t := by
    rw [eA, eB]; field_simp
  unfold locate1d
  rw [hp]
  simp only [bind, Except.bind, ← hA, ← hB]
  rw [if_pos (by rw [eA]; simpa using ha'), hs, if_pos ⟨h1, h0⟩]
  exact ⟨_, rfl, rfl⟩

/-! ### Two dimensions -/

/-- The six-parameter quadratic form around `(t, s)`. -/
def quadForm (c a b e t s : K) (y x : ℕ) : K :=
  c - a * ((x : K) - t) ^ 2 - b * ((y : K) - s) ^ 2 - e * ((x : K) - t) * ((y : K) - s)

/-- **C51.** In two dimensions method "diff" is exact for a quadratic form with a unique maximum (`e^2 < 4ab`) whose
vertex is less than one pixel from the largest sample. -/
theorem locate2d_diff_quadratic {m : Mat K} {y0 x0 : ℕ} {c a b e t s : K} (hp : FirstMax2 m y0 x0)
    (hy0 : 0 < y0) (hy1 : y0 + 1 < m.h) (hx0 : 0 < x0) (hx1 : x0 + 1 < m.w)
    (hdef : e ^ 2 < 4 * a * b)
    (hq : ∀ i < m.h, ∀ j < m.w, m.get i j = quadForm c a b e t s i j)
    (ht : |t - x0| < 1) (hs : |s - y0| < 1) :
    locate2d m .diff = .ok (t, s) := by
  unfold locate2d
  rw [argmax2_eq hp]
  simp only [bind, Except.bind]
  have hyc : ¬ (y0 = 0 ∨ y0 = m.h - 1) := by omega
  have hxc : ¬ (x0 = 0 ∨ x0 = m.w - 1) := by omega
  have hy : y0 < m.h := by omega
  have hx : x0 < m.w := by omega
  simp only [if_pos hyc, if_pos hxc, if_pos (And.intro hyc hxc), hyc, hxc, not_false_eq_true, and_self, if_true,
    ite_true]
  simp only [hq (y0 + 1) hy1 _ hx, hq (y0 - 1) (by omega) _ hx, hq y0 hy _ hx, hq y0 hy (x0 + 1) hx1,
    hq y0 hy (x0 - 1) (by omega), hq (y0 + 1) hy1 (x0 + 1) hx1, hq (y0 + 1) hy1 (x0 - 1) (by omega),
    hq (y0 - 1) (by omega) (x0 + 1) hx1, hq (y0 - 1) (by omega) (x0 - 1) (by omega), quadForm]
  push_cast [Nat.cast_sub (show 1 ≤ y0 by omega), Nat.cast_sub (show 1 ≤ x0 by omega)]
  set X : K := (x0 : K) with hX
  set Y : K := (y0 : K) with hY
  set D2x := c - a * (X + 1 - t) ^ 2 - b * (Y - s) ^ 2 - e * (X + 1 - t) * (Y - s) +
      (c - a * (X - 1 - t) ^ 2 - b * (Y - s) ^ 2 - e * (X - 1 - t) * (Y - s)) -
      2 * (c - a * (X - t) ^ 2 - b * (Y - s) ^ 2 - e * (X - t) * (Y - s)) with h2x
  set D2y := c - a * (X - t) ^ 2 - b * (Y + 1 - s) ^ 2 - e * (X - t) * (Y + 1 - s) +
      (c - a * (X - t) ^ 2 - b * (Y - 1 - s) ^ 2 - e * (X - t) * (Y - 1 - s)) -
      2 * (c - a * (X - t) ^ 2 - b * (Y - s) ^ 2 - e * (X - t) * (Y - s)) with h2y
  have e2x : D2x = -2 * a := by rw [h2x]; ring
  have e2y : D2y = -2 * b := by rw [h2y]; ring
  set D1x := (c - a * (X + 1 - t) ^ 2 - b * (Y - s) ^ 2 - e * (X + 1 - t) * (Y - s) -
      (c - a * (X - 1 - t) ^ 2 - b * (Y - s) ^ 2 - e * (X - 1 - t) * (Y - s))) / 2 with h1x
  set D1y := (c - a * (X - t) ^ 2 - b * (Y + 1 - s) ^ 2 - e * (X - t) * (Y + 1 - s) -
      (c - a * (X - t) ^ 2 - b * (Y - 1 - s) ^ 2 - e * (X - t) * (Y - 1 - s))) / 2 with h1y
  have e1x : D1x = -2 * a * (X - t) - e * (Y - s) := by rw [h1x]; ring
  have e1y : D1y = -2 * b * (Y - s) - e * (X - t) := by rw [h1y]; ring
  set D := (c - a * (X + 1 - t) ^ 2 - b * (Y + 1 - s) ^ 2 - e * (X + 1 - t) * (Y + 1 - s) +
      (c - a * (X - 1 - t) ^ 2 - b * (Y - 1 - s) ^ 2 - e * (X - 1 - t) * (Y - 1 - s)) -
      (c - a * (X - 1 - t) ^ 2 - b * (Y + 1 - s) ^ 2 - e * (X - 1 - t) * (Y + 1 - s)) -
      (c - a * (X + 1 - t) ^ 2 - b * (Y - 1 - s) ^ 2 - e * (X + 1 - t) * (Y - 1 - s))) / 4 with hD
  have eD : D = -e := by rw [hD]; ring
  have hnum : D ^ 2 - D2x * D2y = e ^ 2 - 4 * a * b := by rw [eD, e2x, e2y]; ring
  have hne : e ^ 2 - 4 * a * b ≠ 0 := by linarith
  have ox : (D2y * D1x - D * D1y) / (D ^ 2 - D2x * D2y) = t - X := by
    rw [hnum, div_eq_iff hne, eD, e1x, e1y, e2y]; ring
  have oy : (D2x * D1y - D * D1x) / (D ^ 2 - D2x * D2y) = s - Y := by
    rw [hnum, div_eq_iff hne, eD, e1x, e1y, e2x]; ring
  rw [ox, oy, if_pos (by rw [hnum]; exact hne)]
  have fin : ∀ u v : K, |u - v| < 1 → (if |u - v| < 1 ∧ 0 < |u - v| then v + (u - v) else v) = u := by
    intro u v h
    by_cases hz : u = v
    · subst hz; simp
    · rw [if_pos ⟨h, abs_pos.2 (sub_ne_zero.2 hz)⟩]; ring
  rw [fin t X ht, fin s Y hs]

/-! ### Non-vacuity: samples 0, 3, 4, 1 and the parabola with vertex 7/5 -/

def exPeak (k : ℕ) : ℚ := if k = 1 then 3 else if k = 2 then 4 else if k = 3 then 1 else 0

theorem exPeak_max : FirstMax 4 exPeak 2 := by
  refine ⟨by norm_num, fun k hk => ?_, fun k hk => ?_⟩ <;> interval_cases k <;> norm_num [exPeak]

example : ∃ r, locate1d 4 exPeak .diff = .ok r ∧ r.val = 7 / 4 := by
  obtain ⟨r, hr, hv⟩ := locate1d_diff_interior exPeak_max (by norm_num) (by norm_num)
  exact ⟨r, hr, by rw [hv]; norm_num [exPeak]⟩

def exPar (k : ℕ) : ℚ := 10 - 2 * ((k : ℚ) - 7 / 5) ^ 2

example : ∃ r, locate1d 3 exPar .diff = .ok r ∧ r.val = 7 / 5 := by
  refine locate1d_diff_parabola (p := 1) (a := 2) (t := 7 / 5) (c := 10) ⟨by norm_num, fun k hk => ?_, fun k hk => ?_⟩ (by norm_num)
    (by norm_num) (by norm_num) (fun k _ => rfl) <;> interval_cases k <;> norm_num [exPar]

def exQuad : Mat ℚ := ⟨3, 3, quadForm 5 1 2 1 (5 / 4) (9 / 10)⟩

example : locate2d exQuad .diff = .ok (5 / 4, 9 / 10) := by
  refine locate2d_diff_quadratic (y0 := 1) (x0 := 1) (c := 5) (a := 1) (b := 2) (e := 1)
    ⟨by norm_num [exQuad], by norm_num [exQuad], ?_, ?_⟩ (by norm_num) (by norm_num [exQuad]) (by norm_num)
    (by norm_num [exQuad]) (by norm_num) (fun i _ j _ => rfl) (by norm_num [abs_lt]) (by norm_num [abs_lt])
  · intro i hi j hj
    have hi : i < 3 := hi
    have hj : j < 3 := hj
    interval_cases i <;> interval_cases j <;> norm_num [exQuad, quadForm]
  · intro i hi j hj hlt
    have hi : i < 3 := hi
    have hj : j < 3 := hj
    interval_cases i <;> interval_cases j <;> first | omega | norm_num [exQuad, quadForm]

end Verif.Correlation
