import Verif.Props.Peak
import Mathlib.Tactic.Push

/-!
C51 (locate_peak as a whole) and C71 (find_shift_based_correlation_map).
-/

set_option linter.unusedSectionVars false
set_option linter.unusedSimpArgs false

namespace Verif.Correlation

variable {K : Type _} [Field K] [LinearOrder K] [IsStrictOrderedRing K]

/-! ### locate_peak -/

theorem locate1d_range (n : ℕ) (f : ℕ → K) (method : Method K) {p : ℕ} (hp : FirstMax n f p) :
    ∃ r, locate1d n f method = .ok r ∧
      (r = .int p ∨ ∃ v, r = .flt v ∧ 0 < v ∧ v < (n : K) - 1) ∧ (method = .diff → |r.val - p| ≤ 1 / 2) := by
  cases method with
  | diff =>
    by_cases hint : 0 < p ∧ p + 1 < n
    · unfold locate1d
      rw [npArgmax_eq hp]
      simp only [bind, Except.bind]
      rw [if_pos ⟨by omega, hint.1⟩]
      have hl : f (p - 1) ≤ f p := hp.2.1 _ (by omega)
      have hrr : f (p + 1) ≤ f p := hp.2.1 _ (by omega)
      by_cases hd : f (p + 1) + f (p - 1) - 2 * f p = 0
      · rw [if_neg (not_not.2 hd)]
        exact ⟨_, rfl, Or.inl rfl, fun _ => by simp [Pos.val]⟩
      · rw [if_pos hd]
        have ho := offset_half hl hrr hd
        have hb := abs_le.1 ho
        have h1 : (1 : K) ≤ p := by exact_mod_cast hint.1
        have h2 : (p : K) + 2 ≤ n := by exact_mod_cast hint.2
        refine ⟨_, rfl, Or.inr ⟨_, rfl, ?_, ?_⟩, fun _ => ?_⟩
        · linarith [hb.1]
        · linarith [hb.2]
        · show |(p : K) + _ - p| ≤ _
          rw [add_sub_cancel_left]; exact ho
    · have hpn := hp.1
      refine ⟨_, locate1d_diff_edge hp (by omega), Or.inl rfl, fun _ => by simp [Pos.val]⟩
  | polyFit fit1 fit2 =>
    unfold locate1d
    rw [npArgmax_eq hp]
    simp only [bind, Except.bind]
    split_ifs with h1 h2
    · exact ⟨_, rfl, Or.inr ⟨_, rfl, h2.2, h2.1⟩, fun h => by cases h⟩
    · exact ⟨_, rfl, Or.inl rfl, fun h => by cases h⟩
    · exact ⟨_, rfl, Or.inl rfl, fun h => by cases h⟩

theorem locate2d_range (m : Mat K) (method : Method K) {y0 x0 : ℕ} (hp : FirstMax2 m y0 x0) :
    ∃ r : K × K, locate2d m method = .ok r ∧
      (r.1 = x0 ∨ 0 < r.1 ∧ r.1 < (m.w : K) - 1) ∧ (r.2 = y0 ∨ 0 < r.2 ∧ r.2 < (m.h : K) - 1) ∧
      (method = .diff → |r.1 - x0| < 1 ∧ |r.2 - y0| < 1) := by
  have hx0w := hp.2.1
  have hy0h := hp.1
  set yc := ¬ (y0 = 0 ∨ y0 = m.h - 1) with hyc
  set xc := ¬ (x0 = 0 ∨ x0 = m.w - 1) with hxc
  -- the "diff" branch
  have key : ∀ (d1x d2x d1y d2y dxy : K), (¬ (yc ∧ xc) → dxy = 0) → (¬ yc → d2y = 0) → (¬ xc → d2x = 0) →
      ∃ r : K × K, (if dxy ^ 2 - d2x * d2y ≠ 0 then
        (if |(d2y * d1x - dxy * d1y) / (dxy ^ 2 - d2x * d2y)| < 1 ∧ 0 < |(d2y * d1x - dxy * d1y) / (dxy ^ 2 - d2x * d2y)|
          then (x0 : K) + (d2y * d1x - dxy * d1y) / (dxy ^ 2 - d2x * d2y) else x0,
         if |(d2x * d1y - dxy * d1x) / (dxy ^ 2 - d2x * d2y)| < 1 ∧ 0 < |(d2x * d1y - dxy * d1x) / (dxy ^ 2 - d2x * d2y)|
          then (y0 : K) + (d2x * d1y - dxy * d1x) / (dxy ^ 2 - d2x * d2y) else y0) else ((x0 : K), (y0 : K))) = r ∧
      (r.1 = x0 ∨ 0 < r.1 ∧ r.1 < (m.w : K) - 1) ∧ (r.2 = y0 ∨ 0 < r.2 ∧ r.2 < (m.h : K) - 1) ∧
      (|r.1 - x0| < 1 ∧ |r.2 - y0| < 1) := by
    intro d1x d2x d1y d2y dxy hxy hy hx
    by_cases hn : dxy ^ 2 - d2x * d2y = 0
    · rw [if_neg (not_not.2 hn)]
      exact ⟨_, rfl, Or.inl rfl, Or.inl rfl, by simp, by simp⟩
    · rw [if_pos hn]
      have hboth : yc ∧ xc := by
        by_contra hc
        apply hn
        rw [hxy hc]
        rcases not_and_or.1 hc with h | h
        · rw [hy h]; ring
        · rw [hx h]; ring
      rw [hyc, hxc] at hboth
      have b1 : (1 : K) ≤ x0 := by exact_mod_cast (show 1 ≤ x0 by omega)
      have b2 : (x0 : K) + 2 ≤ m.w := by exact_mod_cast (show x0 + 2 ≤ m.w by omega)
      have b3 : (1 : K) ≤ y0 := by exact_mod_cast (show 1 ≤ y0 by omega)
      have b4 : (y0 : K) + 2 ≤ m.h := by exact_mod_cast (show y0 + 2 ≤ m.h by omega)
      have one : ∀ (u o W : K), 1 ≤ u → u + 2 ≤ W →
          ((if |o| < 1 ∧ 0 < |o| then u + o else u) = u ∨
            0 < (if |o| < 1 ∧ 0 < |o| then u + o else u) ∧ (if |o| < 1 ∧ 0 < |o| then u + o else u) < W - 1) ∧
          |(if |o| < 1 ∧ 0 < |o| then u + o else u) - u| < 1 := by
        intro u o W h1 h2
        split_ifs with hc
        · have := abs_lt.1 hc.1
          exact ⟨Or.inr ⟨by linarith [this.1], by linarith [this.2]⟩, by rw [add_sub_cancel_left]; exact hc.1⟩
        · exact ⟨Or.inl rfl, by simp⟩
      exact ⟨_, rfl, (one _ _ _ b1 b2).1, (one _ _ _ b3 b4).1, (one _ _ _ b1 b2).2, (one _ _ _ b3 b4).2⟩
  unfold locate2d
  rw [argmax2_eq hp]
  simp only [bind, Except.bind]
  cases method with
  | diff =>
    dsimp only
    obtain ⟨r, hr, h1, h2, h3⟩ := key (if xc then (m.get y0 (x0 + 1) - m.get y0 (x0 - 1)) / 2 else 0)
      (if xc then m.get y0 (x0 + 1) + m.get y0 (x0 - 1) - 2 * m.get y0 x0 else 0)
      (if yc then (m.get (y0 + 1) x0 - m.get (y0 - 1) x0) / 2 else 0)
      (if yc then m.get (y0 + 1) x0 + m.get (y0 - 1) x0 - 2 * m.get y0 x0 else 0)
      (if yc ∧ xc then (m.get (y0 + 1) (x0 + 1) + m.get (y0 - 1) (x0 - 1) - m.get (y0 + 1) (x0 - 1)
        - m.get (y0 - 1) (x0 + 1)) / 4 else 0) (fun h => if_neg h) (fun h => if_neg h) (fun h => if_neg h)
    exact ⟨r, by rw [← hr], h1, h2, fun _ => h3⟩
  | polyFit fit1 fit2 =>
    dsimp only
    by_cases hc : yc ∨ xc
    · rw [if_pos hc]
      have one : ∀ u v W : K, (if u < W ∧ 0 < u then u else v) = v ∨
          0 < (if u < W ∧ 0 < u then u else v) ∧ (if u < W ∧ 0 < u then u else v) < W := by
        intro u v W
        split_ifs with h
        · exact Or.inr ⟨h.2, h.1⟩
        · exact Or.inl rfl
      generalize fit2 m.h m.w m.get = t
      obtain ⟨t0, t1, t2, t3, t4, t5⟩ := t
      dsimp only
      by_cases hn : t4 * t4 - 4 * t3 * t5 = 0
      · rw [if_neg (not_not.2 hn)]
        exact ⟨_, rfl, Or.inl rfl, Or.inl rfl, fun h => by cases h⟩
      · rw [if_pos hn]
        exact ⟨_, rfl, one _ _ _, one _ _ _, fun h => by cases h⟩
    · rw [if_neg hc]
      obtain ⟨r, hr, h1, h2, h3⟩ := key (if xc then (m.get y0 (x0 + 1) - m.get y0 (x0 - 1)) / 2 else 0)
        (if xc then m.get y0 (x0 + 1) + m.get y0 (x0 - 1) - 2 * m.get y0 x0 else 0)
        (if yc then (m.get (y0 + 1) x0 - m.get (y0 - 1) x0) / 2 else 0)
        (if yc then m.get (y0 + 1) x0 + m.get (y0 - 1) x0 - 2 * m.get y0 x0 else 0)
        (if yc ∧ xc then (m.get (y0 + 1) (x0 + 1) + m.get (y0 - 1) (x0 - 1) - m.get (y0 + 1) (x0 - 1)
          - m.get (y0 - 1) (x0 + 1)) / 4 else 0) (fun h => if_neg h) (fun h => if_neg h) (fun h => if_neg h)
      exact ⟨r, by rw [← hr], h1, h2, fun h => by cases h⟩

theorem winSize_bounds (method : Method K) (size : Int) : 3 ≤ winSize method size ∧ winSize method size ≤ 9 := by
  unfold winSize
  cases method with
  | diff => exact ⟨le_refl _, by norm_num⟩
  | polyFit _ _ => simp only [npClip]; omega

theorem winStart_spec {pos n size : ℕ} (hp : pos < n) (hs : size ≤ n) (h3 : 3 ≤ size) :
    winStart pos (size / 2) n size ≤ pos ∧ pos < winStart pos (size / 2) n size + size ∧
      winStart pos (size / 2) n size + size ≤ n := by
  unfold winStart npClip; omega

/-- The window of a row through the first maximum has its first maximum there. -/
theorem firstMax_row {m : Mat K} {y x : ℕ} (h : FirstMax2 m y x) {col n : ℕ} (h1 : col ≤ x) (h2 : x < col + n)
    (h3 : col + n ≤ m.w) : FirstMax n (fun k => m.get y (col + k)) (x - col) := by
  obtain ⟨a1, a2, a3, a4⟩ := h
  refine ⟨by omega, fun k hk => ?_, fun k hk => ?_⟩
  · show m.get y (col + k) ≤ m.get y (col + (x - col))
    rw [show col + (x - col) = x by omega]
    exact a3 y a1 _ (by omega)
  · show m.get y (col + k) < m.get y (col + (x - col))
    rw [show col + (x - col) = x by omega]
    exact a4 y a1 _ (by omega) (Or.inr ⟨rfl, by omega⟩)

theorem firstMax_col {m : Mat K} {y x : ℕ} (h : FirstMax2 m y x) {row n : ℕ} (h1 : row ≤ y) (h2 : y < row + n)
    (h3 : row + n ≤ m.h) : FirstMax n (fun k => m.get (row + k) x) (y - row) := by
  obtain ⟨a1, a2, a3, a4⟩ := h
  refine ⟨by omega, fun k hk => ?_, fun k hk => ?_⟩
  · show m.get (row + k) x ≤ m.get (row + (y - row)) x
    rw [show row + (y - row) = y by omega]
    exact a3 _ (by omega) x a2
  · show m.get (row + k) x < m.get (row + (y - row)) x
    rw [show row + (y - row) = y by omega]
    exact a4 _ (by omega) x a2 (Or.inl (by omega))

theorem firstMax_block {m : Mat K} {y x : ℕ} (h : FirstMax2 m y x) {row col n : ℕ} (h1 : row ≤ y) (h2 : y < row + n)
    (h3 : row + n ≤ m.h) (h4 : col ≤ x) (h5 : x < col + n) (h6 : col + n ≤ m.w) :
    FirstMax2 (⟨n, n, fun i j => m.get (row + i) (col + j)⟩ : Mat K) (y - row) (x - col) := by
  obtain ⟨a1, a2, a3, a4⟩ := h
  refine ⟨?_, ?_, ?_, ?_⟩
  · show y - row < n; omega
  · show x - col < n; omega
  · intro i hi j hj
    have hi : i < n := hi
    have hj : j < n := hj
    show m.get (row + i) (col + j) ≤ m.get (row + (y - row)) (col + (x - col))
    rw [show row + (y - row) = y by omega, show col + (x - col) = x by omega]
    exact a3 _ (by omega) _ (by omega)
  · intro i hi j hj hlt
    have hi : i < n := hi
    have hj : j < n := hj
    show m.get (row + i) (col + j) < m.get (row + (y - row)) (col + (x - col))
    rw [show row + (y - row) = y by omega, show col + (x - col) = x by omega]
    exact a4 _ (by omega) _ (by omega) (by omega)

theorem add_range {c n L x : ℕ} {v : K} (hx : 0 < x) (hx1 : x + 1 < L) (h1 : c ≤ x) (h3 : c + n ≤ L)
    (hr : v = ((x - c : ℕ) : K) ∨ 0 < v ∧ v < (n : K) - 1) : 0 < (c : K) + v ∧ (c : K) + v < (L : K) - 1 := by
  have hL : (c : K) + n ≤ L := by exact_mod_cast h3
  have hx2 : (x : K) + 2 ≤ L := by exact_mod_cast hx1
  have hx0 : (1 : K) ≤ x := by exact_mod_cast hx
  have hc : (0 : K) ≤ c := Nat.cast_nonneg c
  rcases hr with rfl | ⟨hv0, hv1⟩
  · rw [Nat.cast_sub h1]
    constructor <;> linarith
  · constructor <;> linarith

/-- The position found for one axis: `c + r` with `r` from `locate1d` on a window `[c, c+n)` of an axis of length `L`
whose first maximum is at `x`. -/
theorem pos_add_range {c n L x : ℕ} {r : Pos K} (hx : 0 < x) (hx1 : x + 1 < L) (h1 : c ≤ x) (h3 : c + n ≤ L)
    (hr : r = .int (x - c) ∨ ∃ v, r = .flt v ∧ 0 < v ∧ v < (n : K) - 1) :
    0 < (r.add c).val ∧ (r.add c).val < (L : K) - 1 := by
  have hL : (c : K) + n ≤ L := by exact_mod_cast h3
  have hx2 : (x : K) + 2 ≤ L := by exact_mod_cast hx1
  have hx0 : (1 : K) ≤ x := by exact_mod_cast hx
  have hc : (0 : K) ≤ c := Nat.cast_nonneg c
  rcases hr with rfl | ⟨v, rfl, hv0, hv1⟩
  · show 0 < ((c + (x - c) : ℕ) : K) ∧ ((c + (x - c) : ℕ) : K) < _
    rw [show c + (x - c) = x by omega]
    constructor <;> linarith
  · show 0 < (c : K) + v ∧ (c : K) + v < _
    constructor <;> linarith

theorem pos_add_diff {c x : ℕ} {r : Pos K} (h1 : c ≤ x) (h : |r.val - ((x - c : ℕ) : K)| ≤ 1 / 2) :
    |(r.add c).val - x| ≤ 1 / 2 := by
  have e : (r.add c).val = c + r.val := by
    cases r with
    | int n => show ((c + n : ℕ) : K) = c + n; push_cast; rfl
    | flt v => rfl
  rw [e]
  rw [Nat.cast_sub h1] at h
  rwa [show (c : K) + r.val - x = r.val - ((x : K) - c) by ring]

/-- What `locate_peak` guarantees for the first extremal entry `(y, x)`. -/
def PeakOk (m : Mat K) (y x : ℕ) (subPixel : Bool) (method : Method K) (dim : Int) (r : K × K) : Prop :=
  0 ≤ r.1 ∧ r.1 ≤ (m.w : K) - 1 ∧ 0 ≤ r.2 ∧ r.2 ≤ (m.h : K) - 1 ∧
  (subPixel = false → r = ((x : K), (y : K))) ∧
  (method = .diff → |r.1 - x| < 1 ∧ |r.2 - y| < 1) ∧
  (method = .diff → dim = 1 → |r.1 - x| ≤ 1 / 2 ∧ |r.2 - y| ≤ 1 / 2)

theorem inside_iff {x L : ℕ} : ((x : K) < (L : K) - 1 ∧ 0 < (x : K)) ↔ (0 < x ∧ x + 1 < L) := by
  rw [lt_sub_iff_add_lt]
  constructor
  · rintro ⟨h1, h2⟩; exact ⟨by exact_mod_cast h2, by exact_mod_cast h1⟩
  · rintro ⟨h1, h2⟩; exact ⟨by exact_mod_cast h2, by exact_mod_cast h1⟩

/-- The three stages keep the position inside the image. -/
theorem peakRow_inside {m : Mat K} (n : ℕ) (method : Method K) {px py : Pos K}
    (hy : 0 < py.val ∧ py.val < (m.h : K) - 1) : peakRow m n method px py = .ok px := by
  unfold peakRow
  rw [if_neg (by rintro ⟨h | h, -⟩ <;> linarith [hy.1, hy.2])]

theorem peakCol_inside {m : Mat K} (n : ℕ) (method : Method K) {px py : Pos K}
    (hx : 0 < px.val ∧ px.val < (m.w : K) - 1) : peakCol m n method px py = .ok py := by
  unfold peakCol
  rw [if_neg (by rintro ⟨h | h, -⟩ <;> linarith [hx.1, hx.2])]

theorem peakRow_int {m : Mat K} {y x : ℕ} (hp : FirstMax2 m y x) {n : ℕ} (hn3 : 3 ≤ n) (method : Method K) :
    peakRow m n method (.int x) (.int y) = .ok (.int x) ∨
    ∃ r : Pos K, peakRow m n method (.int x) (.int y) = .ok r ∧ (0 < r.val ∧ r.val < (m.w : K) - 1) ∧
      (method = .diff → |r.val - x| ≤ 1 / 2) := by
  unfold peakRow
  split_ifs with hc
  · right
    obtain ⟨hye, hx1, hx2, hnw⟩ := hc
    obtain ⟨k1, k2⟩ := inside_iff.1 ⟨hx1, hx2⟩
    obtain ⟨c1, c2, c3⟩ := winStart_spec hp.2.1 hnw hn3
    obtain ⟨px, ex, rx, dx⟩ := locate1d_range n _ method (firstMax_row hp c1 c2 c3)
    simp only [Pos.index, bind, Except.bind, ex]
    exact ⟨_, rfl, pos_add_range (L := m.w) k1 k2 c1 c3 rx, fun h => pos_add_diff c1 (dx h)⟩
  · exact Or.inl rfl

theorem peakCol_int {m : Mat K} {y x : ℕ} (hp : FirstMax2 m y x) {n : ℕ} (hn3 : 3 ≤ n) (method : Method K) :
    ∃ r : Pos K, peakCol m n method (.int x) (.int y) = .ok r ∧ (0 ≤ r.val ∧ r.val ≤ (m.h : K) - 1) ∧
      (method = .diff → |r.val - y| ≤ 1 / 2) := by
  unfold peakCol
  split_ifs with hc
  · obtain ⟨hye, hx1, hx2, hnw⟩ := hc
    obtain ⟨k1, k2⟩ := inside_iff.1 ⟨hx1, hx2⟩
    obtain ⟨c1, c2, c3⟩ := winStart_spec hp.1 hnw hn3
    obtain ⟨px, ex, rx, dx⟩ := locate1d_range n _ method (firstMax_col hp c1 c2 c3)
    simp only [Pos.index, bind, Except.bind, ex]
    have := pos_add_range (L := m.h) k1 k2 c1 c3 rx
    exact ⟨_, rfl, ⟨this.1.le, this.2.le⟩, fun h => pos_add_diff c1 (dx h)⟩
  · have cy : (y : K) + 1 ≤ m.h := by exact_mod_cast hp.1
    exact ⟨_, rfl, ⟨Nat.cast_nonneg y, by show (y : K) ≤ _; linarith⟩, fun _ => by simp [Pos.val]⟩

theorem peakInterior_spec {m : Mat K} {y x : ℕ} (hp : FirstMax2 m y x) {n : ℕ} (hn3 : 3 ≤ n) (method : Method K)
    (dim : Int) :
    peakInterior m n method dim y x = .ok (.int x, .int y) ∨
    ∃ px py : Pos K, peakInterior m n method dim y x = .ok (px, py) ∧ (0 < px.val ∧ px.val < (m.w : K) - 1) ∧
      (0 < py.val ∧ py.val < (m.h : K) - 1) ∧ (method = .diff → |px.val - x| < 1 ∧ |py.val - y| < 1) ∧
      (method = .diff → dim = 1 → |px.val - x| ≤ 1 / 2 ∧ |py.val - y| ≤ 1 / 2) := by
  unfold peakInterior
  by_cases hint : y < m.h - 1 ∧ 0 < y ∧ x < m.w - 1 ∧ 0 < x ∧ n ≤ m.w ∧ n ≤ m.h
  · right
    rw [if_pos hint]
    obtain ⟨i1, i2, i3, i4, i5, i6⟩ := hint
    obtain ⟨c1, c2, c3⟩ := winStart_spec hp.2.1 i5 hn3
    obtain ⟨r1, r2, r3⟩ := winStart_spec hp.1 i6 hn3
    set col := winStart x (n / 2) m.w n
    set row := winStart y (n / 2) m.h n
    dsimp only
    by_cases hd : dim = 1
    · rw [if_pos hd]
      obtain ⟨px, ex, rx, dx⟩ := locate1d_range n _ method (firstMax_row hp c1 c2 c3)
      obtain ⟨py, ey, ry, dy⟩ := locate1d_range n _ method (firstMax_col hp r1 r2 r3)
      simp only [bind, Except.bind, ex, ey]
      have hdx := fun h => pos_add_diff c1 (dx h)
      have hdy := fun h => pos_add_diff r1 (dy h)
      exact ⟨_, _, rfl, pos_add_range (L := m.w) i4 (by omega) c1 c3 rx,
        pos_add_range (L := m.h) i2 (by omega) r1 r3 ry,
        (fun h => ⟨lt_of_le_of_lt (hdx h) (by norm_num), lt_of_le_of_lt (hdy h) (by norm_num)⟩),
        fun h _ => ⟨hdx h, hdy h⟩⟩
    · rw [if_neg hd]
      obtain ⟨r, er, rx, ry, dd⟩ := locate2d_range _ method (firstMax_block hp r1 r2 r3 c1 c2 c3)
      simp only [bind, Except.bind, er]
      refine ⟨_, _, rfl, add_range (L := m.w) i4 (by omega) c1 c3 rx,
        add_range (L := m.h) i2 (by omega) r1 r3 ry, (fun h => ?_), fun _ h => absurd h hd⟩
      have := dd h
      rw [Nat.cast_sub c1, Nat.cast_sub r1] at this
      refine ⟨?_, ?_⟩
      · show |(col : K) + r.1 - x| < 1
        rw [show (col : K) + r.1 - x = r.1 - (x - col) by ring]; exact this.1
      · show |(row : K) + r.2 - y| < 1
        rw [show (row : K) + r.2 - y = r.2 - (y - row) by ring]; exact this.2
  · rw [if_neg hint]; exact Or.inl rfl

theorem locatePeak_of_argmax {mat m : Mat K} {maxPeak : Bool} {y x : ℕ} (hm : flipPeak mat maxPeak = .ok m)
    (hp : FirstMax2 m y x) (subPixel : Bool) (method : Method K) (dim size : Int) :
    ∃ r, locatePeak mat subPixel method dim size maxPeak = .ok r ∧ PeakOk m y x subPixel method dim r := by
  have cx : (x : K) + 1 ≤ m.w := by exact_mod_cast hp.2.1
  have cy : (y : K) + 1 ≤ m.h := by exact_mod_cast hp.1
  have nx : (0 : K) ≤ x := Nat.cast_nonneg x
  have ny : (0 : K) ≤ y := Nat.cast_nonneg y
  obtain ⟨hn3, -⟩ := winSize_bounds method size
  unfold locatePeak
  simp only [bind, Except.bind, hm, argmax2_eq hp]
  generalize winSize method size = n at hn3 ⊢
  have hself : |(x : K) - x| ≤ 1 / 2 ∧ |(y : K) - y| ≤ 1 / 2 := by simp
  cases subPixel with
  | false =>
    exact ⟨_, rfl, nx, by show (x : K) ≤ _; linarith, ny, by show (y : K) ≤ _; linarith, fun _ => rfl,
      fun _ => by simp, fun _ _ => hself⟩
  | true =>
    simp only [Bool.true_eq_false, if_false]
    rcases peakInterior_spec hp hn3 method dim with h | ⟨px, py, h, bx, byy, d1, d2⟩
    · simp only [h]
      rcases peakRow_int hp hn3 method with h2 | ⟨r, h2, br, dr⟩
      · simp only [h2]
        obtain ⟨q, h3, bq, dq⟩ := peakCol_int hp hn3 method
        simp only [h3]
        exact ⟨_, rfl, nx, by show (x : K) ≤ _; linarith, bq.1, bq.2, (fun h => by cases h),
          (fun h => ⟨by simp [Pos.val], lt_of_le_of_lt (dq h) (by norm_num)⟩), fun h _ => ⟨hself.1, dq h⟩⟩
      · simp only [h2, peakCol_inside n method br]
        exact ⟨_, rfl, br.1.le, br.2.le, ny, by show (y : K) ≤ _; linarith, (fun h => by cases h),
          (fun h => ⟨lt_of_le_of_lt (dr h) (by norm_num), by simp [Pos.val]⟩), fun h _ => ⟨dr h, hself.2⟩⟩
    · simp only [h, peakRow_inside n method byy, peakCol_inside n method bx]
      exact ⟨_, rfl, bx.1.le, bx.2.le, byy.1.le, byy.2.le, (fun h => by cases h), d1, d2⟩

/-- **C51.** `locate_peak` on a non-empty image never fails (in particular no index error) and returns a position inside
the image; without sub-pixel search it is the first largest entry; with method "diff" it is less than one pixel away from
it in both directions, and at most half a pixel for `dim = 1`.  Any window size and any fitting routine. -/
theorem locate_peak_max {m : Mat K} (hh : 0 < m.h) (hw : 0 < m.w) (subPixel : Bool) (method : Method K)
    (dim size : Int) :
    ∃ y x, FirstMax2 m y x ∧
      ∃ r, locatePeak m subPixel method dim size true = .ok r ∧ PeakOk m y x subPixel method dim r := by
  obtain ⟨y, x, -, hp⟩ := argmax2_spec hh hw
  exact ⟨y, x, hp, locatePeak_of_argmax (by unfold flipPeak; simp) hp subPixel method dim size⟩

/-- **C51.** The same for the minimum (`max_peak=False`). -/
theorem locate_peak_min {m : Mat K} (hh : 0 < m.h) (hw : 0 < m.w) (subPixel : Bool) (method : Method K)
    (dim size : Int) :
    ∃ y < m.h, ∃ x < m.w, (∀ i < m.h, ∀ j < m.w, m.get y x ≤ m.get i j) ∧
      ∃ r, locatePeak m subPixel method dim size false = .ok r ∧ PeakOk m y x subPixel method dim r := by
  obtain ⟨y1, x1, h1, hp1⟩ := argmax2_spec hh hw
  set m' : Mat K := ⟨m.h, m.w, fun i j => m.get y1 x1 - m.get i j⟩ with hm'
  obtain ⟨y, x, -, hp⟩ := argmax2_spec (m := m') hh hw
  refine ⟨y, hp.1, x, hp.2.1, ?_, ?_⟩
  · intro i hi j hj
    have := hp.2.2.1 i hi j hj
    rw [hm'] at this
    dsimp only at this
    linarith
  · have := locatePeak_of_argmax (mat := m) (maxPeak := false) (m := m')
      (by unfold flipPeak; simp only [bind, Except.bind, h1]; rfl) hp subPixel method dim size
    obtain ⟨r, hr, hok⟩ := this
    exact ⟨r, hr, hok⟩

end Verif.Correlation
