import Verif.Model.ForwardProj
import Verif.Lemmas.FreqOp
import Mathlib.Data.List.GetD

set_option linter.unusedSectionVars false
set_option linter.unusedSimpArgs false

/-!
**C125.** Sinograms by the Fourier slice theorem: `make_sinogram` (algotom/util/simulation.py:351-380).
-/

namespace Verif.ForwardProj
open Verif.Fourier Verif.SliceMetric Complex

/-! ### specification -/

/-- An interpolation that reproduces the samples. -/
def Exact (interp : Mat ℝ → ℝ → ℝ → ℝ) : Prop := ∀ (M : Mat ℝ) (i j : ℕ), i < M.h → j < M.w → interp M i j = M.get i j

/-- An interpolation that is linear in the samples. -/
def Linear (interp : Mat ℝ → ℝ → ℝ → ℝ) : Prop := ∀ (M M' M'' : Mat ℝ) (a b : ℝ), M.h = M''.h → M.w = M''.w → M'.h = M''.h → M'.w = M''.w →
  (∀ i j, M''.get i j = a * M.get i j + b * M'.get i j) → ∀ y x, interp M'' y x = a * interp M y x + b * interp M' y x

/-- Sum of column `j`. -/
def colSum (m : Mat ℝ) (j : ℕ) : ℝ := ∑ i ∈ Finset.range m.h, m.get i j

/-- Sum of row `i`. -/
def rowSum (m : Mat ℝ) (i : ℕ) : ℝ := ∑ j ∈ Finset.range m.w, m.get i j

/-! ### index lemmas -/

theorem shift_sum {M : Type} [AddCommMonoid M] (N : ℕ) (hN : 0 < N) (f : ℕ → M) : ∑ i ∈ Finset.range N, f (ifftshiftIdx N i) = ∑ i ∈ Finset.range N, f i := by
  refine Finset.sum_nbij' (fun i => ifftshiftIdx N i) (fun i => fftshiftIdx N i) ?_ ?_ ?_ ?_ ?_
  · intro i _; exact Finset.mem_range.2 (ifftshiftIdx_lt N i hN)
  · intro i _; exact Finset.mem_range.2 (Nat.mod_lt _ hN)
  · intro i hi; exact ifft_fft_shift N i (Finset.mem_range.1 hi)
  · intro i hi; exact fft_ifft_shift N i (Finset.mem_range.1 hi)
  · intro i _; rfl

theorem fftshiftIdx_odd (h j : ℕ) (hj : j < 2 * h + 1) : fftshiftIdx (2 * h + 1) j = if j < h then j + h + 1 else j - h := by
  unfold fftshiftIdx
  rw [show 2 * h + 1 - (2 * h + 1) / 2 = h + 1 by omega]
  by_cases h1 : j < h
  · rw [if_pos h1, Nat.mod_eq_of_lt (by omega)]; omega
  · rw [if_neg h1, show j + (h + 1) = (j - h) + (2 * h + 1) by omega, Nat.add_mod_right, Nat.mod_eq_of_lt (by omega)]

theorem ifftshiftIdx_odd (h j : ℕ) (hj : j < 2 * h + 1) : ifftshiftIdx (2 * h + 1) j = if j ≤ h then j + h else j - h - 1 := by
  unfold ifftshiftIdx
  rw [show (2 * h + 1) / 2 = h by omega]
  by_cases h1 : j ≤ h
  · rw [if_pos h1, Nat.mod_eq_of_lt (by omega)]
  · rw [if_neg h1, show j + h = (j - h - 1) + (2 * h + 1) by omega, Nat.add_mod_right, Nat.mod_eq_of_lt (by omega)]

theorem fftshift_mid (h : ℕ) : fftshiftIdx (2 * h + 1) h = 0 := by
  rw [fftshiftIdx_odd h h (by omega), if_neg (by omega)]; omega

theorem idft_ph (N : ℕ) (y : ℕ → ℂ) (n : ℕ) : idft N y n = (∑ k ∈ Finset.range N, y k * ph N (k * n)) / N := by
  unfold idft ph
  congr 1
  refine Finset.sum_congr rfl fun k _ => ?_
  congr 2
  push_cast
  ring

/-- A mirrored slice of the spectrum gives the mirrored row. -/
theorem row_mirror (h : ℕ) (s s' : ℕ → ℂ) (hs : ∀ k < 2 * h + 1, s' k = s (2 * h - k)) (j : ℕ) (hj : j < 2 * h + 1) :
    rowOf (2 * h + 1) s' j = rowOf (2 * h + 1) s (2 * h - j) := by
  unfold rowOf
  congr 1
  rw [idft_ph, idft_ph]
  congr 1
  rw [← sum_neg_freq (2 * h + 1) (fun k => s (ifftshiftIdx (2 * h + 1) k) * ph (2 * h + 1) (k * (fftshiftIdx (2 * h + 1) (2 * h - j) : ℕ)))]
  refine Finset.sum_congr rfl fun l hl => ?_
  rw [Finset.mem_range] at hl
  have e1 : 2 * h - ifftshiftIdx (2 * h + 1) l = ifftshiftIdx (2 * h + 1) ((2 * h + 1 - l) % (2 * h + 1)) := by
    rcases Nat.eq_zero_or_pos l with rfl | h0
    · rw [Nat.sub_zero, Nat.mod_self, ifftshiftIdx_odd h 0 (by omega), if_pos (by omega)]; omega
    · rw [Nat.mod_eq_of_lt (show 2 * h + 1 - l < 2 * h + 1 by omega), ifftshiftIdx_odd h l hl, ifftshiftIdx_odd h _ (by omega)]
      by_cases h1 : l ≤ h
      · rw [if_pos h1, if_neg (by omega)]; omega
      · rw [if_neg h1, if_pos (by omega)]; omega
  rw [hs _ (ifftshiftIdx_lt _ _ (by omega)), e1]
  congr 1
  rw [ph_neg_freq _ _ (by omega) hl]
  have e2 : fftshiftIdx (2 * h + 1) j + fftshiftIdx (2 * h + 1) (2 * h - j) = 0 ∨
      fftshiftIdx (2 * h + 1) j + fftshiftIdx (2 * h + 1) (2 * h - j) = 2 * h + 1 := by
    rw [fftshiftIdx_odd h j hj, fftshiftIdx_odd h _ (show 2 * h - j < 2 * h + 1 by omega)]
    rcases Nat.lt_trichotomy j h with h1 | h1 | h1
    · rw [if_pos h1, if_neg (by omega)]; omega
    · rw [if_neg (by omega), if_neg (by omega)]; omega
    · rw [if_neg (by omega), if_pos (by omega)]; omega
  generalize fftshiftIdx (2 * h + 1) j = a at *
  generalize fftshiftIdx (2 * h + 1) (2 * h - j) = b at *
  rcases e2 with e2 | e2
  · have ha : a = 0 := by omega
    have hb : b = 0 := by omega
    rw [ha, hb]
    simp
  · have : (l : ℤ) * (a : ℤ) = ((2 * h + 1 : ℕ) : ℤ) * l + -((l : ℤ) * (b : ℤ)) := by
      have : (a : ℤ) = ((2 * h + 1 : ℕ) : ℤ) - b := by omega
      rw [this]; ring
    rw [this, ph_add, ph_mul_N _ (by omega), one_mul]

/-! ### the slices through the centre -/

theorem dft_zero (N : ℕ) (x : ℕ → ℂ) : dft N x 0 = ∑ n ∈ Finset.range N, x n := by
  unfold dft
  refine Finset.sum_congr rfl fun n _ => ?_
  simp

theorem dft_sum (N n : ℕ) (x : ℕ → ℕ → ℂ) (k : ℕ) : ∑ i ∈ Finset.range n, dft N (x i) k = dft N (fun j => ∑ i ∈ Finset.range n, x i j) k := by
  unfold dft
  rw [Finset.sum_comm]
  refine Finset.sum_congr rfl fun j _ => ?_
  rw [Finset.sum_mul]

theorem row_of_dft (N : ℕ) (g : ℕ → ℂ) (j : ℕ) (hj : j < N) : rowOf N (fun k => dft N g (fftshiftIdx N k)) j = (g (fftshiftIdx N j)).re := by
  unfold rowOf
  rw [idft_congr N _ (dft N g) _ fun l hl => by dsimp only; rw [ifft_fft_shift N l hl], idft_dft N g (fftshiftIdx N j) (Nat.mod_lt _ (by omega))]

/-- The horizontal line through the centre of the spectrum gives the column sums. -/
theorem row_horizontal (m : Mat ℝ) (h : ℕ) (hh : m.h = 2 * h + 1) (hw : m.w = 2 * h + 1) (j : ℕ) (hj : j < m.w) :
    rowOf m.w (fun k => spectrum m h k) j = colSum m j := by
  have e : ∀ k, spectrum m h k = dft m.w (fun j => ((∑ i ∈ Finset.range m.h, m.get i (ifftshiftIdx m.w j) : ℝ) : ℂ)) (fftshiftIdx m.w k) := by
    intro k
    unfold spectrum dft2
    rw [hh, fftshift_mid, dft_zero, dft_sum]
    refine dft_congr _ _ _ _ fun n _ => ?_
    rw [shift_sum (2 * h + 1) (by omega) (fun i => ((m.get i (ifftshiftIdx m.w n) : ℝ) : ℂ))]
    push_cast
    rfl
  rw [funext e, row_of_dft m.w _ j hj, ofReal_re, fft_ifft_shift m.w j hj]
  rfl

/-- The vertical line through the centre of the spectrum gives the row sums. -/
theorem row_vertical (m : Mat ℝ) (h : ℕ) (hh : m.h = 2 * h + 1) (hw : m.w = 2 * h + 1) (j : ℕ) (hj : j < m.h) :
    rowOf m.w (fun k => spectrum m k h) j = rowSum m j := by
  have e : ∀ k, spectrum m k h = dft m.w (fun i => ((∑ j ∈ Finset.range m.w, m.get (ifftshiftIdx m.w i) j : ℝ) : ℂ)) (fftshiftIdx m.w k) := by
    intro k
    unfold spectrum dft2
    rw [hh, hw, fftshift_mid]
    refine dft_congr _ _ _ _ fun n _ => ?_
    rw [dft_zero, shift_sum (2 * h + 1) (by omega) (fun j => ((m.get (ifftshiftIdx (2 * h + 1) n) j : ℝ) : ℂ))]
    push_cast
    rfl
  rw [funext e, row_of_dft m.w _ j (by omega), ofReal_re, fft_ifft_shift m.w j (by omega)]
  rfl

/-! ### coordinates -/

theorem clip_id {v lo hi : ℝ} (h1 : lo ≤ v) (h2 : v ≤ hi) : clip v lo hi = v := by
  unfold clip
  rw [max_eq_left h1, min_eq_left h2]

theorem coords_eq (h : ℕ) (angle : ℝ) (k : ℕ) (hk : k < 2 * h + 1) : coords (2 * h + 1) (2 * h + 1) angle k =
    (clip ((h : ℝ) + ((k : ℝ) - h) * Real.cos angle) 0 (2 * h), clip ((h : ℝ) - ((k : ℝ) - h) * Real.sin angle) 0 (2 * h)) := by
  unfold coords
  dsimp only
  have e1 : (((2 * h + 1 : ℕ) : ℝ) - 1) * 0.5 = ((h : ℤ) : ℝ) := by push_cast; ring
  have e2 : linspace (-((h : ℤ) : ℝ)) ((h : ℤ) : ℝ) (2 * h + 1) k = (k : ℝ) - h := by
    unfold linspace
    rcases Nat.eq_zero_or_pos h with rfl | h0
    · have : k = 0 := by omega
      subst this
      simp
    · have : (h : ℝ) ≠ 0 := by exact_mod_cast h0.ne'
      push_cast
      field_simp
      ring
  rw [e1, max_self, Int.floor_intCast, e2, Real.cos_neg, Real.sin_neg]
  have e3 : ((2 * h + 1 : ℕ) : ℝ) - 1 = 2 * h := by push_cast; ring
  rw [e3]
  congr 2
  push_cast
  ring

theorem slice_exact (interp : Mat ℝ → ℝ → ℝ → ℝ) (he : Exact interp) (m : Mat ℝ) (angle : ℝ) (k i j : ℕ) (hi : i < m.h) (hj : j < m.w)
    (hc : coords m.h m.w angle k = ((j : ℝ), (i : ℝ))) : slice interp m angle k = spectrum m i j := by
  unfold slice
  dsimp only
  rw [hc]
  dsimp only
  rw [he ⟨m.h, m.w, fun i j => (spectrum m i j).re⟩ i j hi hj, he ⟨m.h, m.w, fun i j => (spectrum m i j).im⟩ i j hi hj]

/-! ### properties -/

/-- **C125.** Refused are images that are not square, an empty list of angles, and negative padding of a whole pixel or more. -/
theorem sinogram_error (interp : Mat ℝ → ℝ → ℝ → ℝ) (m : Mat ℝ) (angles : List ℝ) (padRate : ℝ) (mode : PadMode) :
    (∃ s, makeSinogram interp m angles padRate mode = .ok s) ↔ m.h = m.w ∧ angles ≠ [] ∧ 0 ≤ pyTrunc (padRate * m.h) := by
  unfold makeSinogram
  by_cases h1 : m.h ≠ m.w
  · rw [if_pos h1]; exact ⟨fun ⟨_, h⟩ => (nomatch h), fun h => absurd h.1 h1⟩
  rw [if_neg h1]
  by_cases h2 : angles = []
  · rw [if_pos h2]; exact ⟨fun ⟨_, h⟩ => (nomatch h), fun h => absurd h2 h.2.1⟩
  rw [if_neg h2]
  dsimp only
  by_cases h3 : pyTrunc (padRate * m.h) < 0
  · rw [if_pos h3]; exact ⟨fun ⟨_, h⟩ => (nomatch h), fun h => absurd h.2.2 (by omega)⟩
  rw [if_neg h3]
  exact ⟨fun _ => ⟨by omega, h2, by omega⟩, fun _ => ⟨_, rfl⟩⟩

/-- The image that is transformed. -/
def padded (mode : PadMode) (pad : ℕ) (m : Mat ℝ) : Mat ℝ := makeOdd (padImage mode pad m)

theorem sinogram_ok {interp : Mat ℝ → ℝ → ℝ → ℝ} {m : Mat ℝ} {angles : List ℝ} {padRate : ℝ} {mode : PadMode} {s : Mat ℝ}
    (hs : makeSinogram interp m angles padRate mode = .ok s) : ∃ pad : ℕ, (pad : ℤ) = pyTrunc (padRate * m.h) ∧ m.h = m.w ∧
    s = ⟨angles.length, m.w, fun i j => rowOf (padded mode pad m).w (slice interp (padded mode pad m) (angles.getD i 0)) (pad + j)⟩ := by
  obtain ⟨h1, h2, h3⟩ := (sinogram_error _ _ _ _ _).1 ⟨s, hs⟩
  refine ⟨(pyTrunc (padRate * m.h)).toNat, by omega, h1, ?_⟩
  unfold makeSinogram at hs
  rw [if_neg (by omega), if_neg h2] at hs
  dsimp only at hs
  rw [if_neg (by omega)] at hs
  exact (Except.ok.inj hs).symm

/-- Number of extra rows and columns: one for images of even size. -/
def extra (n : ℕ) : ℕ := 1 - n % 2

theorem padded_shape (mode : PadMode) (pad : ℕ) (m : Mat ℝ) (hm : m.h = m.w) :
    (padded mode pad m).h = m.w + 2 * pad + extra m.w ∧ (padded mode pad m).w = m.w + 2 * pad + extra m.w := by
  unfold padded makeOdd
  have e : (padImage mode pad m).h = m.h + 2 * pad ∧ (padImage mode pad m).w = m.w + 2 * pad := ⟨rfl, rfl⟩
  unfold extra
  by_cases h : (padImage mode pad m).h % 2 = 0
  · rw [if_pos h]
    constructor
    · show (padImage mode pad m).h + 1 = _; omega
    · show (padImage mode pad m).w + 1 = _; omega
  · rw [if_neg h]; omega

theorem padded_odd (mode : PadMode) (pad : ℕ) (m : Mat ℝ) (hm : m.h = m.w) :
    ∃ h, (padded mode pad m).h = 2 * h + 1 ∧ (padded mode pad m).w = 2 * h + 1 ∧ 2 * h + 1 = m.w + 2 * pad + extra m.w := by
  obtain ⟨h1, h2⟩ := padded_shape mode pad m hm
  refine ⟨(m.w + 2 * pad + extra m.w) / 2, ?_⟩
  rw [h1, h2]
  unfold extra
  omega

/-- Index of the image read at position `i` of the padded axis. -/
def src (n pad i : ℕ) : ℕ := min (i - pad) (n - 1)

theorem padded_edge (pad : ℕ) (m : Mat ℝ) (hm : m.h = m.w) (hn : 0 < m.w) (i j : ℕ) (hi : i < m.w + 2 * pad + extra m.w)
    (hj : j < m.w + 2 * pad + extra m.w) : (padded .edge pad m).get i j = m.get (src m.w pad i) (src m.w pad j) := by
  unfold padded makeOdd
  unfold extra at hi hj
  have e : (padImage .edge pad m).h = m.h + 2 * pad ∧ (padImage .edge pad m).w = m.w + 2 * pad := ⟨rfl, rfl⟩
  by_cases h : (padImage .edge pad m).h % 2 = 0
  · rw [if_pos h]
    dsimp only
    rw [e.1, e.2]
    show m.get (edgeIdx m.h pad _) (edgeIdx m.w pad _) = _
    unfold edgeIdx src
    congr 1 <;> omega
  · rw [if_neg h]
    show m.get (edgeIdx m.h pad _) (edgeIdx m.w pad _) = _
    unfold edgeIdx src
    congr 1
    omega

theorem padded_constant (pad : ℕ) (m : Mat ℝ) (hm : m.h = m.w) (hp : 1 ≤ pad ∨ m.w % 2 = 1) (i j : ℕ) (hi : i < m.w + 2 * pad + extra m.w)
    (hj : j < m.w + 2 * pad + extra m.w) : (padded .constant pad m).get i j =
      if (pad ≤ i ∧ i < pad + m.w) ∧ pad ≤ j ∧ j < pad + m.w then m.get (i - pad) (j - pad) else 0 := by
  unfold padded makeOdd
  unfold extra at hi hj
  have e : (padImage .constant pad m).h = m.h + 2 * pad ∧ (padImage .constant pad m).w = m.w + 2 * pad := ⟨rfl, rfl⟩
  have e2 : ∀ a b, (padImage .constant pad m).get a b = if (pad ≤ a ∧ a < pad + m.w) ∧ pad ≤ b ∧ b < pad + m.w then m.get (a - pad) (b - pad) else 0 := by
    intro a b
    rw [← hm]
    show (if (pad ≤ a ∧ a < pad + m.h) ∧ pad ≤ b ∧ b < pad + m.w then m.get (a - pad) (b - pad) else 0) = _
    rw [hm]
  by_cases h : (padImage .constant pad m).h % 2 = 0
  · rw [if_pos h]
    dsimp only
    rw [e.1, e.2, e2]
    by_cases h1 : i ≤ m.h + 2 * pad - 1
    · rw [min_eq_left h1]
      by_cases h2 : j ≤ m.w + 2 * pad - 1
      · rw [min_eq_left h2]
      · rw [if_neg (by omega), if_neg (by omega)]
    · rw [if_neg (by omega), if_neg (by omega)]
  · rw [if_neg h, e2]

/-- **C125.** The row for angle 0 is the vector of the column sums of the padded image; angle π/2 gives the row sums, from the last row to the first. -/
theorem sinogram_axes {interp : Mat ℝ → ℝ → ℝ → ℝ} (he : Exact interp) {m : Mat ℝ} {angles : List ℝ} {padRate : ℝ} {mode : PadMode} {s : Mat ℝ}
    (hs : makeSinogram interp m angles padRate mode = .ok s) (pad : ℕ) (hpad : (pad : ℤ) = pyTrunc (padRate * m.h)) (r j : ℕ) (hj : j < m.w) :
    (angles.getD r 0 = 0 → s.get r j = colSum (padded mode pad m) (pad + j)) ∧
    (angles.getD r 0 = Real.pi / 2 → s.get r j = rowSum (padded mode pad m) (pad + m.w + extra m.w - 1 - j)) := by
  obtain ⟨pad', hp', hm, rfl⟩ := sinogram_ok hs
  obtain rfl : pad' = pad := by omega
  obtain ⟨h, e1, e2, e3⟩ := padded_odd mode pad' m hm
  constructor
  · intro ha
    dsimp only
    rw [ha, ← row_horizontal _ h e1 e2 _ (show pad' + j < (padded mode pad' m).w by omega)]
    unfold rowOf
    congr 1
    refine idft_congr _ _ _ _ fun l hl => ?_
    have hk := ifftshiftIdx_lt (padded mode pad' m).w l (by omega)
    generalize ifftshiftIdx (padded mode pad' m).w l = k at *
    refine slice_exact interp he _ 0 k h k (by omega) hk ?_
    rw [e1, e2, coords_eq h 0 k (by omega), Real.cos_zero, Real.sin_zero, mul_one, mul_zero, sub_zero]
    have hk' : (k : ℝ) ≤ 2 * h := by exact_mod_cast (show k ≤ 2 * h by omega)
    have hh0 : (0 : ℝ) ≤ h := by positivity
    rw [show (h : ℝ) + ((k : ℝ) - h) = k by ring, clip_id (by positivity) hk', clip_id hh0 (by linarith)]
  · intro ha
    dsimp only
    rw [ha, show pad' + m.w + extra m.w - 1 - j = 2 * h - (pad' + j) by omega,
      ← row_vertical _ h e1 e2 _ (show 2 * h - (pad' + j) < (padded mode pad' m).h by omega), e2]
    refine row_mirror h _ _ (fun k hk => ?_) _ (by omega)
    refine slice_exact interp he _ (Real.pi / 2) k (2 * h - k) h (by omega) (by omega) ?_
    rw [e1, e2, coords_eq h _ k hk, Real.cos_pi_div_two, Real.sin_pi_div_two, mul_one, mul_zero, add_zero]
    have hk' : (k : ℝ) ≤ 2 * h := by exact_mod_cast (show k ≤ 2 * h by omega)
    have e4 : ((2 * h - k : ℕ) : ℝ) = 2 * h - k := by rw [Nat.cast_sub (by omega)]; push_cast; ring
    have hk0 : (0 : ℝ) ≤ k := by positivity
    have hh0 : (0 : ℝ) ≤ h := by positivity
    rw [e4, show (h : ℝ) - ((k : ℝ) - h) = 2 * h - k by ring, clip_id (by linarith) (by linarith), clip_id (by linarith) (by linarith)]

theorem colSum_constant (pad : ℕ) (m : Mat ℝ) (hm : m.h = m.w) (hp : 1 ≤ pad ∨ m.w % 2 = 1) (j : ℕ) (hj : j < m.w) :
    colSum (padded .constant pad m) (pad + j) = colSum m j := by
  unfold colSum
  rw [(padded_shape .constant pad m hm).1, hm]
  rw [Finset.sum_congr rfl fun i hi => padded_constant pad m hm hp i (pad + j) (Finset.mem_range.1 hi) (by omega)]
  rw [← Finset.sum_subset (s₁ := Finset.Ico pad (pad + m.w))]
  · rw [Finset.sum_Ico_eq_sum_range, show pad + m.w - pad = m.w by omega]
    refine Finset.sum_congr rfl fun i hi => ?_
    rw [Finset.mem_range] at hi
    rw [if_pos (by omega)]
    congr 1 <;> omega
  · intro i hi
    rw [Finset.mem_Ico] at hi
    exact Finset.mem_range.2 (by omega)
  · intro i _ hi
    rw [Finset.mem_Ico] at hi
    rw [if_neg (by omega)]

theorem rowSum_constant (pad : ℕ) (m : Mat ℝ) (hm : m.h = m.w) (hp : 1 ≤ pad ∨ m.w % 2 = 1) (i : ℕ) (hi : i < m.w + pad + extra m.w) :
    rowSum (padded .constant pad m) (pad + i) = if i < m.w then rowSum m i else 0 := by
  unfold rowSum
  rw [(padded_shape .constant pad m hm).2]
  rw [Finset.sum_congr rfl fun j hj => padded_constant pad m hm hp (pad + i) j (by omega) (Finset.mem_range.1 hj)]
  by_cases h : i < m.w
  · rw [if_pos h, ← Finset.sum_subset (s₁ := Finset.Ico pad (pad + m.w))]
    · rw [Finset.sum_Ico_eq_sum_range, show pad + m.w - pad = m.w by omega]
      refine Finset.sum_congr rfl fun j hj => ?_
      rw [Finset.mem_range] at hj
      rw [if_pos (by omega)]
      congr 1 <;> omega
    · intro j hj
      rw [Finset.mem_Ico] at hj
      exact Finset.mem_range.2 (by omega)
    · intro j _ hj
      rw [Finset.mem_Ico] at hj
      rw [if_neg (by omega)]
  · rw [if_neg h]
    exact Finset.sum_eq_zero fun j _ => if_neg (by omega)

/-- **C125.** With zero padding of at least one pixel (none is needed for odd sizes) the row for angle 0 contains the column sums of the image and the row
for π/2 its row sums, last row first; for even sizes the latter are one pixel further to the right. -/
theorem sinogram_sums {interp : Mat ℝ → ℝ → ℝ → ℝ} (he : Exact interp) {m : Mat ℝ} {angles : List ℝ} {padRate : ℝ} {s : Mat ℝ}
    (hs : makeSinogram interp m angles padRate .constant = .ok s) (hp : 1 ≤ pyTrunc (padRate * m.h) ∨ m.w % 2 = 1) (r j : ℕ) (hj : j < m.w) :
    (angles.getD r 0 = 0 → s.get r j = colSum m j) ∧
    (angles.getD r 0 = Real.pi / 2 → m.w % 2 = 1 → s.get r j = rowSum m (m.w - 1 - j)) ∧
    (angles.getD r 0 = Real.pi / 2 → m.w % 2 = 0 → s.get r j = if j = 0 then 0 else rowSum m (m.w - j)) := by
  obtain ⟨pad, hpad, hm, -⟩ := sinogram_ok hs
  obtain ⟨h0, h1⟩ := sinogram_axes he hs pad hpad r j hj
  have hp' : 1 ≤ pad ∨ m.w % 2 = 1 := by omega
  refine ⟨fun h => (h0 h).trans (colSum_constant pad m hm hp' j hj), fun h ho => ?_, fun h ho => ?_⟩
  · rw [h1 h]
    unfold extra
    rw [show pad + m.w + (1 - m.w % 2) - 1 - j = pad + (m.w - 1 - j) by omega, rowSum_constant pad m hm hp' _ (by omega), if_pos (by omega)]
  · rw [h1 h]
    unfold extra
    rw [show pad + m.w + (1 - m.w % 2) - 1 - j = pad + (m.w - j) by omega, rowSum_constant pad m hm hp' _ (by unfold extra; omega)]
    by_cases hj0 : j = 0
    · rw [if_pos hj0, if_neg (by omega)]
    · rw [if_neg hj0, if_pos (by omega)]

/-- **C125.** With the default padding ("edge") the first and the last row of the image are continued, so that an image whose first and last row are zero
has the column sums in the row for angle 0. -/
theorem sinogram_edge {interp : Mat ℝ → ℝ → ℝ → ℝ} (he : Exact interp) {m : Mat ℝ} {angles : List ℝ} {padRate : ℝ} {s : Mat ℝ}
    (hs : makeSinogram interp m angles padRate .edge = .ok s) (pad : ℕ) (hpad : (pad : ℤ) = pyTrunc (padRate * m.h)) (r j : ℕ) (hj : j < m.w)
    (ha : angles.getD r 0 = 0) : s.get r j = colSum m j + pad * m.get 0 j + (pad + extra m.w : ℕ) * m.get (m.w - 1) j := by
  obtain ⟨pad', hp', hm, -⟩ := sinogram_ok hs
  rw [(sinogram_axes he hs pad hpad r j hj).1 ha]
  unfold colSum
  rw [(padded_shape .edge pad m hm).1, hm]
  rw [Finset.sum_congr rfl fun i hi => padded_edge pad m hm (by omega) i (pad + j) (Finset.mem_range.1 hi) (by omega)]
  have ej : src m.w pad (pad + j) = j := by unfold src; omega
  rw [show m.w + 2 * pad + extra m.w = pad + (m.w + (pad + extra m.w)) by ring, Finset.sum_range_add, Finset.sum_range_add, ej]
  rw [Finset.sum_congr rfl fun i hi => show m.get (src m.w pad i) j = m.get 0 j by
      rw [Finset.mem_range] at hi; unfold src; congr 1; omega]
  rw [Finset.sum_congr (s₁ := Finset.range m.w) rfl fun i hi => show m.get (src m.w pad (pad + i)) j = m.get i j by
      rw [Finset.mem_range] at hi; unfold src; congr 1; omega]
  rw [Finset.sum_congr (s₁ := Finset.range (pad + extra m.w)) rfl fun i hi => show m.get (src m.w pad (pad + (m.w + i))) j = m.get (m.w - 1) j by
      unfold src; congr 1; omega]
  simp only [Finset.sum_const, Finset.card_range, nsmul_eq_mul]
  ring

/-- **C125.** Rows half a turn apart are mirror images of each other, with every interpolation: about the middle of the row for odd widths, about the pixel
`width / 2` for even widths. -/
theorem sinogram_half_turn {interp : Mat ℝ → ℝ → ℝ → ℝ} {m : Mat ℝ} {angles : List ℝ} {padRate : ℝ} {mode : PadMode} {s : Mat ℝ}
    (hs : makeSinogram interp m angles padRate mode = .ok s) (r r' : ℕ) (ha : angles.getD r' 0 = angles.getD r 0 + Real.pi) (j j' : ℕ) (hj : j < m.w)
    (hj' : j' < m.w) (hjj : j + j' + 1 = m.w + extra m.w) : s.get r' j = s.get r j' := by
  obtain ⟨pad, hp, hm, rfl⟩ := sinogram_ok hs
  obtain ⟨h, e1, e2, e3⟩ := padded_odd mode pad m hm
  dsimp only
  rw [e2, show pad + j' = 2 * h - (pad + j) by omega, ha]
  refine row_mirror h _ _ (fun k hk => ?_) _ (by omega)
  unfold slice
  dsimp only
  have e : coords (padded mode pad m).h (padded mode pad m).w (angles.getD r 0 + Real.pi) k =
      coords (padded mode pad m).h (padded mode pad m).w (angles.getD r 0) (2 * h - k) := by
    rw [e1, e2, coords_eq h _ k hk, coords_eq h _ _ (by omega), Real.cos_add_pi, Real.sin_add_pi]
    have e4 : ((2 * h - k : ℕ) : ℝ) = 2 * h - k := by rw [Nat.cast_sub (by omega)]; push_cast; ring
    rw [e4]
    congr 2 <;> ring
  rw [e]

/-- **C125.** Without padding every row of the sinogram of an image of odd size has the sum of the whole image, at every angle. -/
theorem sinogram_mass {interp : Mat ℝ → ℝ → ℝ → ℝ} (he : Exact interp) {m : Mat ℝ} {angles : List ℝ} {padRate : ℝ} {mode : PadMode} {s : Mat ℝ}
    (hs : makeSinogram interp m angles padRate mode = .ok s) (hp : pyTrunc (padRate * m.h) = 0) (ho : m.w % 2 = 1) (r : ℕ) :
    ∑ j ∈ Finset.range m.w, s.get r j = ∑ i ∈ Finset.range m.h, ∑ j ∈ Finset.range m.w, m.get i j := by
  obtain ⟨pad, hpad, hm, rfl⟩ := sinogram_ok hs
  obtain rfl : pad = 0 := by omega
  obtain ⟨h, e1, e2, e3⟩ := padded_odd mode 0 m hm
  have hx : extra m.w = 0 := by unfold extra; omega
  dsimp only
  have hw : m.w = 2 * h + 1 := by omega
  have e5 : ∑ j ∈ Finset.range m.w, rowOf (padded mode 0 m).w (slice interp (padded mode 0 m) (angles.getD r 0)) (0 + j) =
      (slice interp (padded mode 0 m) (angles.getD r 0) h).re := by
    unfold rowOf
    rw [← Complex.re_sum, e2, ← hw]
    congr 1
    have := dft_idft m.w (fun l => slice interp (padded mode 0 m) (angles.getD r 0) (ifftshiftIdx m.w l)) 0 (by omega)
    rw [dft_zero] at this
    rw [ifftshiftIdx_zero, show m.w / 2 = h by omega] at this
    rw [← this]
    refine Finset.sum_nbij' (fun i => fftshiftIdx m.w i) (fun i => ifftshiftIdx m.w i) ?_ ?_ ?_ ?_ ?_
    · intro i _; exact Finset.mem_range.2 (Nat.mod_lt _ (by omega))
    · intro i _; exact Finset.mem_range.2 (ifftshiftIdx_lt _ _ (by omega))
    · intro i hi; exact fft_ifft_shift _ i (Finset.mem_range.1 hi)
    · intro i hi; exact ifft_fft_shift _ i (Finset.mem_range.1 hi)
    · intro i _; rw [zero_add]
  rw [e5, slice_exact interp he _ _ h h h (by omega) (by omega)]
  · unfold spectrum dft2
    rw [e1, e2, fftshift_mid, dft_zero]
    rw [Finset.sum_congr rfl fun i _ => dft_zero _ _]
    rw [Finset.sum_congr rfl fun i _ => shift_sum (2 * h + 1) (by omega) fun j => (((padded mode 0 m).get (ifftshiftIdx (2 * h + 1) i) j : ℝ) : ℂ)]
    rw [shift_sum (2 * h + 1) (by omega) fun i => ∑ j ∈ Finset.range (2 * h + 1), (((padded mode 0 m).get i j : ℝ) : ℂ)]
    rw [hm, hw, Complex.re_sum]
    refine Finset.sum_congr rfl fun i hi => ?_
    rw [Complex.re_sum]
    refine Finset.sum_congr rfl fun j hj => ?_
    rw [Finset.mem_range] at hi hj
    rw [ofReal_re]
    cases mode with
    | edge =>
      rw [padded_edge 0 m hm (by omega) i j (by omega) (by omega)]
      unfold src
      congr 1 <;> omega
    | constant =>
      rw [padded_constant 0 m hm (Or.inr ho) i j (by omega) (by omega), if_pos (by omega)]
      rfl
  · rw [e1, e2, coords_eq h _ h (by omega), sub_self, zero_mul, zero_mul, add_zero, sub_zero]
    have : (0 : ℝ) ≤ h := by positivity
    rw [clip_id this (by linarith)]

/-- **C125.** The sinogram is linear in the image if the interpolation is. -/
theorem sinogram_linear {interp : Mat ℝ → ℝ → ℝ → ℝ} (hl : Linear interp) {m m' m'' : Mat ℝ} {angles : List ℝ} {padRate : ℝ} {mode : PadMode}
    {s s' s'' : Mat ℝ} (h1 : m.h = m''.h ∧ m.w = m''.w) (h2 : m'.h = m''.h ∧ m'.w = m''.w) (a b : ℝ)
    (hm : ∀ i j, m''.get i j = a * m.get i j + b * m'.get i j)
    (hs : makeSinogram interp m angles padRate mode = .ok s) (hs' : makeSinogram interp m' angles padRate mode = .ok s')
    (hs'' : makeSinogram interp m'' angles padRate mode = .ok s'') (r j : ℕ) : s''.get r j = a * s.get r j + b * s'.get r j := by
  obtain ⟨p, hp, e, rfl⟩ := sinogram_ok hs
  obtain ⟨p', hp', e', rfl⟩ := sinogram_ok hs'
  obtain ⟨p'', hp'', e'', rfl⟩ := sinogram_ok hs''
  obtain rfl : p = p'' := by rw [h1.1] at hp; omega
  obtain rfl : p' = p := by rw [h2.1] at hp'; omega
  dsimp only
  have sh := padded_shape mode p' m e
  have sh' := padded_shape mode p' m' e'
  have sh'' := padded_shape mode p' m'' e''
  rw [h1.2, ← sh''.1] at sh
  rw [h2.2, ← sh''.1] at sh'
  have shw : (padded mode p' m'').h = (padded mode p' m'').w := by rw [sh''.1, sh''.2]
  have hP : ∀ i j, (padded mode p' m'').get i j = a * (padded mode p' m).get i j + b * (padded mode p' m').get i j := by
    have h0 : ∀ i j, (padImage mode p' m'').get i j = a * (padImage mode p' m).get i j + b * (padImage mode p' m').get i j := by
      intro i j
      unfold padImage
      cases mode with
      | edge => dsimp only; rw [h1.1, h1.2, h2.1, h2.2]; exact hm _ _
      | constant =>
        dsimp only
        rw [h1.1, h1.2, h2.1, h2.2]
        by_cases hc : (p' ≤ i ∧ i < p' + m''.h) ∧ p' ≤ j ∧ j < p' + m''.w
        · rw [if_pos hc, if_pos hc, if_pos hc]; exact hm _ _
        · rw [if_neg hc, if_neg hc, if_neg hc]; ring
    intro i j
    unfold padded makeOdd
    have q : (padImage mode p' m).h = (padImage mode p' m'').h ∧ (padImage mode p' m).w = (padImage mode p' m'').w :=
      ⟨by show m.h + _ = m''.h + _; rw [h1.1], by show m.w + _ = m''.w + _; rw [h1.2]⟩
    have q' : (padImage mode p' m').h = (padImage mode p' m'').h ∧ (padImage mode p' m').w = (padImage mode p' m'').w :=
      ⟨by show m'.h + _ = m''.h + _; rw [h2.1], by show m'.w + _ = m''.w + _; rw [h2.2]⟩
    rw [q.1, q'.1]
    by_cases hc : (padImage mode p' m'').h % 2 = 0
    · rw [if_pos hc, if_pos hc, if_pos hc]
      dsimp only
      rw [q.2, q'.2]
      exact h0 _ _
    · rw [if_neg hc, if_neg hc, if_neg hc]
      exact h0 _ _
  have hF : ∀ k l, spectrum (padded mode p' m'') k l = a * spectrum (padded mode p' m) k l + b * spectrum (padded mode p' m') k l := by
    intro k l
    unfold spectrum
    rw [sh.1, sh.2, sh'.1, sh'.2, ← shw, ← dft2_smul, ← dft2_smul, ← dft2_add]
    refine dft2_congr _ _ _ _ _ _ fun i _ j _ => ?_
    rw [hP]
    push_cast
    rfl
  have hS : ∀ k, slice interp (padded mode p' m'') (angles.getD r 0) k =
      a * slice interp (padded mode p' m) (angles.getD r 0) k + b * slice interp (padded mode p' m') (angles.getD r 0) k := by
    intro k
    unfold slice
    dsimp only
    rw [show coords (padded mode p' m).h (padded mode p' m).w = coords (padded mode p' m'').h (padded mode p' m'').w by rw [sh.1, sh.2, shw],
      show coords (padded mode p' m').h (padded mode p' m').w = coords (padded mode p' m'').h (padded mode p' m'').w by rw [sh'.1, sh'.2, shw]]
    generalize coords (padded mode p' m'').h (padded mode p' m'').w (angles.getD r 0) k = xy
    apply Complex.ext
    · rw [hl ⟨(padded mode p' m).h, (padded mode p' m).w, fun i j => (spectrum (padded mode p' m) i j).re⟩
        ⟨(padded mode p' m').h, (padded mode p' m').w, fun i j => (spectrum (padded mode p' m') i j).re⟩
        ⟨(padded mode p' m'').h, (padded mode p' m'').w, fun i j => (spectrum (padded mode p' m'') i j).re⟩ a b sh.1 (sh.2.trans shw) sh'.1 (sh'.2.trans shw)
        (fun i j => by dsimp only; rw [hF, Complex.add_re, Complex.re_ofReal_mul, Complex.re_ofReal_mul])]
      rw [Complex.add_re, Complex.re_ofReal_mul, Complex.re_ofReal_mul]
    · rw [hl ⟨(padded mode p' m).h, (padded mode p' m).w, fun i j => (spectrum (padded mode p' m) i j).im⟩
        ⟨(padded mode p' m').h, (padded mode p' m').w, fun i j => (spectrum (padded mode p' m') i j).im⟩
        ⟨(padded mode p' m'').h, (padded mode p' m'').w, fun i j => (spectrum (padded mode p' m'') i j).im⟩ a b sh.1 (sh.2.trans shw) sh'.1 (sh'.2.trans shw)
        (fun i j => by dsimp only; rw [hF, Complex.add_im, Complex.im_ofReal_mul, Complex.im_ofReal_mul])]
      rw [Complex.add_im, Complex.im_ofReal_mul, Complex.im_ofReal_mul]
  unfold rowOf
  rw [show (padded mode p' m).w = (padded mode p' m'').w by rw [sh.2, shw], show (padded mode p' m').w = (padded mode p' m'').w by rw [sh'.2, shw]]
  rw [idft_congr _ _ (fun l => a * slice interp (padded mode p' m) (angles.getD r 0) (ifftshiftIdx (padded mode p' m'').w l) +
    b * slice interp (padded mode p' m') (angles.getD r 0) (ifftshiftIdx (padded mode p' m'').w l)) _ fun l _ => hS _]
  rw [idft_add, idft_smul, idft_smul, Complex.add_re, Complex.re_ofReal_mul, Complex.re_ofReal_mul]

/-! ### the centre of rotation -/

/-- The centre of rotation of the sinogram is in the middle of the image, at `(width - 1) / 2`: rows half a turn apart are mirror images of each other. -/
def CentreInMiddle : Prop := ∀ (interp : Mat ℝ → ℝ → ℝ → ℝ), Exact interp → ∀ (m : Mat ℝ) (s : Mat ℝ),
  makeSinogram interp m [0, Real.pi] 0.5 .edge = .ok s → ∀ j < m.w, s.get 1 j = s.get 0 (m.w - 1 - j)

/-- The nearest sample. -/
noncomputable def nearest (M : Mat ℝ) (y x : ℝ) : ℝ := M.get ⌊y⌋₊ ⌊x⌋₊

theorem nearest_exact : Exact nearest := by
  intro M i j _ _
  unfold nearest
  rw [Nat.floor_natCast, Nat.floor_natCast]

/-- For odd widths it is. -/
theorem centre_odd_partial {interp : Mat ℝ → ℝ → ℝ → ℝ} {m : Mat ℝ} {padRate : ℝ} {mode : PadMode} {s : Mat ℝ} (ho : m.w % 2 = 1)
    (hs : makeSinogram interp m [0, Real.pi] padRate mode = .ok s) (j : ℕ) (hj : j < m.w) : s.get 1 j = s.get 0 (m.w - 1 - j) :=
  sinogram_half_turn hs 0 1 (by simp) j (m.w - 1 - j) hj (by omega) (by unfold extra; omega)

/-- One bright pixel in a 4 × 4 image. -/
def dot : Mat ℝ := ⟨4, 4, fun i j => if i = 1 ∧ j = 1 then 1 else 0⟩

/-- **C125** is false of the code for even widths: the bright pixel of a 4 × 4 image, in column 1, is seen in column 3 after half a turn, not in column 2. -/
theorem centre_refuted : ¬ CentreInMiddle := by
  intro H
  have ht : pyTrunc ((0.5 : ℝ) * ((4 : ℕ) : ℝ)) = 2 := by
    unfold pyTrunc
    rw [if_pos (by norm_num), show (0.5 : ℝ) * ((4 : ℕ) : ℝ) = ((2 : ℤ) : ℝ) by norm_num, Int.floor_intCast]
  obtain ⟨s, hs⟩ := (sinogram_error nearest dot [0, Real.pi] 0.5 .edge).2 ⟨rfl, by simp, by
    show (0 : ℤ) ≤ pyTrunc ((0.5 : ℝ) * ((4 : ℕ) : ℝ)); rw [ht]; norm_num⟩
  have hw : dot.w = 4 := rfl
  have h1 := H nearest nearest_exact dot s hs 2 (by rw [hw]; norm_num)
  have h2 := sinogram_half_turn hs 0 1 (by simp) 2 2 (by rw [hw]; norm_num) (by rw [hw]; norm_num) (by rw [hw]; rfl)
  have v : ∀ j, j < 4 → s.get 0 j = if j = 1 then 1 else 0 := by
    intro j hj
    rw [sinogram_edge nearest_exact hs 2 (by show _ = pyTrunc ((0.5 : ℝ) * ((4 : ℕ) : ℝ)); rw [ht]; rfl) 0 j hj rfl]
    unfold colSum dot
    dsimp only
    simp only [Finset.sum_range_succ, Finset.sum_range_zero]
    norm_num
  rw [h2, hw, v 2 (by norm_num), v (4 - 1 - 2) (by norm_num)] at h1
  norm_num at h1

/-- Concrete instance: a 5 × 5 image at three angles. -/
example (m : Mat ℝ) (hh : m.h = 5) (hw : m.w = 5) : ∃ s, makeSinogram nearest m [0, Real.pi / 2, 1] 0 .constant = .ok s ∧
    s.get 0 2 = colSum m 2 ∧ s.get 1 0 = rowSum m 4 ∧ ∑ j ∈ Finset.range 5, s.get 2 j = ∑ i ∈ Finset.range 5, ∑ j ∈ Finset.range 5, m.get i j := by
  have ht : pyTrunc ((0 : ℝ) * (m.h : ℝ)) = 0 := by
    unfold pyTrunc
    simp
  obtain ⟨s, hs⟩ := (sinogram_error nearest m [0, Real.pi / 2, 1] 0 .constant).2 ⟨by omega, by simp, by rw [ht]⟩
  refine ⟨s, hs, (sinogram_sums nearest_exact hs (Or.inr (by omega)) 0 2 (by omega)).1 rfl, ?_, ?_⟩
  · have := (sinogram_sums nearest_exact hs (Or.inr (by omega)) 1 0 (by omega)).2.1 rfl (by omega)
    rwa [hw] at this
  · have := sinogram_mass nearest_exact hs ht (by omega) 2
    rwa [hw, hh] at this

end Verif.ForwardProj
