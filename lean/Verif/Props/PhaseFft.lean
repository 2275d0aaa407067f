import Verif.Model.PhaseFft
import Verif.Lemmas.FreqOp
import Verif.Props.Phase
import Verif.Props.Surface

/-!
C114: FFT-based phase unwrapping.
-/

set_option linter.unusedSectionVars false
set_option linter.unusedSimpArgs false

namespace Verif.PhaseFft
open Complex Finset Verif.Fourier Verif.Phase

/-! ### Specification -/

/-- Two phase images show the same phase: they differ by whole turns pixel by pixel, and by one constant. -/
def SamePhase (m m' : Mat ℝ) : Prop :=
  m'.h = m.h ∧ m'.w = m.w ∧ ∃ c : ℝ, ∀ i < m.h, ∀ j < m.w, ∃ k : ℤ, m'.get i j = m.get i j + 2 * Real.pi * k + c

/-- Left-right mirror image, upside-down image, transposed image, negative. -/
def mirror (m : Mat ℝ) : Mat ℝ := ⟨m.h, m.w, fun i j => m.get i (m.w - 1 - j)⟩
def flip (m : Mat ℝ) : Mat ℝ := ⟨m.h, m.w, fun i j => m.get (m.h - 1 - i) j⟩
def transp (m : Mat ℝ) : Mat ℝ := ⟨m.w, m.h, fun i j => m.get j i⟩
def negate (m : Mat ℝ) : Mat ℝ := ⟨m.h, m.w, fun i j => -m.get i j⟩

/-- The total of an image. -/
def total (m : Mat ℝ) : ℝ := ∑ i ∈ range m.h, ∑ j ∈ range m.w, m.get i j

/-! ### The doubled image -/

/-- Row and column of the original shown at a position of the doubled image. -/
def rowOf (h i : ℕ) : ℕ := if i < h then h - 1 - i else i - h
def colOf (w j : ℕ) : ℕ := if j < w then j else w - 1 - (j - w)

theorem double_get {K : Type} (m : Mat K) (i j : ℕ) : (doubleImage m).get i j = m.get (rowOf m.h i) (colOf m.w j) := by
  unfold doubleImage rowOf colOf
  dsimp only
  split_ifs <;> rfl

theorem rowOf_lt {h i : ℕ} (hi : i < 2 * h) : rowOf h i < h := by unfold rowOf; split_ifs <;> omega
theorem colOf_lt {w j : ℕ} (hj : j < 2 * w) : colOf w j < w := by unfold colOf; split_ifs <;> omega

theorem rowOf_reflect {h i : ℕ} (hi : i < 2 * h) : rowOf h (2 * h - 1 - i) = rowOf h i := by unfold rowOf; split_ifs <;> omega
theorem colOf_reflect {w j : ℕ} (hj : j < 2 * w) : colOf w (2 * w - 1 - j) = colOf w j := by unfold colOf; split_ifs <;> omega
theorem rowOf_swap {h i : ℕ} (hi : i < 2 * h) : rowOf h (swap h i) = colOf h i := by unfold rowOf colOf swap; split_ifs <;> omega
theorem colOf_swap {w j : ℕ} (hj : j < 2 * w) : colOf w (swap w j) = rowOf w j := by unfold rowOf colOf swap; split_ifs <;> omega
theorem rowOf_flip {h i : ℕ} (hi : i < 2 * h) : h - 1 - rowOf h i = rowOf h (swap h i) := by unfold rowOf swap; split_ifs <;> omega
theorem colOf_flip {w j : ℕ} (hj : j < 2 * w) : w - 1 - colOf w j = colOf w (swap w j) := by unfold colOf swap; split_ifs <;> omega

/-! ### The windows -/

/-- Symmetric about the centre, as the default windows are. -/
structure GoodWindow (h w : ℕ) (win : ℕ → ℕ → ℝ) : Prop where
  row : EvenRow h w fun k l => ((win (ifftshiftIdx h k) (ifftshiftIdx w l) : ℝ) : ℂ)
  col : EvenCol h w fun k l => ((win (ifftshiftIdx h k) (ifftshiftIdx w l) : ℝ) : ℂ)

theorem shift_neg {n k : ℕ} (hk : k < 2 * n) :
    (((ifftshiftIdx (2 * n) ((2 * n - k) % (2 * n)) : ℕ) : ℝ) - (n : ℝ)) ^ 2 = (((ifftshiftIdx (2 * n) k : ℕ) : ℝ) - (n : ℝ)) ^ 2 ∧
      (ifftshiftIdx (2 * n) ((2 * n - k) % (2 * n)) = n ↔ ifftshiftIdx (2 * n) k = n) := by
  unfold ifftshiftIdx
  rw [show 2 * n / 2 = n by omega]
  rcases Nat.eq_zero_or_pos k with rfl | h0
  · simp
  · rw [Nat.mod_eq_of_lt (a := 2 * n - k) (by omega)]
    rcases lt_trichotomy k n with hlt | rfl | hgt
    · rw [Nat.mod_eq_of_lt (a := k + n) (by omega), show 2 * n - k + n = (n - k) + 2 * n by omega, Nat.add_mod_right,
        Nat.mod_eq_of_lt (a := n - k) (by omega)]
      refine ⟨?_, by omega⟩
      rw [Nat.cast_sub hlt.le]; push_cast; ring
    · rw [show 2 * k - k = k by omega]
      exact ⟨rfl, Iff.rfl⟩
    · rw [Nat.mod_eq_of_lt (a := 2 * n - k + n) (by omega), show k + n = (k - n) + 2 * n by omega, Nat.add_mod_right,
        Nat.mod_eq_of_lt (a := k - n) (by omega)]
      refine ⟨?_, by omega⟩
      rw [Nat.cast_sub hgt.le]
      push_cast [Nat.cast_sub hk.le]
      ring

theorem laplaceWindow_eq (h w : ℕ) (f : Bool) (i j : ℕ) : laplaceWindow (2 * h) (2 * w) f i j =
    if f = false ∧ i = h ∧ j = w then 1 else ((j : ℝ) - w) ^ 2 / (w : ℝ) ^ 2 + ((i : ℝ) - h) ^ 2 / (h : ℝ) ^ 2 := by
  unfold laplaceWindow
  rw [show 2 * h / 2 = h by omega, show 2 * w / 2 = w by omega, div_pow, div_pow]

theorem laplaceWindow_good (h w : ℕ) (f : Bool) : GoodWindow (2 * h) (2 * w) (laplaceWindow (2 * h) (2 * w) f) := by
  constructor
  · intro k hk l hl
    dsimp only
    have := shift_neg hk
    rw [laplaceWindow_eq, laplaceWindow_eq, this.1]
    simp only [this.2]
  · intro k hk l hl
    dsimp only
    have := shift_neg hl
    rw [laplaceWindow_eq, laplaceWindow_eq, this.1]
    simp only [this.2]

/-- The default windows of the transposed image are the transposed windows. -/
theorem laplaceWindow_transpose (h w : ℕ) (f : Bool) (i j : ℕ) :
    laplaceWindow (2 * w) (2 * h) f j i = laplaceWindow (2 * h) (2 * w) f i j := by
  rw [laplaceWindow_eq, laplaceWindow_eq, add_comm]
  simp only [and_comm]

theorem laplaceWindow_backward_ne {h w : ℕ} (hh : 0 < h) (hw : 0 < w) (i j : ℕ) : laplaceWindow (2 * h) (2 * w) false i j ≠ 0 := by
  rw [laplaceWindow_eq]
  split_ifs with hc
  · norm_num
  · intro h0
    have h1 : (0 : ℝ) < (w : ℝ) ^ 2 := by positivity
    have h2 : (0 : ℝ) < (h : ℝ) ^ 2 := by positivity
    have a1 : 0 ≤ ((j : ℝ) - w) ^ 2 / (w : ℝ) ^ 2 := by positivity
    have a2 : 0 ≤ ((i : ℝ) - h) ^ 2 / (h : ℝ) ^ 2 := by positivity
    have b1 : ((j : ℝ) - w) ^ 2 / (w : ℝ) ^ 2 = 0 := by linarith
    have b2 : ((i : ℝ) - h) ^ 2 / (h : ℝ) ^ 2 = 0 := by linarith
    rw [div_eq_zero_iff, or_iff_left h1.ne', pow_eq_zero_iff (by norm_num), sub_eq_zero] at b1
    rw [div_eq_zero_iff, or_iff_left h2.ne', pow_eq_zero_iff (by norm_num), sub_eq_zero] at b2
    exact hc ⟨rfl, by exact_mod_cast b2, by exact_mod_cast b1⟩

/-! ### The two operators -/

theorem forwardOp_op (h w : ℕ) (win : ℕ → ℕ → ℝ) (x : ℕ → ℕ → ℂ) :
    forwardOp h w win x = op h w (fun k l => ((win (ifftshiftIdx h k) (ifftshiftIdx w l) : ℝ) : ℂ)) x := rfl

theorem backwardOp_op (h w : ℕ) (win : ℕ → ℕ → ℝ) (x : ℕ → ℕ → ℂ) :
    backwardOp h w win x = op h w (fun k l => (((win (ifftshiftIdx h k) (ifftshiftIdx w l))⁻¹ : ℝ) : ℂ)) x := by
  unfold backwardOp op
  congr 1
  funext k l
  dsimp only
  rw [ofReal_inv, div_eq_mul_inv]

theorem GoodWindow.inv {h w : ℕ} {win : ℕ → ℕ → ℝ} (g : GoodWindow h w win) :
    EvenRow h w (fun k l => (((win (ifftshiftIdx h k) (ifftshiftIdx w l))⁻¹ : ℝ) : ℂ)) ∧
      EvenCol h w (fun k l => (((win (ifftshiftIdx h k) (ifftshiftIdx w l))⁻¹ : ℝ) : ℂ)) := by
  refine ⟨fun k hk l hl => ?_, fun k hk l hl => ?_⟩
  · have := g.row k hk l hl
    dsimp only at this ⊢
    rw [ofReal_inj] at this
    rw [this]
  · have := g.col k hk l hl
    dsimp only at this ⊢
    rw [ofReal_inj] at this
    rw [this]

/-- The image between the two operators. -/
noncomputable def middle (mat2 : Mat ℝ) (wf : ℕ → ℕ → ℝ) (p q : ℕ) : ℝ :=
  (forwardOp mat2.h mat2.w wf (fun a b => exp (mat2.get a b * I)) p q * exp (-I * mat2.get p q)).im

theorem unwrapDouble_eq (mat2 : Mat ℝ) (wf wb : ℕ → ℕ → ℝ) (i j : ℕ) :
    unwrapDouble mat2 wf wb i j = (backwardOp mat2.h mat2.w wb (fun p q => (middle mat2 wf p q : ℂ)) i j).re := rfl

theorem unwrapDouble_congr {m m' : Mat ℝ} (hh : m'.h = m.h) (hw : m'.w = m.w) {wf wb : ℕ → ℕ → ℝ}
    (he : ∀ i < m.h, ∀ j < m.w, middle m' wf i j = middle m wf i j) (i j : ℕ) : unwrapDouble m' wf wb i j = unwrapDouble m wf wb i j := by
  rw [unwrapDouble_eq, unwrapDouble_eq, hh, hw, backwardOp_op, backwardOp_op]
  rw [op_congr (fun k _ l _ => rfl) (fun p hp q hq => by rw [he p hp q hq])]

/-! ### Whole turns and constants -/

theorem exp_turn (x : ℝ) (k : ℤ) (c : ℝ) : exp (((x + 2 * Real.pi * k + c : ℝ) : ℂ) * I) = exp (c * I) * exp (x * I) := by
  rw [← exp_add]
  have := exp_int_mul_two_pi_mul_I k
  rw [show (((x + 2 * Real.pi * k + c : ℝ) : ℂ) * I : ℂ) = (c * I + x * I) + k * (2 * Real.pi * I) by push_cast; ring, exp_add, this, mul_one]

theorem middle_turn {m m' : Mat ℝ} (hh : m'.h = m.h) (hw : m'.w = m.w) {c : ℝ} (hk : ∀ i < m.h, ∀ j < m.w, ∃ k : ℤ, m'.get i j = m.get i j + 2 * Real.pi * k + c)
    (wf : ℕ → ℕ → ℝ) (i j : ℕ) (hi : i < m.h) (hj : j < m.w) : middle m' wf i j = middle m wf i j := by
  unfold middle
  rw [hh, hw, forwardOp_op, forwardOp_op, op_congr (y := fun a b => exp (c * I) * exp (m.get a b * I)) (fun k _ l _ => rfl) (fun p hp q hq => by
    obtain ⟨k, e⟩ := hk p hp q hq
    rw [e, exp_turn]), op_smul]
  obtain ⟨k, e⟩ := hk i hi j hj
  rw [e, show exp (-I * (((m.get i j + 2 * Real.pi * k + c : ℝ) : ℂ))) = (exp (c * I))⁻¹ * exp (-I * m.get i j) by
    rw [show -I * ((m.get i j + 2 * Real.pi * k + c : ℝ) : ℂ) = -(((m.get i j + 2 * Real.pi * k + c : ℝ) : ℂ) * I) by ring, exp_neg, exp_turn,
      mul_inv, ← exp_neg (m.get i j * I)]
    congr 2
    ring]
  have hne : exp ((c : ℂ) * I) ≠ 0 := exp_ne_zero _
  congr 1
  field_simp

/-- The result for given windows. -/
noncomputable def core (m : Mat ℝ) (wf wb : ℕ → ℕ → ℝ) : Mat ℝ := ⟨m.h, m.w, fun i j => unwrapDouble (doubleImage m) wf wb (m.h + i) j⟩

theorem unwrapFft_core (m : Mat ℝ) (wf wb : Option (Mat ℝ)) : unwrapFft m wf wb =
    (resolveWindow (2 * m.h) (2 * m.w) true wf).bind fun a => (resolveWindow (2 * m.h) (2 * m.w) false wb).bind fun b => .ok (core m a b) := rfl

theorem core_same_phase {m m' : Mat ℝ} (hs : SamePhase m m') (wf wb : ℕ → ℕ → ℝ) : core m' wf wb = core m wf wb := by
  obtain ⟨hh, hw, c, hk⟩ := hs
  have hh2 : (doubleImage m').h = (doubleImage m).h := by show 2 * m'.h = 2 * m.h; rw [hh]
  have hw2 : (doubleImage m').w = (doubleImage m).w := by show 2 * m'.w = 2 * m.w; rw [hw]
  have hd : ∀ a < (doubleImage m).h, ∀ b < (doubleImage m).w, ∃ k : ℤ, (doubleImage m').get a b = (doubleImage m).get a b + 2 * Real.pi * k + c := by
    intro a ha b hb
    rw [double_get, double_get, hh, hw]
    exact hk _ (rowOf_lt ha) _ (colOf_lt hb)
  unfold core
  rw [hh, hw]
  have : (fun i j => unwrapDouble (doubleImage m') wf wb (m.h + i) j) = fun i j => unwrapDouble (doubleImage m) wf wb (m.h + i) j := by
    funext i j
    exact unwrapDouble_congr hh2 hw2 (fun p hp q hq => middle_turn hh2 hw2 hd wf p q hp hq) _ _
  rw [this]

/-- **C114.** `unwrap_phase_based_fft` depends on the phase only: whole turns and a constant make no difference, for every pair of windows. -/
theorem unwrap_fft_same_phase {m m' : Mat ℝ} (hs : SamePhase m m') (wf wb : Option (Mat ℝ)) : unwrapFft m' wf wb = unwrapFft m wf wb := by
  rw [unwrapFft_core, unwrapFft_core, hs.1, hs.2.1]
  simp only [core_same_phase hs]

end Verif.PhaseFft
