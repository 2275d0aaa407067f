import Verif.Props.PhaseFft

/-!
C114: symmetries of FFT-based phase unwrapping, the iterative version.
-/

set_option linter.unusedSectionVars false
set_option linter.unusedSimpArgs false

namespace Verif.PhaseFft
open Complex Finset Verif.Fourier Verif.Phase

variable {m : Mat ℝ} {wf wb : ℕ → ℕ → ℝ}

theorem real_congr {m m' : Mat ℝ} {wf wf' : ℕ → ℕ → ℝ} {i j i' j' : ℕ}
    (h1 : forwardOp m'.h m'.w wf' (fun a b => exp (m'.get a b * I)) i j = forwardOp m.h m.w wf (fun a b => exp (m.get a b * I)) i' j')
    (h2 : m'.get i j = m.get i' j') : middle m' wf' i j = middle m wf i' j' := by
  unfold middle
  rw [h1, h2]

/-- The multipliers of the two operators. -/
noncomputable def mF (h w : ℕ) (wf : ℕ → ℕ → ℝ) (k l : ℕ) : ℂ := ((wf (ifftshiftIdx h k) (ifftshiftIdx w l) : ℝ) : ℂ)
noncomputable def mB (h w : ℕ) (wb : ℕ → ℕ → ℝ) (k l : ℕ) : ℂ := (((wb (ifftshiftIdx h k) (ifftshiftIdx w l))⁻¹ : ℝ) : ℂ)

theorem fwd_double (m : Mat ℝ) (wf : ℕ → ℕ → ℝ) (x : ℕ → ℕ → ℂ) :
    forwardOp (doubleImage m).h (doubleImage m).w wf x = op (2 * m.h) (2 * m.w) (mF (2 * m.h) (2 * m.w) wf) x := rfl

theorem bwd_double (m : Mat ℝ) (wf wb : ℕ → ℕ → ℝ) (i j : ℕ) : unwrapDouble (doubleImage m) wf wb i j =
    (op (2 * m.h) (2 * m.w) (mB (2 * m.h) (2 * m.w) wb) (fun p q => (middle (doubleImage m) wf p q : ℂ)) i j).re := by
  rw [unwrapDouble_eq, backwardOp_op]
  rfl

theorem GoodWindow.evenRow {h w : ℕ} {win : ℕ → ℕ → ℝ} (g : GoodWindow h w win) : EvenRow h w (mF h w win) := g.row
theorem GoodWindow.evenCol {h w : ℕ} {win : ℕ → ℕ → ℝ} (g : GoodWindow h w win) : EvenCol h w (mF h w win) := g.col
theorem GoodWindow.evenRowB {h w : ℕ} {win : ℕ → ℕ → ℝ} (g : GoodWindow h w win) : EvenRow h w (mB h w win) := g.inv.1
theorem GoodWindow.evenColB {h w : ℕ} {win : ℕ → ℕ → ℝ} (g : GoodWindow h w win) : EvenCol h w (mB h w win) := g.inv.2

/-! ### Mirror images -/

theorem middle_mirror (i j : ℕ) (hi : i < 2 * m.h) (hj : j < 2 * m.w) :
    middle (doubleImage (mirror m)) wf i j = middle (doubleImage m) wf i (swap m.w j) := by
  have hget : ∀ a b, b < 2 * m.w → (doubleImage (mirror m)).get a b = (doubleImage m).get a (swap m.w b) := by
    intro a b hb
    rw [double_get, double_get]
    show m.get (rowOf m.h a) (m.w - 1 - colOf m.w b) = _
    rw [colOf_flip hb]
  refine real_congr ?_ (hget i j hj)
  rw [fwd_double, fwd_double]
  show op (2 * m.h) (2 * m.w) (mF (2 * m.h) (2 * m.w) wf) _ i j = op (2 * m.h) (2 * m.w) _ _ i (swap m.w j)
  rw [← op_swap_col _ m.w _ _ i j hj]
  exact op_congr (fun k _ l _ => rfl) (fun a ha b hb => by rw [hget a b hb]) i j

theorem middle_flip (i j : ℕ) (hi : i < 2 * m.h) (hj : j < 2 * m.w) :
    middle (doubleImage (flip m)) wf i j = middle (doubleImage m) wf (swap m.h i) j := by
  have hget : ∀ a b, a < 2 * m.h → (doubleImage (flip m)).get a b = (doubleImage m).get (swap m.h a) b := by
    intro a b ha
    rw [double_get, double_get]
    show m.get (m.h - 1 - rowOf m.h a) (colOf m.w b) = _
    rw [rowOf_flip ha]
  refine real_congr ?_ (hget i j hi)
  rw [fwd_double, fwd_double]
  show op (2 * m.h) (2 * m.w) (mF (2 * m.h) (2 * m.w) wf) _ i j = op (2 * m.h) (2 * m.w) _ _ (swap m.h i) j
  rw [← op_swap_row m.h _ _ _ i j hi]
  exact op_congr (fun k _ l _ => rfl) (fun a ha b hb => by rw [hget a b ha]) i j

theorem middle_reflect_col (g : GoodWindow (2 * m.h) (2 * m.w) wf) (i j : ℕ) (hj : j < 2 * m.w) :
    middle (doubleImage m) wf i (2 * m.w - 1 - j) = middle (doubleImage m) wf i j := by
  have hget : ∀ a b, b < 2 * m.w → (doubleImage m).get a (2 * m.w - 1 - b) = (doubleImage m).get a b := by
    intro a b hb
    rw [double_get, double_get, colOf_reflect hb]
  refine real_congr ?_ (hget i j hj)
  rw [fwd_double]
  show op (2 * m.h) (2 * m.w) (mF (2 * m.h) (2 * m.w) wf) _ i (2 * m.w - 1 - j) = op (2 * m.h) (2 * m.w) _ _ i j
  rw [← op_reflect_col g.evenCol _ i j hj]
  exact op_congr (fun k _ l _ => rfl) (fun a ha b hb => by rw [hget a b hb]) i j

theorem middle_reflect_row (g : GoodWindow (2 * m.h) (2 * m.w) wf) (i j : ℕ) (hi : i < 2 * m.h) :
    middle (doubleImage m) wf (2 * m.h - 1 - i) j = middle (doubleImage m) wf i j := by
  have hget : ∀ a b, a < 2 * m.h → (doubleImage m).get (2 * m.h - 1 - a) b = (doubleImage m).get a b := by
    intro a b ha
    rw [double_get, double_get, rowOf_reflect ha]
  refine real_congr ?_ (hget i j hi)
  rw [fwd_double]
  show op (2 * m.h) (2 * m.w) (mF (2 * m.h) (2 * m.w) wf) _ (2 * m.h - 1 - i) j = op (2 * m.h) (2 * m.w) _ _ i j
  rw [← op_reflect_row g.evenRow _ i j hi]
  exact op_congr (fun k _ l _ => rfl) (fun a ha b hb => by rw [hget a b ha]) i j

theorem double_reflect_col (g : GoodWindow (2 * m.h) (2 * m.w) wf) (gb : GoodWindow (2 * m.h) (2 * m.w) wb) (i j : ℕ) (hj : j < 2 * m.w) :
    unwrapDouble (doubleImage m) wf wb i (2 * m.w - 1 - j) = unwrapDouble (doubleImage m) wf wb i j := by
  rw [bwd_double, bwd_double]
  rw [← op_reflect_col gb.evenColB _ i j hj]
  rw [op_congr (fun k _ l _ => rfl) (fun a ha b hb => by rw [middle_reflect_col g a b hb]) i j]

theorem double_reflect_row (g : GoodWindow (2 * m.h) (2 * m.w) wf) (gb : GoodWindow (2 * m.h) (2 * m.w) wb) (i j : ℕ) (hi : i < 2 * m.h) :
    unwrapDouble (doubleImage m) wf wb (2 * m.h - 1 - i) j = unwrapDouble (doubleImage m) wf wb i j := by
  rw [bwd_double, bwd_double]
  rw [← op_reflect_row gb.evenRowB _ i j hi]
  rw [op_congr (fun k _ l _ => rfl) (fun a ha b hb => by rw [middle_reflect_row g a b ha]) i j]

theorem core_mirror (g : GoodWindow (2 * m.h) (2 * m.w) wf) (gb : GoodWindow (2 * m.h) (2 * m.w) wb) :
    (core (mirror m) wf wb).Eqv (mirror (core m wf wb)) := by
  refine ⟨rfl, rfl, fun i hi j hj => ?_⟩
  have hi : i < m.h := hi
  have hj : j < m.w := hj
  show unwrapDouble (doubleImage (mirror m)) wf wb (m.h + i) j = unwrapDouble (doubleImage m) wf wb (m.h + i) (m.w - 1 - j)
  rw [← double_reflect_col g gb _ _ (by omega), bwd_double, bwd_double]
  show (op (2 * m.h) (2 * m.w) (mB (2 * m.h) (2 * m.w) wb) _ (m.h + i) j).re = (op (2 * m.h) (2 * m.w) _ _ (m.h + i) _).re
  rw [show 2 * m.w - 1 - (m.w - 1 - j) = swap m.w j by unfold swap; split_ifs <;> omega, ← op_swap_col _ m.w _ _ _ j (by omega)]
  rw [op_congr (fun k _ l _ => rfl) (fun a ha b hb => by rw [middle_mirror a b ha hb]) _ j]

theorem core_flip (g : GoodWindow (2 * m.h) (2 * m.w) wf) (gb : GoodWindow (2 * m.h) (2 * m.w) wb) :
    (core (flip m) wf wb).Eqv (flip (core m wf wb)) := by
  refine ⟨rfl, rfl, fun i hi j hj => ?_⟩
  have hi : i < m.h := hi
  have hj : j < m.w := hj
  show unwrapDouble (doubleImage (flip m)) wf wb (m.h + i) j = unwrapDouble (doubleImage m) wf wb (m.h + (m.h - 1 - i)) j
  rw [← double_reflect_row g gb _ _ (by omega), bwd_double, bwd_double]
  show (op (2 * m.h) (2 * m.w) (mB (2 * m.h) (2 * m.w) wb) _ (m.h + i) j).re = (op (2 * m.h) (2 * m.w) _ _ _ j).re
  rw [show 2 * m.h - 1 - (m.h + (m.h - 1 - i)) = swap m.h (m.h + i) by unfold swap; split_ifs <;> omega, ← op_swap_row m.h _ _ _ _ j (by omega)]
  rw [op_congr (fun k _ l _ => rfl) (fun a ha b hb => by rw [middle_flip a b ha hb]) _ j]

/-! ### Transposition -/

theorem middle_transp {wf' : ℕ → ℕ → ℝ} (hwf : ∀ i j, wf' j i = wf i j) (i j : ℕ) (hi : i < 2 * m.w) (hj : j < 2 * m.h) :
    middle (doubleImage (transp m)) wf' i j = middle (doubleImage m) wf (swap m.h j) (swap m.w i) := by
  have hget : ∀ a b, a < 2 * m.w → b < 2 * m.h → (doubleImage (transp m)).get a b = (doubleImage m).get (swap m.h b) (swap m.w a) := by
    intro a b ha hb
    rw [double_get, double_get]
    show m.get (colOf m.h b) (rowOf m.w a) = _
    rw [rowOf_swap hb, colOf_swap ha]
  refine real_congr ?_ (hget i j hi hj)
  rw [fwd_double, fwd_double]
  show op (2 * m.w) (2 * m.h) (mF (2 * m.w) (2 * m.h) wf') _ i j = op (2 * m.h) (2 * m.w) _ _ (swap m.h j) (swap m.w i)
  rw [← op_swap_row m.h _ _ _ j _ hj, ← op_swap_col _ m.w _ _ _ i hi, ← op_transpose]
  exact op_congr (mult' := mF (2 * m.h) (2 * m.w) wf) (fun k _ l _ => by unfold mF; rw [hwf]) (fun a ha b hb => by rw [hget b a hb ha]) j i

theorem core_transp {wf' wb' : ℕ → ℕ → ℝ} (hwf : ∀ i j, wf' j i = wf i j) (hwb : ∀ i j, wb' j i = wb i j) :
    (core (transp m) wf' wb').Eqv (transp (core m wf wb)) := by
  refine ⟨rfl, rfl, fun i hi j hj => ?_⟩
  have hi : i < m.w := hi
  have hj : j < m.h := hj
  show unwrapDouble (doubleImage (transp m)) wf' wb' (m.w + i) j = unwrapDouble (doubleImage m) wf wb (m.h + j) i
  rw [bwd_double, bwd_double]
  show (op (2 * m.w) (2 * m.h) (mB (2 * m.w) (2 * m.h) wb') _ (m.w + i) j).re = (op (2 * m.h) (2 * m.w) _ _ (m.h + j) i).re
  rw [show m.h + j = swap m.h j by unfold swap; split_ifs <;> omega]
  obtain ⟨t, ht, hti⟩ : ∃ t, t = m.w + i ∧ i = swap m.w t := ⟨m.w + i, rfl, by unfold swap; split_ifs <;> omega⟩
  rw [← ht, hti, ← op_swap_row m.h _ _ _ j _ (by omega), ← op_swap_col _ m.w _ _ _ t (by omega), ← op_transpose]
  rw [op_congr (mult' := mB (2 * m.h) (2 * m.w) wb) (fun k _ l _ => by unfold mB; rw [hwb]) (fun a ha b hb => by rw [middle_transp hwf b a hb ha]) j t]

/-! ### Sign -/

theorem middle_neg (g : GoodWindow (2 * m.h) (2 * m.w) wf) (i j : ℕ) :
    middle (doubleImage (negate m)) wf i j = -middle (doubleImage m) wf i j := by
  have hget : ∀ a b, (doubleImage (negate m)).get a b = -(doubleImage m).get a b := fun a b => by rw [double_get, double_get]; rfl
  have hconj : ∀ x : ℝ, exp (((-x : ℝ) : ℂ) * I) = (starRingEnd ℂ) (exp (x * I)) := by
    intro x
    rw [← exp_conj]; congr 1; simp
  have hconj2 : ∀ x : ℝ, exp (-I * ((-x : ℝ) : ℂ)) = (starRingEnd ℂ) (exp (-I * x)) := by
    intro x
    rw [← exp_conj]; congr 1; simp
  unfold middle
  rw [hget, hconj2, fwd_double, fwd_double]
  have : op (2 * m.h) (2 * m.w) (mF (2 * m.h) (2 * m.w) wf)
      (fun a b => exp ((doubleImage (negate m)).get a b * I)) i j = (starRingEnd ℂ) (op (2 * m.h) (2 * m.w)
      (mF (2 * m.h) (2 * m.w) wf) (fun a b => exp ((doubleImage m).get a b * I)) i j) := by
    unfold mF
    rw [← op_conj g.row g.col]
    exact op_congr (fun k _ l _ => rfl) (fun a ha b hb => by rw [hget, hconj]) i j
  show (op (2 * m.h) (2 * m.w) (mF (2 * m.h) (2 * m.w) wf) _ i j * _).im = _
  rw [this, ← map_mul, conj_im]

theorem core_neg (g : GoodWindow (2 * m.h) (2 * m.w) wf) : core (negate m) wf wb = negate (core m wf wb) := by
  unfold core negate
  dsimp only
  congr 1
  funext i j
  rw [bwd_double, bwd_double]
  show (op (2 * m.h) (2 * m.w) (mB (2 * m.h) (2 * m.w) wb) _ (m.h + i) j).re = -(op (2 * m.h) (2 * m.w) _ _ (m.h + i) j).re
  have := op_smul (2 * m.h) (2 * m.w) (mB (2 * m.h) (2 * m.w) wb) (-1)
    (fun p q => (middle (doubleImage m) wf p q : ℂ)) (m.h + i) j
  rw [op_congr (y := fun p q => -1 * (middle (doubleImage m) wf p q : ℂ)) (fun k _ l _ => rfl) (fun a ha b hb => by
    rw [show (doubleImage (⟨m.h, m.w, fun i j => -m.get i j⟩ : Mat ℝ)) = doubleImage (negate m) from rfl, middle_neg g]
    push_cast
    ring), this]
  simp

/-! ### Total -/

theorem middle_total (mat2 : Mat ℝ) (wf : ℕ → ℕ → ℝ) : ∑ i ∈ range mat2.h, ∑ j ∈ range mat2.w, middle mat2 wf i j = 0 := by
  have h := op_hermitian mat2.h mat2.w (fun k l => wf (ifftshiftIdx mat2.h k) (ifftshiftIdx mat2.w l)) (fun a b => exp (mat2.get a b * I))
  rw [← h, Complex.im_sum]
  refine sum_congr rfl fun i _ => ?_
  rw [Complex.im_sum]
  refine sum_congr rfl fun j _ => ?_
  unfold middle
  rw [forwardOp_op, ← exp_conj]
  congr 3
  simp
  ring

theorem sum_double (h : ℕ) (f : ℕ → ℝ) (hf : ∀ i < 2 * h, f (2 * h - 1 - i) = f i) : ∑ i ∈ range (2 * h), f i = 2 * ∑ i ∈ range h, f (h + i) := by
  rw [two_mul, sum_range_add, two_mul]
  congr 1
  rw [← Finset.sum_range_reflect]
  refine sum_congr rfl fun i hi => ?_
  have hi := mem_range.1 hi
  rw [← hf (h + i) (by omega)]
  congr 1
  omega

theorem sum_double' (w : ℕ) (f : ℕ → ℝ) (hf : ∀ i < 2 * w, f (2 * w - 1 - i) = f i) : ∑ i ∈ range (2 * w), f i = 2 * ∑ i ∈ range w, f i := by
  rw [sum_double w f hf]
  congr 1
  rw [← Finset.sum_range_reflect]
  refine sum_congr rfl fun i hi => ?_
  have hi := mem_range.1 hi
  rw [← hf i (by omega)]
  congr 1
  omega

theorem core_total (hh : 0 < m.h) (hw : 0 < m.w) (g : GoodWindow (2 * m.h) (2 * m.w) wf) (gb : GoodWindow (2 * m.h) (2 * m.w) wb) :
    total (core m wf wb) = 0 := by
  have hop := op_total (h := 2 * m.h) (w := 2 * m.w) (by omega) (by omega)
    (mB (2 * m.h) (2 * m.w) wb) (fun p q => (middle (doubleImage m) wf p q : ℂ))
  have hz : (∑ i ∈ range (2 * m.h), ∑ j ∈ range (2 * m.w), (middle (doubleImage m) wf i j : ℂ)) = 0 := by
    have := middle_total (doubleImage m) wf
    have h2 : ((∑ i ∈ range (2 * m.h), ∑ j ∈ range (2 * m.w), middle (doubleImage m) wf i j : ℝ) : ℂ) = ((0 : ℝ) : ℂ) := congrArg _ this
    push_cast at h2
    exact h2
  rw [hz, zero_mul] at hop
  have hre := congrArg Complex.re hop
  rw [Complex.re_sum, Complex.zero_re] at hre
  have h2 : ∑ i ∈ range (2 * m.h), ∑ j ∈ range (2 * m.w), unwrapDouble (doubleImage m) wf wb i j = 0 := by
    rw [← hre]
    refine sum_congr rfl fun i _ => ?_
    rw [Complex.re_sum]
    refine sum_congr rfl fun j _ => ?_
    rw [bwd_double]
  have h3 : ∑ i ∈ range (2 * m.h), ∑ j ∈ range (2 * m.w), unwrapDouble (doubleImage m) wf wb i j =
      2 * ∑ i ∈ range m.h, 2 * ∑ j ∈ range m.w, unwrapDouble (doubleImage m) wf wb (m.h + i) j := by
    rw [sum_double m.h _ (fun i hi => sum_congr rfl fun j hj => double_reflect_row g gb i j hi)]
    congr 1
    exact sum_congr rfl fun i _ => sum_double' m.w _ fun j hj => double_reflect_col g gb _ j hj
  rw [h2, ← Finset.mul_sum] at h3
  show ∑ i ∈ range m.h, ∑ j ∈ range m.w, unwrapDouble (doubleImage m) wf wb (m.h + i) j = 0
  linarith

end Verif.PhaseFft
