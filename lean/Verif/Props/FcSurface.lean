import Verif.Model.PhaseFft
import Verif.Lemmas.FreqOp2
import Verif.Props.PhaseFft
import Verif.Props.Surface

/-!
C115: `reconstruct_surface_from_gradient_FC_method` (phase.py:329-388).
-/

set_option linter.unusedSectionVars false
set_option linter.unusedSimpArgs false

namespace Verif.PhaseFft
open Complex Finset Verif.Fourier Verif.Phase

/-! ### Arguments, shape, sign -/

/-- The surface before the correction of negative values, for given windows. -/
noncomputable def fcCore (gx gy : Mat ℝ) (u v win : ℕ → ℕ → ℝ) : Mat ℝ :=
  ⟨gx.h, gx.w, fun i j => fcSurface2 (doubleImage gx) (doubleImage gy) u v win (gx.h + i) j⟩

/-- The surface with the default window, before the correction of negative values. -/
noncomputable def fcPlain (gx gy : Mat ℝ) : Mat ℝ :=
  fcCore gx gy (fcU (2 * gx.h) (2 * gx.w)) (fcV (2 * gx.h) (2 * gx.w)) (fcWin (2 * gx.h) (2 * gx.w))

theorem surfaceFC_eq (gx gy : Mat ℝ) (neg : Bool) (window : FcWindow) (hh : gx.h = gy.h) (hw : gx.w = gy.w) :
    surfaceFC gx gy neg window = (window.resolve (2 * gx.h) (2 * gx.w)).bind fun t => .ok (correctNeg neg (fcCore gx gy t.1 t.2.1 t.2.2)) := by
  unfold surfaceFC
  rw [if_neg (by simp [hh, hw])]
  rfl

theorem surfaceFC_default (gx gy : Mat ℝ) (neg : Bool) (hh : gx.h = gy.h) (hw : gx.w = gy.w) :
    surfaceFC gx gy neg .default = .ok (correctNeg neg (fcPlain gx gy)) := by
  rw [surfaceFC_eq gx gy neg _ hh hw]; rfl

theorem correctNeg_size (neg : Bool) (m : Mat ℝ) : (correctNeg neg m).h = m.h ∧ (correctNeg neg m).w = m.w := by
  classical
  unfold correctNeg
  split_ifs <;> exact ⟨rfl, rfl⟩

theorem correctNeg_false (m : Mat ℝ) : correctNeg false m = m := by
  classical
  unfold correctNeg
  rw [if_neg (by simp)]

/-- The correction adds one non-negative constant and leaves no negative value. -/
theorem correctNeg_spec (neg : Bool) (m : Mat ℝ) : (∃ c : ℝ, 0 ≤ c ∧ ∀ i j, (correctNeg neg m).get i j = m.get i j + c) ∧
    (neg = true → ∀ i < m.h, ∀ j < m.w, 0 ≤ (correctNeg neg m).get i j) := by
  classical
  unfold correctNeg
  by_cases h : neg = true ∧ Surface.matMin m < 0
  · rw [if_pos h]
    refine ⟨⟨-2 * Surface.matMin m, by linarith [h.2], fun i j => by dsimp only; ring⟩, fun _ i hi j hj => ?_⟩
    have := Surface.matMin_le m i j hi hj
    dsimp only
    linarith [h.2]
  · rw [if_neg h]
    refine ⟨⟨0, le_refl _, fun i j => (add_zero _).symm⟩, fun hn i hi j hj => ?_⟩
    have := Surface.matMin_le m i j hi hj
    have h2 : ¬ Surface.matMin m < 0 := fun hc => h ⟨hn, hc⟩
    linarith

/-- What the caller may pass as the window of an `h x w` image. -/
def WindowOk (h w : ℕ) : FcWindow → Prop
  | .default => True
  | .notList => False
  | .wrongLength => False
  | .given _ _ win => win.h = 2 * h ∧ win.w = 2 * w

/-- **C115.** There is a surface exactly when the gradients have one shape and the window is three arrays of twice that shape (or not given); every
other call is a value error.  The surface has the shape of the gradients, and no negative height if the correction is on. -/
theorem fc_surface_spec (gx gy : Mat ℝ) (neg : Bool) (window : FcWindow) :
    ((gx.h = gy.h ∧ gx.w = gy.w ∧ WindowOk gx.h gx.w window) → ∃ out, surfaceFC gx gy neg window = .ok out ∧ out.h = gx.h ∧ out.w = gx.w ∧
      (neg = true → ∀ i < gx.h, ∀ j < gx.w, 0 ≤ out.get i j)) ∧
    (¬ (gx.h = gy.h ∧ gx.w = gy.w ∧ WindowOk gx.h gx.w window) → surfaceFC gx gy neg window = .error .valueError) := by
  constructor
  · rintro ⟨hh, hw, ho⟩
    rw [surfaceFC_eq gx gy neg window hh hw]
    have hr : ∃ t, window.resolve (2 * gx.h) (2 * gx.w) = .ok t := by
      cases window with
      | default => exact ⟨_, rfl⟩
      | notList => exact ho.elim
      | wrongLength => exact ho.elim
      | given u v win => exact ⟨_, if_pos ho⟩
    obtain ⟨t, ht⟩ := hr
    rw [ht]
    exact ⟨_, rfl, (correctNeg_size _ _).1, (correctNeg_size _ _).2, (correctNeg_spec neg (fcCore gx gy t.1 t.2.1 t.2.2)).2⟩
  · intro hn
    by_cases hs : gx.h = gy.h ∧ gx.w = gy.w
    · rw [surfaceFC_eq gx gy neg window hs.1 hs.2]
      have hr : window.resolve (2 * gx.h) (2 * gx.w) = .error .valueError := by
        cases window with
        | default => exact absurd ⟨hs.1, hs.2, trivial⟩ hn
        | notList => rfl
        | wrongLength => rfl
        | given u v win => exact if_neg fun h => hn ⟨hs.1, hs.2, h⟩
      rw [hr]; rfl
    · unfold surfaceFC
      rw [if_pos (by by_contra hc; push Not at hc; exact hs hc)]

/-- **C115.** Turning the correction on raises the whole surface by one constant. -/
theorem fc_correction (gx gy : Mat ℝ) (window : FcWindow) {a b : Mat ℝ} (ha : surfaceFC gx gy false window = .ok a)
    (hb : surfaceFC gx gy true window = .ok b) : ∃ c : ℝ, 0 ≤ c ∧ ∀ i j, b.get i j = a.get i j + c := by
  by_cases hs : gx.h = gy.h ∧ gx.w = gy.w
  · rw [surfaceFC_eq gx gy _ window hs.1 hs.2] at ha hb
    cases hr : window.resolve (2 * gx.h) (2 * gx.w) with
    | error e => rw [hr] at ha; exact nomatch ha
    | ok t =>
      rw [hr] at ha hb
      obtain rfl : correctNeg false (fcCore gx gy t.1 t.2.1 t.2.2) = a := Except.ok.inj ha
      obtain rfl : correctNeg true (fcCore gx gy t.1 t.2.1 t.2.2) = b := Except.ok.inj hb
      rw [correctNeg_false]
      exact (correctNeg_spec true _).1
  · rw [(fc_surface_spec gx gy false window).2 (fun h => hs ⟨h.1, h.2.1⟩)] at ha
    exact nomatch ha

/-! ### The surface as an operator on the gradients -/

/-- Multipliers of the two gradients. -/
noncomputable def mG (h2 w2 : ℕ) (u win : ℕ → ℕ → ℝ) (k l : ℕ) : ℂ :=
  -I * ((u (ifftshiftIdx h2 k) (ifftshiftIdx w2 l) : ℝ) : ℂ) * ((win (ifftshiftIdx h2 k) (ifftshiftIdx w2 l) : ℝ) : ℂ)

/-- A doubled image as a complex function. -/
noncomputable def dbl (g : Mat ℝ) (p q : ℕ) : ℂ := ((doubleImage g).get p q : ℂ)

theorem idft2_add' (h w : ℕ) (x y : ℕ → ℕ → ℂ) (k l : ℕ) : idft2 h w (fun i j => x i j + y i j) k l = idft2 h w x k l + idft2 h w y k l := by
  unfold idft2 idft
  simp only [add_mul, Finset.sum_add_distrib, add_div]

theorem fcCore_get {gx gy : Mat ℝ} (hh : gy.h = gx.h) (hw : gy.w = gx.w) (u v win : ℕ → ℕ → ℝ) (i j : ℕ) : (fcCore gx gy u v win).get i j =
    (1 / 2 / Real.pi) * (op (2 * gx.h) (2 * gx.w) (mG (2 * gx.h) (2 * gx.w) u win) (dbl gx) (gx.h + i) j +
      op (2 * gx.h) (2 * gx.w) (mG (2 * gx.h) (2 * gx.w) v win) (dbl gy) (gx.h + i) j).re := by
  show fcSurface2 _ _ u v win (gx.h + i) j = _
  unfold fcSurface2
  congr 2
  unfold op
  rw [← idft2_add']
  show idft2 (2 * gx.h) (2 * gx.w) _ _ _ = _
  refine idft2_congr _ _ _ _ _ _ fun k hk l hl => ?_
  show (-I * _ * dft2 (2 * gx.h) (2 * gx.w) (dbl gx) k l + -I * _ * dft2 (2 * gx.h) (2 * gx.w) (dbl gy) k l) * _ = _
  rw [show (doubleImage gx).h = 2 * gx.h from rfl, show (doubleImage gx).w = 2 * gx.w from rfl]
  unfold mG
  ring

/-! ### Linearity -/

/-- `s a + t b`, an image of the size of `a`. -/
def comb (s t : ℝ) (a b : Mat ℝ) : Mat ℝ := ⟨a.h, a.w, fun i j => s * a.get i j + t * b.get i j⟩

theorem dbl_comb (s t : ℝ) {a b : Mat ℝ} (hh : b.h = a.h) (hw : b.w = a.w) (p q : ℕ) :
    dbl (comb s t a b) p q = (s : ℂ) * dbl a p q + (t : ℂ) * dbl b p q := by
  unfold dbl
  rw [double_get, double_get, double_get, hh, hw]
  show ((s * a.get (rowOf a.h p) (colOf a.w q) + t * b.get (rowOf a.h p) (colOf a.w q) : ℝ) : ℂ) = _
  push_cast
  rfl

theorem op_comb (h w : ℕ) (mult : ℕ → ℕ → ℂ) (s t : ℂ) (x y : ℕ → ℕ → ℂ) (i j : ℕ) :
    op h w mult (fun p q => s * x p q + t * y p q) i j = s * op h w mult x i j + t * op h w mult y i j := by
  rw [op_add, op_smul, op_smul]

theorem fcCore_comb (s t : ℝ) {gx gy hx hy : Mat ℝ} (h1 : gy.h = gx.h ∧ gy.w = gx.w) (h2 : hx.h = gx.h ∧ hx.w = gx.w) (h3 : hy.h = gx.h ∧ hy.w = gx.w)
    (u v win : ℕ → ℕ → ℝ) (i j : ℕ) :
    (fcCore (comb s t gx hx) (comb s t gy hy) u v win).get i j = s * (fcCore gx gy u v win).get i j + t * (fcCore hx hy u v win).get i j := by
  have e1 : ∀ mult : ℕ → ℕ → ℂ, ∀ i j, op (2 * gx.h) (2 * gx.w) mult (dbl (comb s t gx hx)) i j =
      s * op (2 * gx.h) (2 * gx.w) mult (dbl gx) i j + t * op (2 * gx.h) (2 * gx.w) mult (dbl hx) i j := by
    intro mult i j
    rw [← op_comb]
    exact op_congr (fun _ _ _ _ => rfl) (fun p _ q _ => dbl_comb s t h2.1 h2.2 p q) i j
  have e2 : ∀ mult : ℕ → ℕ → ℂ, ∀ i j, op (2 * gx.h) (2 * gx.w) mult (dbl (comb s t gy hy)) i j =
      s * op (2 * gx.h) (2 * gx.w) mult (dbl gy) i j + t * op (2 * gx.h) (2 * gx.w) mult (dbl hy) i j := by
    intro mult i j
    rw [← op_comb]
    exact op_congr (fun _ _ _ _ => rfl) (fun p _ q _ => dbl_comb s t (h3.1.trans h1.1.symm) (h3.2.trans h1.2.symm) p q) i j
  rw [fcCore_get (gx := comb s t gx hx) (gy := comb s t gy hy) h1.1 h1.2, fcCore_get h1.1 h1.2, fcCore_get (h3.1.trans h2.1.symm) (h3.2.trans h2.2.symm)]
  show (1 / 2 / Real.pi) * (op (2 * gx.h) (2 * gx.w) (mG (2 * gx.h) (2 * gx.w) u win) (dbl (comb s t gx hx)) (gx.h + i) j +
      op (2 * gx.h) (2 * gx.w) (mG (2 * gx.h) (2 * gx.w) v win) (dbl (comb s t gy hy)) (gx.h + i) j).re = _
  rw [e1, e2, h2.1, h2.2]
  simp only [add_re, re_ofReal_mul]
  ring

/-- **C115.** Without the correction the surface is linear in the gradients, for every window. -/
theorem fc_linear (s t : ℝ) {gx gy hx hy a b : Mat ℝ} (window : FcWindow) (h2 : hx.h = gx.h ∧ hx.w = gx.w)
    (ha : surfaceFC gx gy false window = .ok a) (hb : surfaceFC hx hy false window = .ok b) :
    surfaceFC (comb s t gx hx) (comb s t gy hy) false window = .ok (comb s t a b) := by
  have s1 : gx.h = gy.h ∧ gx.w = gy.w ∧ WindowOk gx.h gx.w window := by
    by_contra hc
    rw [(fc_surface_spec gx gy false window).2 hc] at ha
    exact nomatch ha
  have s2 : hx.h = hy.h ∧ hx.w = hy.w ∧ WindowOk hx.h hx.w window := by
    by_contra hc
    rw [(fc_surface_spec hx hy false window).2 hc] at hb
    exact nomatch hb
  rw [surfaceFC_eq _ _ _ _ s1.1 s1.2.1] at ha
  rw [surfaceFC_eq _ _ _ _ s2.1 s2.2.1, h2.1, h2.2] at hb
  rw [surfaceFC_eq (comb s t gx hx) (comb s t gy hy) _ _ s1.1 s1.2.1]
  show ((window.resolve (2 * gx.h) (2 * gx.w)).bind _) = _
  cases hr : window.resolve (2 * gx.h) (2 * gx.w) with
  | error e => rw [hr] at ha; exact nomatch ha
  | ok w =>
    rw [hr] at ha hb
    obtain rfl : correctNeg false (fcCore gx gy w.1 w.2.1 w.2.2) = a := Except.ok.inj ha
    obtain rfl : correctNeg false (fcCore hx hy w.1 w.2.1 w.2.2) = b := Except.ok.inj hb
    show Except.ok (correctNeg false _) = _
    rw [correctNeg_false, correctNeg_false, correctNeg_false]
    congr 1
    unfold comb
    refine Mat.mk.injEq .. ▸ ⟨rfl, rfl, ?_⟩
    funext i j
    exact fcCore_comb s t ⟨s1.1.symm, s1.2.1.symm⟩ h2 ⟨(s2.1.symm.trans h2.1), (s2.2.1.symm.trans h2.2)⟩ _ _ _ i j

end Verif.PhaseFft
