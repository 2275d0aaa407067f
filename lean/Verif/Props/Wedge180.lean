import Verif.Model.Wedge180
import Verif.Props.Fourier
import Verif.Props.Dfi
import Mathlib.Algebra.Order.Floor.Ring

/-!
C157: conversion of a 180-degree sinogram to 360 degrees, and `double_wedge_filter` for both types of sinograms.
-/

set_option linter.unusedSectionVars false
set_option linter.unusedSimpArgs false

namespace Verif.Wedge180
open Verif.Dfi Verif.Fourier

/-- The nearest column of the detector. -/
def nearest (w : ℕ) (t : ℤ) : ℕ := (min (max t 0) ((w : ℤ) - 1)).toNat

/-- The interpolation returns a constant for constant samples. -/
def KeepsConst (I : Spline) : Prop := ∀ (n : ℕ) (g : ℕ → ℝ) (c t : ℝ), (∀ k < n, g k = c) → 0 ≤ t → t ≤ (n : ℝ) - 1 → I.line n g t = c

theorem clip_int (w : ℕ) (hw : 0 < w) (t : ℤ) : clip (t : ℝ) 0 ((w : ℝ) - 1) = (nearest w t : ℝ) ∧ nearest w t < w := by
  refine ⟨?_, by unfold nearest; omega⟩
  have e : ((nearest w t : ℕ) : ℤ) = min (max t 0) ((w : ℤ) - 1) := by unfold nearest; omega
  have e' : ((nearest w t : ℕ) : ℝ) = ((min (max t 0) ((w : ℤ) - 1) : ℤ) : ℝ) := by rw [← e]; push_cast; rfl
  rw [e']
  unfold clip
  push_cast
  rfl

theorem shift_int (I : Spline) (hI : I.Exact) (m : Mat ℝ) (z : ℤ) (s : ℝ) (hs : s = (z : ℝ)) (i j : ℕ) (hj : j < m.w) :
    (shiftCols I s m).get i j = m.get i (nearest m.w ((j : ℤ) - z)) := by
  obtain ⟨e1, e2⟩ := clip_int m.w (by omega) ((j : ℤ) - z)
  show I.line m.w (m.get i) (clip ((j : ℝ) - s) 0 ((m.w : ℝ) - 1)) = _
  have e3 : ((j : ℝ) - s) = (((j : ℤ) - z : ℤ) : ℝ) := by rw [hs]; push_cast; rfl
  rw [e3, e1, hI.line m.w (m.get i) _ e2]

/-- **C157.** `2 n - 1` rows; the first `n` are those of the sinogram. -/
theorem to360_top (I : Spline) (center : ℝ) (m : Mat ℝ) :
    (to360 I center m).h = 2 * m.h - 1 ∧ (to360 I center m).w = m.w ∧ ∀ i < m.h, ∀ j, (to360 I center m).get i j = m.get i j := by
  refine ⟨by show m.h + (m.h - 1) = _; omega, rfl, fun i hi j => ?_⟩
  show (if i < m.h then _ else _) = _
  rw [if_pos hi]

/-- **C157.** If the middle of the detector is a whole number of pixels from the axis, row `n - 1 + i` is row `i` mirrored about the axis; beyond the detector the
outer column is repeated. -/
theorem to360_mirror (I : Spline) (hI : I.Exact) (center : ℝ) (m : Mat ℝ) (z : ℤ) (hz : ((m.w : ℝ) - 1) / 2 - center = z) (i : ℕ) (h0 : 0 < i) (hi : i < m.h)
    (j : ℕ) (hj : j < m.w) : (to360 I center m).get (m.h - 1 + i) j = m.get i (nearest m.w ((m.w : ℤ) - 1 - 2 * z - j)) := by
  show (if m.h - 1 + i < m.h then _ else _) = _
  rw [if_neg (by omega), show m.h - 1 + i - m.h + 1 = i by omega]
  unfold flipAbout
  dsimp only
  rw [hz]
  have e1 := shift_int I hI (shiftCols I (z : ℝ) m).fliplr (-z) (-(z : ℝ)) (by push_cast; rfl) i j hj
  rw [e1]
  have hn : nearest m.w ((j : ℤ) - -z) < m.w := (clip_int m.w (by omega) _).2
  show (shiftCols I (z : ℝ) m).get i (m.w - 1 - nearest m.w ((j : ℤ) - -z)) = _
  rw [shift_int I hI m z (z : ℝ) rfl i _ (by omega)]
  congr 1
  unfold nearest
  omega

/-- **C157.** An ideal scan of 180 degrees becomes one of 360 degrees: every column whose mirror image is on the detector holds what the detector sees from
the opposite side. -/
theorem to360_ideal (I : Spline) (hI : I.Exact) (center : ℝ) (m : Mat ℝ) (z : ℤ) (hz : ((m.w : ℝ) - 1) / 2 - center = z) (f : ℕ → ℝ → ℝ)
    (hf : ∀ i < m.h, ∀ j < m.w, m.get i j = f i ((j : ℝ) - center)) (i : ℕ) (h0 : 0 < i) (hi : i < m.h) (j : ℕ) (hj : j < m.w)
    (hm0 : 0 ≤ 2 * center - j) (hm1 : 2 * center - j ≤ (m.w : ℝ) - 1) : (to360 I center m).get (m.h - 1 + i) j = f i (-((j : ℝ) - center)) := by
  rw [to360_mirror I hI center m z hz i h0 hi j hj]
  have e : 2 * center - j = ((((m.w : ℤ) - 1 - 2 * z - j) : ℤ) : ℝ) := by
    push_cast
    linarith
  rw [e] at hm0 hm1
  have k0 : 0 ≤ (m.w : ℤ) - 1 - 2 * z - j := by exact_mod_cast hm0
  have k1 : (m.w : ℤ) - 1 - 2 * z - j ≤ (m.w : ℤ) - 1 := by
    have : ((((m.w : ℤ) - 1 - 2 * z - j) : ℤ) : ℝ) ≤ (((m.w : ℤ) - 1 : ℤ) : ℝ) := by push_cast at hm1 ⊢; exact hm1
    exact_mod_cast this
  have k2 : ((nearest m.w ((m.w : ℤ) - 1 - 2 * z - j) : ℕ) : ℤ) = (m.w : ℤ) - 1 - 2 * z - j := by unfold nearest; omega
  rw [hf i hi _ (clip_int m.w (by omega) _).2]
  congr 1
  have k3 : ((nearest m.w ((m.w : ℤ) - 1 - 2 * z - j) : ℕ) : ℝ) = 2 * center - j := by
    rw [e]
    exact_mod_cast k2
  rw [k3]
  ring

/-- **C157.** A constant sinogram stays constant, for every axis. -/
theorem to360_const (I : Spline) (hI : KeepsConst I) (center : ℝ) (m : Mat ℝ) (c : ℝ) (hc : ∀ i < m.h, ∀ j < m.w, m.get i j = c) :
    ∀ i < (to360 I center m).h, ∀ j < m.w, (to360 I center m).get i j = c := by
  intro i hi j hj
  have hi' : i < m.h + (m.h - 1) := hi
  have hb : (0 : ℝ) ≤ (m.w : ℝ) - 1 := by
    have : (1 : ℝ) ≤ m.w := by exact_mod_cast (by omega : 1 ≤ m.w)
    linarith
  show (if i < m.h then m.get i j else _) = c
  by_cases h : i < m.h
  · rw [if_pos h]
    exact hc i h j hj
  · rw [if_neg h]
    refine hI _ _ c _ (fun k hk => ?_) (clip_bounds _ _ _ hb).1 (clip_bounds _ _ _ hb).2
    have hk' : k < m.w := hk
    exact hI _ _ c _ (fun l hl => hc _ (by omega) l hl) (clip_bounds _ _ _ hb).1 (clip_bounds _ _ _ hb).2

/-! ### double_wedge_filter -/

theorem wedgeStep_shape (mask : ℕ → ℕ → ℝ) (pad : ℕ) (m : Mat ℝ) : (wedgeStep mask pad m).h = m.h ∧ (wedgeStep mask pad m).w = m.w := ⟨rfl, rfl⟩

theorem wedgeFilter_shape (m : Mat ℝ) (n : ℕ) (mask : Option (ℕ → ℕ → ℝ)) (ratio : ℝ) (pad : ℕ) :
    (wedgeFilter m n mask ratio pad).h = m.h ∧ (wedgeFilter m n mask ratio pad).w = m.w := by
  unfold wedgeFilter
  dsimp only
  induction n with
  | zero => exact ⟨rfl, rfl⟩
  | succ n ih =>
    rw [Function.iterate_succ_apply']
    exact ih

/-- **C157.** What is refused, with ValueError: any other type, a 180-degree sinogram without its axis, a mask of another shape than that of the padded sinogram
(of 360 degrees).  Nothing else is. -/
theorem wedge_errors (I : Spline) (m : Mat ℝ) (center : ℝ) (t : String) (n : ℕ) (mask : Option (Mat ℝ)) (ratio : ℝ) (pad : ℕ) :
    (∃ out, doubleWedge I m center t n mask ratio pad = .ok out) ∨ doubleWedge I m center t n mask ratio pad = .error .valueError ∧
      ((t ≠ "180" ∧ t ≠ "360") ∨ (t = "180" ∧ center = 0) ∨
        ∃ k, mask = some k ∧ ¬ (k.h = (if t = "180" then 2 * m.h - 1 else m.h) ∧ k.w = m.w + 2 * pad)) := by
  unfold doubleWedge
  by_cases h1 : ¬ (t = "180" ∨ t = "360")
  · rw [if_pos h1]
    exact Or.inr ⟨rfl, Or.inl (not_or.1 h1)⟩
  · rw [if_neg h1]
    by_cases h2 : t = "180" ∧ center = 0
    · rw [if_pos h2]
      exact Or.inr ⟨rfl, Or.inr (Or.inl h2)⟩
    · rw [if_neg h2]
      dsimp only
      by_cases h3 : BadMask (if t = "180" then to360 I center m else m) mask pad
      · rw [if_pos h3]
        obtain ⟨k, hk, h3⟩ := h3
        refine Or.inr ⟨rfl, Or.inr (Or.inr ⟨k, hk, ?_⟩)⟩
        rintro ⟨e1, e2⟩
        by_cases h : t = "180"
        · rw [if_pos h] at h3 e1
          have := to360_top I center m
          omega
        · rw [if_neg h] at h3 e1
          omega
      · rw [if_neg h3]
        exact Or.inl ⟨_, rfl⟩

/-- … and all of it is. -/
theorem wedge_refused (I : Spline) (m : Mat ℝ) (center : ℝ) (t : String) (n : ℕ) (mask : Option (Mat ℝ)) (ratio : ℝ) (pad : ℕ)
    (h : (t ≠ "180" ∧ t ≠ "360") ∨ (t = "180" ∧ center = 0) ∨
        ∃ k, mask = some k ∧ ¬ (k.h = (if t = "180" then 2 * m.h - 1 else m.h) ∧ k.w = m.w + 2 * pad)) :
    doubleWedge I m center t n mask ratio pad = .error .valueError := by
  unfold doubleWedge
  by_cases h1 : ¬ (t = "180" ∨ t = "360")
  · rw [if_pos h1]
  · rw [if_neg h1]
    by_cases h2 : t = "180" ∧ center = 0
    · rw [if_pos h2]
    · rw [if_neg h2]
      dsimp only
      rw [if_pos]
      rcases h with h | h | ⟨k, hk, h⟩
      · exact absurd (not_or.2 h) h1
      · exact absurd h h2
      · refine ⟨k, hk, ?_⟩
        by_contra hcon
        refine h ?_
        by_cases h : t = "180"
        · rw [if_pos h] at hcon ⊢
          have := to360_top I center m
          omega
        · rw [if_neg h] at hcon ⊢
          omega

/-- The result of a call that is not refused. -/
theorem wedge_result (I : Spline) (m : Mat ℝ) (center : ℝ) (t : String) (n : ℕ) (mask : Option (Mat ℝ)) (ratio : ℝ) (pad : ℕ) (out : Mat ℝ)
    (h : doubleWedge I m center t n mask ratio pad = .ok out) :
    (t = "180" ∧ center ≠ 0 ∧ out = ⟨m.h, m.w, (wedgeFilter (to360 I center m) n (mask.map Mat.get) ratio pad).get⟩ ∧
      ∀ k, mask = some k → k.h = 2 * m.h - 1 ∧ k.w = m.w + 2 * pad) ∨
    (t = "360" ∧ out = wedgeFilter m n (mask.map Mat.get) ratio pad ∧ ∀ k, mask = some k → k.h = m.h ∧ k.w = m.w + 2 * pad) := by
  have href : ¬ ((t ≠ "180" ∧ t ≠ "360") ∨ (t = "180" ∧ center = 0) ∨
        ∃ k, mask = some k ∧ ¬ (k.h = (if t = "180" then 2 * m.h - 1 else m.h) ∧ k.w = m.w + 2 * pad)) := by
    intro hr
    rw [wedge_refused I m center t n mask ratio pad hr] at h
    cases h
  have hk : ∀ k, mask = some k → k.h = (if t = "180" then 2 * m.h - 1 else m.h) ∧ k.w = m.w + 2 * pad := by
    intro k e
    by_contra hcon
    exact href (Or.inr (Or.inr ⟨k, e, hcon⟩))
  have h1 : t = "180" ∨ t = "360" := by
    by_contra hcon
    exact href (Or.inl (not_or.1 hcon))
  have h2 : ¬ (t = "180" ∧ center = 0) := fun hcon => href (Or.inr (Or.inl hcon))
  unfold doubleWedge at h
  rw [if_neg (not_not.2 h1), if_neg h2] at h
  dsimp only at h
  by_cases h3 : BadMask (if t = "180" then to360 I center m else m) mask pad
  · rw [if_pos h3] at h
    cases h
  · rw [if_neg h3] at h
    have h' := Except.ok.inj h
    rcases h1 with h1 | h1
    · left
      refine ⟨h1, fun hc => h2 ⟨h1, hc⟩, ?_, fun k e => by have := hk k e; rw [if_pos h1] at this; exact this⟩
      rw [← h', if_pos h1, if_pos h1]
      obtain ⟨e1, e2⟩ := wedgeFilter_shape (to360 I center m) n (mask.map Mat.get) ratio pad
      have e3 := to360_top I center m
      congr 1
      rw [e1]; omega
    · have hne : t ≠ "180" := by rw [h1]; decide
      right
      refine ⟨h1, ?_, fun k e => by have := hk k e; rw [if_neg hne] at this; exact this⟩
      rw [← h', if_neg hne, if_neg hne]

/-- **C157.** The shape is kept; a mask of ones returns the sinogram, whatever the axis, the type and the number of iterations. -/
theorem wedge_ones (I : Spline) (m : Mat ℝ) (center : ℝ) (t : String) (n : ℕ) (mask : Option (Mat ℝ)) (ratio : ℝ) (pad : ℕ) (out : Mat ℝ)
    (h : doubleWedge I m center t n mask ratio pad = .ok out) :
    out.h = m.h ∧ out.w = m.w ∧ ((∃ k, mask = some k ∧ ∀ i < k.h, ∀ j < k.w, k.get i j = 1) → out.Eqv m) := by
  rcases wedge_result I m center t n mask ratio pad out h with ⟨-, -, rfl, hk⟩ | ⟨-, rfl, hk⟩
  · refine ⟨rfl, rfl, ?_⟩
    rintro ⟨k, rfl, h1⟩
    obtain ⟨k1, k2⟩ := hk k rfl
    obtain ⟨t1, t2, t3⟩ := to360_top I center m
    have := (wedge_filter_keeps n ratio pad (to360 I center m)).1 k.get (fun i hi j hj => h1 i (by omega) j (by rw [t2] at hj; omega))
    refine ⟨rfl, rfl, fun i hi j hj => ?_⟩
    have hi' : i < m.h := hi
    obtain ⟨f1, f2⟩ := wedgeFilter_shape (to360 I center m) n (some k.get) ratio pad
    exact (this.2.2 i (by omega) j (by rw [f2, t2]; exact hj)).trans (t3 i hi' j)
  · obtain ⟨f1, f2⟩ := wedgeFilter_shape m n (mask.map Mat.get) ratio pad
    refine ⟨f1, f2, ?_⟩
    rintro ⟨k, rfl, h1⟩
    obtain ⟨k1, k2⟩ := hk k rfl
    exact (wedge_filter_keeps n ratio pad m).1 k.get fun i hi j hj => h1 i (by omega) j (by omega)

/-- **C157.** Without a mask constant sinograms are kept. -/
theorem wedge_const (I : Spline) (hI : KeepsConst I) (m : Mat ℝ) (center : ℝ) (t : String) (n : ℕ) (ratio : ℝ) (pad : ℕ) (out : Mat ℝ)
    (h : doubleWedge I m center t n none ratio pad = .ok out) (c : ℝ) (hc : ∀ i < m.h, ∀ j < m.w, m.get i j = c) : out.Eqv m := by
  rcases wedge_result I m center t n none ratio pad out h with ⟨-, -, rfl, -⟩ | ⟨-, rfl, -⟩
  · obtain ⟨t1, t2, t3⟩ := to360_top I center m
    have := (wedge_filter_keeps n ratio pad (to360 I center m)).2 c (fun i hi j hj => to360_const I hI center m c hc i hi j (t2 ▸ hj))
    refine ⟨rfl, rfl, fun i hi j hj => ?_⟩
    have hi' : i < m.h := hi
    obtain ⟨f1, f2⟩ := wedgeFilter_shape (to360 I center m) n none ratio pad
    exact (this.2.2 i (by show i < (wedgeFilter (to360 I center m) n none ratio pad).h; omega) j
      (by show j < (wedgeFilter (to360 I center m) n none ratio pad).w; rw [f2, t2]; exact hj)).trans (t3 i hi' j)
  · exact (wedge_filter_keeps n ratio pad m).2 c hc

/-- `α x + β y`. -/
def comb (α β : ℝ) (x y : Mat ℝ) : Mat ℝ := ⟨x.h, x.w, fun i j => α * x.get i j + β * y.get i j⟩

theorem wedgeStep_linear (mask : ℕ → ℕ → ℝ) (pad : ℕ) (x y : Mat ℝ) (hh : y.h = x.h) (hw : y.w = x.w) (α β : ℝ) :
    wedgeStep mask pad (comb α β x y) = comb α β (wedgeStep mask pad x) (wedgeStep mask pad y) := by
  rw [wedgeStep_eq, wedgeStep_eq, wedgeStep_eq]
  have e : ∀ i j, (filter2 (padEdge (comb α β x y) 0 pad) fun k l => ((mask (ifftshiftIdx (x.h + 2 * 0) k) (ifftshiftIdx (x.w + 2 * pad) l) : ℝ) : ℂ)).get (0 + i) (pad + j) =
      α * (filter2 (padEdge x 0 pad) fun k l => ((mask (ifftshiftIdx (x.h + 2 * 0) k) (ifftshiftIdx (x.w + 2 * pad) l) : ℝ) : ℂ)).get (0 + i) (pad + j) +
      β * (filter2 (padEdge y 0 pad) fun k l => ((mask (ifftshiftIdx (x.h + 2 * 0) k) (ifftshiftIdx (x.w + 2 * pad) l) : ℝ) : ℂ)).get (0 + i) (pad + j) := by
    intro i j
    have e0 : padEdge (comb α β x y) 0 pad = ⟨(padEdge x 0 pad).h, (padEdge x 0 pad).w, fun i j => α * (padEdge x 0 pad).get i j + β * (padEdge y 0 pad).get i j⟩ := by
      unfold padEdge comb
      dsimp only
      rw [hh, hw]
    rw [e0]
    exact filter2_linear (padEdge x 0 pad) (padEdge y 0 pad) (by show y.h + 2 * 0 = x.h + 2 * 0; rw [hh]) (by show y.w + 2 * pad = x.w + 2 * pad; rw [hw]) α β
      (fun k l => ((mask (ifftshiftIdx (x.h + 2 * 0) k) (ifftshiftIdx (x.w + 2 * pad) l) : ℝ) : ℂ)) (0 + i) (pad + j)
  rw [hh, hw]
  unfold crop
  show (⟨x.h, x.w, fun i j => _⟩ : Mat ℝ) = ⟨x.h, x.w, fun i j => _⟩
  congr 1
  funext i j
  exact e i j

theorem wedgeFilter_linear (x y : Mat ℝ) (hh : y.h = x.h) (hw : y.w = x.w) (α β : ℝ) (n : ℕ) (mask : Option (ℕ → ℕ → ℝ)) (ratio : ℝ) (pad : ℕ) :
    wedgeFilter (comb α β x y) n mask ratio pad = comb α β (wedgeFilter x n mask ratio pad) (wedgeFilter y n mask ratio pad) := by
  unfold wedgeFilter
  dsimp only
  rw [show (comb α β x y).h = x.h from rfl, show (comb α β x y).w = x.w from rfl, hh, hw]
  generalize mask.getD (wedgeMask x.h (x.w + 2 * pad) (ratio * x.w / 2)) = mk
  have key : ∀ n, (wedgeStep mk pad)^[n] (comb α β x y) = comb α β ((wedgeStep mk pad)^[n] x) ((wedgeStep mk pad)^[n] y) ∧
      ((wedgeStep mk pad)^[n] y).h = ((wedgeStep mk pad)^[n] x).h ∧ ((wedgeStep mk pad)^[n] y).w = ((wedgeStep mk pad)^[n] x).w := by
    intro n
    induction n with
    | zero => exact ⟨rfl, hh, hw⟩
    | succ n ih =>
      rw [Function.iterate_succ_apply', Function.iterate_succ_apply', Function.iterate_succ_apply', ih.1]
      exact ⟨wedgeStep_linear mk pad _ _ ih.2.1 ih.2.2 α β, ih.2.1, ih.2.2⟩
  exact (key n).1

theorem shift_linear (I : Spline) (hI : I.Linear) (s : ℝ) (x y : Mat ℝ) (hw : y.w = x.w) (α β : ℝ) (i j : ℕ) :
    (shiftCols I s (comb α β x y)).get i j = α * (shiftCols I s x).get i j + β * (shiftCols I s y).get i j := by
  show I.line x.w (fun k => α * x.get i k + β * y.get i k) _ = α * I.line x.w _ _ + β * I.line y.w _ (clip _ 0 ((y.w : ℝ) - 1))
  rw [hw]
  exact hI.line _ _ _ _ _ _

theorem to360_linear (I : Spline) (hI : I.Linear) (center : ℝ) (x y : Mat ℝ) (hh : y.h = x.h) (hw : y.w = x.w) (α β : ℝ) :
    to360 I center (comb α β x y) = comb α β (to360 I center x) (to360 I center y) := by
  unfold to360
  rw [show (comb α β x y).h = x.h from rfl, show (comb α β x y).w = x.w from rfl, hh]
  unfold comb
  dsimp only
  congr 1
  funext i j
  by_cases h : i < x.h
  · rw [if_pos h, if_pos h, if_pos h]
  · rw [if_neg h, if_neg h, if_neg h]
    unfold flipAbout
    dsimp only
    rw [hw]
    generalize ((x.w : ℝ) - 1) / 2 - center = s
    have e : (shiftCols I s (comb α β x y)).fliplr = comb α β (shiftCols I s x).fliplr (shiftCols I s y).fliplr := by
      show (⟨x.h, x.w, fun i j => (shiftCols I s (comb α β x y)).get i (x.w - 1 - j)⟩ : Mat ℝ) = ⟨x.h, x.w, fun i j => α * (shiftCols I s x).get i (x.w - 1 - j) +
        β * (shiftCols I s y).get i (y.w - 1 - j)⟩
      congr 1
      funext i j
      rw [shift_linear I hI s x y hw α β, hw]
    show (shiftCols I (-s) (shiftCols I s (comb α β x y)).fliplr).get _ j = _
    rw [e]
    exact shift_linear I hI (-s) (shiftCols I s x).fliplr (shiftCols I s y).fliplr hw α β _ j

/-- **C157.** The filter is linear, for both types of sinograms. -/
theorem wedge_linear (I : Spline) (hI : I.Linear) (x y : Mat ℝ) (hh : y.h = x.h) (hw : y.w = x.w) (α β center : ℝ) (t : String) (n : ℕ) (mask : Option (Mat ℝ))
    (ratio : ℝ) (pad : ℕ) (a b c : Mat ℝ) (ha : doubleWedge I x center t n mask ratio pad = .ok a) (hb : doubleWedge I y center t n mask ratio pad = .ok b)
    (hc : doubleWedge I (comb α β x y) center t n mask ratio pad = .ok c) : c = comb α β a b := by
  have ne : ("180" : String) ≠ "360" := by decide
  rcases wedge_result I x center t n mask ratio pad a ha with ⟨t1, -, rfl, -⟩ | ⟨t1, rfl, -⟩ <;>
    rcases wedge_result I y center t n mask ratio pad b hb with ⟨t2, -, rfl, -⟩ | ⟨t2, rfl, -⟩ <;>
    rcases wedge_result I _ center t n mask ratio pad c hc with ⟨t3, -, rfl, -⟩ | ⟨t3, rfl, -⟩
  all_goals try (first | exact absurd (t1.symm.trans t2) ne | exact absurd (t2.symm.trans t1) ne | exact absurd (t1.symm.trans t3) ne | exact absurd (t3.symm.trans t1) ne)
  · rw [to360_linear I hI center x y hh hw α β, wedgeFilter_linear (to360 I center x) (to360 I center y) (by show y.h + (y.h - 1) = x.h + (x.h - 1); rw [hh]) hw α β]
    rfl
  · exact wedgeFilter_linear x y hh hw α β n _ ratio pad

/-- **C157.** The 180-degree filter is the 360-degree filter of the converted sinogram, cut to the rows of the sinogram. -/
theorem wedge_180 (I : Spline) (m : Mat ℝ) (center : ℝ) (hc : center ≠ 0) (n : ℕ) (mask : Option (Mat ℝ)) (ratio : ℝ) (pad : ℕ) (out full : Mat ℝ)
    (h : doubleWedge I m center "180" n mask ratio pad = .ok out) (c : ℝ) (hf : doubleWedge I (to360 I center m) c "360" n mask ratio pad = .ok full) :
    out.h = m.h ∧ out.w = m.w ∧ out.get = full.get := by
  rcases wedge_result I m center "180" n mask ratio pad out h with ⟨-, -, rfl, -⟩ | ⟨t1, -, -⟩
  · rcases wedge_result I _ c "360" n mask ratio pad full hf with ⟨t1, -, -, -⟩ | ⟨-, rfl, -⟩
    · exact absurd t1 (by decide)
    · exact ⟨rfl, rfl, rfl⟩
  · exact absurd t1 (by decide)

/-! ### non-vacuity -/

theorem leftSample_const : KeepsConst leftSample := by
  intro n g c t hg h0 h1
  show g ⌊t⌋₊ = c
  refine hg _ ?_
  rw [Nat.floor_lt h0]
  linarith

/-- Two rows of four columns. -/
def exM : Mat ℝ := ⟨2, 4, fun i j => ((10 * i + j : ℕ) : ℝ)⟩

/-- About column 0.5 (a whole pixel from the middle 1.5): the mirror of column 0 is column 1. -/
example : (to360 leftSample (1 / 2) exM).h = 3 ∧ (to360 leftSample (1 / 2) exM).get 2 0 = 11 ∧ (to360 leftSample (1 / 2) exM).get 2 3 = 10 := by
  have key : ∀ j < 4, (to360 leftSample (1 / 2) exM).get 2 j = exM.get 1 (nearest 4 (4 - 1 - 2 * 1 - (j : ℤ))) := by
    intro j hj
    exact to360_mirror leftSample leftSample_exact (1 / 2) exM 1 (by show (((4 : ℕ) : ℝ) - 1) / 2 - 1 / 2 = ((1 : ℤ) : ℝ); norm_num) 1 (by decide) (by decide) j hj
  refine ⟨rfl, ?_, ?_⟩
  · rw [key 0 (by decide)]
    show ((10 * 1 + nearest 4 (4 - 1 - 2 * 1 - ((0 : ℕ) : ℤ)) : ℕ) : ℝ) = 11
    rw [show nearest 4 (4 - 1 - 2 * 1 - ((0 : ℕ) : ℤ)) = 1 by decide]
    norm_num
  · rw [key 3 (by decide)]
    show ((10 * 1 + nearest 4 (4 - 1 - 2 * 1 - ((3 : ℕ) : ℤ)) : ℕ) : ℝ) = 10
    rw [show nearest 4 (4 - 1 - 2 * 1 - ((3 : ℕ) : ℤ)) = 0 by decide]
    norm_num

example : ∃ out, doubleWedge leftSample exM (1 / 2) "180" 5 (some ⟨3, 10, fun _ _ => 1⟩) 1 3 = .ok out ∧ out.Eqv exM := by
  rcases wedge_errors leftSample exM (1 / 2) "180" 5 (some ⟨3, 10, fun _ _ => 1⟩) 1 3 with ⟨out, h⟩ | ⟨-, h⟩
  · exact ⟨out, h, (wedge_ones leftSample exM (1 / 2) "180" 5 _ 1 3 out h).2.2 ⟨_, rfl, fun _ _ _ _ => rfl⟩⟩
  · rcases h with h | h | ⟨k, hk, h⟩
    · exact absurd rfl h.1
    · exact absurd h.2 (by norm_num)
    · cases hk
      exact absurd ⟨rfl, rfl⟩ h

end Verif.Wedge180
