import Verif.Props.Dfi3
import Verif.Props.Recon2

/-! C109 — padding, logarithm and mask of the direct Fourier reconstruction. -/

set_option linter.unusedSectionVars false
set_option linter.unusedSimpArgs false

namespace Verif.Dfi
open Verif.Fourier Verif.Recon Verif.Simulation

theorem spectrum_congr (m n : Mat ℝ) (f : Filter) (hh : n.h = m.h) (hw : n.w = m.w) (h : ∀ i, ∀ j < m.w, n.get i j = m.get i j) (hp : 0 < m.w) :
    spectrum n f = spectrum m f := by
  unfold spectrum
  rw [hh, hw]
  congr 1
  funext i l
  congr 1
  unfold dft
  refine Finset.sum_congr rfl fun j hj => ?_
  dsimp only
  rw [h i _ (by unfold ifftshiftIdx; exact Nat.mod_lt _ hp)]

theorem singleSlice_congr (I : Spline) (m n : Mat ℝ) (f : Filter) (hh : n.h = m.h) (hw : n.w = m.w)
    (h : ∀ i, ∀ j < m.w, n.get i j = m.get i j) (hp : 0 < m.w) : singleSlice I n f = singleSlice I m f := by
  unfold singleSlice
  rw [spectrum_congr m n f hh hw h hp, hw]

/-- The factor that the mask puts on pixel `(y, x)`: none for `ratio=None`; for `ratio=0` the circle whose radius is the distance of the axis
from the nearer edge (scaled by `2 (n//2) / n`, which is 1 for an even width); otherwise the circle of radius `ratio * (n // 2)`. -/
noncomputable def maskSpec (ratio : Option ℝ) (center : ℝ) (n y x : ℕ) : ℝ :=
  match ratio with
  | none => 1
  | some r =>
    let R := if r = 0 then min center (n - center) * (2 * ((n / 2 : ℕ) : ℝ) / n) else r * ((n / 2 : ℕ) : ℝ)
    if (dist2 n y x : ℝ) ≤ R ^ 2 then 1 else 0

theorem maskAt_spec (a : DArgs) (n y x : ℕ) (hn : 0 < n) : a.maskAt n y x = maskSpec a.ratio a.center n y x := by
  unfold DArgs.maskAt maskSpec
  cases a.ratio with
  | none => rfl
  | some r =>
    dsimp only
    rw [(circle_mask_spec _ _ y x).2.2]
    have : (n : ℝ) ≠ 0 := by exact_mod_cast hn.ne'
    congr 3
    by_cases h : r = 0
    · rw [if_pos h, if_pos h]
      field_simp
      ring
    · rw [if_neg h, if_neg h]

theorem truncInt_of_floor (x : ℝ) (p : ℕ) (h0 : (p : ℝ) ≤ x) (h1 : x < p + 1) : truncInt x = p := by
  unfold truncInt
  have hx : 0 ≤ x := le_trans (Nat.cast_nonneg p) h0
  split
  · rw [Int.floor_eq_iff]
    exact ⟨by exact_mod_cast h0, by exact_mod_cast h1⟩
  · linarith

theorem centerShift_mid (I : Spline) (hI : I.Exact) (c : ℝ) (m : Mat ℝ) (hw : 0 < m.w) (hc : c = ((m.w : ℝ) - 1) / 2) (i j : ℕ) (hj : j < m.w) :
    (centerShift I c m).get i j = m.get i j := by
  unfold centerShift
  dsimp only
  have hj' : (j : ℝ) ≤ (m.w : ℝ) - 1 := by
    have : j + 1 ≤ m.w := hj
    have : ((j + 1 : ℕ) : ℝ) ≤ m.w := by exact_mod_cast this
    push_cast at this
    linarith
  have : clip ((j : ℝ) - (((m.w : ℝ) - 1) / 2 - c)) 0 ((m.w : ℝ) - 1) = j := by
    rw [hc, sub_self, sub_zero]
    unfold clip
    rw [max_eq_left (Nat.cast_nonneg j), min_eq_left hj']
  rw [this]
  exact hI.line m.w _ _ hj

/-- C109: padding, logarithm and mask.  With the axis in the middle of an odd number of columns, `pad = int(pad_rate * width)` and no angles
given, the call gives the central part of the image that the unpadded and unmasked call gives for the sinogram padded by the caller and
turned into `-ln v` (0 where `v` is not positive), times the mask. -/
theorem dfi_padded (I : Spline) (hI : I.Exact) (a b : DArgs) (m P : Mat ℝ) (out : Arr) (pad : ℕ) (h1 : 2 ≤ m.h) (h2 : 2 ≤ m.w) (hw : m.w % 2 = 1)
    (ha : a.angles = none) (hc : a.center = ((m.w : ℝ) - 1) / 2) (hp0 : (pad : ℝ) ≤ a.padRate * m.w) (hp1 : a.padRate * m.w < pad + 1)
    (hpi : ∀ j < m.w + 2 * pad, a.padIdx m.w pad j < m.w)
    (hb1 : b.center = ((m.w : ℝ) - 1) / 2 + pad) (hb2 : b.angles = none) (hb3 : b.ratio = none) (hb4 : b.filter = a.filter) (hb5 : b.padRate = 0)
    (hb6 : ∀ j, b.padIdx (m.w + 2 * pad) 0 j = j) (hb7 : b.applyLog = false)
    (hP1 : P.h = m.h) (hP2 : P.w = m.w + 2 * pad)
    (hP3 : ∀ i j, P.get i j = if a.applyLog then (if 0 < m.get i (a.padIdx m.w pad j) then -Real.log (m.get i (a.padIdx m.w pad j)) else 0)
      else m.get i (a.padIdx m.w pad j))
    (h : dfi I a (.one m) = .ok out) :
    ∃ out', dfi I b (.one P) = .ok out' ∧ ∀ y < m.w, ∀ x < m.w,
      (out.slice 0).get y x = (out'.slice 0).get (pad + y) (pad + x) * maskSpec a.ratio a.center m.w y x := by
  have hwP : ((P.w : ℕ) : ℝ) = (m.w : ℝ) + 2 * pad := by rw [hP2]; push_cast; ring
  have hw2 : (2 : ℝ) ≤ m.w := by exact_mod_cast h2
  have hpn : (0 : ℝ) ≤ pad := Nat.cast_nonneg pad
  obtain ⟨out', h'⟩ := (dfi_error_iff I b (.one P) (by show 2 ≤ P.h; omega) (by show 2 ≤ P.w; omega) le_rfl).1.2 ⟨by rw [hb1]; linarith,
    by show b.center < (P.w : ℝ); rw [hb1, hwP]; linarith, fun l hl => by rw [hb2] at hl; exact (nomatch hl), by rw [hb5]; norm_num⟩
  refine ⟨out', h', fun y hy x hx => ?_⟩
  obtain ⟨p, hm, he⟩ := (dfi_spec I a (.one m) out h1 h2 le_rfl h).2.2.2.2 0 Nat.one_pos
  obtain ⟨p', hm', he'⟩ := (dfi_spec I b (.one P) out' (by show 2 ≤ P.h; omega) (by show 2 ≤ P.w; omega) le_rfl h').2.2.2.2 0 Nat.one_pos
  rw [he, he']
  have hodd : oddWidth m = m := by
    unfold oddWidth
    rw [if_neg (by omega)]
  have hodd' : oddWidth P = P := by
    unfold oddWidth
    rw [if_neg (by omega)]
  have hh : handleSinogram I a m = .ok (padCols a.padIdx pad (centerShift I a.center m), pad) := by
    unfold handleSinogram
    dsimp only
    rw [hodd, ha, truncInt_of_floor _ pad hp0 hp1]
    dsimp only
    rw [if_neg (by omega)]
    rfl
  have hh' : handleSinogram I b P = .ok (padCols b.padIdx 0 (centerShift I b.center P), 0) := by
    unfold handleSinogram
    dsimp only
    rw [hodd', hb5, hb2, zero_mul]
    have : truncInt 0 = 0 := by simp [truncInt]
    rw [this]
    rfl
  have hm : dfiSlice I a m.w m = .ok p := hm
  have hm' : dfiSlice I b P.w P = .ok p' := hm'
  unfold dfiSlice at hm hm'
  rw [hh] at hm
  rw [hh'] at hm'
  cases hm
  cases hm'
  dsimp only
  rw [maskAt_spec _ _ _ _ (by omega), maskAt_spec _ _ _ _ (by omega), hb3, hb4, hb7]
  have e0 : logMat false (padCols b.padIdx 0 (centerShift I b.center P)) = padCols b.padIdx 0 (centerShift I b.center P) := rfl
  rw [e0, singleSlice_congr I (logMat a.applyLog (padCols a.padIdx pad (centerShift I a.center m))) (padCols b.padIdx 0 (centerShift I b.center P)) a.filter]
  · simp only [maskSpec, Nat.zero_add, mul_one]
  · unfold logMat; split <;> exact hP1
  · unfold logMat
    split
    · show P.w + 2 * 0 = m.w + 2 * pad; omega
    · show P.w + 2 * 0 = m.w + 2 * pad; omega
  · intro i j hj
    have hj' : j < m.w + 2 * pad := by
      unfold logMat at hj
      split at hj <;> exact hj
    show (centerShift I b.center P).get i (b.padIdx P.w 0 j) = _
    rw [hP2, hb6, centerShift_mid I hI _ P (by omega) (by rw [hb1, hwP]; ring) i j (by omega), hP3]
    have hg : (padCols a.padIdx pad (centerShift I a.center m)).get i j = m.get i (a.padIdx m.w pad j) :=
      centerShift_mid I hI _ m (by omega) hc i _ (hpi j hj')
    unfold logMat
    by_cases hl : a.applyLog
    · rw [if_pos hl, if_pos hl]
      dsimp only
      rw [hg]
      by_cases hv : 0 < m.get i (a.padIdx m.w pad j)
      · rw [if_pos hv, if_neg (not_le.2 hv)]
      · rw [if_neg hv, if_pos (not_lt.1 hv)]
        simp
    · rw [if_neg hl, if_neg hl, hg]
  · unfold logMat
    split
    · show 0 < m.w + 2 * pad; omega
    · show 0 < m.w + 2 * pad; omega

/-- The hypotheses of `dfi_padded` on the indices are met by padding with the edge value (`pad_mode="edge"`). -/
example (w pad j : ℕ) (hw : 2 ≤ w) : min (j - pad) (w - 1) < w := by omega

/-- Concrete instance of the mask: 5 columns, axis in the middle (`ratio=0`): radius `2 * 4 / 5`, so the centre's neighbour is kept, the corner is
not. -/
example : maskSpec (some 0) 2 5 2 3 = 1 ∧ maskSpec (some 0) 2 5 0 0 = 0 := by
  unfold maskSpec dist2
  constructor <;> norm_num

end Verif.Dfi
