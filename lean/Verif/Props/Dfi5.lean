import Verif.Props.Dfi

/-! C108 — the direct Fourier method folds a scan over 360 degrees: which projections it averages. -/

set_option linter.unusedSectionVars false
set_option linter.unusedSimpArgs false

namespace Verif.Dfi

/-- C108, scans over about 360 degrees (to 10 degrees) in any number of rows, from angle zero on: only `h // 2 + 1` rows are kept, and row `i` is
the mean of the projections at the angle `i * step` and at the angle `i * step + δ`, where `δ = (h - (h // 2 + 1)) * step - π` is zero exactly
if there is a row half a turn after the first; the last row is the mirror image of the first one. -/
theorem dfi_angles_fold (I : Spline) (hI : I.Exact) (m : Mat ℝ) (step : ℝ) (hstep : 0 < step) (hh : 2 ≤ m.h)
    (hcov : |((m.h : ℝ) - 1) * step * 180 / Real.pi - 360| < 10) (P : ℝ → ℕ → ℝ) (hP : HalfTurn P m.w)
    (hm : ∀ k < m.h, ∀ c < m.w, m.get k c = P (k * step) c) (δ : ℝ) (hδ : δ = ((m.h - (m.h / 2 + 1) : ℕ) : ℝ) * step - Real.pi) :
    ∃ out, handleAngles I m ((List.range m.h).map fun (k : ℕ) => (k : ℝ) * step) = .ok out ∧ out.h = m.h / 2 + 1 ∧ out.w = m.w ∧
      (∀ i < m.h / 2, ∀ c < m.w, out.get i c = (P (i * step) c + P (i * step + δ) c) / 2) ∧
      ∀ c < m.w, out.get (m.h / 2) c = (P Real.pi c + P (Real.pi + δ) c) / 2 := by
  classical
  have hpi := Real.pi_pos
  set l : List ℝ := (List.range m.h).map fun (k : ℕ) => (k : ℝ) * step with hl
  have hlen : l.length = m.h := by simp [hl]
  have hm1 : ((m.h - 1 : ℕ) : ℝ) = (m.h : ℝ) - 1 := by rw [Nat.cast_sub (by omega)]; norm_num
  have hm0 : (m.h : ℝ) - 1 ≠ 0 := by
    have : (2 : ℝ) ≤ m.h := by exact_mod_cast hh
    linarith
  have hT : ((diff (l.map fun a => a * 180 / Real.pi)).map fun d => |d|).sum = ((m.h : ℝ) - 1) * step * 180 / Real.pi := by
    rw [hl, List.map_map, diff_map, List.map_map]
    have : ∀ k : ℕ, ((fun d : ℝ => |d|) ∘ fun k : ℕ => ((fun a : ℝ => a * 180 / Real.pi) ∘ fun (k : ℕ) => (k : ℝ) * step) (k + 1) -
        ((fun a : ℝ => a * 180 / Real.pi) ∘ fun (k : ℕ) => (k : ℝ) * step) k) k = step * 180 / Real.pi := by
      intro k
      simp only [Function.comp]
      rw [show (((k + 1 : ℕ) : ℝ) * step) * 180 / Real.pi - ((k : ℝ) * step) * 180 / Real.pi = step * 180 / Real.pi by
        push_cast; ring, abs_of_pos (by positivity)]
    rw [List.map_congr_left fun k _ => this k]
    simp only [List.map_const', List.length_range, List.sum_replicate, nsmul_eq_mul]
    rw [hm1]
    ring
  have hA0 : l.getD 0 0 = 0 := by
    rw [List.getD_eq_getElem _ _ (by rw [hlen]; omega)]
    simp [hl]
  have hA1 : l.getD (m.h - 1) 0 = ((m.h : ℝ) - 1) * step := by
    rw [List.getD_eq_getElem _ _ (by rw [hlen]; omega)]
    simp [hl, hm1]
  have hnn : 0 ≤ ((m.h : ℝ) - 1) * step := by
    have : (2 : ℝ) ≤ m.h := by exact_mod_cast hh
    exact mul_nonneg (by linarith) hstep.le
  unfold handleAngles
  rw [if_neg (by rw [hlen]; exact not_not.2 rfl)]
  dsimp only
  rw [hT, hA0, hA1, if_pos hcov, if_neg (by linarith)]
  simp only [if_pos hcov]
  have hrow : ∀ i < m.h / 2 + 1, ∀ c < m.w, (m.get i c + m.get (m.h - (m.h / 2 + 1) + i) (m.w - 1 - c)) / 2 =
      (P (i * step) c + P (i * step + δ) c) / 2 := by
    intro i hi c hc
    rw [hm i (by omega) c hc, hm _ (by omega) _ (by omega), ← hP _ c hc]
    have e : ((m.h - (m.h / 2 + 1) + i : ℕ) : ℝ) * step + Real.pi = (i * step + δ) + (1 : ℤ) * (2 * Real.pi) := by
      rw [hδ, Nat.cast_add]
      push_cast
      ring
    rw [e, hP.period _ c hc]
  have hw : ∀ i < m.h / 2 + 1, wrapPos (m.h / 2 + 1 - 1 + (m.h / 2 + 1))
      ((i : ℝ) - (0 - (⌊(0 : ℝ) / (2 * Real.pi)⌋ : ℤ) * (2 * Real.pi)) / ((((diff l).map fun d => |d|).sum) / ((diff l).length : ℝ))) = (i : ℝ) := by
    intro i hi
    rw [zero_div, Int.floor_zero]
    rw [show (i : ℝ) - (0 - ((0 : ℤ) : ℝ) * (2 * Real.pi)) / ((((diff l).map fun d => |d|).sum) / ((diff l).length : ℝ)) = (i : ℝ) by
      push_cast; simp]
    unfold wrapPos
    dsimp only
    have h1 : (i : ℝ) ≤ ((m.h / 2 + 1 - 1 + (m.h / 2 + 1) : ℕ) : ℝ) - 1 := by
      have : (i : ℝ) + 1 ≤ ((m.h / 2 + 1 - 1 + (m.h / 2 + 1) : ℕ) : ℝ) := by exact_mod_cast (by omega : i + 1 ≤ m.h / 2 + 1 - 1 + (m.h / 2 + 1))
      linarith
    rw [if_neg (not_lt.2 (Nat.cast_nonneg i)), if_neg (not_lt.2 h1)]
  refine ⟨_, rfl, rfl, rfl, fun i hi c hc => ?_, fun c hc => ?_⟩
  · dsimp only
    rw [hw i (by omega), hI.line _ _ i (by omega), if_pos (by omega), hrow i (by omega) c hc]
  · dsimp only
    rw [hw _ (by omega), hI.line _ _ _ (by omega), if_neg (by omega), show m.h / 2 - (m.h / 2 + 1 - 1) = 0 by omega, hrow 0 (by omega) _ (by omega)]
    rw [← hP _ c hc, ← hP _ c hc]
    push_cast
    rw [show (0 : ℝ) * step + Real.pi = Real.pi by ring, show (0 : ℝ) * step + δ + Real.pi = Real.pi + δ by ring]

/-- C108, refuted for a scan from 0 to 360 degrees in an even number of rows (both ends included): for the object `exP` the first row that is
reconstructed is not its projection at angle zero (it is mixed with the projection half a step away). -/
theorem dfi_angles_even_refuted (I : Spline) (hI : I.Exact) (h : ℕ) (h2 : 2 ≤ h) (he : h % 2 = 0) (step : ℝ) (hs : ((h : ℝ) - 1) * step = 2 * Real.pi) :
    ∃ out, handleAngles I ⟨h, 2, fun k c => exP (k * step) c⟩ ((List.range h).map fun (k : ℕ) => (k : ℝ) * step) = .ok out ∧
      out.get 0 1 = (1 + Real.cos (step / 2)) / 2 ∧ out.get 0 1 ≠ exP 0 1 := by
  have hpi := Real.pi_pos
  have hr : (2 : ℝ) ≤ h := by exact_mod_cast h2
  have hstep : 0 < step := by
    by_contra hn
    nlinarith [mul_nonneg (by linarith : (0 : ℝ) ≤ (h : ℝ) - 1) (by linarith : 0 ≤ -step)]
  obtain ⟨out, h1, _, _, h4, _⟩ := dfi_angles_fold I hI ⟨h, 2, fun k c => exP (k * step) c⟩ step hstep h2
    (by rw [hs, show 2 * Real.pi * 180 / Real.pi = 360 by field_simp; norm_num]; norm_num) exP exP_halfTurn (fun _ _ _ _ => rfl) _ rfl
  have hv : out.get 0 1 = (1 + Real.cos (step / 2)) / 2 := by
    rw [h4 0 (by show 0 < h / 2; omega) 1 (by norm_num)]
    have hd : ((h - (h / 2 + 1) : ℕ) : ℝ) * step - Real.pi = -(step / 2) := by
      obtain ⟨q, hq⟩ : ∃ q, h = 2 * q := ⟨h / 2, by omega⟩
      have e : h - (h / 2 + 1) = q - 1 := by omega
      have hqr : (h : ℝ) = 2 * q := by exact_mod_cast hq
      rw [e, Nat.cast_sub (by omega)]
      push_cast
      rw [hqr] at hs
      linarith
    show (exP (((0 : ℕ) : ℝ) * step) 1 + exP (((0 : ℕ) : ℝ) * step + (((h - (h / 2 + 1) : ℕ) : ℝ) * step - Real.pi)) 1) / 2 = _
    rw [hd]
    unfold exP
    simp [Real.cos_neg]
  refine ⟨out, h1, hv, ?_⟩
  rw [hv]
  unfold exP
  have hs2 : step ≤ 2 * Real.pi := by nlinarith
  have hlt : Real.cos (step / 2) < 1 := by
    have := Real.cos_lt_cos_of_nonneg_of_le_pi le_rfl (by linarith : step / 2 ≤ Real.pi) (by linarith : 0 < step / 2)
    rwa [Real.cos_zero] at this
  simp only [one_ne_zero, if_false, Real.cos_zero]
  linarith

/-- C108, scans over 360 degrees without the last angle (`np.arange(h) * 2π / h`, at least 37 rows): every row is mixed with the projection one
step away (even number of rows) or half a step away (odd number). -/
theorem dfi_angles_open_refuted (I : Spline) (hI : I.Exact) (m : Mat ℝ) (hh : 37 ≤ m.h) (P : ℝ → ℕ → ℝ) (hP : HalfTurn P m.w) (step : ℝ)
    (hs : step = 2 * Real.pi / m.h) (hm : ∀ k < m.h, ∀ c < m.w, m.get k c = P (k * step) c) :
    ∃ out, handleAngles I m ((List.range m.h).map fun (k : ℕ) => (k : ℝ) * step) = .ok out ∧ out.h = m.h / 2 + 1 ∧
      ∀ i < m.h / 2, ∀ c < m.w, out.get i c = (P (i * step) c + P (i * step - (if m.h % 2 = 0 then step else step / 2)) c) / 2 := by
  have hpi := Real.pi_pos
  have hr : (37 : ℝ) ≤ m.h := by exact_mod_cast hh
  have h0 : (m.h : ℝ) ≠ 0 := by linarith
  have hstep : 0 < step := by rw [hs]; positivity
  have hcov : |((m.h : ℝ) - 1) * step * 180 / Real.pi - 360| < 10 := by
    have e : ((m.h : ℝ) - 1) * step * 180 / Real.pi - 360 = -(360 / m.h) := by
      rw [hs]
      field_simp
      ring
    rw [e, abs_neg, abs_of_pos (by positivity), div_lt_iff₀ (by linarith)]
    linarith
  obtain ⟨out, h1, h2, _, h4, _⟩ := dfi_angles_fold I hI m step hstep (by omega) hcov P hP hm _ rfl
  refine ⟨out, h1, h2, fun i hi c hc => ?_⟩
  rw [h4 i hi c hc]
  congr 3
  have hs' : step * m.h = 2 * Real.pi := by rw [hs]; field_simp
  rcases Nat.mod_two_eq_zero_or_one m.h with h | h
  · rw [if_pos h]
    obtain ⟨q, hq⟩ : ∃ q, m.h = 2 * q := ⟨m.h / 2, by omega⟩
    rw [show m.h - (m.h / 2 + 1) = q - 1 by omega, Nat.cast_sub (by omega)]
    have hqr : (m.h : ℝ) = 2 * q := by exact_mod_cast hq
    rw [hqr] at hs'
    push_cast
    linarith
  · rw [if_neg (by omega)]
    obtain ⟨q, hq⟩ : ∃ q, m.h = 2 * q + 1 := ⟨m.h / 2, by omega⟩
    rw [show m.h - (m.h / 2 + 1) = q by omega]
    have hqr : (m.h : ℝ) = 2 * q + 1 := by exact_mod_cast hq
    rw [hqr] at hs'
    linarith

/-- Non-vacuity: four rows over 360 degrees. -/
example : ∃ out, handleAngles leftSample ⟨4, 2, fun k c => exP (k * (2 * Real.pi / 3)) c⟩ ((List.range 4).map fun (k : ℕ) => (k : ℝ) * (2 * Real.pi / 3)) = .ok out ∧
    out.get 0 1 = (1 + Real.cos (2 * Real.pi / 3 / 2)) / 2 ∧ out.get 0 1 ≠ exP 0 1 :=
  dfi_angles_even_refuted leftSample leftSample_exact 4 (by norm_num) (by norm_num) _ (by push_cast; ring)

end Verif.Dfi
