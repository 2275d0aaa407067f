import Verif.Props.FresnelSymm

/-! C176 — orientation and linearity of the other frequency filters: algotom/prep/correction.py:295-331, algotom/util/utility.py:251-303, 823-870. -/

set_option linter.unusedSectionVars false
set_option linter.unusedSimpArgs false

namespace Verif.Fourier
open Complex Verif.StripeFilters

theorem reflectPadIdx_mirror (n p k : ℕ) (hk : k < n + 2 * p) : reflectPadIdx n p (n + 2 * p - 1 - k) = n - 1 - reflectPadIdx n p k := by
  unfold reflectPadIdx
  by_cases hn : n ≤ 1
  · rw [if_pos hn, if_pos hn]; omega
  rw [if_neg hn, if_neg hn]
  dsimp only
  have e : ((n + 2 * p - 1 - k : ℕ) : ℤ) - p = (n : ℤ) - 1 - ((k : ℤ) - p) := by omega
  rw [e]
  generalize (k : ℤ) - p = d
  have hP : (0 : ℤ) < 2 * ((n : ℤ) - 1) := by omega
  have h0 := Int.emod_nonneg d hP.ne'
  have h1 := Int.emod_lt_of_pos d hP
  have h2 : ((n : ℤ) - 1 - d) % (2 * ((n : ℤ) - 1)) = ((n : ℤ) - 1 - d % (2 * ((n : ℤ) - 1))) % (2 * ((n : ℤ) - 1)) := by
    rw [Int.sub_emod, Int.sub_emod ((n : ℤ) - 1) (d % _), Int.emod_emod]
  rw [h2]
  generalize d % (2 * ((n : ℤ) - 1)) = r at h0 h1
  by_cases hr : r < n
  · rw [if_pos hr, Int.emod_eq_of_lt (by omega) (by omega), if_pos (by omega)]
    omega
  · rw [if_neg hr]
    have h3 : ((n : ℤ) - 1 - r) % (2 * ((n : ℤ) - 1)) = 3 * ((n : ℤ) - 1) - r := by
      rw [← Int.add_emod_right, Int.emod_eq_of_lt (by omega) (by omega)]
      ring
    rw [h3, if_neg (by omega)]
    omega

/-- **C176.** `mtf_deconvolution` with a window of the size of the image: the image turned by 180 degrees gives the turned result, whatever the (real)
window, and the method is linear. -/
theorem mtf_orientation (m win : Mat ℝ) (hh : win.h = m.h) (hw : win.w = m.w) (pad : ℕ) :
    ∃ out out', mtfDeconvolution m win pad = .ok out ∧ mtfDeconvolution (turned m) win pad = .ok out' ∧ out'.Eqv (turned out) := by
  unfold mtfDeconvolution
  rw [if_neg (by omega), if_neg (by show ¬(m.h > win.h ∨ m.w > win.w); omega)]
  dsimp only
  refine ⟨_, _, rfl, rfl, rfl, rfl, fun i hi j hj => ?_⟩
  have hi : i < m.h := hi
  have hj : j < m.w := hj
  let wp : ℕ → ℕ → ℝ := fun i j => if pad ≤ i ∧ i < pad + win.h ∧ pad ≤ j ∧ j < pad + win.w then win.get (i - pad) (j - pad) else 1
  have hm := filter2_turned (win.h + 2 * pad) (win.w + 2 * pad)
    (fun p q => m.get (min (reflectPadIdx win.h pad p) (m.h - 1)) (min (reflectPadIdx win.w pad q) (m.w - 1)))
    (fun p q => (turned m).get (min (reflectPadIdx win.h pad p) (m.h - 1)) (min (reflectPadIdx win.w pad q) (m.w - 1)))
    (fun p hp q hq => by
      have l1 := reflectPadIdx_lt win.h pad p (by omega)
      have l2 := reflectPadIdx_lt win.w pad q (by omega)
      rw [reflectPadIdx_mirror _ _ _ hp, reflectPadIdx_mirror _ _ _ hq]
      unfold turned
      dsimp only
      congr 1 <;> omega)
    (fun k l => 1 / wp (ifftshiftIdx (win.h + 2 * pad) k) (ifftshiftIdx (win.w + 2 * pad) l)) (pad + i) (pad + j) (by omega) (by omega)
  push_cast at hm
  rw [show win.w + 2 * pad - 1 - (pad + j) = pad + (m.w - 1 - j) by omega, show win.h + 2 * pad - 1 - (pad + i) = pad + (m.h - 1 - i) by omega] at hm
  exact hm

/-- **C176.** Linearity of `mtf_deconvolution`. -/
theorem mtf_linear (m n win : Mat ℝ) (hh : n.h = m.h) (hw : n.w = m.w) (h1 : m.h ≤ win.h) (h2 : m.w ≤ win.w) (a b : ℝ) (pad : ℕ) :
    ∃ o1 o2 o, mtfDeconvolution m win pad = .ok o1 ∧ mtfDeconvolution n win pad = .ok o2 ∧
      mtfDeconvolution ⟨m.h, m.w, fun i j => a * m.get i j + b * n.get i j⟩ win pad = .ok o ∧
      o.Eqv ⟨m.h, m.w, fun i j => a * o1.get i j + b * o2.get i j⟩ := by
  unfold mtfDeconvolution
  rw [if_neg (by omega), if_neg (by omega), if_neg (by show ¬(m.h > win.h ∨ m.w > win.w); omega)]
  dsimp only
  refine ⟨_, _, _, rfl, rfl, rfl, rfl, rfl, fun i hi j hj => ?_⟩
  rw [hh, hw]
  exact filter2_linear
    ⟨win.h + 2 * pad, win.w + 2 * pad, fun i j => m.get (min (reflectPadIdx win.h pad i) (m.h - 1)) (min (reflectPadIdx win.w pad j) (m.w - 1))⟩
    ⟨win.h + 2 * pad, win.w + 2 * pad, fun i j => n.get (min (reflectPadIdx win.h pad i) (m.h - 1)) (min (reflectPadIdx win.w pad j) (m.w - 1))⟩
    rfl rfl a b _ (pad + i) (pad + j)

/-! ### sign flips -/

theorem sign_split (N n : ℕ) (hn : n < N) : ((-1 : ℝ)) ^ n = (-1) ^ (N - 1) * (-1) ^ (N - 1 - n) := by
  rw [← pow_add, show N - 1 + (N - 1 - n) = n + 2 * (N - 1 - n) by omega, pow_add, pow_mul]
  norm_num

theorem signFilterLine_mirror (ncol pad : ℕ) (window : ℕ → ℝ) (line : ℕ → ℝ) (j : ℕ) (hj : j < ncol) :
    signFilterLine ncol pad window (fun j => line (ncol - 1 - j)) j = signFilterLine ncol pad window line (ncol - 1 - j) := by
  unfold signFilterLine
  dsimp only
  set N := ncol + 2 * pad with hN
  set s : ℝ := (-1) ^ (N - 1) with hs
  have hm := line_mirror N (fun n => s * (line (reflectPadIdx ncol pad n) * (-1) ^ n)) (fun n => line (ncol - 1 - reflectPadIdx ncol pad n) * (-1) ^ n)
    (fun n hn => by
      rw [sign_split N n hn, reflectPadIdx_mirror _ _ _ hn]
      ring) window (pad + j) (by omega)
  have e : (fun l => dft N (fun n => ((s * (line (reflectPadIdx ncol pad n) * (-1) ^ n) : ℝ) : ℂ)) l * ((window l : ℝ) : ℂ)) =
      fun l => (s : ℂ) * (dft N (fun n => ((line (reflectPadIdx ncol pad n) * (-1) ^ n : ℝ) : ℂ)) l * ((window l : ℝ) : ℂ)) := by
    funext l
    rw [show (fun n => ((s * (line (reflectPadIdx ncol pad n) * (-1) ^ n) : ℝ) : ℂ)) =
      fun n => (s : ℂ) * ((line (reflectPadIdx ncol pad n) * (-1) ^ n : ℝ) : ℂ) from funext fun n => by push_cast; ring, dft_smul]
    ring
  rw [e, idft_smul, re_ofReal_mul] at hm
  rw [re_mul_ofReal, re_mul_ofReal, hm, show N - 1 - (pad + j) = pad + (ncol - 1 - j) by omega]
  rw [sign_split N (pad + j) (by omega), ← hs, show N - 1 - (pad + j) = pad + (ncol - 1 - j) by omega]
  have h2 : s * s = 1 := by rw [hs, ← pow_add, ← two_mul, pow_mul]; norm_num
  linear_combination (idft N (fun l => dft N (fun n => ((line (reflectPadIdx ncol pad n) * (-1) ^ n : ℝ) : ℂ)) l * ((window l : ℝ) : ℂ))
    (pad + (ncol - 1 - j))).re * (-1) ^ (pad + (ncol - 1 - j)) * h2

/-- **C176.** `separate_frequency_component` along the columns: the two parts of the mirrored image are the mirrored parts, whatever the (real) window; the
same calls raise. -/
theorem separate_orientation (m : Mat ℝ) (win : FreqWindow) :
    (∀ e, separateFrequency m false win = .error e → separateFrequency (flipLR m) false win = .error e) ∧
    ∀ lo hi, separateFrequency m false win = .ok (lo, hi) →
      ∃ lo' hi', separateFrequency (flipLR m) false win = .ok (lo', hi') ∧ lo'.Eqv (flipLR lo) ∧ hi'.Eqv (flipLR hi) := by
  have key : ∀ p w i, ∀ j < m.w, signFilterLine m.w p w ((flipLR m).get i) j = signFilterLine m.w p w (m.get i) (m.w - 1 - j) :=
    fun p w i j hj => signFilterLine_mirror m.w p w (m.get i) j hj
  have hs : ∀ m : Mat ℝ, separateFrequency m false win = (win.resolve m.w (pad10 m.w)).map fun w =>
      ((⟨m.h, m.w, fun i j => signFilterLine m.w (pad10 m.w) w (m.get i) j⟩ : Mat ℝ),
        (⟨m.h, m.w, fun i j => m.get i j - signFilterLine m.w (pad10 m.w) w (m.get i) j⟩ : Mat ℝ)) := by
    intro m
    unfold separateFrequency
    simp only [Bool.false_eq_true, if_false]
    generalize win.resolve m.w (pad10 m.w) = r
    cases r <;> rfl
  rw [hs, hs (flipLR m)]
  have ew : (flipLR m).w = m.w := rfl
  have eh : (flipLR m).h = m.h := rfl
  rw [ew, eh]
  generalize win.resolve m.w (pad10 m.w) = r
  generalize pad10 m.w = p
  cases r with
  | error e => exact ⟨fun e' he => he, fun lo hi he => (nomatch he)⟩
  | ok w =>
    refine ⟨fun e he => (nomatch he), fun lo hi he => ?_⟩
    have he := Except.ok.inj he
    simp only [Prod.mk.injEq] at he
    obtain ⟨rfl, rfl⟩ := he
    refine ⟨⟨m.h, m.w, fun i j => signFilterLine m.w p w ((flipLR m).get i) j⟩,
      ⟨m.h, m.w, fun i j => (flipLR m).get i j - signFilterLine m.w p w ((flipLR m).get i) j⟩, rfl, ?_, ?_⟩
    · refine ⟨rfl, rfl, fun i hi j hj => ?_⟩
      exact key p w i j hj
    · refine ⟨rfl, rfl, fun i hi j hj => ?_⟩
      have k := key p w i j hj
      unfold flipLR at k ⊢
      dsimp only at k ⊢
      rw [k]

/-- **C176.** `apply_gaussian_filter`: the image turned by 180 degrees gives the turned result, for every size, sigma and pad. -/
theorem gaussian_orientation (m : Mat ℝ) (sx sy : ℝ) (pad : ℕ) : (gaussianFilter (turned m) sx sy pad).Eqv (turned (gaussianFilter m sx sy pad)) := by
  refine ⟨rfl, rfl, fun i hi j hj => ?_⟩
  have hi : i < m.h := hi
  have hj : j < m.w := hj
  let mp : Mat ℝ → ℕ → ℕ → ℝ := fun m i j =>
    if pad ≤ i ∧ i < pad + m.h then m.get (i - pad) (edgeIdx m.w pad j) else (∑ r ∈ Finset.range m.h, m.get r (edgeIdx m.w pad j)) / m.h
  set H := m.h + 2 * pad with hH
  set W := m.w + 2 * pad with hW
  have hmp : ∀ p < H, ∀ q < W, mp (turned m) p q = mp m (H - 1 - p) (W - 1 - q) := by
    intro p hp q hq
    have hq' : edgeIdx m.w pad (W - 1 - q) = m.w - 1 - edgeIdx m.w pad q := edgeIdx_mirror _ _ _ hq
    show (if pad ≤ p ∧ p < pad + m.h then m.get (m.h - 1 - (p - pad)) (m.w - 1 - edgeIdx m.w pad q) else
      (∑ r ∈ Finset.range m.h, m.get (m.h - 1 - r) (m.w - 1 - edgeIdx m.w pad q)) / m.h) =
      if pad ≤ H - 1 - p ∧ H - 1 - p < pad + m.h then m.get (H - 1 - p - pad) (edgeIdx m.w pad (W - 1 - q)) else
      (∑ r ∈ Finset.range m.h, m.get r (edgeIdx m.w pad (W - 1 - q))) / m.h
    rw [hq']
    by_cases hc : pad ≤ p ∧ p < pad + m.h
    · rw [if_pos hc, if_pos (by omega), show H - 1 - p - pad = m.h - 1 - (p - pad) by omega]
    · rw [if_neg hc, if_neg (by omega), Finset.sum_range_reflect fun r => m.get r (m.w - 1 - edgeIdx m.w pad q)]
  set s : ℝ := (-1) ^ (H - 1) with hs
  set t : ℝ := (-1) ^ (W - 1) with ht
  have hm := filter2_turned H W (fun p q => s * t * (mp m p q * (-1) ^ (q + p))) (fun p q => mp (turned m) p q * (-1) ^ (q + p))
    (fun p hp q hq => by
      rw [hmp p hp q hq, pow_add, pow_add, sign_split H p hp, sign_split W q hq]
      ring) (gaussianWindow H W sx sy) (pad + i) (pad + j) (by omega) (by omega)
  have e : (fun k l => dft2 H W (fun p q => ((s * t * (mp m p q * (-1) ^ (q + p)) : ℝ) : ℂ)) k l * ((gaussianWindow H W sx sy k l : ℝ) : ℂ)) =
      fun k l => ((s * t : ℝ) : ℂ) * (dft2 H W (fun p q => ((mp m p q * (-1) ^ (q + p) : ℝ) : ℂ)) k l * ((gaussianWindow H W sx sy k l : ℝ) : ℂ)) := by
    funext k l
    rw [show (fun p q => ((s * t * (mp m p q * (-1) ^ (q + p)) : ℝ) : ℂ)) =
      fun p q => ((s * t : ℝ) : ℂ) * ((mp m p q * (-1) ^ (q + p) : ℝ) : ℂ) from funext fun p => funext fun q => by push_cast; ring, dft2_smul]
    ring
  rw [e, idft2_smul, re_ofReal_mul] at hm
  show (idft2 H W (fun k l => dft2 H W (fun p q => ((mp (turned m) p q * (-1) ^ (q + p) : ℝ) : ℂ)) k l * ((gaussianWindow H W sx sy k l : ℝ) : ℂ))
      (pad + i) (pad + j) * (((-1 : ℝ) ^ ((pad + j) + (pad + i)) : ℝ) : ℂ)).re =
    (idft2 H W (fun k l => dft2 H W (fun p q => ((mp m p q * (-1) ^ (q + p) : ℝ) : ℂ)) k l * ((gaussianWindow H W sx sy k l : ℝ) : ℂ))
      (pad + (m.h - 1 - i)) (pad + (m.w - 1 - j)) * (((-1 : ℝ) ^ ((pad + (m.w - 1 - j)) + (pad + (m.h - 1 - i))) : ℝ) : ℂ)).re
  rw [re_mul_ofReal, re_mul_ofReal, hm, show W - 1 - (pad + j) = pad + (m.w - 1 - j) by omega, show H - 1 - (pad + i) = pad + (m.h - 1 - i) by omega,
    pow_add _ (pad + j) (pad + i), pow_add _ (pad + (m.w - 1 - j)) (pad + (m.h - 1 - i)), sign_split H (pad + i) (by omega), sign_split W (pad + j) (by omega), show W - 1 - (pad + j) = pad + (m.w - 1 - j) by omega,
    show H - 1 - (pad + i) = pad + (m.h - 1 - i) by omega, ← hs, ← ht]
  have h2 : s * s = 1 := by rw [hs, ← pow_add, ← two_mul, pow_mul]; norm_num
  have h3 : t * t = 1 := by rw [ht, ← pow_add, ← two_mul, pow_mul]; norm_num
  generalize (idft2 H W (fun k l => dft2 H W (fun p q => ((mp m p q * (-1) ^ (q + p) : ℝ) : ℂ)) k l * ((gaussianWindow H W sx sy k l : ℝ) : ℂ))
    (pad + (m.h - 1 - i)) (pad + (m.w - 1 - j))).re = z
  linear_combination (z * (-1) ^ (pad + (m.w - 1 - j)) * (-1) ^ (pad + (m.h - 1 - i))) * (s * s * h3 + h2)

/-! ### double-wedge filter -/

theorem wedgeStep_turned (mask : ℕ → ℕ → ℝ) (pad : ℕ) (m m' : Mat ℝ) (h : m'.Eqv (turned m)) : (wedgeStep mask pad m').Eqv (turned (wedgeStep mask pad m)) := by
  obtain ⟨e1, e2, e3⟩ := h
  have e1 : m'.h = m.h := e1
  have e2 : m'.w = m.w := e2
  have e3 : ∀ i < m.h, ∀ j < m.w, m'.get i j = m.get (m.h - 1 - i) (m.w - 1 - j) := fun i hi j hj => e3 i (by omega) j (by omega)
  have hstep : ∀ x : Mat ℝ, x.h = m.h → x.w = m.w → ∀ i < m.h, ∀ j, (wedgeStep mask pad x).get i j =
      (idft2 m.h (m.w + 2 * pad) (fun k l => dft2 m.h (m.w + 2 * pad) (fun i j => ((x.get (edgeIdx m.h 0 i) (edgeIdx m.w pad j) : ℝ) : ℂ)) k l *
        ((mask (ifftshiftIdx m.h k) (ifftshiftIdx (m.w + 2 * pad) l) : ℝ) : ℂ)) i (pad + j)).re := by
    intro x h1 h2 i hi j
    rw [wedgeStep_eq, h1, h2]
    have e : (crop (filter2 (padEdge x 0 pad) fun k l => ((mask (ifftshiftIdx (m.h + 2 * 0) k) (ifftshiftIdx (m.w + 2 * pad) l) : ℝ) : ℂ)) 0 pad m.h m.w).get i j =
        (idft2 (x.h + 2 * 0) (x.w + 2 * pad) (fun k l => dft2 (x.h + 2 * 0) (x.w + 2 * pad) (fun i j => ((x.get (edgeIdx x.h 0 i) (edgeIdx x.w pad j) : ℝ) : ℂ)) k l *
        ((mask (ifftshiftIdx (m.h + 2 * 0) k) (ifftshiftIdx (m.w + 2 * pad) l) : ℝ) : ℂ)) (0 + i) (pad + j)).re := rfl
    rw [e, h1, h2, Nat.mul_zero, Nat.add_zero, Nat.zero_add]
  refine ⟨e1, e2, fun i hi j hj => ?_⟩
  have hi : i < m.h := by have : i < m'.h := hi; omega
  have hj : j < m.w := by have : j < m'.w := hj; omega
  show (wedgeStep mask pad m').get i j = (wedgeStep mask pad m).get (m.h - 1 - i) (m.w - 1 - j)
  rw [hstep m' e1 e2 i hi j, hstep m rfl rfl _ (by omega) _]
  have hm := filter2_turned m.h (m.w + 2 * pad) (fun p q => m.get (edgeIdx m.h 0 p) (edgeIdx m.w pad q)) (fun p q => m'.get (edgeIdx m.h 0 p) (edgeIdx m.w pad q))
    (fun p hp q hq => by
      have hq' := edgeIdx_mirror m.w pad q hq
      rw [hq', e3 _ (by unfold edgeIdx; omega) _ (by unfold edgeIdx; omega)]
      congr 1
      unfold edgeIdx
      omega) (fun k l => mask (ifftshiftIdx m.h k) (ifftshiftIdx (m.w + 2 * pad) l)) i (pad + j) hi (by omega)
  rw [show m.w + 2 * pad - 1 - (pad + j) = pad + (m.w - 1 - j) by omega] at hm
  exact hm

/-- **C176.** `double_wedge_filter` of a 360-degree sinogram: reversing the order of the projections together with mirroring the detector reverses and mirrors
the result, for every number of iterations, every ratio and every (real) mask. -/
theorem wedge_orientation (m : Mat ℝ) (iteration : ℕ) (mask : Option (ℕ → ℕ → ℝ)) (ratio : ℝ) (pad : ℕ) :
    (wedgeFilter (turned m) iteration mask ratio pad).Eqv (turned (wedgeFilter m iteration mask ratio pad)) := by
  unfold wedgeFilter
  show ((wedgeStep (mask.getD (wedgeMask m.h (m.w + 2 * pad) (ratio * m.w / 2))) pad)^[iteration] (turned m)).Eqv _
  generalize mask.getD (wedgeMask m.h (m.w + 2 * pad) (ratio * m.w / 2)) = mk
  induction iteration with
  | zero => exact ⟨rfl, rfl, fun _ _ _ _ => rfl⟩
  | succ n ih =>
    rw [Function.iterate_succ_apply', Function.iterate_succ_apply']
    exact wedgeStep_turned mk pad _ _ ih

end Verif.Fourier
