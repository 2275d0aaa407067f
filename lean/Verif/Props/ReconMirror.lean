import Verif.Props.Recon
import Verif.Lemmas.DftSymm

/-! C104 — the mirror property of filtered back-projection with every filter name. -/

set_option linter.unusedSectionVars false
set_option linter.unusedSimpArgs false

namespace Verif.Recon
open Complex Verif.Fourier Verif.BackProj

/-- The kernel of the filter: a ramp kernel whose spectrum is multiplied by the window `s` (in the order of the transform). -/
noncomputable def kerC (n : ℕ) (s : ℕ → ℝ) (d : ℤ) : ℂ :=
  (∑ l ∈ Finset.range n, dft n (fun i => (rampKernel n i : ℂ)) l * ((s l : ℝ) : ℂ) * ph n (l * (d + (n / 2 : ℕ)))) / n

theorem rampKernel_refl (n q : ℕ) (hq : q < n) : rampKernel n (refl n (2 * (n / 2)) q) = rampKernel n q := by
  rw [rampKernel_eq, rampKernel_eq]
  rcases Nat.even_or_odd n with he | ho
  · obtain ⟨h, rfl⟩ := he
    rcases Nat.eq_zero_or_pos q with rfl | h0
    · have : refl (h + h) (2 * ((h + h) / 2)) 0 = 0 := by
        unfold Fourier.refl
        rw [show 2 * ((h + h) / 2) + (h + h - 0) = 2 * (h + h) by omega]
        exact Nat.mul_mod_left _ _
      rw [this]
    · have : refl (h + h) (2 * ((h + h) / 2)) q = h + h - q := by
        unfold Fourier.refl
        rw [show 2 * ((h + h) / 2) + (h + h - q) = (h + h - q) + (h + h) by omega, Nat.add_mod_right, Nat.mod_eq_of_lt (by omega)]
      rw [this, ← ramp_even]
      congr 1
      omega
  · obtain ⟨h, rfl⟩ := ho
    have : refl (2 * h + 1) (2 * ((2 * h + 1) / 2)) q = 2 * h - q := by
      unfold Fourier.refl
      rw [show 2 * ((2 * h + 1) / 2) + (2 * h + 1 - q) = (2 * h - q) + (2 * h + 1) by omega, Nat.add_mod_right, Nat.mod_eq_of_lt (by omega)]
    rw [this, ← ramp_even]
    congr 1
    omega

theorem rampDft_conj (n l : ℕ) (hn : 0 < n) :
    (starRingEnd ℂ) (dft n (fun i => (rampKernel n i : ℂ)) l) = ph n (l * (2 * (n / 2) : ℕ)) * dft n (fun i => (rampKernel n i : ℂ)) l := by
  rw [dft_ph, map_sum, Finset.mul_sum, ← sum_refl n (2 * (n / 2)) (fun q => (starRingEnd ℂ) (((rampKernel n q : ℝ) : ℂ) * ph n (-((l : ℤ) * q))))]
  refine Finset.sum_congr rfl fun q hq => ?_
  have hq := Finset.mem_range.1 hq
  rw [map_mul, conj_ofReal, ph_conj, neg_neg, rampKernel_refl n q hq]
  have hd := refl_dvd n (2 * (n / 2)) q hq.le
  have e : ph n ((l : ℤ) * (refl n (2 * (n / 2)) q : ℕ)) = ph n ((l : ℤ) * ((2 * (n / 2) : ℕ) : ℤ) + -((l : ℤ) * q)) := by
    symm
    apply ph_congr n hn
    rw [show (l : ℤ) * ((2 * (n / 2) : ℕ) : ℤ) + -((l : ℤ) * q) - (l : ℤ) * (refl n (2 * (n / 2)) q : ℕ) =
      l * ((((2 * (n / 2) : ℕ) : ℤ) - q) - (refl n (2 * (n / 2)) q : ℕ)) by ring]
    exact Dvd.dvd.mul_left hd _
  rw [e, ph_add]
  ring

/-- The real part of the kernel is even, whatever the (real) window. -/
theorem kerC_even (n : ℕ) (hn : 0 < n) (s : ℕ → ℝ) (d : ℤ) : (kerC n s (-d)).re = (kerC n s d).re := by
  have h : (starRingEnd ℂ) (kerC n s d) = kerC n s (-d) := by
    unfold kerC
    rw [map_div₀, map_sum, Complex.conj_natCast]
    congr 1
    refine Finset.sum_congr rfl fun l _ => ?_
    rw [map_mul, map_mul, conj_ofReal, ph_conj, rampDft_conj n l hn]
    have e : ph n ((l : ℤ) * (-d + (n / 2 : ℕ))) = ph n (l * (2 * (n / 2) : ℕ)) * ph n (-((l : ℤ) * (d + (n / 2 : ℕ)))) := by
      rw [← ph_add]
      congr 1
      push_cast
      ring
    rw [e]
    ring
  rw [← h, conj_re]

/-- C45: with any smoothing window, `apply_ramp_filter` is the convolution of the padded row with an even kernel. -/
theorem ramp_filter_even (m : Mat ℝ) (f : Filter) (pad : ℕ) (padIdx : ℕ → ℕ → ℕ → ℕ) (i j : ℕ) (hm : 0 < m.w) :
    (applyRampFilter m none f pad padIdx).get i j = ∑ p ∈ Finset.range (m.w + 2 * pad), m.get i (padIdx m.w pad p) *
      (kerC (m.w + 2 * pad) (fun l => smoothingWindow f (m.w + 2 * pad) (ifftshiftIdx (m.w + 2 * pad) l)) (((pad + j : ℕ) : ℤ) - p)).re := by
  have hn : 0 < m.w + 2 * pad := by omega
  unfold applyRampFilter
  dsimp only [fitting, ramp2d]
  set n := m.w + 2 * pad with hndef
  set s : ℕ → ℝ := fun l => smoothingWindow f n (ifftshiftIdx n l) with hs
  rw [idft_congr n _ (fun l => dft n (fun j => ((m.get i (padIdx m.w pad j) : ℝ) : ℂ)) l * (dft n (fun i => ((rampKernel n i : ℝ) : ℂ)) l * ((s l : ℝ) : ℂ))) _
    fun l hl => by
      unfold rampWindow
      rw [ifft_fft_shift _ _ hl]]
  have hphase : ∀ l : ℕ, exp (2 * Real.pi * I * (l * (ifftshiftIdx n (pad + j) : ℕ) / n)) = ph n (l * (((pad + j : ℕ) : ℤ) + (n / 2 : ℕ))) := by
    intro l
    have e : exp (2 * Real.pi * I * (l * (ifftshiftIdx n (pad + j) : ℕ) / n)) = ph n ((l : ℤ) * (ifftshiftIdx n (pad + j) : ℕ)) := by
      unfold ph
      congr 2
      push_cast
      rfl
    rw [e]
    symm
    apply ph_congr n hn
    unfold ifftshiftIdx
    rw [← mul_sub, Int.natCast_mod]
    push_cast
    exact Dvd.dvd.mul_left Int.dvd_self_sub_emod _
  have key : idft n (fun l => dft n (fun j => ((m.get i (padIdx m.w pad j) : ℝ) : ℂ)) l * (dft n (fun i => ((rampKernel n i : ℝ) : ℂ)) l * ((s l : ℝ) : ℂ)))
      (ifftshiftIdx n (pad + j)) = ∑ p ∈ Finset.range n, ((m.get i (padIdx m.w pad p) : ℝ) : ℂ) * kerC n s (((pad + j : ℕ) : ℤ) - p) := by
    unfold idft kerC
    simp only [hphase]
    simp only [mul_div_assoc', Finset.mul_sum]
    rw [← Finset.sum_div, Finset.sum_comm]
    congr 1
    refine Finset.sum_congr rfl fun l _ => ?_
    rw [dft_ph n _ l, Finset.sum_mul, Finset.sum_mul]
    refine Finset.sum_congr rfl fun p _ => ?_
    have e : ph n ((l : ℤ) * (((pad + j : ℕ) : ℤ) - p + (n / 2 : ℕ))) = ph n (-((l : ℤ) * p)) * ph n (l * (((pad + j : ℕ) : ℤ) + (n / 2 : ℕ))) := by
      rw [← ph_add]
      congr 1
      ring
    rw [e]
    ring
  rw [key, re_sum]
  refine Finset.sum_congr rfl fun p _ => ?_
  rw [re_ofReal_mul]

/-- C104: half a turn is a mirrored detector: with every row of the sinogram reversed, all angles increased by 180 degrees and the centre at
`ncol - 1 - center`, the image is the same, for every filter name (pad mode symmetric such as "edge", fixed ratio, no window given by the caller). -/
theorem fbp_mirror_filters (a : Args (Mat ℂ)) (m m' : Mat ℝ) (l : List ℝ) (ha : a.angles = some l) (hwin : a.rampWin = none)
    (hr : a.ratio ≠ some 0) (hc : a.center ≤ (m.w : ℝ) - 1)
    (hpad : ∀ j < m.w + 2 * a.padOf m.w, a.padIdx m.w (a.padOf m.w) j < m.w ∧
      a.padIdx m.w (a.padOf m.w) (m.w + 2 * a.padOf m.w - 1 - j) = m.w - 1 - a.padIdx m.w (a.padOf m.w) j)
    (hl : a.Launched m.w) (h : fbp a (.one m) = .ok (.one m')) :
    ∃ o : Mat ℝ, fbp { a with angles := some (l.map fun t => t + Real.pi), center := (m.w : ℝ) - 1 - a.center }
      (.one ⟨m.h, m.w, fun i j => m.get i (m.w - 1 - j)⟩) = .ok (.one o) ∧ o.Eqv m' := by
  obtain ⟨⟨c0, c1, c2, c3, c4⟩, a1, a2, a3⟩ := fbp_one_inv a m m' hl h
  have hlen : l.length = m.h := c2 l ha
  set a' : Args (Mat ℂ) := { a with angles := some (l.map fun t => t + Real.pi), center := (m.w : ℝ) - 1 - a.center } with ha'
  set mf : Mat ℝ := ⟨m.h, m.w, fun i j => m.get i (m.w - 1 - j)⟩ with hmf
  obtain ⟨o, ho, o1, o2, o3⟩ := fbp_one a' mf hl (by show 0 ≤ (m.w : ℝ) - 1 - a.center; linarith)
    (by show (m.w : ℝ) - 1 - a.center < m.w; linarith) (fun k hk => by cases hk; rw [List.length_map]; exact hlen) c3 c4
  refine ⟨o, ho, o1.trans a1.symm, o2.trans a2.symm, fun y hy x hx => ?_⟩
  have hy : y < m.w := lt_of_lt_of_eq hy o1
  have hx : x < m.w := lt_of_lt_of_eq hx o2
  have hw2 : 2 ≤ m.w := by omega
  rw [o3 y hy x hx, a3 y hy x hx]
  have hmask : a'.maskAt mf.w y x = a.maskAt m.w y x := by
    unfold Args.maskAt
    rw [show a'.ratio = a.ratio from rfl]
    cases hra : a.ratio with
    | none => rfl
    | some r =>
      have : r ≠ 0 := fun e => hr (by rw [hra, e])
      dsimp only
      rw [if_neg this, if_neg this]
  unfold Args.image
  rw [hmask]
  refine congrArg₂ _ rfl ?_
  unfold backProjection
  show ∑ i ∈ Finset.range m.h, _ = ∑ i ∈ Finset.range m.h, _
  refine Finset.sum_congr rfl fun i hi => ?_
  have hi : i < l.length := by rw [hlen]; exact Finset.mem_range.1 hi
  have hang' : a'.angle mf.h i = a.angle m.h i + Real.pi := by
    unfold Args.angle
    rw [ha]
    exact getD_map_lt l _ i hi
  set P := a.padOf m.w with hP
  set N := m.w + 2 * P with hN
  have hpos : ((x : ℝ) - (((a'.filtered (a'.logm mf)).w : ℝ) - 1) / 2) * (a'.cs mf.h i).1 + ((y : ℝ) - (((a'.filtered (a'.logm mf)).w : ℝ) - 1) / 2) * (a'.cs mf.h i).2 +
      a'.center = (m.w : ℝ) - 1 - (((x : ℝ) - (((a.filtered (a.logm m)).w : ℝ) - 1) / 2) * (a.cs m.h i).1 +
        ((y : ℝ) - (((a.filtered (a.logm m)).w : ℝ) - 1) / 2) * (a.cs m.h i).2 + a.center) := by
    unfold Args.cs
    rw [hang', Real.cos_neg, Real.sin_neg, Real.cos_add_pi, Real.sin_add_pi, Real.cos_neg, Real.sin_neg]
    show ((x : ℝ) - ((m.w : ℝ) - 1) / 2) * -Real.cos (a.angle m.h i) + ((y : ℝ) - ((m.w : ℝ) - 1) / 2) * -(-Real.sin (a.angle m.h i)) +
      ((m.w : ℝ) - 1 - a.center) = (m.w : ℝ) - 1 - (((x : ℝ) - ((m.w : ℝ) - 1) / 2) * Real.cos (a.angle m.h i) +
        ((y : ℝ) - ((m.w : ℝ) - 1) / 2) * -Real.sin (a.angle m.h i) + a.center)
    ring
  rw [hpos]
  show contribution _ m.w false _ = contribution _ m.w false _
  rw [← contribution_flip ((a.filtered (a.logm m)).get i) m.w _ hw2]
  refine contribution_congr _ _ _ _ _ (by omega) fun j hj => ?_
  have hj : j < m.w := hj
  show (applyRampFilter (a.logm mf) a.rampWin a.filter P a.padIdx).get i j = (applyRampFilter (a.logm m) a.rampWin a.filter P a.padIdx).get i (m.w - 1 - j)
  rw [hwin, ramp_filter_even _ _ _ _ _ _ (by show 0 < m.w; omega), ramp_filter_even _ _ _ _ _ _ (by show 0 < m.w; omega)]
  show ∑ p ∈ Finset.range N, a.logv (m.get i (m.w - 1 - a.padIdx m.w P p)) * (kerC N _ (((P + j : ℕ) : ℤ) - p)).re =
    ∑ p ∈ Finset.range N, a.logv (m.get i (a.padIdx m.w P p)) * (kerC N _ (((P + (m.w - 1 - j) : ℕ) : ℤ) - p)).re
  rw [← Finset.sum_range_reflect]
  refine Finset.sum_congr rfl fun p hp => ?_
  have hp := Finset.mem_range.1 hp
  have h1 := hpad p hp
  rw [h1.2, show m.w - 1 - (m.w - 1 - a.padIdx m.w P p) = a.padIdx m.w P p from by omega, ← kerC_even N (by omega)]
  congr 3
  omega

end Verif.Recon
