import Verif.Lemmas.Fourier

/-! C34, C45 and the behaviour of the Fourier filters on constant images. -/

set_option linter.unusedSectionVars false
set_option linter.unusedSimpArgs false

namespace Verif.Fourier
open Complex

/-! ### generic filter -/

theorem filter2_one (m : Mat ℝ) (mult : ℕ → ℕ → ℂ) (h1 : ∀ k < m.h, ∀ l < m.w, mult k l = 1) : (filter2 m mult).Eqv m := by
  refine ⟨rfl, rfl, fun i hi j hj => ?_⟩
  have hi : i < m.h := hi
  have hj : j < m.w := hj
  show (idft2 m.h m.w _ i j).re = _
  rw [idft2_congr m.h m.w _ (dft2 m.h m.w (fun i j => (m.get i j : ℂ))) i j fun k hk l hl => by
    rw [h1 k hk l hl, mul_one], idft2_dft2 _ _ _ _ _ hi hj, ofReal_re]

theorem filter2_const (m : Mat ℝ) (c : ℝ) (hc : ∀ i < m.h, ∀ j < m.w, m.get i j = c) (mult : ℕ → ℕ → ℂ) (hh : 0 < m.h) (hw : 0 < m.w)
    (i j : ℕ) : (filter2 m mult).get i j = (mult 0 0).re * c := by
  show (idft2 m.h m.w _ i j).re = _
  rw [idft2_congr m.h m.w _ (fun k l => dft2 m.h m.w (fun i j => (c : ℂ) * (exp (2 * Real.pi * I * ((0 : ℕ) * i / m.h)) *
    exp (2 * Real.pi * I * ((0 : ℕ) * j / m.w)))) k l * mult k l) i j fun k _ l _ => by
      congr 1
      exact dft2_congr _ _ _ _ _ _ fun i hi j hj => by simp [hc i hi j hj], filter2_freq _ _ hh hw _ _ _ hh hw]
  simp

theorem filter2_linear (m n : Mat ℝ) (hh : n.h = m.h) (hw : n.w = m.w) (a b : ℝ) (mult : ℕ → ℕ → ℂ) (i j : ℕ) :
    (filter2 ⟨m.h, m.w, fun i j => a * m.get i j + b * n.get i j⟩ mult).get i j =
      a * (filter2 m mult).get i j + b * (filter2 n mult).get i j := by
  simp only [filter2, hh, hw]
  have : (fun k l => dft2 m.h m.w (fun i j => ((a * m.get i j + b * n.get i j : ℝ) : ℂ)) k l * mult k l) =
      fun k l => (a : ℂ) * (dft2 m.h m.w (fun i j => (m.get i j : ℂ)) k l * mult k l) +
        (b : ℂ) * (dft2 m.h m.w (fun i j => (n.get i j : ℂ)) k l * mult k l) := by
    funext k l
    rw [show (fun i j => ((a * m.get i j + b * n.get i j : ℝ) : ℂ)) = fun i j => (a : ℂ) * (m.get i j : ℂ) + (b : ℂ) * (n.get i j : ℂ) from
      funext fun i => funext fun j => by push_cast; rfl, dft2_add, dft2_smul, dft2_smul]
    ring
  rw [this, idft2_add, idft2_smul, idft2_smul, add_re, re_ofReal_mul, re_ofReal_mul]

/-! ### Fresnel filter -/

/-- The 1D branch of the Fresnel filter written as one multiplication. -/
theorem fresnelCore_1d (m : Mat ℝ) (win : ℕ → ℕ → ℝ) (pad i j : ℕ) (hi : i < m.h) :
    (fresnelCore false m win pad).get i j =
      (idft (m.w + 2 * pad) (fun l => dft (m.w + 2 * pad) (fun j => (m.get i (edgeIdx m.w pad j) : ℂ)) l *
        (1 / ((win i (edgeIdx m.w pad (ifftshiftIdx (m.w + 2 * pad) l)) : ℝ) : ℂ))) (pad + j)).re := by
  have hi' : edgeIdx m.h 0 (0 + i) = i := edgeIdx_mid m.h 0 i hi
  simp only [fresnelCore, if_neg Bool.false_ne_true, crop, padEdge, hi']
  congr 1
  apply idft_congr
  intro l hl
  rw [ifft_fft_shift _ _ hl, div_eq_mul_one_div]

theorem fresnelWindow_zero (dim2 : Bool) (h w i j : ℕ) : fresnelWindow dim2 h w 0 i j = 1 := by
  cases dim2 <;> simp [fresnelWindow]

theorem fresnelWindow_center (dim2 : Bool) (h w : ℕ) (ratio : ℝ) (i : ℕ) (hd : dim2 = true → i = h / 2) :
    fresnelWindow dim2 h w ratio i (w / 2) = 1 := by
  unfold fresnelWindow
  rw [show ((w : ℝ) - 1) * (1 / 2) = ((w : ℝ) - 1) / 2 by ring, show ((h : ℝ) - 1) * (1 / 2) = ((h : ℝ) - 1) / 2 by ring,
    ceil_half, ceil_half, Int.cast_natCast, Int.cast_natCast, sub_self, zero_div]
  cases dim2
  · simp
  · rw [hd rfl, sub_self, zero_div]; simp

/-- Filtering step: unit window is the identity. -/
theorem fresnelCore_one (dim2 : Bool) (m : Mat ℝ) (win : ℕ → ℕ → ℝ) (pad : ℕ) (h1 : ∀ i < m.h, ∀ j < m.w, win i j = 1) :
    (fresnelCore dim2 m win pad).Eqv m := by
  cases dim2
  · refine ⟨rfl, rfl, fun i hi j hj => ?_⟩
    have hi : i < m.h := hi
    have hj : j < m.w := hj
    rw [fresnelCore_1d m win pad i j hi, idft_congr (m.w + 2 * pad) _ (fun l => dft (m.w + 2 * pad)
      (fun j => (m.get i (edgeIdx m.w pad j) : ℂ)) l) _ fun l hl => by
        rw [h1 i hi _ (by unfold edgeIdx; omega)]; simp, idft_dft _ _ _ (by omega), edgeIdx_mid _ _ _ hj, ofReal_re]
  · refine ⟨rfl, rfl, fun i hi j hj => ?_⟩
    have hi : i < m.h := hi
    have hj : j < m.w := hj
    simp only [fresnelCore, if_true, crop]
    have := (filter2_one (padEdge m pad pad) (fun k l => 1 / (((padEdge ⟨m.h, m.w, win⟩ pad pad).get (ifftshiftIdx (padEdge m pad pad).h k)
      (ifftshiftIdx (padEdge m pad pad).w l) : ℝ) : ℂ)) (by
        intro k _ l _
        simp only [padEdge]
        rw [h1 _ (by unfold edgeIdx; omega) _ (by unfold edgeIdx; omega)]; simp)).2.2 (pad + i) (by show _ < m.h + 2 * pad; omega) (pad + j)
        (by show _ < m.w + 2 * pad; omega)
    rw [this]
    simp only [padEdge, edgeIdx_mid _ _ _ hi, edgeIdx_mid _ _ _ hj]

/-- Filtering step: constants are kept by any window that is one at its centre. -/
theorem fresnelCore_const (dim2 : Bool) (m : Mat ℝ) (c : ℝ) (hc : ∀ i < m.h, ∀ j < m.w, m.get i j = c) (win : ℕ → ℕ → ℝ) (pad : ℕ)
    (h1 : ∀ i, (dim2 = true → i = m.h / 2) → win i (m.w / 2) = 1) : (fresnelCore dim2 m win pad).Eqv m := by
  cases dim2
  · refine ⟨rfl, rfl, fun i hi j hj => ?_⟩
    have hi : i < m.h := hi
    have hj : j < m.w := hj
    rw [fresnelCore_1d m win pad i j hi, idft_congr (m.w + 2 * pad) _ (fun l => dft (m.w + 2 * pad)
      (fun j => (c : ℂ) * exp (2 * Real.pi * I * ((0 : ℕ) * j / (m.w + 2 * pad : ℕ)))) l * (1 / ((win i (edgeIdx m.w pad (ifftshiftIdx (m.w + 2 * pad) l)) : ℝ) : ℂ))) _ fun l hl => by
        congr 1
        apply dft_congr
        intro n _
        rw [hc i hi _ (by unfold edgeIdx; omega)]; simp, filter_freq _ (by omega) _ _ (by omega), ifftshiftIdx_zero,
        show (m.w + 2 * pad) / 2 = pad + m.w / 2 by omega, edgeIdx_mid _ _ _ (by omega), h1 i (by simp), hc i hi j hj]
    simp
  · refine ⟨rfl, rfl, fun i hi j hj => ?_⟩
    have hi : i < m.h := hi
    have hj : j < m.w := hj
    simp only [fresnelCore, if_true, crop]
    rw [filter2_const (padEdge m pad pad) c (by
      intro i _ j _
      exact hc _ (by unfold edgeIdx; omega) _ (by unfold edgeIdx; omega)) _ (by show 0 < m.h + 2 * pad; omega) (by show 0 < m.w + 2 * pad; omega)]
    simp only [padEdge, ifftshiftIdx_zero]
    rw [show (m.w + 2 * pad) / 2 = pad + m.w / 2 by omega, show (m.h + 2 * pad) / 2 = pad + m.h / 2 by omega,
      edgeIdx_mid _ _ _ (by omega), edgeIdx_mid _ _ _ (by omega), h1 _ (fun _ => rfl), hc i hi j hj]
    simp

/-- Filtering step is linear in the image. -/
theorem fresnelCore_linear (dim2 : Bool) (m n : Mat ℝ) (hh : n.h = m.h) (hw : n.w = m.w) (a b : ℝ) (win : ℕ → ℕ → ℝ) (pad : ℕ)
    (i j : ℕ) (hi : i < m.h) :
    (fresnelCore dim2 ⟨m.h, m.w, fun i j => a * m.get i j + b * n.get i j⟩ win pad).get i j =
      a * (fresnelCore dim2 m win pad).get i j + b * (fresnelCore dim2 n win pad).get i j := by
  cases dim2
  · rw [fresnelCore_1d m win pad i j hi, fresnelCore_1d n win pad i j (by omega), fresnelCore_1d ⟨m.h, m.w, fun i j => a * m.get i j + b * n.get i j⟩ win pad i j hi]
    simp only [hh, hw]
    set mult : ℕ → ℂ := fun l => (1 / ((win i (edgeIdx m.w pad (ifftshiftIdx (m.w + 2 * pad) l)) : ℝ) : ℂ)) with hmult
    have : (fun l => dft (m.w + 2 * pad) (fun j => ((a * m.get i (edgeIdx m.w pad j) + b * n.get i (edgeIdx m.w pad j) : ℝ) : ℂ)) l * mult l) =
        fun l => (a : ℂ) * (dft (m.w + 2 * pad) (fun j => (m.get i (edgeIdx m.w pad j) : ℂ)) l * mult l) +
          (b : ℂ) * (dft (m.w + 2 * pad) (fun j => (n.get i (edgeIdx m.w pad j) : ℂ)) l * mult l) := by
      funext l
      rw [show (fun j => ((a * m.get i (edgeIdx m.w pad j) + b * n.get i (edgeIdx m.w pad j) : ℝ) : ℂ)) =
        fun j => (a : ℂ) * (m.get i (edgeIdx m.w pad j) : ℂ) + (b : ℂ) * (n.get i (edgeIdx m.w pad j) : ℂ) from
          funext fun j => by push_cast; rfl, dft_add, dft_smul, dft_smul]
      ring
    rw [this, idft_add, idft_smul, idft_smul, add_re, re_ofReal_mul, re_ofReal_mul]
  · simp only [fresnelCore, if_true, crop, hh, hw]
    have := filter2_linear (padEdge m pad pad) (padEdge n pad pad) (by simp [padEdge, hh]) (by simp [padEdge, hw]) a b
      (fun k l => 1 / (((padEdge ⟨m.h, m.w, win⟩ pad pad).get (ifftshiftIdx (padEdge m pad pad).h k)
        (ifftshiftIdx (padEdge m pad pad).w l) : ℝ) : ℂ)) (pad + i) (pad + j)
    simp only [padEdge, hh, hw] at this ⊢
    exact this

/-- C34 for `fresnel_filter`: with ratio 0 it returns the image, for every image size, dimension and pad; with the logarithm this needs
positive pixels. -/
theorem fresnel_ratio_zero (m : Mat ℝ) (dim2 applyLog : Bool) (pad : ℕ) (hpos : applyLog = true → ∀ i < m.h, ∀ j < m.w, 0 < m.get i j) :
    (fresnelFilter m 0 dim2 pad applyLog).Eqv m := by
  cases applyLog
  · exact fresnelCore_one dim2 m _ pad fun i _ j _ => fresnelWindow_zero _ _ _ _ _
  · have := fresnelCore_one dim2 ⟨m.h, m.w, fun i j => -Real.log (m.get i j)⟩ (fresnelWindow dim2 m.h m.w 0) pad
      (fun i _ j _ => fresnelWindow_zero _ _ _ _ _)
    refine ⟨this.1, this.2.1, fun i hi j hj => ?_⟩
    have hi' : i < m.h := by rw [← this.1]; exact hi
    have hj' : j < m.w := by rw [← this.2.1]; exact hj
    simp only [fresnelFilter, if_true]
    rw [this.2.2 i hi j hj, neg_neg, Real.exp_log (hpos rfl i hi' j hj')]

/-- C34 for `fresnel_filter`: for every ratio a constant image is returned unchanged. -/
theorem fresnel_constant (m : Mat ℝ) (c ratio : ℝ) (hc : ∀ i < m.h, ∀ j < m.w, m.get i j = c) (dim2 applyLog : Bool) (pad : ℕ)
    (hpos : applyLog = true → 0 < c) : (fresnelFilter m ratio dim2 pad applyLog).Eqv m := by
  cases applyLog
  · exact fresnelCore_const dim2 m c hc _ pad fun i hd => fresnelWindow_center _ _ _ _ _ hd
  · have := fresnelCore_const dim2 ⟨m.h, m.w, fun i j => -Real.log (m.get i j)⟩ (-Real.log c) (fun i hi j hj => by simp only [hc i hi j hj])
      (fresnelWindow dim2 m.h m.w ratio) pad (fun i hd => fresnelWindow_center _ _ _ _ _ hd)
    refine ⟨this.1, this.2.1, fun i hi j hj => ?_⟩
    have hi' : i < m.h := by rw [← this.1]; exact hi
    have hj' : j < m.w := by rw [← this.2.1]; exact hj
    simp only [fresnelFilter, if_true]
    rw [this.2.2 i hi j hj, neg_neg, hc i hi' j hj', Real.exp_log (hpos rfl)]

/-- C34 for `fresnel_filter` without the logarithm: linear in the image. -/
theorem fresnel_linear (m n : Mat ℝ) (hh : n.h = m.h) (hw : n.w = m.w) (a b ratio : ℝ) (dim2 : Bool) (pad : ℕ) :
    (fresnelFilter ⟨m.h, m.w, fun i j => a * m.get i j + b * n.get i j⟩ ratio dim2 pad false).Eqv
      ⟨m.h, m.w, fun i j => a * (fresnelFilter m ratio dim2 pad false).get i j + b * (fresnelFilter n ratio dim2 pad false).get i j⟩ := by
  refine ⟨by cases dim2 <;> rfl, by cases dim2 <;> rfl, fun i hi j hj => ?_⟩
  have hi : i < m.h := by cases dim2 <;> exact hi
  have := fresnelCore_linear dim2 m n hh hw a b (fresnelWindow dim2 m.h m.w ratio) pad i j hi
  simp only [fresnelFilter, if_neg Bool.false_ne_true] at this ⊢
  rw [this, hh, hw]

/-! ### MTF deconvolution -/

/-- C34 for `mtf_deconvolution`: a window of ones at least as large as the image returns the image; a smaller window is rejected. -/
theorem mtf_identity (m win : Mat ℝ) (pad : ℕ) :
    (m.h ≤ win.h → m.w ≤ win.w → (∀ i < win.h, ∀ j < win.w, win.get i j = 1) →
      ∃ out, mtfDeconvolution m win pad = .ok out ∧ out.Eqv m) ∧
    (win.h < m.h ∨ win.w < m.w → mtfDeconvolution m win pad = .error .valueError) := by
  constructor
  · intro hh hw h1
    unfold mtfDeconvolution
    rw [if_neg (by omega)]
    dsimp only
    refine ⟨_, rfl, rfl, rfl, fun i hi j hj => ?_⟩
    have hi : i < m.h := hi
    have hj : j < m.w := hj
    simp only [crop]
    have := (filter2_one ⟨win.h + 2 * pad, win.w + 2 * pad, fun i j => m.get (min (reflectPadIdx win.h pad i) (m.h - 1))
        (min (reflectPadIdx win.w pad j) (m.w - 1))⟩
      (fun k l => 1 / (((if pad ≤ ifftshiftIdx (win.h + 2 * pad) k ∧ ifftshiftIdx (win.h + 2 * pad) k < pad + win.h ∧
        pad ≤ ifftshiftIdx (win.w + 2 * pad) l ∧ ifftshiftIdx (win.w + 2 * pad) l < pad + win.w then
          win.get (ifftshiftIdx (win.h + 2 * pad) k - pad) (ifftshiftIdx (win.w + 2 * pad) l - pad) else 1) : ℝ) : ℂ)) (by
        intro k _ l _
        split
        · rw [h1 _ (by omega) _ (by omega)]; simp
        · simp)).2.2 (pad + i) (by dsimp only [filter2]; omega) (pad + j) (by dsimp only [filter2]; omega)
    rw [this]
    dsimp only
    rw [reflectPadIdx_mid _ _ _ (by omega), reflectPadIdx_mid _ _ _ (by omega), min_eq_left (by omega), min_eq_left (by omega)]
  · intro h
    unfold mtfDeconvolution
    rw [if_pos (by omega)]

/-! ### double-wedge filter -/

/-- The step written as one multiplication. -/
theorem wedgeStep_eq (mask : ℕ → ℕ → ℝ) (pad : ℕ) (m : Mat ℝ) :
    wedgeStep mask pad m = crop (filter2 (padEdge m 0 pad) fun k l =>
      ((mask (ifftshiftIdx (m.h + 2 * 0) k) (ifftshiftIdx (m.w + 2 * pad) l) : ℝ) : ℂ)) 0 pad m.h m.w := by
  have key : ∀ i j, (idft2 (m.h + 2 * 0) (m.w + 2 * pad) (fun k l =>
      dft2 (m.h + 2 * 0) (m.w + 2 * pad) (fun i j => ((padEdge m 0 pad).get i j : ℂ)) (fftshiftIdx (m.h + 2 * 0) (ifftshiftIdx (m.h + 2 * 0) k))
        (fftshiftIdx (m.w + 2 * pad) (ifftshiftIdx (m.w + 2 * pad) l)) *
        ((mask (ifftshiftIdx (m.h + 2 * 0) k) (ifftshiftIdx (m.w + 2 * pad) l) : ℝ) : ℂ)) i j) =
      idft2 (m.h + 2 * 0) (m.w + 2 * pad) (fun k l => dft2 (m.h + 2 * 0) (m.w + 2 * pad) (fun i j => ((padEdge m 0 pad).get i j : ℂ)) k l *
        ((mask (ifftshiftIdx (m.h + 2 * 0) k) (ifftshiftIdx (m.w + 2 * pad) l) : ℝ) : ℂ)) i j := by
    intro i j
    apply idft2_congr
    intro k hk l hl
    rw [ifft_fft_shift _ _ hk, ifft_fft_shift _ _ hl]
  unfold wedgeStep crop
  refine congrArg (Mat.mk m.h m.w) (funext fun i => funext fun j => ?_)
  exact congrArg Complex.re (key (0 + i) (pad + j))

theorem wedgeMask_center (h w : ℕ) (radius : ℝ) (j : ℕ) : wedgeMask h w radius (h / 2) j = 1 := by
  unfold wedgeMask
  rw [ceil_half, ceil_half]
  dsimp only
  rw [if_pos (by constructor <;> omega)]

theorem wedgeStep_keeps (mask : ℕ → ℕ → ℝ) (pad : ℕ) (m : Mat ℝ) :
    ((∀ i < m.h, ∀ j < m.w + 2 * pad, mask i j = 1) → (wedgeStep mask pad m).Eqv m) ∧
    (∀ c, (∀ i < m.h, ∀ j < m.w, m.get i j = c) → mask (m.h / 2) ((m.w + 2 * pad) / 2) = 1 → (wedgeStep mask pad m).Eqv m) := by
  rw [wedgeStep_eq]
  constructor
  · intro h1
    refine ⟨rfl, rfl, fun i hi j hj => ?_⟩
    have hi : i < m.h := hi
    have hj : j < m.w := hj
    simp only [crop]
    rw [(filter2_one (padEdge m 0 pad) _ (by
      intro k hk l hl
      have hk : k < m.h + 2 * 0 := hk
      have hl : l < m.w + 2 * pad := hl
      rw [h1 _ (by have := ifftshiftIdx_lt (m.h + 2 * 0) k (by omega); omega) _ (ifftshiftIdx_lt _ _ (by omega))]; simp)).2.2 (0 + i)
        (by show _ < m.h + 2 * 0; omega) (pad + j) (by show _ < m.w + 2 * pad; omega)]
    simp only [padEdge, edgeIdx_mid _ _ _ hi, edgeIdx_mid _ _ _ hj]
  · intro c hc h1
    refine ⟨rfl, rfl, fun i hi j hj => ?_⟩
    have hi : i < m.h := hi
    have hj : j < m.w := hj
    simp only [crop]
    rw [filter2_const (padEdge m 0 pad) c (by
      intro i _ j _
      exact hc _ (by unfold edgeIdx; omega) _ (by unfold edgeIdx; omega)) _ (by show 0 < m.h + 2 * 0; omega) (by show 0 < m.w + 2 * pad; omega),
      ifftshiftIdx_zero, ifftshiftIdx_zero, Nat.mul_zero, Nat.add_zero, h1, hc i hi j hj]
    simp

theorem eqv_trans {a b c : Mat ℝ} (h1 : a.Eqv b) (h2 : b.Eqv c) : a.Eqv c :=
  ⟨h1.1.trans h2.1, h1.2.1.trans h2.2.1, fun i hi j hj => (h1.2.2 i hi j hj).trans
    (h2.2.2 i (h1.1 ▸ hi) j (h1.2.1 ▸ hj))⟩

/-- C34 for `double_wedge_filter` on 360-degree sinograms, any number of iterations, any pad: a mask of ones returns the sinogram, and the
default mask (whatever the radius ratio) returns a constant sinogram unchanged. -/
theorem wedge_filter_keeps (iteration : ℕ) (ratio : ℝ) (pad : ℕ) (m : Mat ℝ) :
    (∀ mask : ℕ → ℕ → ℝ, (∀ i < m.h, ∀ j < m.w + 2 * pad, mask i j = 1) → (wedgeFilter m iteration (some mask) ratio pad).Eqv m) ∧
    (∀ c, (∀ i < m.h, ∀ j < m.w, m.get i j = c) → (wedgeFilter m iteration none ratio pad).Eqv m) := by
  constructor
  · intro mask h1
    unfold wedgeFilter
    simp only [Option.getD_some]
    induction iteration with
    | zero => exact ⟨rfl, rfl, fun _ _ _ _ => rfl⟩
    | succ n ih =>
      rw [Function.iterate_succ_apply']
      have := (wedgeStep_keeps mask pad ((wedgeStep mask pad)^[n] m)).1 (by rw [ih.1, ih.2.1]; exact h1)
      exact eqv_trans this ih
  · intro c hc
    have hcen := wedgeMask_center m.h (m.w + 2 * pad) (ratio * m.w / 2)
    have hw : wedgeFilter m iteration none ratio pad = (wedgeStep (wedgeMask m.h (m.w + 2 * pad) (ratio * m.w / 2)) pad)^[iteration] m := rfl
    rw [hw]
    generalize wedgeMask m.h (m.w + 2 * pad) (ratio * m.w / 2) = mask at hcen
    clear hw
    induction iteration with
    | zero => exact ⟨rfl, rfl, fun _ _ _ _ => rfl⟩
    | succ n ih =>
      rw [Function.iterate_succ_apply']
      have := (wedgeStep_keeps mask pad ((wedgeStep mask pad)^[n] m)).2 c (by
        intro i hi j hj
        rw [ih.2.2 i hi j hj]
        exact hc i (ih.1 ▸ hi) j (ih.2.1 ▸ hj)) (by rw [ih.1]; exact hcen _)
      exact eqv_trans this ih

end Verif.Fourier
