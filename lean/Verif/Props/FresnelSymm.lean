import Verif.Props.MirrorFft
import Verif.Props.Fourier

/-! C176 — the Fresnel filter: exposure, thickness, orientation (algotom/prep/filtering.py:36-128). -/

set_option linter.unusedSectionVars false
set_option linter.unusedSimpArgs false

namespace Verif.Fourier
open Complex Verif.StripeFilters

/-! ### specification -/

/-- The image mirrored left to right. -/
def flipLR (m : Mat ℝ) : Mat ℝ := ⟨m.h, m.w, fun i j => m.get i (m.w - 1 - j)⟩

/-- The image turned by 180 degrees. -/
def turned (m : Mat ℝ) : Mat ℝ := ⟨m.h, m.w, fun i j => m.get (m.h - 1 - i) (m.w - 1 - j)⟩

/-- Pixel by pixel `m1 ^ a * m2 ^ b`: two absorbers in the beam, of `a` times and `b` times the thickness. -/
noncomputable def overlay (a b : ℝ) (m1 m2 : Mat ℝ) : Mat ℝ := ⟨m1.h, m1.w, fun i j => m1.get i j ^ a * m2.get i j ^ b⟩

/-! ### exposure and thickness -/

/-- **C176.** With the logarithm (the default), the filtered overlay of two absorbers is the overlay of the filtered images, for every ratio, pad and
dimension; a filtered image is positive. -/
theorem fresnel_overlay (m1 m2 : Mat ℝ) (hh : m2.h = m1.h) (hw : m2.w = m1.w) (h1 : ∀ i j, 0 < m1.get i j) (h2 : ∀ i j, 0 < m2.get i j) (a b ratio : ℝ)
    (dim2 : Bool) (pad : ℕ) :
    (fresnelFilter (overlay a b m1 m2) ratio dim2 pad true).Eqv (overlay a b (fresnelFilter m1 ratio dim2 pad true) (fresnelFilter m2 ratio dim2 pad true)) ∧
      ∀ i j, 0 < (fresnelFilter m1 ratio dim2 pad true).get i j := by
  refine ⟨⟨by cases dim2 <;> rfl, by cases dim2 <;> rfl, fun i hi j hj => ?_⟩, fun i j => Real.exp_pos _⟩
  have hi' : i < m1.h := by cases dim2 <;> exact hi
  have hl := fresnelCore_linear dim2 ⟨m1.h, m1.w, fun i j => -Real.log (m1.get i j)⟩ ⟨m2.h, m2.w, fun i j => -Real.log (m2.get i j)⟩ hh hw a b
    (fresnelWindow dim2 m1.h m1.w ratio) pad i j hi'
  dsimp only at hl
  have e : (fun i j => -Real.log ((overlay a b m1 m2).get i j)) = fun i j => a * -Real.log (m1.get i j) + b * -Real.log (m2.get i j) := by
    funext i j
    unfold overlay
    dsimp only
    rw [Real.log_mul (Real.rpow_pos_of_pos (h1 i j) _).ne' (Real.rpow_pos_of_pos (h2 i j) _).ne', Real.log_rpow (h1 i j), Real.log_rpow (h2 i j)]
    ring
  unfold fresnelFilter
  dsimp only [if_true]
  simp only [if_true]
  rw [e]
  show Real.exp (-(fresnelCore dim2 ⟨m1.h, m1.w, _⟩ (fresnelWindow dim2 m1.h m1.w ratio) pad).get i j) = _
  rw [hl, hh, hw]
  unfold overlay
  dsimp only
  rw [← Real.exp_mul, ← Real.exp_mul, ← Real.exp_add]
  congr 1
  ring

/-- **C176.** Exposure: multiplying the image by `c > 0` multiplies the filtered image by `c`, with and without the logarithm. -/
theorem fresnel_exposure (m : Mat ℝ) (applyLog : Bool) (h : applyLog = true → ∀ i j, 0 < m.get i j) {c : ℝ} (hc : 0 < c) (ratio : ℝ) (dim2 : Bool) (pad : ℕ) :
    (fresnelFilter ⟨m.h, m.w, fun i j => c * m.get i j⟩ ratio dim2 pad applyLog).Eqv
      ⟨m.h, m.w, fun i j => c * (fresnelFilter m ratio dim2 pad applyLog).get i j⟩ := by
  cases applyLog with
  | false =>
    obtain ⟨q1, q2, q3⟩ := fresnel_linear m m rfl rfl c 0 ratio dim2 pad
    have e : (⟨m.h, m.w, fun i j => c * m.get i j + 0 * m.get i j⟩ : Mat ℝ) = ⟨m.h, m.w, fun i j => c * m.get i j⟩ := by
      congr 1
      funext i j
      ring
    rw [e] at q1 q2 q3
    refine ⟨q1, q2, fun i hi j hj => ?_⟩
    rw [q3 i hi j hj]
    ring
  | true =>
    have h := h rfl
    obtain ⟨⟨q1, q2, q3⟩, -⟩ := fresnel_overlay m ⟨m.h, m.w, fun _ _ => c⟩ rfl rfl h (fun _ _ => hc) 1 1 ratio dim2 pad
    have e : overlay 1 1 m ⟨m.h, m.w, fun _ _ => c⟩ = ⟨m.h, m.w, fun i j => c * m.get i j⟩ := by
      unfold overlay
      congr 1
      funext i j
      simp only [Real.rpow_one]
      ring
    rw [e] at q1 q2 q3
    obtain ⟨k1, k2, k3⟩ := fresnel_constant ⟨m.h, m.w, fun _ _ => c⟩ c ratio (fun _ _ _ _ => rfl) dim2 true pad (fun _ => hc)
    have s1 : ∀ x : Mat ℝ, (fresnelFilter x ratio dim2 pad true).h = x.h := fun x => by cases dim2 <;> rfl
    have s2 : ∀ x : Mat ℝ, (fresnelFilter x ratio dim2 pad true).w = x.w := fun x => by cases dim2 <;> rfl
    refine ⟨by rw [s1], by rw [s2], fun i hi j hj => ?_⟩
    rw [q3 i hi j hj]
    rw [s1] at hi
    rw [s2] at hj
    have k := k3 i (by rw [s1]; exact hi) j (by rw [s2]; exact hj)
    unfold overlay
    dsimp only at k ⊢
    rw [k, Real.rpow_one, Real.rpow_one, mul_comm]

/-! ### orientation -/

theorem idft2_congr' {h w : ℕ} {y y' : ℕ → ℕ → ℂ} (e : ∀ k < h, ∀ l < w, y k l = y' k l) (i j : ℕ) : idft2 h w y i j = idft2 h w y' i j :=
  idft_congr' (fun k hk => idft_congr' (fun l hl => e k hk l hl) j) i

/-- A Fourier multiplier applied to the image turned upside down. -/
theorem multiplier_flip (h w : ℕ) (x x' : ℕ → ℕ → ℂ) (hx : ∀ i < h, ∀ j, x' i j = x (h - 1 - i) j) (mult : ℕ → ℕ → ℂ) (i j : ℕ) (hi : i < h) :
    idft2 h w (fun k l => dft2 h w x' k l * mult k l) i j = idft2 h w (fun k l => dft2 h w x k l * mult (neg h k) l) (h - 1 - i) j := by
  unfold idft2
  rw [← idft_mirror h (fun k => idft w (fun l => dft2 h w x k l * mult (neg h k) l) j) i hi]
  refine idft_congr' (fun k hk => ?_) i
  have : ∀ l, dft2 h w x' k l = exp (2 * Real.pi * I * (k / h)) * dft2 h w x (neg h k) l := by
    intro l
    unfold dft2
    refine dft_mirror h (fun i => dft w (x i) l) (fun i => dft w (x' i) l) (fun n hn => ?_) k hk
    rw [show x' n = x (h - 1 - n) from funext fun j => hx n hn j]
  dsimp only
  rw [neg_neg' hk]
  simp only [this]
  unfold idft
  rw [← mul_div_assoc (exp _), Finset.mul_sum]
  congr 1
  refine Finset.sum_congr rfl fun l _ => ?_
  ring

/-- The real part of a real multiplier applied to a real line follows a reflection of the line. -/
theorem line_mirror (N : ℕ) (x x' : ℕ → ℝ) (h : ∀ n < N, x' n = x (N - 1 - n)) (r : ℕ → ℝ) (j : ℕ) (hj : j < N) :
    (idft N (fun l => dft N (fun n => (x' n : ℂ)) l * (r l : ℂ)) j).re = (idft N (fun l => dft N (fun n => (x n : ℂ)) l * (r l : ℂ)) (N - 1 - j)).re := by
  have e : idft N (fun l => dft N (fun n => (x' n : ℂ)) l * (r l : ℂ)) j =
      idft N (fun l => dft N (fun n => (x n : ℂ)) l * (r (neg N l) : ℂ)) (N - 1 - j) := by
    rw [← idft_mirror N _ j hj]
    refine idft_congr' (fun l hl => ?_) j
    rw [dft_mirror N (fun n => (x n : ℂ)) (fun n => (x' n : ℂ)) (fun n hn => by rw [h n hn]) l hl, neg_neg' hl, mul_assoc]
  rw [e, ← Complex.conj_re, idft_conj]
  congr 1
  refine idft_congr' (fun l hl => ?_) _
  rw [map_mul, Complex.conj_ofReal, dft_conj N _ _ (neg_lt hl), neg_neg' hl]
  simp only [Complex.conj_ofReal]

/-- The real part of a real multiplier applied to a real image follows a half turn of the image. -/
theorem filter2_turned (h w : ℕ) (x x' : ℕ → ℕ → ℝ) (hx : ∀ i < h, ∀ j < w, x' i j = x (h - 1 - i) (w - 1 - j)) (r : ℕ → ℕ → ℝ) (i j : ℕ) (hi : i < h)
    (hj : j < w) :
    (idft2 h w (fun k l => dft2 h w (fun i j => (x' i j : ℂ)) k l * (r k l : ℂ)) i j).re =
      (idft2 h w (fun k l => dft2 h w (fun i j => (x i j : ℂ)) k l * (r k l : ℂ)) (h - 1 - i) (w - 1 - j)).re := by
  let c : ℕ → ℕ → ℂ := fun i j => (x i j : ℂ)
  let c1 : ℕ → ℕ → ℂ := fun i j => c i (w - 1 - j)
  let c2 : ℕ → ℕ → ℂ := fun i j => c1 (h - 1 - i) j
  let R : ℕ → ℕ → ℂ := fun k l => (r k l : ℂ)
  have e0 : idft2 h w (fun k l => dft2 h w (fun i j => (x' i j : ℂ)) k l * R k l) i j = idft2 h w (fun k l => dft2 h w c2 k l * R k l) i j := by
    refine idft2_congr' (fun k _ l _ => ?_) i j
    congr 1
    unfold dft2 dft
    refine Finset.sum_congr rfl fun p hp => ?_
    congr 1
    refine Finset.sum_congr rfl fun q hq => ?_
    show ((x' p q : ℝ) : ℂ) * _ = ((x (h - 1 - p) (w - 1 - q) : ℝ) : ℂ) * _
    rw [hx p (Finset.mem_range.1 hp) q (Finset.mem_range.1 hq)]
  have e1 := multiplier_flip h w c1 c2 (fun i _ j => rfl) R i j hi
  have e2 := multiplier_mirror h w c c1 (fun i j _ => rfl) (fun k l => R (neg h k) l) (h - 1 - i) j hj
  have e3 := multiplier_conj h w x (fun k l => r (neg h k) (neg w l)) (h - 1 - i) (w - 1 - j)
  have e4 : idft2 h w (fun k l => dft2 h w c k l * ((r (neg h (neg h k)) (neg w (neg w l)) : ℝ) : ℂ)) (h - 1 - i) (w - 1 - j) =
      idft2 h w (fun k l => dft2 h w c k l * R k l) (h - 1 - i) (w - 1 - j) := by
    refine idft2_congr' (fun k hk l hl => ?_) _ _
    rw [neg_neg' hk, neg_neg' hl]
  have e5 : idft2 h w (fun k l => dft2 h w (fun i j => (x' i j : ℂ)) k l * R k l) i j =
      idft2 h w (fun k l => dft2 h w c k l * ((r (neg h k) (neg w l) : ℝ) : ℂ)) (h - 1 - i) (w - 1 - j) := e0.trans (e1.trans e2)
  have e6 := congrArg Complex.re (e3.trans e4)
  rw [Complex.conj_re] at e6
  exact (congrArg Complex.re e5).trans e6

theorem edgeIdx_mirror (n p k : ℕ) (_ : k < n + 2 * p) : edgeIdx n p (n + 2 * p - 1 - k) = n - 1 - edgeIdx n p k := by
  unfold edgeIdx; omega

theorem fresnelCore_flip (m : Mat ℝ) (win : ℕ → ℕ → ℝ) (pad i j : ℕ) (hi : i < m.h) (hj : j < m.w) :
    (fresnelCore false (flipLR m) win pad).get i j = (fresnelCore false m win pad).get i (m.w - 1 - j) := by
  rw [fresnelCore_1d (flipLR m) win pad i j hi, fresnelCore_1d m win pad i _ hi]
  have hm := line_mirror (m.w + 2 * pad) (fun n => m.get i (edgeIdx m.w pad n)) (fun n => (flipLR m).get i (edgeIdx m.w pad n))
    (fun n hn => by rw [edgeIdx_mirror _ _ _ hn]; rfl) (fun l => 1 / win i (edgeIdx m.w pad (ifftshiftIdx (m.w + 2 * pad) l))) (pad + j) (by omega)
  push_cast at hm
  rw [show m.w + 2 * pad - 1 - (pad + j) = pad + (m.w - 1 - j) by omega] at hm
  exact hm

theorem fresnelCore_turned (m : Mat ℝ) (win : ℕ → ℕ → ℝ) (pad i j : ℕ) (hi : i < m.h) (hj : j < m.w) :
    (fresnelCore true (turned m) win pad).get i j = (fresnelCore true m win pad).get (m.h - 1 - i) (m.w - 1 - j) := by
  have hm := filter2_turned (m.h + 2 * pad) (m.w + 2 * pad) (fun p q => m.get (edgeIdx m.h pad p) (edgeIdx m.w pad q))
    (fun p q => (turned m).get (edgeIdx m.h pad p) (edgeIdx m.w pad q))
    (fun p hp q hq => by rw [edgeIdx_mirror _ _ _ hp, edgeIdx_mirror _ _ _ hq]; rfl)
    (fun k l => 1 / win (edgeIdx m.h pad (ifftshiftIdx (m.h + 2 * pad) k)) (edgeIdx m.w pad (ifftshiftIdx (m.w + 2 * pad) l)))
    (pad + i) (pad + j) (by omega) (by omega)
  push_cast at hm
  rw [show m.w + 2 * pad - 1 - (pad + j) = pad + (m.w - 1 - j) by omega, show m.h + 2 * pad - 1 - (pad + i) = pad + (m.h - 1 - i) by omega] at hm
  simp only [fresnelCore, if_true, crop, filter2, padEdge]
  exact hm

/-- **C176.** Orientation: the filtered sinogram (`dim=1`) of the mirrored detector is the mirrored filtered sinogram, and the filtered projection (`dim=2`)
turned by 180 degrees is the projection turned after filtering, for every size, ratio, pad, with and without the logarithm. -/
theorem fresnel_orientation (m : Mat ℝ) (ratio : ℝ) (pad : ℕ) (applyLog : Bool) :
    (fresnelFilter (flipLR m) ratio false pad applyLog).Eqv (flipLR (fresnelFilter m ratio false pad applyLog)) ∧
    (fresnelFilter (turned m) ratio true pad applyLog).Eqv (turned (fresnelFilter m ratio true pad applyLog)) := by
  constructor
  · cases applyLog with
    | false => exact ⟨rfl, rfl, fun i hi j hj => fresnelCore_flip m _ pad i j hi hj⟩
    | true =>
      refine ⟨rfl, rfl, fun i hi j hj => ?_⟩
      have := fresnelCore_flip ⟨m.h, m.w, fun i j => -Real.log (m.get i j)⟩ (fresnelWindow false m.h m.w ratio) pad i j hi hj
      exact congrArg (fun z => Real.exp (-z)) this
  · cases applyLog with
    | false => exact ⟨rfl, rfl, fun i hi j hj => fresnelCore_turned m _ pad i j hi hj⟩
    | true =>
      refine ⟨rfl, rfl, fun i hi j hj => ?_⟩
      have := fresnelCore_turned ⟨m.h, m.w, fun i j => -Real.log (m.get i j)⟩ (fresnelWindow true m.h m.w ratio) pad i j hi hj
      exact congrArg (fun z => Real.exp (-z)) this

/-- **C176.** The rows of a sinogram are filtered on their own: a row of the result depends on this row only. -/
theorem fresnel_rows (m m' : Mat ℝ) (hw : m'.w = m.w) (i i' : ℕ) (hi : i < m.h) (hi' : i' < m'.h) (hrow : ∀ j < m.w, m'.get i' j = m.get i j) (ratio : ℝ)
    (pad : ℕ) (applyLog : Bool) (j : ℕ) (hj : j < m.w) :
    (fresnelFilter m' ratio false pad applyLog).get i' j = (fresnelFilter m ratio false pad applyLog).get i j := by
  have key : ∀ f f' : ℕ → ℕ → ℝ, (∀ j < m.w, f' i' j = f i j) → (fresnelCore false ⟨m'.h, m'.w, f'⟩ (fresnelWindow false m'.h m'.w ratio) pad).get i' j =
      (fresnelCore false ⟨m.h, m.w, f⟩ (fresnelWindow false m.h m.w ratio) pad).get i j := by
    intro f f' hf
    rw [fresnelCore_1d ⟨m'.h, m'.w, f'⟩ _ pad i' j hi', fresnelCore_1d ⟨m.h, m.w, f⟩ _ pad i j hi]
    dsimp only
    rw [hw]
    congr 1
    refine idft_congr' (fun l hl => ?_) _
    rw [show (fun j => ((f' i' (edgeIdx m.w pad j) : ℝ) : ℂ)) = fun j => ((f i (edgeIdx m.w pad j) : ℝ) : ℂ) from funext fun q => by
      rw [hf _ (by unfold edgeIdx; omega)]]
    simp only [fresnelWindow, Bool.false_eq_true, if_false]
  cases applyLog with
  | false => exact key m.get m'.get hrow
  | true => exact congrArg (fun z => Real.exp (-z)) (key (fun i j => -Real.log (m.get i j)) (fun i j => -Real.log (m'.get i j)) fun j hj => by rw [hrow j hj])

/-- Non-vacuity: a pad of 150 pixels and an absorber in a beam of intensity 5. -/
example := fresnel_exposure ⟨3, 4, fun i j => if i = 1 ∧ j = 2 then 1 / 2 else 1⟩ true (fun _ i j => by dsimp only; split <;> norm_num) (c := 5) (by norm_num) 100 true 150

end Verif.Fourier
