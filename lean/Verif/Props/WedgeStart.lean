import Verif.Props.FilterSymm
import Mathlib.Data.Nat.ModEq

/-!
**C177.** `double_wedge_filter` of a full turn: the angle at which the scan starts makes no difference, and the filter is linear
(algotom/prep/filtering.py:167-223).
-/

set_option linter.unusedSectionVars false
set_option linter.unusedSimpArgs false

open Complex

namespace Verif.Fourier

/-- The sinogram of the same scan started `s` projections later: projection `i` is the old projection `i + s`, counted round the circle. -/
def startedLater (s : ℕ) (m : Mat ℝ) : Mat ℝ := ⟨m.h, m.w, fun i j => m.get ((i + s) % m.h) j⟩

/-! ### a sum round the circle -/

theorem sum_roll (N s : ℕ) (g : ℕ → ℂ) : ∑ n ∈ Finset.range N, g ((n + s) % N) = ∑ n ∈ Finset.range N, g n := by
  induction s with
  | zero => exact Finset.sum_congr rfl fun n hn => by rw [Nat.add_zero, Nat.mod_eq_of_lt (Finset.mem_range.1 hn)]
  | succ s ih =>
    rw [← ih]
    cases N with
    | zero => rfl
    | succ M =>
      rw [Finset.sum_range_succ, Finset.sum_range_succ' (fun n => g ((n + s) % (M + 1)))]
      congr 1
      · exact Finset.sum_congr rfl fun n _ => by rw [show n + (s + 1) = n + 1 + s by omega]
      · rw [show M + (s + 1) = s + (M + 1) by omega, Nat.add_mod_right, Nat.zero_add]

theorem exp_period {N : ℕ} (hN : 0 < N) (k n : ℕ) : exp (2 * Real.pi * I * (k * ((n % N : ℕ) : ℂ) / N)) = exp (2 * Real.pi * I * (k * n / N)) := by
  have h : (N : ℂ) ≠ 0 := Nat.cast_ne_zero.2 hN.ne'
  have e : (n : ℂ) = (n % N : ℕ) + N * (n / N : ℕ) := by exact_mod_cast (Nat.mod_add_div n N).symm
  have : (2 * Real.pi * I * (k * (n : ℂ) / N)) = 2 * Real.pi * I * (k * ((n % N : ℕ) : ℂ) / N) + ((k * (n / N) : ℕ) : ℂ) * (2 * Real.pi * I) := by
    rw [e, Nat.cast_mul]
    generalize ((n % N : ℕ) : ℂ) = a
    generalize ((n / N : ℕ) : ℂ) = b
    field_simp
  rw [this, exp_add, exp_nat_mul_two_pi_mul_I, mul_one]

theorem dft_roll {N : ℕ} (hN : 0 < N) (s : ℕ) (x x' : ℕ → ℂ) (hx : ∀ n < N, x' n = x ((n + s) % N)) (k : ℕ) :
    dft N x' k = exp (2 * Real.pi * I * (k * s / N)) * dft N x k := by
  unfold dft
  rw [← sum_roll N s fun n => x n * exp (-(2 * Real.pi * I * (k * n / N))), Finset.mul_sum]
  refine Finset.sum_congr rfl fun n hn => ?_
  rw [hx n (Finset.mem_range.1 hn), exp_neg (2 * Real.pi * I * (k * ((n + s) % N : ℕ) / N)), exp_period hN, ← exp_neg, mul_left_comm, ← exp_add]
  congr 2
  push_cast
  ring

theorem idft_period {N : ℕ} (hN : 0 < N) (y : ℕ → ℂ) (n : ℕ) : idft N y (n % N) = idft N y n := by
  unfold idft
  congr 1
  exact Finset.sum_congr rfl fun k _ => by rw [exp_period hN]

/-- A Fourier multiplier commutes with a cyclic shift of the rows. -/
theorem multiplier_roll {h : ℕ} (w : ℕ) (hh : 0 < h) (s : ℕ) (x x' : ℕ → ℕ → ℂ) (hx : ∀ i < h, ∀ j, x' i j = x ((i + s) % h) j) (mult : ℕ → ℕ → ℂ) (i j : ℕ) :
    idft2 h w (fun k l => dft2 h w x' k l * mult k l) i j = idft2 h w (fun k l => dft2 h w x k l * mult k l) ((i + s) % h) j := by
  have e : (fun k l => dft2 h w x' k l * mult k l) = fun (k l : ℕ) => exp (2 * Real.pi * I * ((k : ℂ) * s / h)) * (dft2 h w x k l * mult k l) := by
    funext k l
    rw [← mul_assoc]
    congr 1
    exact dft_roll hh s (fun i => dft w (x i) l) (fun i => dft w (x' i) l) (fun n hn => by rw [show x' n = x ((n + s) % h) from funext fun j => hx n hn j]) k
  rw [e]
  unfold idft2
  rw [idft_period hh]
  show idft h (fun k : ℕ => idft w (fun l => exp (2 * Real.pi * I * ((k : ℂ) * s / h)) * (dft2 h w x k l * mult k l)) j) i = _
  simp only [idft_smul]
  unfold idft
  congr 1
  refine Finset.sum_congr rfl fun k _ => ?_
  rw [mul_right_comm, ← exp_add, mul_comm]
  congr 2
  push_cast
  ring

/-! ### the filter -/

theorem wedgeStep_get (mask : ℕ → ℕ → ℝ) (pad : ℕ) (x : Mat ℝ) (i j : ℕ) : (wedgeStep mask pad x).get i j =
    (idft2 x.h (x.w + 2 * pad) (fun k l => dft2 x.h (x.w + 2 * pad) (fun i j => ((x.get (edgeIdx x.h 0 i) (edgeIdx x.w pad j) : ℝ) : ℂ)) k l *
      ((mask (ifftshiftIdx x.h k) (ifftshiftIdx (x.w + 2 * pad) l) : ℝ) : ℂ)) i (pad + j)).re := by
  rw [wedgeStep_eq]
  have e : (crop (filter2 (padEdge x 0 pad) fun k l => ((mask (ifftshiftIdx (x.h + 2 * 0) k) (ifftshiftIdx (x.w + 2 * pad) l) : ℝ) : ℂ)) 0 pad x.h x.w).get i j =
      (idft2 (x.h + 2 * 0) (x.w + 2 * pad) (fun k l => dft2 (x.h + 2 * 0) (x.w + 2 * pad) (fun i j => ((x.get (edgeIdx x.h 0 i) (edgeIdx x.w pad j) : ℝ) : ℂ)) k l *
      ((mask (ifftshiftIdx (x.h + 2 * 0) k) (ifftshiftIdx (x.w + 2 * pad) l) : ℝ) : ℂ)) (0 + i) (pad + j)).re := rfl
  rw [e, Nat.mul_zero, Nat.add_zero, Nat.zero_add]

theorem wedgeStep_roll (mask : ℕ → ℕ → ℝ) (pad s : ℕ) (m m' : Mat ℝ) (h : m'.Eqv (startedLater s m)) :
    (wedgeStep mask pad m').Eqv (startedLater s (wedgeStep mask pad m)) := by
  obtain ⟨e1, e2, e3⟩ := h
  have e1 : m'.h = m.h := e1
  have e2 : m'.w = m.w := e2
  have e3 : ∀ i < m.h, ∀ j < m.w, m'.get i j = m.get ((i + s) % m.h) j := fun i hi j hj => e3 i (by omega) j (by omega)
  refine ⟨e1, e2, fun i hi j hj => ?_⟩
  have hi : i < m.h := by have : i < m'.h := hi; omega
  have hj : j < m.w := by have : j < m'.w := hj; omega
  have hh : 0 < m.h := by omega
  show (wedgeStep mask pad m').get i j = (wedgeStep mask pad m).get ((i + s) % m.h) j
  have hx : ∀ p < m.h, ∀ q, m'.get (edgeIdx m.h 0 p) (edgeIdx m.w pad q) = m.get (edgeIdx m.h 0 ((p + s) % m.h)) (edgeIdx m.w pad q) := by
    intro p hp q
    have hq := Nat.mod_lt (p + s) hh
    rw [show edgeIdx m.h 0 p = p by unfold edgeIdx; omega, show edgeIdx m.h 0 ((p + s) % m.h) = (p + s) % m.h by unfold edgeIdx; omega,
      e3 p hp _ (by unfold edgeIdx; omega)]
  have key := multiplier_roll (m.w + 2 * pad) hh s (fun i j => ((m.get (edgeIdx m.h 0 i) (edgeIdx m.w pad j) : ℝ) : ℂ))
    (fun i j => ((m'.get (edgeIdx m.h 0 i) (edgeIdx m.w pad j) : ℝ) : ℂ)) (fun p hp q => congrArg Complex.ofReal (hx p hp q))
    (fun k l => ((mask (ifftshiftIdx m.h k) (ifftshiftIdx (m.w + 2 * pad) l) : ℝ) : ℂ)) i (pad + j)
  have g := wedgeStep_get mask pad m' i j
  rw [e1, e2] at g
  rw [g, wedgeStep_get]
  exact congrArg Complex.re key

/-- **C177.** If the scan of a full turn starts `s` projections later, the filtered sinogram starts `s` projections later and is otherwise the same, for every
number of iterations, every ratio and every (real) mask. -/
theorem wedge_start (s : ℕ) (m : Mat ℝ) (iteration : ℕ) (mask : Option (ℕ → ℕ → ℝ)) (ratio : ℝ) (pad : ℕ) :
    (wedgeFilter (startedLater s m) iteration mask ratio pad).Eqv (startedLater s (wedgeFilter m iteration mask ratio pad)) := by
  unfold wedgeFilter
  show ((wedgeStep (mask.getD (wedgeMask m.h (m.w + 2 * pad) (ratio * m.w / 2))) pad)^[iteration] (startedLater s m)).Eqv _
  generalize mask.getD (wedgeMask m.h (m.w + 2 * pad) (ratio * m.w / 2)) = mk
  induction iteration with
  | zero => exact ⟨rfl, rfl, fun _ _ _ _ => rfl⟩
  | succ n ih =>
    rw [Function.iterate_succ_apply', Function.iterate_succ_apply']
    exact wedgeStep_roll mk pad s _ _ ih

/-- `a` times the first plus `b` times the second sinogram. -/
def mix (a b : ℝ) (m n : Mat ℝ) : Mat ℝ := ⟨m.h, m.w, fun i j => a * m.get i j + b * n.get i j⟩

theorem wedgeStep_linear (mask : ℕ → ℕ → ℝ) (pad : ℕ) (a b : ℝ) (m n p : Mat ℝ) (hh : n.h = m.h) (hw : n.w = m.w) (h : p.Eqv (mix a b m n)) :
    (wedgeStep mask pad p).Eqv (mix a b (wedgeStep mask pad m) (wedgeStep mask pad n)) := by
  obtain ⟨e1, e2, e3⟩ := h
  have e1 : p.h = m.h := e1
  have e2 : p.w = m.w := e2
  have e3 : ∀ i < m.h, ∀ j < m.w, p.get i j = a * m.get i j + b * n.get i j := fun i hi j hj => e3 i (by omega) j (by omega)
  refine ⟨e1, e2, fun i hi j hj => ?_⟩
  have hi : i < m.h := by have : i < p.h := hi; omega
  have hj : j < m.w := by have : j < p.w := hj; omega
  show (wedgeStep mask pad p).get i j = a * (wedgeStep mask pad m).get i j + b * (wedgeStep mask pad n).get i j
  rw [wedgeStep_get, wedgeStep_get, wedgeStep_get, e1, e2, hh, hw]
  have k := filter2_linear ⟨m.h, m.w + 2 * pad, fun i j => m.get (edgeIdx m.h 0 i) (edgeIdx m.w pad j)⟩
    ⟨m.h, m.w + 2 * pad, fun i j => n.get (edgeIdx m.h 0 i) (edgeIdx m.w pad j)⟩ rfl rfl a b
    (fun k l => ((mask (ifftshiftIdx m.h k) (ifftshiftIdx (m.w + 2 * pad) l) : ℝ) : ℂ)) i (pad + j)
  have e : (fun i j => ((p.get (edgeIdx m.h 0 i) (edgeIdx m.w pad j) : ℝ) : ℂ)) =
      fun i j => ((a * m.get (edgeIdx m.h 0 i) (edgeIdx m.w pad j) + b * n.get (edgeIdx m.h 0 i) (edgeIdx m.w pad j) : ℝ) : ℂ) := by
    funext q r
    rw [e3 _ (by unfold edgeIdx; omega) _ (by unfold edgeIdx; omega)]
  rw [e]
  exact k

/-- **C177.** The filter is linear for every real mask and number of iterations. -/
theorem wedge_linear (a b : ℝ) (m n : Mat ℝ) (hh : n.h = m.h) (hw : n.w = m.w) (iteration : ℕ) (mask : Option (ℕ → ℕ → ℝ)) (ratio : ℝ) (pad : ℕ) :
    (wedgeFilter (mix a b m n) iteration mask ratio pad).Eqv
      (mix a b (wedgeFilter m iteration mask ratio pad) (wedgeFilter n iteration mask ratio pad)) := by
  have hs : ∀ (mk : ℕ → ℕ → ℝ) (x : Mat ℝ) (t : ℕ), ((wedgeStep mk pad)^[t] x).h = x.h ∧ ((wedgeStep mk pad)^[t] x).w = x.w := by
    intro mk x t
    induction t with
    | zero => exact ⟨rfl, rfl⟩
    | succ t ih =>
      rw [Function.iterate_succ_apply']
      exact ih
  unfold wedgeFilter
  rw [hh, hw]
  show ((wedgeStep (mask.getD (wedgeMask m.h (m.w + 2 * pad) (ratio * m.w / 2))) pad)^[iteration] (mix a b m n)).Eqv _
  dsimp only
  generalize mask.getD (wedgeMask m.h (m.w + 2 * pad) (ratio * m.w / 2)) = mk
  induction iteration with
  | zero => exact ⟨rfl, rfl, fun _ _ _ _ => rfl⟩
  | succ t ih =>
    simp only [Function.iterate_succ_apply']
    exact wedgeStep_linear mk pad a b _ _ _ (by rw [(hs mk n t).1, (hs mk m t).1, hh]) (by rw [(hs mk n t).2, (hs mk m t).2, hw]) ih

/-! ### non-vacuity -/

/-- The scan started one projection later is a different sinogram. -/
example : (startedLater 1 ⟨3, 2, fun i j => (i + 3 * j : ℝ)⟩).get 2 1 = 3 ∧ (startedLater 1 ⟨3, 2, fun i j => (i + 3 * j : ℝ)⟩).get 0 0 = 1 := by
  constructor <;> norm_num [startedLater]

end Verif.Fourier
