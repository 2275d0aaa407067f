import Verif.Props.Fourier2

/-! Surface from gradients solves the discrete Poisson equation; stripe damping windows. -/

set_option linter.unusedSectionVars false
set_option linter.unusedSimpArgs false

namespace Verif.Surface
open Complex Verif.Fourier

/-! ### periodic shifts -/

theorem exp_shift (N : ℕ) (hN : 0 < N) (k n s : ℕ) :
    exp (2 * Real.pi * I * (k * ((n + s) % N : ℕ) / N)) = exp (2 * Real.pi * I * (k * n / N)) * exp (2 * Real.pi * I * (k * s / N)) := by
  have hN' : (N : ℂ) ≠ 0 := by exact_mod_cast hN.ne'
  have h := Nat.div_add_mod (n + s) N
  have h' : (n : ℂ) + s = N * ((n + s) / N : ℕ) + ((n + s) % N : ℕ) := by exact_mod_cast h.symm
  rw [← exp_add, show (2 * Real.pi * I * (k * n / N) + 2 * Real.pi * I * (k * s / N) : ℂ) =
    2 * Real.pi * I * (k * ((n + s) % N : ℕ) / N) + ((k * ((n + s) / N) : ℕ) : ℤ) * (2 * Real.pi * I) by
      have : (k * n / N + k * s / N : ℂ) = k * ((n + s) % N : ℕ) / N + k * ((n + s) / N : ℕ) := by
        field_simp
        rw [h']; ring
      rw [Int.cast_natCast, Nat.cast_mul]
      linear_combination (2 * Real.pi * I) * this]
  rw [exp_add, exp_int_mul_two_pi_mul_I, mul_one]

theorem idft_shift (N : ℕ) (hN : 0 < N) (y : ℕ → ℂ) (n s : ℕ) :
    idft N y ((n + s) % N) = idft N (fun k => y k * exp (2 * Real.pi * I * (k * s / N))) n := by
  unfold idft
  congr 1
  refine Finset.sum_congr rfl fun k _ => ?_
  rw [exp_shift N hN]
  ring

theorem idft2_shift (h w : ℕ) (hh : 0 < h) (hw : 0 < w) (y : ℕ → ℕ → ℂ) (i j s t : ℕ) :
    idft2 h w y ((i + s) % h) ((j + t) % w) =
      idft2 h w (fun k l => y k l * (exp (2 * Real.pi * I * (k * s / h)) * exp (2 * Real.pi * I * (l * t / w)))) i j := by
  unfold idft2
  rw [idft_shift h hh]
  congr 1
  funext k
  rw [idft_shift w hw, mul_comm, ← idft_smul]
  congr 1
  funext l
  ring

/-- `exp(2πi k (N-1)/N) = exp(-2πi k/N)`. -/
theorem exp_back (N : ℕ) (hN : 0 < N) (k : ℕ) : exp (2 * Real.pi * I * (k * ((N - 1 : ℕ) : ℂ) / N)) = exp (-(2 * Real.pi * I * (k * (1 : ℕ) / N))) := by
  have hN' : (N : ℂ) ≠ 0 := by exact_mod_cast hN.ne'
  rw [show (2 * Real.pi * I * (k * ((N - 1 : ℕ) : ℂ) / N) : ℂ) = -(2 * Real.pi * I * (k * (1 : ℕ) / N)) + ((k : ℕ) : ℤ) * (2 * Real.pi * I) by
    rw [Nat.cast_sub hN]; push_cast; field_simp; ring]
  rw [exp_add, exp_int_mul_two_pi_mul_I, mul_one]

/-- Central difference and second difference in the frequency domain. -/
theorem exp_central (N : ℕ) (hN : 0 < N) (k : ℕ) :
    exp (2 * Real.pi * I * (k * (1 : ℕ) / N)) - exp (2 * Real.pi * I * (k * ((N - 1 : ℕ) : ℂ) / N)) = 2 * I * ((sinU N k : ℝ) : ℂ) ∧
    exp (2 * Real.pi * I * (k * (1 : ℕ) / N)) + exp (2 * Real.pi * I * (k * ((N - 1 : ℕ) : ℂ) / N)) - 2 =
      -4 * ((Real.sin (Real.pi * (k / N)) ^ 2 : ℝ) : ℂ) := by
  rw [exp_back N hN]
  set t : ℝ := 2 * Real.pi * (k / N) with ht
  have e1 : (2 * Real.pi * I * (k * (1 : ℕ) / N) : ℂ) = (t : ℂ) * I := by rw [ht]; push_cast; ring
  rw [e1, ← neg_mul, exp_mul_I, exp_mul_I, cos_neg, sin_neg]
  constructor
  · unfold sinU
    rw [← ht, ofReal_sin]
    ring
  · have h2 : Real.cos t = 1 - 2 * Real.sin (Real.pi * (k / N)) ^ 2 := by
      rw [ht, mul_assoc, Real.cos_two_mul, ← Real.cos_sq_add_sin_sq (Real.pi * (k / N))]
      ring
    rw [← ofReal_cos, h2]
    push_cast
    ring

theorem sin_pi_ne (N k : ℕ) (hk : k < N) (hk0 : k ≠ 0) : Real.sin (Real.pi * (k / N)) ≠ 0 := by
  have hN : (0 : ℝ) < N := by exact_mod_cast (by omega : 0 < N)
  have hkp : (0 : ℝ) < k := by exact_mod_cast Nat.pos_of_ne_zero hk0
  have hk' : (k : ℝ) < N := by exact_mod_cast hk
  apply ne_of_gt
  apply Real.sin_pos_of_pos_of_lt_pi
  · have := Real.pi_pos; positivity
  · have h1 : (k : ℝ) / N < 1 := by rw [div_lt_one hN]; exact hk'
    nlinarith [Real.pi_pos]

/-! ### C68: Poisson equation -/

/-- Five-point Laplacian with periodic boundaries. -/
noncomputable def laplacian (m : Mat ℝ) (i j : ℕ) : ℝ :=
  m.get i ((j + 1) % m.w) + m.get i ((j + (m.w - 1)) % m.w) + m.get ((i + 1) % m.h) j + m.get ((i + (m.h - 1)) % m.h) j - 4 * m.get i j

/-- Central-difference divergence of the field `(gx, gy)` with periodic boundaries. -/
noncomputable def divergence (gx gy : Mat ℝ) (i j : ℕ) : ℝ :=
  (gx.get i ((j + 1) % gx.w) - gx.get i ((j + (gx.w - 1)) % gx.w)) / 2 + (gy.get ((i + 1) % gx.h) j - gy.get ((i + (gx.h - 1)) % gx.h) j) / 2

theorem idft2_sub (h w : ℕ) (x y : ℕ → ℕ → ℂ) (k l : ℕ) : idft2 h w (fun i j => x i j - y i j) k l = idft2 h w x k l - idft2 h w y k l := by
  have : (fun i j => x i j - y i j) = fun i j => x i j + (-1) * y i j := by funext i j; ring
  rw [this, idft2_add, idft2_smul]; ring

/-- C68: for gradients of any size the reconstructed surface solves the discrete Poisson equation exactly. -/
theorem scs_poisson (gx gy : Mat ℝ) (i j : ℕ) (hi : i < gx.h) (hj : j < gx.w) :
    laplacian (scsSurface gx gy) i j = divergence gx gy i j := by
  have hh : 0 < gx.h := by omega
  have hw : 0 < gx.w := by omega
  set h := gx.h with hh'
  set w := gx.w with hw'
  set GX := dft2 h w (fun i j => (gx.get i j : ℂ)) with hGX
  set GY := dft2 h w (fun i j => (gy.get i j : ℂ)) with hGY
  set Y : ℕ → ℕ → ℂ := fun k l => (((sinU w l : ℝ) : ℂ) * GX k l + ((sinU h k : ℝ) : ℂ) * GY k l) * scsWindow h w k l with hY
  have hx0 : ∀ a, (a + 0) % h = a % h := fun a => by rw [Nat.add_zero]
  -- complex field and its neighbours
  have hget : ∀ a b, (scsSurface gx gy).get a b = (idft2 h w Y a b).re := fun a b => rfl
  have hgx : ∀ a b, a < h → b < w → (gx.get a b : ℂ) = idft2 h w GX a b := fun a b ha hb =>
    (idft2_dft2 h w (fun i j => (gx.get i j : ℂ)) a b ha hb).symm
  have hgy : ∀ a b, a < h → b < w → (gy.get a b : ℂ) = idft2 h w GY a b := fun a b ha hb =>
    (idft2_dft2 h w (fun i j => (gy.get i j : ℂ)) a b ha hb).symm
  have hi0 : (i + 0) % h = i := by rw [Nat.add_zero, Nat.mod_eq_of_lt hi]
  have hj0 : (j + 0) % w = j := by rw [Nat.add_zero, Nat.mod_eq_of_lt hj]
  have sx : ∀ (Z : ℕ → ℕ → ℂ) t, idft2 h w Z i ((j + t) % w) = idft2 h w (fun k l => Z k l * exp (2 * Real.pi * I * (l * t / w))) i j := by
    intro Z t
    have := idft2_shift h w hh hw Z i j 0 t
    rw [hi0] at this
    rw [this]
    congr 1
    funext k l
    simp
  have sy : ∀ (Z : ℕ → ℕ → ℂ) t, idft2 h w Z ((i + t) % h) j = idft2 h w (fun k l => Z k l * exp (2 * Real.pi * I * (k * t / h))) i j := by
    intro Z t
    have := idft2_shift h w hh hw Z i j t 0
    rw [hj0] at this
    rw [this]
    congr 1
    funext k l
    simp
  have hL : ((laplacian (scsSurface gx gy) i j : ℝ)) = (idft2 h w (fun k l => Y k l * (-4 * (((Real.sin (Real.pi * (l / w)) ^ 2 +
      Real.sin (Real.pi * (k / h)) ^ 2 : ℝ)) : ℂ))) i j).re := by
    show (scsSurface gx gy).get i ((j + 1) % w) + (scsSurface gx gy).get i ((j + (w - 1)) % w) + (scsSurface gx gy).get ((i + 1) % h) j +
      (scsSurface gx gy).get ((i + (h - 1)) % h) j - 4 * (scsSurface gx gy).get i j = _
    simp only [hget]
    rw [sx, sx, sy, sy, show (4 : ℝ) * (idft2 h w Y i j).re = ((4 : ℂ) * idft2 h w Y i j).re by simp, ← idft2_smul, ← add_re, ← add_re, ← add_re, ← sub_re,
      ← idft2_add, ← idft2_add, ← idft2_add, ← idft2_sub]
    congr 2
    funext k l
    have h1 := (exp_central w hw l).2
    have h2 := (exp_central h hh k).2
    push_cast at h1 h2 ⊢
    linear_combination Y k l * (h1 + h2)
  have hD : ((divergence gx gy i j : ℝ) : ℂ) = idft2 h w (fun k l => I * (((sinU w l : ℝ) : ℂ) * GX k l + ((sinU h k : ℝ) : ℂ) * GY k l)) i j := by
    unfold divergence
    rw [← hh', ← hw']
    push_cast
    rw [hgx i _ hi (Nat.mod_lt _ hw), hgx i _ hi (Nat.mod_lt _ hw), hgy _ j (Nat.mod_lt _ hh) hj, hgy _ j (Nat.mod_lt _ hh) hj, sx, sx, sy, sy,
      ← idft2_sub, ← idft2_sub, div_eq_inv_mul, div_eq_inv_mul, ← idft2_smul, ← idft2_smul, ← idft2_add]
    congr 1
    funext k l
    have h1 := (exp_central w hw l).1
    have h2 := (exp_central h hh k).1
    linear_combination (2 : ℂ)⁻¹ * (GX k l * h1 + GY k l * h2)
  have hEq : idft2 h w (fun k l => Y k l * (-4 * (((Real.sin (Real.pi * (l / w)) ^ 2 + Real.sin (Real.pi * (k / h)) ^ 2 : ℝ)) : ℂ))) i j =
      idft2 h w (fun k l => I * (((sinU w l : ℝ) : ℂ) * GX k l + ((sinU h k : ℝ) : ℂ) * GY k l)) i j := by
    apply idft2_congr
    intro k hk l hl
    simp only [hY, scsWindow]
    by_cases h0 : k = 0 ∧ l = 0
    · rw [if_pos h0, h0.1, h0.2]
      simp [sinU]
    · rw [if_neg h0]
      have hS : ((Real.sin (Real.pi * (l / w)) ^ 2 + Real.sin (Real.pi * (k / h)) ^ 2 : ℝ) : ℂ) ≠ 0 := by
        rw [Ne, ofReal_eq_zero]
        by_cases hk0 : k = 0
        · have := sin_pi_ne w l hl (fun e => h0 ⟨hk0, e⟩)
          positivity
        · have := sin_pi_ne h k hk hk0
          positivity
      generalize ((Real.sin (Real.pi * (l / w)) ^ 2 + Real.sin (Real.pi * (k / h)) ^ 2 : ℝ) : ℂ) = S at hS ⊢
      field_simp
      try rw [I_sq]
      try ring
  rw [hL, hEq, ← hD, ofReal_re]

/-- The fold is a lower bound that is attained. -/
theorem foldl_min_le : ∀ (l : List ℝ) (x : ℝ), l.foldl min x ≤ x ∧ (∀ y ∈ l, l.foldl min x ≤ y) ∧ (l.foldl min x = x ∨ l.foldl min x ∈ l) := by
  intro l
  induction l with
  | nil => intro x; simp
  | cons a l ih =>
    intro x
    obtain ⟨h1, h2, h3⟩ := ih (min x a)
    rw [List.foldl_cons]
    refine ⟨h1.trans (min_le_left _ _), ?_, ?_⟩
    · intro y hy
      rcases List.mem_cons.1 hy with rfl | hy
      · exact h1.trans (min_le_right _ _)
      · exact h2 y hy
    · rcases h3 with h3 | h3
      · rcases min_choice x a with hm | hm
        · left; rw [h3, hm]
        · right; rw [h3, hm]; simp
      · right; simp [h3]

theorem matMin_le (m : Mat ℝ) (i j : ℕ) (hi : i < m.h) (hj : j < m.w) : matMin m ≤ m.get i j := by
  unfold matMin
  apply (foldl_min_le _ _).2.1
  simp only [List.mem_flatMap, List.mem_map, List.mem_range]
  exact ⟨i, hi, j, hj, rfl⟩

/-- C68 for the API: gradients of equal shape give a surface of that shape whose Laplacian is the divergence of the gradients; with the negative
correction all heights are non-negative; different shapes are rejected. -/
theorem surface_scs (gx gy : Mat ℝ) (neg : Bool) :
    (gx.h = gy.h → gx.w = gy.w → ∃ out, surfaceSCS gx gy neg = .ok out ∧ out.h = gx.h ∧ out.w = gx.w ∧
      (∀ i < gx.h, ∀ j < gx.w, laplacian out i j = divergence gx gy i j) ∧
      (neg = true → ∀ i < gx.h, ∀ j < gx.w, 0 ≤ out.get i j)) ∧
    (gx.h ≠ gy.h ∨ gx.w ≠ gy.w → surfaceSCS gx gy neg = .error .valueError) := by
  classical
  constructor
  · intro hh hw
    unfold surfaceSCS
    rw [if_neg (by simp [hh, hw])]
    dsimp only
    by_cases hn : neg = true ∧ matMin (scsSurface gx gy) < 0
    · rw [if_pos hn]
      refine ⟨_, rfl, rfl, rfl, ?_, ?_⟩
      · intro i hi j hj
        rw [← scs_poisson gx gy i j hi hj]
        unfold laplacian
        dsimp only
        ring
      · intro _ i hi j hj
        have := matMin_le (scsSurface gx gy) i j hi hj
        dsimp only
        linarith [hn.2]
    · rw [if_neg hn]
      refine ⟨_, rfl, rfl, rfl, fun i hi j hj => scs_poisson gx gy i j hi hj, ?_⟩
      intro hneg i hi j hj
      have h1 := matMin_le (scsSurface gx gy) i j hi hj
      have h2 : 0 ≤ matMin (scsSurface gx gy) := by
        by_contra hc
        exact hn ⟨hneg, not_le.1 hc⟩
      linarith
  · intro h
    unfold surfaceSCS
    rw [if_pos h]

/-- A non-trivial instance: gradients of a 3 × 5 image. -/
example : ∃ out, surfaceSCS ⟨3, 5, fun i j => i + j⟩ ⟨3, 5, fun i j => i * j⟩ true = .ok out ∧ laplacian out 1 2 = 3 := by
  obtain ⟨out, h, _, _, h4, _⟩ := (surface_scs ⟨3, 5, fun i j => i + j⟩ ⟨3, 5, fun i j => i * j⟩ true).1 rfl rfl
  refine ⟨out, h, ?_⟩
  rw [h4 1 (by norm_num) 2 (by norm_num)]
  norm_num [divergence]

/-! ### C69: stripes in wavelet details -/

/-- A filter that depends on the row frequency only multiplies an ideal stripe pattern (constant along the rows' axis) by its gain at
row frequency zero. -/
theorem filter2_stripes (m : Mat ℝ) (s : ℕ → ℝ) (hs : ∀ i < m.h, ∀ j < m.w, m.get i j = s j) (g : ℕ → ℝ) (i j : ℕ) (hi : i < m.h)
    (hj : j < m.w) : (filter2 m fun k _ => ((g k : ℝ) : ℂ)).get i j = g 0 * s j := by
  have hh : 0 < m.h := by omega
  show (idft2 m.h m.w _ i j).re = _
  rw [idft2_congr m.h m.w _ (fun k l => ((g 0 : ℝ) : ℂ) * dft2 m.h m.w (fun i j => ((s j : ℝ) : ℂ)) k l) i j, idft2_smul, idft2_dft2 _ _ _ _ _ hi hj,
    ← ofReal_mul, ofReal_re]
  intro k hk l hl
  have e : dft2 m.h m.w (fun i j => (m.get i j : ℂ)) k l = if k = 0 then dft m.w (fun j => ((s j : ℝ) : ℂ)) l * m.h else 0 := by
    rw [dft2_congr _ _ _ (fun i j => ((s j : ℝ) : ℂ)) _ _ fun i hi j hj => by rw [hs i hi j hj]]
    have := dft_freq m.h hh (dft m.w (fun j => ((s j : ℝ) : ℂ)) l) 0 k hh hk
    rw [← this]
    unfold dft2
    apply dft_congr
    intro n _
    simp
  have e2 : dft2 m.h m.w (fun i j => ((s j : ℝ) : ℂ)) k l = if k = 0 then dft m.w (fun j => ((s j : ℝ) : ℂ)) l * m.h else 0 := by
    rw [← e]
    exact dft2_congr _ _ _ _ _ _ fun i hi j hj => by rw [hs i hi j hj]
  rw [e, e2]
  split
  · rename_i h; rw [h]; ring
  · ring

theorem ceil_half' (n : ℕ) : ⌈(n : ℝ) / 2⌉ = (((n + 1) / 2 : ℕ) : ℤ) := by
  have := ceil_half (n + 1)
  rw [← this]
  congr 1
  push_cast
  ring

/-- Full C69: damping removes an ideal stripe pattern from the detail image. -/
def DampingRemovesStripes (m : Mat ℝ) (size : ℝ) (butter : Bool) : Prop := ∀ i < m.h, ∀ j < m.w, (dampDetail m size butter).get i j = 0

/-- What is left of an ideal stripe pattern. -/
theorem damping_residue (m : Mat ℝ) (s : ℕ → ℝ) (hs : ∀ i < m.h, ∀ j < m.w, m.get i j = s j) (size : ℝ) (butter : Bool) (i j : ℕ) (hi : i < m.h)
    (hj : j < m.w) : (dampDetail m size butter).get i j = damping m.h size butter (m.h / 2) * s j := by
  unfold dampDetail
  rw [filter2_stripes m s hs (fun k => damping m.h size butter (ifftshiftIdx m.h k)) i j hi hj, ifftshiftIdx_zero]

/-- C69 (partial: detail images with an odd number of rows). -/
theorem damping_stripes_partial (m : Mat ℝ) (s : ℕ → ℝ) (hs : ∀ i < m.h, ∀ j < m.w, m.get i j = s j) (size : ℝ) (butter : Bool)
    (hodd : m.h % 2 = 1) : DampingRemovesStripes m size butter := by
  intro i hi j hj
  rw [damping_residue m s hs size butter i j hi hj]
  have : damping m.h size butter (m.h / 2) = 0 := by
    unfold damping
    rw [ceil_half', Int.cast_natCast, show (m.h + 1) / 2 = m.h / 2 + 1 by omega]
    cases butter <;> simp
  rw [this, zero_mul]

/-- C69 is false of the code for every even number of rows: the Gaussian window then keeps the fraction `1 - exp(-1/(2 size²))` of each stripe
(39 % for the default size 1). -/
theorem damping_stripes_refuted (m : Mat ℝ) (s : ℕ → ℝ) (hs : ∀ i < m.h, ∀ j < m.w, m.get i j = s j) (size : ℝ) (hsize : size ≠ 0)
    (heven : m.h % 2 = 0) (i j : ℕ) (hi : i < m.h) (hj : j < m.w) (hsj : s j ≠ 0) :
    (dampDetail m size false).get i j = (1 - Real.exp (-1 / (2 * size ^ 2))) * s j ∧ ¬ DampingRemovesStripes m size false := by
  have h1 : damping m.h size false (m.h / 2) = 1 - Real.exp (-1 / (2 * size ^ 2)) := by
    unfold damping
    rw [ceil_half', Int.cast_natCast, show (m.h + 1) / 2 = m.h / 2 by omega]
    simp
  have h2 : (dampDetail m size false).get i j = (1 - Real.exp (-1 / (2 * size ^ 2))) * s j := by
    rw [damping_residue m s hs size false i j hi hj, h1]
  refine ⟨h2, fun H => ?_⟩
  have h3 := H i hi j hj
  rw [h2] at h3
  rcases mul_eq_zero.1 h3 with h | h
  · refine exp_ne_one_of_neg (x := -1 / (2 * size ^ 2)) ?_ (by linarith)
    have : 0 < size ^ 2 := by positivity
    exact div_neg_of_neg_of_pos (by norm_num) (by positivity)
  · exact hsj h

/-! ### C70: centring of the stripe filter of `remove_stripe_based_fft` -/

/-- The filter window is symmetric about the zero frequency of the (shifted) spectrum of an `h × w` image. -/
def ButterworthCentred (w h : ℕ) (u : ℝ) (v n : ℕ) : Prop :=
  ∀ a b : ℕ, h / 2 + a < h → a ≤ h / 2 → w / 2 + b < w → b ≤ w / 2 →
    butterworth w h u v n (h / 2 + a) (w / 2 + b) = butterworth w h u v n (h / 2 - a) (w / 2 - b)

/-- C70 (partial: odd sizes). -/
theorem butterworth_centred_partial (w h : ℕ) (u : ℝ) (v n : ℕ) (hw : w % 2 = 1) (hh : h % 2 = 1) : ButterworthCentred w h u v n := by
  intro a b ha1 ha2 hb1 hb2
  unfold butterworth
  rw [ceil_half', ceil_half', Int.cast_natCast, show (w + 1) / 2 = w / 2 + 1 by omega, show (h + 1) / 2 = h / 2 + 1 by omega]
  dsimp only
  have hrow : ((((h / 2 + 1 : ℕ) : ℤ) - 1 - v ≤ ((h / 2 + a : ℕ) : ℤ) ∧ ((h / 2 + a : ℕ) : ℤ) < ((h / 2 + 1 : ℕ) : ℤ) - 1 + v + 1) ↔
      (((h / 2 + 1 : ℕ) : ℤ) - 1 - v ≤ ((h / 2 - a : ℕ) : ℤ) ∧ ((h / 2 - a : ℕ) : ℤ) < ((h / 2 + 1 : ℕ) : ℤ) - 1 + v + 1)) := by omega
  have hcol : ((((w / 2 + b : ℕ) : ℝ) - (((w / 2 + 1 : ℕ) : ℝ) - 1)) / u) ^ (2 * n) = ((((w / 2 - b : ℕ) : ℝ) - (((w / 2 + 1 : ℕ) : ℝ) - 1)) / u) ^ (2 * n) := by
    rw [Nat.cast_sub hb2]
    push_cast
    rw [pow_mul, pow_mul]
    congr 1
    ring
  rw [hcol]
  by_cases h1 : (((h / 2 + 1 : ℕ) : ℤ) - 1 - v ≤ ((h / 2 + a : ℕ) : ℤ) ∧ ((h / 2 + a : ℕ) : ℤ) < ((h / 2 + 1 : ℕ) : ℤ) - 1 + v + 1)
  · rw [if_pos h1, if_pos (hrow.1 h1)]
  · rw [if_neg h1, if_neg (fun h => h1 (hrow.2 h))]

/-- C70 is false of the code for every even number of rows: with `v = 0` the row of zero vertical frequency, which carries the stripes, is not
touched at all. -/
theorem butterworth_misses_zero_row (w h : ℕ) (u : ℝ) (n : ℕ) (hh : h % 2 = 0) (j : ℕ) : butterworth w h u 0 n (h / 2) j = 1 := by
  unfold butterworth
  rw [ceil_half', ceil_half', show (h + 1) / 2 = h / 2 by omega]
  dsimp only
  rw [if_neg (by push_cast; omega)]

theorem butterworth_centred_refuted (w h : ℕ) (u : ℝ) (v : ℕ) (n : ℕ) (hw : w % 2 = 0) (hw4 : 4 ≤ w) (hh : h % 2 = 0) (hh2 : 2 ≤ h) (hu : 0 < u)
    (hn : 1 ≤ n) (hv : 1 ≤ v) : ¬ ButterworthCentred w h u v n := by
  intro H
  have h1 := H 0 1 (by omega) (by omega) (by omega) (by omega)
  unfold butterworth at h1
  rw [ceil_half', ceil_half', Int.cast_natCast, show (w + 1) / 2 = w / 2 by omega, show (h + 1) / 2 = h / 2 by omega] at h1
  dsimp only at h1
  rw [if_pos (by constructor <;> omega), if_pos (by constructor <;> omega), Nat.cast_sub (by omega)] at h1
  push_cast at h1
  rw [show ((w / 2 : ℕ) : ℝ) + 1 - (((w / 2 : ℕ) : ℝ) - 1) = 2 by ring, show ((w / 2 : ℕ) : ℝ) - 1 - (((w / 2 : ℕ) : ℝ) - 1) = 0 by ring, zero_div,
    zero_pow (by omega), add_zero, div_one] at h1
  have hp : 0 < (2 / u) ^ (2 * n) := by positivity
  have : (1 : ℝ) / (1 + (2 / u) ^ (2 * n)) < 1 := by
    rw [div_lt_one (by linarith)]
    linarith
  linarith

end Verif.Surface
