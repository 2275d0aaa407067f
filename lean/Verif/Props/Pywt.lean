import Verif.Model.Pywt
import Verif.Props.StripeFilters
import Mathlib.Tactic.LinearCombination

/-! C169 — wavelet decomposition and reconstruction are inverse; C96, C97 with PyWavelets' transforms themselves. -/

set_option linter.unusedSectionVars false
set_option linter.unusedSimpArgs false

namespace Verif.Pywt
open Finset Verif.Wavelet Verif.StripeFilters Verif.Sorting

/-! ### specification -/

/-- The perfect-reconstruction condition of a two-channel filter bank with filters of one even length `F`: filtering with the decomposition
filters, dropping every second sample, inserting zeros, filtering with the reconstruction filters and adding gives the signal back, delayed by
`F - 1`.  In coefficients: for both parities of the position `u` in the reconstruction filter and every shift `s`. -/
structure PerfectReconstruction (b : Bank) : Prop where
  even : 2 ∣ b.recLo.length
  pos : 0 < b.recLo.length
  len1 : b.decLo.length = b.recLo.length
  len2 : b.decHi.length = b.recLo.length
  len3 : b.recHi.length = b.recLo.length
  pr : ∀ e < 2, ∀ s : ℤ, ∑ u ∈ (range b.recLo.length).filter (fun u => u % 2 = e),
    (tap b.decLo (b.recLo.length - 1 - u + s) * b.recLo.getD u 0 + tap b.decHi (b.recLo.length - 1 - u + s) * b.recHi.getD u 0) =
      if s = 0 then 1 else 0

/-! ### one dimension -/

theorem tap_neg (f : List ℝ) (k : ℤ) (h : k < 0) : tap f k = 0 := by unfold tap; rw [if_neg (by omega)]

theorem tap_big (f : List ℝ) (k : ℤ) (h : (f.length : ℤ) ≤ k) : tap f k = 0 := by
  unfold tap
  split
  · rw [List.getD_eq_getElem?_getD, List.getElem?_eq_none (by omega)]; rfl
  · rfl

theorem tap_nat (f : List ℝ) (k : ℕ) : tap f k = f.getD k 0 := by
  unfold tap; rw [if_pos (by omega)]; simp

theorem symIdx_in (n k : ℕ) (h : k < n) : symIdx n k = k := by
  unfold symIdx
  have : ((k : ℤ) % (2 * n : ℤ)).toNat = k := by
    rw [Int.emod_eq_of_lt (by omega) (by omega)]; simp
  simp only [this, if_pos h]

/-- The convolution as a sum over shifts. -/
theorem analyse_shift (f : List ℝ) (n : ℕ) (x : ℕ → ℝ) (o : ℕ) (p : ℤ) (F : ℕ) (hF : f.length = F) (u : ℕ) (hu : u < F)
    (hp : p = 2 * (o : ℤ) + u - F + 2) :
    analyse f n x o = ∑ s ∈ Ico (-(F : ℤ)) (F : ℤ), tap f ((F : ℤ) - 1 - u + s) * x (symIdx n (p - s)) := by
  unfold analyse
  rw [hF]
  symm
  apply Finset.sum_bij_ne_zero (fun s _ _ => ((F : ℤ) - 1 - u + s).toNat)
  · intro s hs hne
    have h1 : ¬ ((F : ℤ) - 1 - u + s < 0) := fun hh => hne (by rw [tap_neg _ _ hh, zero_mul])
    have h2 : ¬ ((F : ℤ) ≤ (F : ℤ) - 1 - u + s) := fun hh => hne (by rw [tap_big _ _ (by rw [hF]; exact hh), zero_mul])
    rw [mem_range]; omega
  · intro s hs hne s' hs' hne' he
    have h1 : ¬ ((F : ℤ) - 1 - u + s < 0) := fun hh => hne (by rw [tap_neg _ _ hh, zero_mul])
    have h2 : ¬ ((F : ℤ) - 1 - u + s' < 0) := fun hh => hne' (by rw [tap_neg _ _ hh, zero_mul])
    omega
  · intro t ht hne
    rw [mem_range] at ht
    refine ⟨(t : ℤ) + u + 1 - F, ?_, ?_, ?_⟩
    · rw [mem_Ico]; omega
    · have e1 : (F : ℤ) - 1 - u + ((t : ℤ) + u + 1 - F) = t := by ring
      have e2 : p - ((t : ℤ) + u + 1 - F) = 2 * (o : ℤ) + 1 - t := by rw [hp]; ring
      rw [e1, e2, tap_nat]; exact hne
    · have e1 : (F : ℤ) - 1 - u + ((t : ℤ) + u + 1 - F) = t := by ring
      rw [e1]; simp
  · intro s hs hne
    have h1 : ¬ ((F : ℤ) - 1 - u + s < 0) := fun hh => hne (by rw [tap_neg _ _ hh, zero_mul])
    have e : (2 * (o : ℤ) + 1 - (((F : ℤ) - 1 - u + s).toNat : ℤ)) = p - s := by rw [hp]; omega
    rw [e]
    congr 1
    unfold tap
    rw [if_pos (by omega)]

/-- The coefficients that reach a sample. -/
theorem sum_taps (F nc n : ℕ) (hF : 2 ∣ F) (hnc : n + F ≤ 2 * nc + 1) (g : ℤ → ℝ) (hg : ∀ k, k < 0 ∨ (F : ℤ) ≤ k → g k = 0) :
    ∑ o ∈ range nc, g (n - 2 * (o : ℤ) + F - 2) = ∑ u ∈ (range F).filter (fun u => u % 2 = n % 2), g u := by
  apply Finset.sum_bij_ne_zero (fun (o : ℕ) _ _ => ((n : ℤ) - 2 * (o : ℤ) + F - 2).toNat)
  · intro o ho hne
    have h1 : ¬ ((n : ℤ) - 2 * (o : ℤ) + F - 2 < 0 ∨ (F : ℤ) ≤ (n : ℤ) - 2 * (o : ℤ) + F - 2) := fun hh => hne (hg _ hh)
    rw [mem_filter, mem_range]; omega
  · intro o ho hne o' ho' hne' he
    have h1 : ¬ ((n : ℤ) - 2 * (o : ℤ) + F - 2 < 0 ∨ (F : ℤ) ≤ (n : ℤ) - 2 * (o : ℤ) + F - 2) := fun hh => hne (hg _ hh)
    have h2 : ¬ ((n : ℤ) - 2 * (o' : ℤ) + F - 2 < 0 ∨ (F : ℤ) ≤ (n : ℤ) - 2 * (o' : ℤ) + F - 2) := fun hh => hne' (hg _ hh)
    omega
  · intro u hu hne
    rw [mem_filter, mem_range] at hu
    refine ⟨(n + F - 2 - u) / 2, ?_, ?_, ?_⟩
    · rw [mem_range]; omega
    · have : (n : ℤ) - 2 * (((n + F - 2 - u) / 2 : ℕ) : ℤ) + F - 2 = u := by omega
      rw [this]; exact hne
    · omega
  · intro o ho hne
    have h1 : ¬ ((n : ℤ) - 2 * (o : ℤ) + F - 2 < 0 ∨ (F : ℤ) ≤ (n : ℤ) - 2 * (o : ℤ) + F - 2) := fun hh => hne (hg _ hh)
    congr 1; omega

/-- `pywt.idwt` inverts `pywt.dwt`. -/
theorem synth_analyse (b : Bank) (hb : PerfectReconstruction b) (N : ℕ) (x : ℕ → ℝ) (n : ℕ) (hn : n < N) (ca cd : ℕ → ℝ)
    (ha : ∀ o < coefLen N b.recLo.length, ca o = analyse b.decLo N x o) (hd : ∀ o < coefLen N b.recLo.length, cd o = analyse b.decHi N x o) :
    synth b (coefLen N b.recLo.length) ca cd n = x n := by
  obtain ⟨heven, hpos, h1, h2, h3, hpr⟩ := hb
  unfold synth
  set F := b.recLo.length with hF
  set S := Ico (-(F : ℤ)) (F : ℤ) with hS
  have step : ∀ o ∈ range (coefLen N F), ca o * tap b.recLo (n - 2 * (o : ℤ) + F - 2) + cd o * tap b.recHi (n - 2 * (o : ℤ) + F - 2) =
      ∑ s ∈ S, x (symIdx N (n - s)) * (tap b.decLo ((F : ℤ) - 1 - (n - 2 * (o : ℤ) + F - 2) + s) * tap b.recLo (n - 2 * (o : ℤ) + F - 2) +
        tap b.decHi ((F : ℤ) - 1 - (n - 2 * (o : ℤ) + F - 2) + s) * tap b.recHi (n - 2 * (o : ℤ) + F - 2)) := by
    intro o ho
    rw [mem_range] at ho
    by_cases hu : (n : ℤ) - 2 * (o : ℤ) + F - 2 < 0 ∨ (F : ℤ) ≤ (n : ℤ) - 2 * (o : ℤ) + F - 2
    · have z1 : tap b.recLo (n - 2 * (o : ℤ) + F - 2) = 0 := by
        rcases hu with hu | hu
        · exact tap_neg _ _ hu
        · exact tap_big _ _ (by rw [← hF]; exact hu)
      have z2 : tap b.recHi (n - 2 * (o : ℤ) + F - 2) = 0 := by
        rcases hu with hu | hu
        · exact tap_neg _ _ hu
        · exact tap_big _ _ (by rw [h3]; exact hu)
      simp [z1, z2]
    · obtain ⟨u, hu'⟩ : ∃ u : ℕ, (n : ℤ) - 2 * (o : ℤ) + F - 2 = u := ⟨((n : ℤ) - 2 * (o : ℤ) + F - 2).toNat, by omega⟩
      rw [ha o ho, hd o ho, analyse_shift b.decLo N x o n F h1 u (by omega) (by omega),
        analyse_shift b.decHi N x o n F h2 u (by omega) (by omega), hu', Finset.sum_mul, Finset.sum_mul, ← Finset.sum_add_distrib]
      exact Finset.sum_congr rfl fun s _ => by ring
  rw [Finset.sum_congr rfl step, Finset.sum_comm]
  have inner : ∀ s ∈ S, ∑ o ∈ range (coefLen N F), x (symIdx N (n - s)) * (tap b.decLo ((F : ℤ) - 1 - (n - 2 * (o : ℤ) + F - 2) + s) *
      tap b.recLo (n - 2 * (o : ℤ) + F - 2) + tap b.decHi ((F : ℤ) - 1 - (n - 2 * (o : ℤ) + F - 2) + s) * tap b.recHi (n - 2 * (o : ℤ) + F - 2)) =
      if s = 0 then x n else 0 := by
    intro s _
    rw [← Finset.mul_sum]
    have := sum_taps F (coefLen N F) n heven (by unfold coefLen; omega)
      (fun k => tap b.decLo ((F : ℤ) - 1 - k + s) * tap b.recLo k + tap b.decHi ((F : ℤ) - 1 - k + s) * tap b.recHi k) (by
        intro k hk
        have z1 : tap b.recLo k = 0 := by
          rcases hk with hk | hk
          · exact tap_neg _ _ hk
          · exact tap_big _ _ (by rw [← hF]; exact hk)
        have z2 : tap b.recHi k = 0 := by
          rcases hk with hk | hk
          · exact tap_neg _ _ hk
          · exact tap_big _ _ (by rw [h3]; exact hk)
        simp [z1, z2])
    rw [this]
    simp only [tap_nat]
    rw [hpr (n % 2) (by omega) s]
    by_cases hs : s = 0
    · rw [if_pos hs, if_pos hs, hs, sub_zero, symIdx_in N n hn, mul_one]
    · rw [if_neg hs, if_neg hs, mul_zero]
  rw [Finset.sum_congr rfl inner, Finset.sum_ite_eq' S 0, if_pos (by rw [hS, mem_Ico]; omega)]

/-! ### two dimensions -/

/-- Sizes: all components of a level have one shape. -/
theorem dwt2_shape (b : Bank) (hb : PerfectReconstruction b) (m : Mat ℝ) :
    (dwt2 b m).1.h = coefLen m.h b.recLo.length ∧ (dwt2 b m).1.w = coefLen m.w b.recLo.length ∧
    ∀ c, ((dwt2 b m).2 c).h = coefLen m.h b.recLo.length ∧ ((dwt2 b m).2 c).w = coefLen m.w b.recLo.length := by
  refine ⟨by simp [dwt2, along0, along1, hb.len1], by simp [dwt2, along0, along1, hb.len1], ?_⟩
  intro c
  unfold dwt2
  dsimp only
  split
  · simp [along0, along1, hb.len1, hb.len2]
  · split <;> simp [along0, along1, hb.len1, hb.len2]

theorem idwt2_dwt2 (b : Bank) (hb : PerfectReconstruction b) (m a : Mat ℝ)
    (ha : ∀ i < (dwt2 b m).1.h, ∀ j < (dwt2 b m).1.w, a.get i j = (dwt2 b m).1.get i j) (i j : ℕ) (hi : i < m.h) (hj : j < m.w) :
    (idwt2 b a (dwt2 b m).2).get i j = m.get i j := by
  obtain ⟨s1, s2, s3⟩ := dwt2_shape b hb m
  rw [s1, s2] at ha
  unfold idwt2
  dsimp only
  rw [(s3 0).1, (s3 0).2]
  unfold back0
  dsimp only
  refine synth_analyse b hb m.h (fun i => m.get i j) i hi _ _ ?_ ?_
  · intro o ho
    show synth b (coefLen m.w b.recLo.length) (a.get o) (((dwt2 b m).2 1).get o) j = analyse b.decLo m.h (fun i => m.get i j) o
    refine synth_analyse b hb m.w ((along0 b.decLo m).get o) j hj _ _ ?_ ?_
    · intro q hq; exact ha o ho q hq
    · intro q hq; rfl
  · intro o ho
    show synth b (coefLen m.w b.recLo.length) (((dwt2 b m).2 0).get o) (((dwt2 b m).2 2).get o) j = analyse b.decHi m.h (fun i => m.get i j) o
    refine synth_analyse b hb m.w ((along0 b.decHi m).get o) j hj _ _ ?_ ?_
    · intro q hq; rfl
    · intro q hq; rfl

theorem waverec_step (b : Bank) (L : ℕ) (m : Mat ℝ) :
    waverec b (wavedec b (L + 1) m) = idwt2 b (waverec b (wavedec b L (dwt2 b m).1)) (dwt2 b m).2 := by
  unfold waverec
  simp only [wavedec, List.foldl_append, List.foldl_cons, List.foldl_nil]

theorem waverec_wavedec (b : Bank) (hb : PerfectReconstruction b) (L : ℕ) : ∀ (m : Mat ℝ), ∀ i < m.h, ∀ j < m.w,
    (waverec b (wavedec b L m)).get i j = m.get i j := by
  induction L with
  | zero => intro m i _ j _; rfl
  | succ L ih =>
    intro m i hi j hj
    rw [waverec_step]
    exact idwt2_dwt2 b hb m _ (ih _) i j hi hj

theorem waverec_shape (b : Bank) (hb : PerfectReconstruction b) (L : ℕ) (m : Mat ℝ) (hh : 0 < m.h) (hw : 0 < m.w) :
    (waverec b (wavedec b (L + 1) m)).h = m.h + m.h % 2 ∧ (waverec b (wavedec b (L + 1) m)).w = m.w + m.w % 2 := by
  rw [waverec_step]
  obtain ⟨s1, s2, s3⟩ := dwt2_shape b hb m
  have := hb.even
  have := hb.pos
  constructor
  · show 2 * ((dwt2 b m).2 0).h + 2 - b.recLo.length = _
    rw [(s3 0).1]; unfold coefLen; omega
  · show 2 * ((dwt2 b m).2 0).w + 2 - b.recLo.length = _
    rw [(s3 0).2]; unfold coefLen; omega

/-! ### images with identical columns -/

theorem analyse_const (f : List ℝ) (n : ℕ) (c : ℝ) (o : ℕ) : analyse f n (fun _ => c) o = f.sum * c := by
  unfold analyse
  rw [← Finset.sum_mul]
  congr 1
  induction f with
  | nil => simp
  | cons x f ih => rw [List.length_cons, Finset.sum_range_succ']; simp only [List.getD_cons_succ, List.getD_cons_zero, List.sum_cons]; rw [ih]; ring

theorem along0_free (f : List ℝ) (h w : ℕ) (a : ℕ → ℝ) : along0 f (stripeFree h w a) = stripeFree (coefLen h f.length) w (analyse f h a) := rfl

theorem along1_free (f : List ℝ) (h w : ℕ) (a : ℕ → ℝ) : along1 f (stripeFree h w a) = stripeFree h (coefLen w f.length) (fun i => f.sum * a i) := by
  unfold along1 stripeFree
  dsimp only
  congr 1
  funext i o
  exact analyse_const f w (a i) o

theorem wavedec_flat (b : Bank) (hs : b.decHi.sum = 0) (L : ℕ) : ∀ (h w : ℕ) (a : ℕ → ℝ), ∀ t ∈ (wavedec b L (stripeFree h w a)).details,
    ∀ i j, (t 1).get i j = 0 := by
  induction L with
  | zero => intro h w a t ht; simp [wavedec] at ht
  | succ L ih =>
    intro h w a t ht i j
    have e : (dwt2 b (stripeFree h w a)).1 = stripeFree (coefLen h b.decLo.length) (coefLen w b.decLo.length) (fun i => b.decLo.sum * analyse b.decLo h a i) := by
      unfold dwt2; rw [along0_free, along1_free]
    simp only [wavedec, List.mem_append, List.mem_singleton] at ht
    rcases ht with ht | ht
    · rw [e] at ht; exact ih _ _ _ t ht i j
    · subst ht
      show (along1 b.decHi (along0 b.decLo (stripeFree h w a))).get i j = 0
      rw [along0_free, along1_free]
      show b.decHi.sum * _ = 0
      rw [hs, zero_mul]

/-- **C96, C97.** What the stripe and ring removal use of PyWavelets holds for its transforms. -/
theorem pywt_good (b : Bank) (hb : PerfectReconstruction b) (hs : b.decHi.sum = 0) : GoodWavelet (wavedec b) (waverec b) :=
  ⟨fun L m => waverec_wavedec b hb L m, fun L h w a => wavedec_flat b hs L h w a⟩

/-- **C96.** A sinogram without stripes (at least 14 × 14) is returned unchanged by `remove_stripe_based_wavelet_fft`, with or without sorting, for
every level, window and wavelet with perfect reconstruction. -/
theorem pywt_stripe_free (as1 : Argsort ℝ) (as2 : Argsort ℕ) (b : Bank) (hb : PerfectReconstruction b) (hs : b.decHi.sum = 0) (level : Option ℤ) (size : ℝ)
    (butter sort : Bool) (h w : ℕ) (hhw : 14 ≤ min h w) (a : ℕ → ℝ) :
    ∃ out, removeWavelet as1 as2 (wavedec b) (waverec b) level size butter sort (stripeFree h w a) = .ok out ∧ out.h = h ∧ out.w = w ∧
      ∀ i < h, ∀ j < w, out.get i j = a i :=
  wavelet_stripe_free as1 as2 _ _ (pywt_good b hb hs) level size butter sort h w hhw a

/-- **C97.** The same for rings: a constant image of at least 14 × 14 pixels is unchanged inside the circle. -/
theorem pywt_ring_constant (as1 : Argsort ℝ) (as2 : Argsort ℕ) (b : Bank) (hb : PerfectReconstruction b) (hs : b.decHi.sum = 0) (level : Option ℤ) (size : ℝ)
    (butter sort : Bool) (N : ℕ) (hN : 14 ≤ N) (c : ℝ) :
    RingKeepsConstant (removeWavelet as1 as2 (wavedec b) (waverec b) level size butter sort) N c ∧
    ∃ out, removeRing (removeWavelet as1 as2 (wavedec b) (waverec b) level size butter sort) ⟨N, N, fun _ _ => c⟩ = .ok out :=
  ring_wavelet_constant as1 as2 _ _ (pywt_good b hb hs) level size butter sort N hN c

/-! ### C169 -/

instance : Inhabited (Mat ℝ) := ⟨⟨0, 0, fun _ _ => 0⟩⟩

theorem wavedec_length (b : Bank) (L : ℕ) : ∀ m, (wavedec b L m).details.length = L := by
  induction L with
  | zero => intro m; rfl
  | succ L ih => intro m; simp [wavedec, ih]

/-- Size of the components after `k` levels: `(n + F - 1) // 2`, `k` times. -/
def sizeAt (F k n : ℕ) : ℕ := (fun n => (n + F - 1) / 2)^[k] n

theorem wavedec_sizes (b : Bank) (hb : PerfectReconstruction b) (L : ℕ) : ∀ m : Mat ℝ,
    ((wavedec b L m).approx.h = sizeAt b.recLo.length L m.h ∧ (wavedec b L m).approx.w = sizeAt b.recLo.length L m.w) ∧
    ∀ k, 1 ≤ k → k ≤ L → ∀ c, ((wavedec b L m).get (L - k + 1) c).h = sizeAt b.recLo.length k m.h ∧
      ((wavedec b L m).get (L - k + 1) c).w = sizeAt b.recLo.length k m.w := by
  induction L with
  | zero => intro m; exact ⟨⟨rfl, rfl⟩, fun k h1 h2 => by omega⟩
  | succ L ih =>
    intro m
    obtain ⟨s1, s2, s3⟩ := dwt2_shape b hb m
    obtain ⟨⟨i1, i2⟩, i3⟩ := ih (dwt2 b m).1
    rw [s1] at i1 i3
    rw [s2] at i2 i3
    have hl := wavedec_length b L (dwt2 b m).1
    refine ⟨⟨i1, i2⟩, ?_⟩
    intro k h1 h2 c
    unfold WData.get
    have e : (wavedec b (L + 1) m).details = (wavedec b L (dwt2 b m).1).details ++ [(dwt2 b m).2] := rfl
    rw [e, List.getD_eq_getElem?_getD]
    rcases Nat.eq_or_lt_of_le h1 with hk | hk
    · subst hk
      rw [List.getElem?_append_right (by omega), show L + 1 - 1 + 1 - 1 - (wavedec b L (dwt2 b m).1).details.length = 0 by omega]
      exact s3 c
    · obtain ⟨q, rfl⟩ : ∃ q, k = q + 1 := ⟨k - 1, by omega⟩
      rw [List.getElem?_append_left (by omega)]
      have := i3 q (by omega) (by omega) c
      unfold WData.get at this
      rw [List.getD_eq_getElem?_getD] at this
      rw [show L + 1 - (q + 1) + 1 - 1 = L - q + 1 - 1 by omega]
      exact this

/-- **C169.** For images with both sides at least 16 the decomposition succeeds; with `L` levels the components of the level `k` (counted from the
finest) have the size `(n + F - 1) // 2` taken `k` times; and the reconstruction without an ignored level gives back every pixel of the image. -/
theorem decompose_reconstruct (b : Bank) (hb : PerfectReconstruction b) (m : Mat ℝ) (h : 16 ≤ min m.h m.w) (level : Option Int) :
    ∃ d, decompose b m level = .ok d ∧
      (∃ L, levelUsed m.h m.w level = .ok L ∧ d.details.length = L ∧
        d.approx.h = sizeAt b.recLo.length L m.h ∧ d.approx.w = sizeAt b.recLo.length L m.w ∧
        ∀ k, 1 ≤ k → k ≤ L → ∀ c, (d.get (L - k + 1) c).h = sizeAt b.recLo.length k m.h ∧ (d.get (L - k + 1) c).w = sizeAt b.recLo.length k m.w) ∧
      ∀ zero, ∀ i < m.h, ∀ j < m.w, (reconstruct zero (waverec b) d none).1.get i j = m.get i j := by
  obtain ⟨L, hL, _⟩ := level_used m.h m.w h level
  refine ⟨wavedec b L m, by unfold decompose; rw [hL]; rfl, ⟨L, hL, wavedec_length b L m, (wavedec_sizes b hb L m).1.1, (wavedec_sizes b hb L m).1.2,
    (wavedec_sizes b hb L m).2⟩, ?_⟩
  intro zero i hi j hj
  exact waverec_wavedec b hb L m i hi j hj

/-- C169: "the image that comes back has the shape of the image". -/
def KeepsShape (b : Bank) (m : Mat ℝ) (level : Option Int) : Prop :=
  ∀ d, decompose b m level = .ok d → ∀ zero, (reconstruct zero (waverec b) d none).1.h = m.h ∧ (reconstruct zero (waverec b) d none).1.w = m.w

/-- **C169.** The shape: kept for images below 32 pixels (no level), otherwise every odd side comes back one pixel longer; so the shape is kept exactly
for even sides. -/
theorem reconstruct_shape (b : Bank) (hb : PerfectReconstruction b) (m : Mat ℝ) (h : 16 ≤ min m.h m.w) (level : Option Int) :
    KeepsShape b m level ↔ (levelUsed m.h m.w level = .ok 0 ∨ (2 ∣ m.h ∧ 2 ∣ m.w)) := by
  obtain ⟨L, hL, _⟩ := level_used m.h m.w h level
  have hd : decompose b m level = .ok (wavedec b L m) := by unfold decompose; rw [hL]; rfl
  have e : KeepsShape b m level ↔ ((waverec b (wavedec b L m)).h = m.h ∧ (waverec b (wavedec b L m)).w = m.w) := by
    unfold KeepsShape
    constructor
    · intro hk; exact hk _ hd (fun x => x)
    · intro hk d hd' zero
      rw [hd] at hd'
      cases hd'
      exact hk
  rw [e, hL]
  cases L with
  | zero => exact ⟨fun _ => Or.inl rfl, fun _ => ⟨rfl, rfl⟩⟩
  | succ L =>
    obtain ⟨w1, w2⟩ := waverec_shape b hb L m (by omega) (by omega)
    rw [w1, w2]
    constructor
    · intro hk; right; omega
    · rintro (hk | hk)
      · exact absurd (Except.ok.inj hk) (by omega)
      · omega

/-- C169 refuted for odd sides: an image of 33 × 33 pixels comes back with 34 × 34, for every such wavelet. -/
theorem reconstruct_shape_refuted (b : Bank) (hb : PerfectReconstruction b) (f : ℕ → ℕ → ℝ) : ¬ KeepsShape b ⟨33, 33, f⟩ (some 1) := by
  rw [reconstruct_shape b hb ⟨33, 33, f⟩ (by show 16 ≤ min 33 33; decide) (some 1)]
  rintro (hk | hk)
  · obtain ⟨L, hL, _, h1, _⟩ := level_used 33 33 (by decide) (some 1)
    have := h1 1 (by rfl) (by omega) (by decide)
    subst this
    rw [hL] at hk
    cases hk
  · have : ¬ (2 ∣ 33) := by decide
    exact this hk.1

/-- **C169.** A constant image has no details at any level, and its approximation is constant. -/
theorem decompose_constant (b : Bank) (hs : b.decHi.sum = 0) (L : ℕ) : ∀ (h w : ℕ) (c : ℝ),
    (∀ i j, (wavedec b L ⟨h, w, fun _ _ => c⟩).approx.get i j = b.decLo.sum ^ (2 * L) * c) ∧
    ∀ t ∈ (wavedec b L ⟨h, w, fun _ _ => c⟩).details, ∀ k i j, (t k).get i j = 0 := by
  induction L with
  | zero => intro h w c; exact ⟨fun i j => by simp [wavedec], fun t ht => by simp [wavedec] at ht⟩
  | succ L ih =>
    intro h w c
    have e : ∀ f g : List ℝ, ∃ h' w', along1 g (along0 f ⟨h, w, fun _ _ => c⟩) = ⟨h', w', fun _ _ => g.sum * (f.sum * c)⟩ := by
      intro f g
      refine ⟨coefLen h f.length, coefLen w g.length, ?_⟩
      rw [show (⟨h, w, fun _ _ => c⟩ : Mat ℝ) = stripeFree h w (fun _ => c) from rfl, along0_free, along1_free]
      unfold stripeFree
      congr 1
      funext i j
      show g.sum * analyse f h (fun _ => c) i = _
      rw [analyse_const]
    obtain ⟨h', w', ea⟩ := e b.decLo b.decLo
    have ea' : (dwt2 b ⟨h, w, fun _ _ => c⟩).1 = ⟨h', w', fun _ _ => b.decLo.sum * (b.decLo.sum * c)⟩ := ea
    obtain ⟨i1, i2⟩ := ih h' w' (b.decLo.sum * (b.decLo.sum * c))
    constructor
    · intro i j
      show (wavedec b L (dwt2 b ⟨h, w, fun _ _ => c⟩).1).approx.get i j = _
      rw [ea', i1]; ring
    · intro t ht k i j
      simp only [wavedec, List.mem_append, List.mem_singleton] at ht
      rcases ht with ht | ht
      · rw [ea'] at ht; exact i2 t ht k i j
      · subst ht
        unfold dwt2
        dsimp only
        split
        · obtain ⟨_, _, e'⟩ := e b.decHi b.decLo; rw [e']; simp [hs]
        · split
          · obtain ⟨_, _, e'⟩ := e b.decLo b.decHi; rw [e']; simp [hs]
          · obtain ⟨_, _, e'⟩ := e b.decHi b.decHi; rw [e']; simp [hs]

/-! ### ignoring a level -/

/-- Zeros of the same shape (`np.zeros_like`). -/
def zeroMat (m : Mat ℝ) : Mat ℝ := ⟨m.h, m.w, fun _ _ => 0⟩

/-- Keep the details at position `k` of the list, zeros elsewhere. -/
def onlyAt : ℕ → List (ℕ → Mat ℝ) → List (ℕ → Mat ℝ)
  | _, [] => []
  | 0, t :: l => t :: l.map fun t c => zeroMat (t c)
  | k + 1, t :: l => (fun c => zeroMat (t c)) :: onlyAt k l

/-- The data with the details of the level `k`, counted from the finest, only. -/
def onlyLevel (d : WData (Mat ℝ)) (k : ℕ) : WData (Mat ℝ) := ⟨zeroMat d.approx, onlyAt (d.details.length - k) d.details⟩

/-- Componentwise sum of two lists of details. -/
def IsSum : List (ℕ → Mat ℝ) → List (ℕ → Mat ℝ) → List (ℕ → Mat ℝ) → Prop
  | [], [], [] => True
  | t :: l, t1 :: l1, t2 :: l2 => (∀ c, (t1 c).h = (t c).h ∧ (t1 c).w = (t c).w ∧ (t2 c).h = (t c).h ∧ (t2 c).w = (t c).w ∧
      ∀ i j, (t c).get i j = (t1 c).get i j + (t2 c).get i j) ∧ IsSum l l1 l2
  | _, _, _ => False

theorem synth_add (b : Bank) (nc : ℕ) (ca cd ca1 cd1 ca2 cd2 : ℕ → ℝ) (ha : ∀ o, ca o = ca1 o + ca2 o) (hd : ∀ o, cd o = cd1 o + cd2 o) (n : ℕ) :
    synth b nc ca cd n = synth b nc ca1 cd1 n + synth b nc ca2 cd2 n := by
  unfold synth
  rw [← Finset.sum_add_distrib]
  exact Finset.sum_congr rfl fun o _ => by rw [ha, hd]; ring

theorem idwt2_add (b : Bank) (a a1 a2 : Mat ℝ) (t t1 t2 : ℕ → Mat ℝ) (ha : ∀ i j, a.get i j = a1.get i j + a2.get i j)
    (ht : ∀ c, (t1 c).h = (t c).h ∧ (t1 c).w = (t c).w ∧ (t2 c).h = (t c).h ∧ (t2 c).w = (t c).w ∧
      ∀ i j, (t c).get i j = (t1 c).get i j + (t2 c).get i j) (i j : ℕ) :
    (idwt2 b a t).get i j = (idwt2 b a1 t1).get i j + (idwt2 b a2 t2).get i j := by
  unfold idwt2
  dsimp only
  rw [(ht 0).1, (ht 0).2.1, (ht 0).2.2.1, (ht 0).2.2.2.1]
  unfold back0
  dsimp only
  apply synth_add
  · intro o
    exact synth_add b _ _ _ _ _ _ _ (ha o) (fun q => (ht 1).2.2.2.2 o q) j
  · intro o
    exact synth_add b _ _ _ _ _ _ _ (fun q => (ht 0).2.2.2.2 o q) (fun q => (ht 2).2.2.2.2 o q) j

theorem foldl_add (b : Bank) : ∀ (l l1 l2 : List (ℕ → Mat ℝ)), IsSum l l1 l2 → ∀ a a1 a2 : Mat ℝ, (∀ i j, a.get i j = a1.get i j + a2.get i j) →
    ∀ i j, (l.foldl (idwt2 b) a).get i j = (l1.foldl (idwt2 b) a1).get i j + (l2.foldl (idwt2 b) a2).get i j
  | [], [], [], _, _, _, _, ha => ha
  | t :: l, t1 :: l1, t2 :: l2, h, a, a1, a2, ha => by
    simp only [List.foldl_cons]
    exact foldl_add b l l1 l2 h.2 _ _ _ fun i j => idwt2_add b a a1 a2 t t1 t2 ha h.1 i j
  | [], [], _ :: _, h, _, _, _, _ => h.elim
  | [], _ :: _, _, h, _, _, _, _ => by cases ‹List (ℕ → Mat ℝ)› <;> exact h.elim
  | _ :: _, [], _, h, _, _, _, _ => by cases ‹List (ℕ → Mat ℝ)› <;> exact h.elim
  | _ :: _, _ :: _, [], h, _, _, _, _ => h.elim

theorem isSum_zero : ∀ l : List (ℕ → Mat ℝ), IsSum l l (l.map fun t c => zeroMat (t c))
  | [] => trivial
  | t :: l => ⟨fun c => ⟨rfl, rfl, rfl, rfl, fun i j => by simp [zeroMat]⟩, isSum_zero l⟩

theorem isSum_modify : ∀ (k : ℕ) (l : List (ℕ → Mat ℝ)), k < l.length →
    IsSum l (l.modify k fun t c => zeroMat (t c)) (onlyAt k l)
  | _, [], h => by simp at h
  | 0, t :: l, _ => ⟨fun c => ⟨rfl, rfl, rfl, rfl, fun i j => by simp [zeroMat]⟩, isSum_zero l⟩
  | k + 1, t :: l, h => ⟨fun c => ⟨rfl, rfl, rfl, rfl, fun i j => by simp [zeroMat]⟩, isSum_modify k l (by simpa using h)⟩

/-- **C169.** Ignoring a level takes away exactly the contribution of its details: the reconstruction with `ignore_level=k` plus the reconstruction
from the details of that level alone is the image. -/
theorem ignore_complement (b : Bank) (hb : PerfectReconstruction b) (m : Mat ℝ) (level : Option Int) (d : WData (Mat ℝ))
    (hd : decompose b m level = .ok d) (k : ℕ) (h1 : 1 ≤ k) (h2 : k ≤ d.details.length) (i j : ℕ) (hi : i < m.h) (hj : j < m.w) :
    (reconstruct zeroMat (waverec b) d (some (k : Int))).1.get i j + (waverec b (onlyLevel d k)).get i j = m.get i j := by
  have hw : ∃ L, d = wavedec b L m := by
    unfold decompose at hd
    cases hL : levelUsed m.h m.w level with
    | error e => rw [hL] at hd; cases hd
    | ok L => rw [hL] at hd; exact ⟨L, (Except.ok.inj hd).symm⟩
  obtain ⟨L, hL⟩ := hw
  have hrec : (waverec b d).get i j = m.get i j := by rw [hL]; exact waverec_wavedec b hb L m i hi j hj
  rw [← hrec]
  unfold reconstruct
  simp only
  rw [if_pos (by omega)]
  symm
  have := foldl_add b d.details _ _ (isSum_modify (d.details.length - k) d.details (by omega)) d.approx d.approx (zeroMat d.approx)
    (fun i j => by simp [zeroMat]) i j
  simpa [waverec, onlyLevel] using this

/-! ### examples -/

/-- The Haar wavelet meets the hypotheses. -/
theorem haar_good : PerfectReconstruction haar ∧ haar.decHi.sum = 0 := by
  have hq : (1 / Real.sqrt 2) ^ 2 = 1 / 2 := by rw [div_pow, Real.sq_sqrt (by norm_num)]; norm_num
  refine ⟨⟨by decide, by decide, rfl, rfl, rfl, ?_⟩, by simp [haar]; ring⟩
  intro e he s
  have hl : haar.recLo.length = 2 := rfl
  rw [hl]
  by_cases hs : s < -1 ∨ 1 < s
  · have : ∀ u ∈ (range 2).filter (fun u => u % 2 = e), (tap haar.decLo ((2 : ℕ) - 1 - u + s) * haar.recLo.getD u 0 +
        tap haar.decHi ((2 : ℕ) - 1 - u + s) * haar.recHi.getD u 0) = 0 := by
      intro u hu
      rw [mem_filter, mem_range] at hu
      have hz : ∀ f : List ℝ, f.length = 2 → tap f ((2 : ℕ) - 1 - u + s) = 0 := by
        intro f hf
        rcases hs with hs | hs
        · exact tap_neg _ _ (by push_cast; omega)
        · exact tap_big _ _ (by rw [hf]; push_cast; omega)
      rw [hz _ rfl, hz _ rfl]; ring
    rw [Finset.sum_congr rfl this, if_neg (by omega)]
    simp
  · have h1 : s = -1 ∨ s = 0 ∨ s = 1 := by omega
    have f0 : (range 2).filter (fun u => u % 2 = 0) = {0} := by decide
    have f1 : (range 2).filter (fun u => u % 2 = 1) = {1} := by decide
    have h2 : e = 0 ∨ e = 1 := by omega
    generalize hqq : 1 / Real.sqrt 2 = q at hq
    have hn : -1 / Real.sqrt 2 = -q := by rw [← hqq]; ring
    rcases h2 with rfl | rfl <;> rcases h1 with rfl | rfl | rfl <;> simp only [f0, f1, Finset.sum_singleton] <;>
      norm_num [tap, haar, hqq, hn] <;> first | linear_combination 2 * hq | ring

/-- `db2`, the Daubechies wavelet with two vanishing moments. -/
noncomputable def db2 : Bank :=
  let r := Real.sqrt 3
  let q := 1 / Real.sqrt 2 / 4
  ⟨[(1 - r) * q, (3 - r) * q, (3 + r) * q, (1 + r) * q], [-((1 + r) * q), (3 + r) * q, -((3 - r) * q), (1 - r) * q],
   [(1 + r) * q, (3 + r) * q, (3 - r) * q, (1 - r) * q], [(1 - r) * q, -((3 - r) * q), (3 + r) * q, -((1 + r) * q)]⟩

theorem db2_good : PerfectReconstruction db2 ∧ db2.decHi.sum = 0 := by
  have hq : (1 / Real.sqrt 2 / 4) ^ 2 = 1 / 32 := by rw [div_pow, div_pow, Real.sq_sqrt (by norm_num)]; norm_num
  have hr : Real.sqrt 3 ^ 2 = 3 := Real.sq_sqrt (by norm_num)
  refine ⟨⟨by decide, by decide, rfl, rfl, rfl, ?_⟩, by simp [db2]; ring⟩
  intro e he s
  have hl : db2.recLo.length = 4 := rfl
  rw [hl]
  by_cases hs : s < -3 ∨ 3 < s
  · have : ∀ u ∈ (range 4).filter (fun u => u % 2 = e), (tap db2.decLo ((4 : ℕ) - 1 - u + s) * db2.recLo.getD u 0 +
        tap db2.decHi ((4 : ℕ) - 1 - u + s) * db2.recHi.getD u 0) = 0 := by
      intro u hu
      rw [mem_filter, mem_range] at hu
      have hz : ∀ f : List ℝ, f.length = 4 → tap f ((4 : ℕ) - 1 - u + s) = 0 := by
        intro f hf
        rcases hs with hs | hs
        · exact tap_neg _ _ (by push_cast; omega)
        · exact tap_big _ _ (by rw [hf]; push_cast; omega)
      rw [hz _ rfl, hz _ rfl]; ring
    rw [Finset.sum_congr rfl this, if_neg (by omega)]
    simp
  · have h1 : s = -3 ∨ s = -2 ∨ s = -1 ∨ s = 0 ∨ s = 1 ∨ s = 2 ∨ s = 3 := by omega
    have f0 : (range 4).filter (fun u => u % 2 = 0) = {0, 2} := by decide
    have f1 : (range 4).filter (fun u => u % 2 = 1) = {1, 3} := by decide
    have h2 : e = 0 ∨ e = 1 := by omega
    unfold db2
    generalize 1 / Real.sqrt 2 / 4 = q at hq
    generalize Real.sqrt 3 = r at hr
    have t1 : Int.toNat 1 = 1 := rfl
    have t2 : Int.toNat 2 = 2 := rfl
    have t3 : Int.toNat 3 = 3 := rfl
    rcases h2 with rfl | rfl <;> rcases h1 with rfl | rfl | rfl | rfl | rfl | rfl | rfl <;>
      simp only [f0, f1, Finset.sum_pair (show (0 : ℕ) ≠ 2 by decide), Finset.sum_pair (show (1 : ℕ) ≠ 3 by decide)] <;>
      norm_num [tap, t1, t2, t3] <;> ring_nf <;> norm_num [hq, hr] <;> ring_nf

end Verif.Pywt
