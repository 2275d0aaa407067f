import Verif.Model.PhaseCorr
import Verif.Lemmas.DftSymm
import Verif.Props.Center
import Verif.Props.Peak
import Mathlib.Algebra.BigOperators.Field

/-!
C159, C160: phase correlation (calculation.py:727-828).
-/

set_option linter.unusedSectionVars false
set_option linter.unusedSimpArgs false

namespace Verif.PhaseCorr
open Verif.Fourier Complex Finset

/-! ### Specification -/

/-- No circular roll of the image, except the trivial one, is a multiple of the image: the only situation in which a shift is determined by two images. -/
def NoRepeat (g : Mat ℂ) : Prop :=
  ∀ p < g.h, ∀ q < g.w, (p, q) ≠ (0, 0) → ¬ ∃ c : ℂ, ∀ i < g.h, ∀ j < g.w, g.get ((i + p) % g.h) ((j + q) % g.w) = c * g.get i j

/-- `g1` is `g2` rolled by `a` rows downwards and `b` columns to the right and multiplied by `c`. -/
def Rolled (c : ℂ) (a b : ℤ) (g1 g2 : Mat ℂ) : Prop :=
  g1.h = g2.h ∧ g1.w = g2.w ∧ ∀ i < g2.h, ∀ j < g2.w, g1.get i j = c * g2.get (((i : ℤ) - a) % g2.h).toNat (((j : ℤ) - b) % g2.w).toNat

/-- `s` is the representative of `a` modulo `n` in `(-n/2, n/2]`. -/
def Signed (n : ℕ) (a s : ℤ) : Prop := (n : ℤ) ∣ a - s ∧ -(n : ℤ) < 2 * s ∧ 2 * s ≤ n

/-- The image equals `v` within 4 pixels of its border. -/
def Framed (v : ℝ) (m : Mat ℝ) : Prop :=
  ∀ i < m.h, ∀ j < m.w, (i < 4 ∨ m.h ≤ i + 4 ∨ j < 4 ∨ m.w ≤ j + 4) → m.get i j = v

/-- `m1` is `m2` moved by `a` rows downwards and `b` columns to the right (what leaves the image on one side enters on the other), with another brightness scale. -/
def Moved (c d : ℝ) (a b : ℤ) (m1 m2 : Mat ℝ) : Prop :=
  m1.h = m2.h ∧ m1.w = m2.w ∧ ∀ i < m2.h, ∀ j < m2.w, m1.get i j = c * m2.get (((i : ℤ) - a) % m2.h).toNat (((j : ℤ) - b) % m2.w).toNat + d

/-- `m1` is the mirror image of `m2` about the column `s / 2`, moved by `a` rows, with another brightness scale. -/
def Mirrored (c d : ℝ) (a s : ℤ) (m1 m2 : Mat ℝ) : Prop :=
  m1.h = m2.h ∧ m1.w = m2.w ∧ ∀ i < m2.h, ∀ j < m2.w, m1.get i j = c * m2.get (((i : ℤ) - a) % m2.h).toNat ((s - (j : ℤ)) % m2.w).toNat + d

/-- What the correlation sees of an image: the image itself, or its gradient (`gradient=True`) with horizontal and vertical differences over two pixels as real
and imaginary part. -/
noncomputable abbrev seen (gradient : Bool) (m : Mat ℝ) : Mat ℂ := used gradient m

/-! ### Rolls and spectra -/

theorem emodNat_lt (N : ℕ) (hN : 0 < N) (t : ℤ) : (t % N).toNat < N := by
  have h1 := Int.emod_nonneg t (show (N : ℤ) ≠ 0 by omega)
  have h2 := Int.emod_lt_of_pos t (show (0 : ℤ) < N by omega)
  omega

theorem emodNat_dvd (N : ℕ) (hN : 0 < N) (t : ℤ) : (N : ℤ) ∣ t - ((t % N).toNat : ℕ) := by
  rw [Int.toNat_of_nonneg (Int.emod_nonneg t (show (N : ℤ) ≠ 0 by omega))]
  exact Int.dvd_self_sub_emod

theorem emodNat_unique (N : ℕ) (t : ℤ) (x : ℕ) (hx : x < N) (h : (N : ℤ) ∣ t - x) : (t % N).toNat = x := by
  have := emodNat_dvd N (by omega) t
  have h2 := emodNat_lt N (by omega) t
  refine (dvd_sub_iff N _ _ h2 hx).1 ?_
  have := dvd_sub h this
  rwa [show t - (x : ℤ) - (t - ((t % N).toNat : ℕ)) = ((t % N).toNat : ℤ) - x by ring] at this

theorem sum_roll {M : Type} [AddCommMonoid M] (N : ℕ) (a : ℤ) (f : ℕ → M) :
    ∑ i ∈ range N, f (((i : ℤ) - a) % N).toNat = ∑ i ∈ range N, f i := by
  rcases Nat.eq_zero_or_pos N with rfl | hN
  · simp
  have inv : ∀ (a : ℤ) (i : ℕ), i < N → ((((((i : ℤ) - a) % N).toNat : ℕ) : ℤ) - (-a)) % N = i := by
    intro a i hi
    have h := emodNat_dvd N hN ((i : ℤ) - a)
    have h2 := emodNat_unique N ((((((i : ℤ) - a) % N).toNat : ℕ) : ℤ) - (-a)) i hi (by
      have := (dvd_neg (α := ℤ)).2 h
      rwa [show -((i : ℤ) - a - ((((i : ℤ) - a) % N).toNat : ℕ)) = ((((i : ℤ) - a) % N).toNat : ℤ) - -a - i by ring] at this)
    have := Int.toNat_of_nonneg (Int.emod_nonneg ((((((i : ℤ) - a) % N).toNat : ℕ) : ℤ) - (-a)) (show (N : ℤ) ≠ 0 by omega))
    rw [← this, h2]
  refine Finset.sum_nbij' (fun i => (((i : ℤ) - a) % N).toNat) (fun i => (((i : ℤ) - (-a)) % N).toNat)
    (fun k _ => mem_range.2 (emodNat_lt N hN _)) (fun k _ => mem_range.2 (emodNat_lt N hN _)) (fun k hk => ?_) (fun k hk => ?_) fun k _ => rfl
  · show (((((((k : ℤ) - a) % N).toNat : ℕ) : ℤ) - (-a)) % N).toNat = k
    rw [inv a k (mem_range.1 hk)]; simp
  · show (((((((k : ℤ) - (-a)) % N).toNat : ℕ) : ℤ) - a) % N).toNat = k
    have := inv (-a) k (mem_range.1 hk)
    rw [neg_neg] at this
    rw [this]; simp

theorem dft_roll (N : ℕ) (a : ℤ) (x : ℕ → ℂ) (k : ℕ) :
    dft N (fun i => x (((i : ℤ) - a) % N).toNat) k = ph N (-(k * a)) * dft N x k := by
  rcases Nat.eq_zero_or_pos N with rfl | hN
  · simp [dft]
  rw [dft_ph, dft_ph, mul_sum, ← sum_roll N a (fun i => ph N (-(k * a)) * (x i * ph N (-(k * i))))]
  refine sum_congr rfl fun i _ => ?_
  have : ph N (-((k : ℤ) * i)) = ph N (-(k * a)) * ph N (-((k : ℤ) * ((((i : ℤ) - a) % N).toNat : ℕ))) := by
    rw [← ph_add]
    refine ph_congr N hN _ _ ?_
    obtain ⟨q, hq⟩ := emodNat_dvd N hN ((i : ℤ) - a)
    exact ⟨-(k * q), by linear_combination -(k : ℤ) * hq⟩
  rw [this]
  ring

theorem dft2_roll (h w : ℕ) (a b : ℤ) (x : ℕ → ℕ → ℂ) (k l : ℕ) :
    dft2 h w (fun i j => x (((i : ℤ) - a) % h).toNat (((j : ℤ) - b) % w).toNat) k l = ph h (-(k * a)) * ph w (-(l * b)) * dft2 h w x k l := by
  unfold dft2
  have : (fun i : ℕ => dft w (fun j : ℕ => x (((i : ℤ) - a) % h).toNat (((j : ℤ) - b) % w).toNat) l) =
      fun i : ℕ => ph w (-(l * b)) * dft w (x (((i : ℤ) - a) % h).toNat) l := funext fun i => dft_roll w b (x (((i : ℤ) - a) % h).toNat) l
  rw [this, dft_smul, dft_roll h a (fun i => dft w (x i) l) k]
  ring

theorem idft2_kern (h w : ℕ) (y : ℕ → ℕ → ℂ) (i j : ℕ) : idft2 h w y i j = kern h w y i j := by
  unfold idft2 idft kern ph
  simp only [Finset.sum_div, Finset.sum_mul]
  refine sum_congr rfl fun k _ => sum_congr rfl fun l _ => ?_
  push_cast
  rw [div_mul_eq_mul_div, div_div]
  ring

/-- Is the frequency in the spectrum? -/
noncomputable def supp (g : Mat ℂ) (k l : ℕ) : ℝ := if dft2 g.h g.w g.get k l = 0 then 0 else 1

theorem dft2_rolled {c : ℂ} {a b : ℤ} {g1 g2 : Mat ℂ} (h : Rolled c a b g1 g2) (k l : ℕ) :
    dft2 g1.h g1.w g1.get k l = c * (ph g2.h (-(k * a)) * ph g2.w (-(l * b)) * dft2 g2.h g2.w g2.get k l) := by
  rw [← dft2_roll, ← dft2_smul, h.1, h.2.1]
  exact dft2_congr _ _ _ _ _ _ h.2.2

/-- The normalised cross-power spectrum of a rolled image. -/
theorem cross_rolled {c : ℂ} (hc : c ≠ 0) {a b : ℤ} {g1 g2 : Mat ℂ} (h : Rolled c a b g1 g2) (k l : ℕ) :
    cross g1 g2 k l / ((if ‖cross g1 g2 k l‖ = 0 then 1 else ‖cross g1 g2 k l‖ : ℝ) : ℂ) =
      c / (‖c‖ : ℂ) * ((supp g2 k l : ℂ) * (ph g2.h (-(k * a)) * ph g2.w (-(l * b)))) := by
  unfold cross supp
  rw [dft2_rolled h]
  generalize dft2 g2.h g2.w g2.get k l = F
  have hn : ‖c * (ph g2.h (-(k * a)) * ph g2.w (-(l * b)) * F) * (starRingEnd ℂ) F‖ = ‖c‖ * (‖F‖ * ‖F‖) := by
    rw [norm_mul, norm_mul, norm_mul, norm_mul, ph_norm, ph_norm, RCLike.norm_conj]
    ring
  rw [hn]
  by_cases hF : F = 0
  · simp [hF]
  · have hF' : ‖F‖ ≠ 0 := norm_ne_zero_iff.2 hF
    have hc' : ‖c‖ ≠ 0 := norm_ne_zero_iff.2 hc
    rw [if_neg hF, if_neg (by positivity)]
    have hFC : (‖F‖ : ℂ) ≠ 0 := by exact_mod_cast hF'
    have hcC : (‖c‖ : ℂ) ≠ 0 := by exact_mod_cast hc'
    have e : F * (starRingEnd ℂ) F = (‖F‖ : ℂ) * ‖F‖ := by
      rw [Complex.mul_conj, Complex.normSq_eq_norm_sq]
      push_cast
      ring
    push_cast
    rw [div_mul_eq_mul_div, div_eq_div_iff (by positivity) hcC]
    linear_combination (c * ph g2.h (-(k * a)) * ph g2.w (-(l * b)) * ‖c‖) * e

theorem corrMap_rolled {c : ℂ} (hc : c ≠ 0) {a b : ℤ} {g1 g2 : Mat ℂ} (h : Rolled c a b g1 g2) (i j : ℕ) :
    (corrMap g1 g2).get i j = ‖kern g2.h g2.w (fun k l => (supp g2 k l : ℂ)) ((i : ℤ) - a) ((j : ℤ) - b)‖ := by
  show ‖idft2 g1.h g1.w _ i j‖ = _
  rw [h.1, h.2.1, idft2_kern]
  have hc' : (‖c‖ : ℂ) ≠ 0 := by exact_mod_cast norm_ne_zero_iff.2 hc
  have : kern g2.h g2.w (fun k l => cross g1 g2 k l / ((if ‖cross g1 g2 k l‖ = 0 then 1 else ‖cross g1 g2 k l‖ : ℝ) : ℂ)) i j =
      c / (‖c‖ : ℂ) * kern g2.h g2.w (fun k l => (supp g2 k l : ℂ)) ((i : ℤ) - a) ((j : ℤ) - b) := by
    unfold kern
    rw [mul_div_assoc', mul_sum]
    congr 1
    refine sum_congr rfl fun k _ => ?_
    rw [mul_sum]
    refine sum_congr rfl fun l _ => ?_
    dsimp only
    rw [cross_rolled hc h, show (k : ℤ) * ((i : ℤ) - a) = -(k * a) + k * i by ring, show (l : ℤ) * ((j : ℤ) - b) = -(l * b) + l * j by ring, ph_add, ph_add]
    ring
  rw [this, norm_mul, norm_div, Complex.norm_real, norm_norm, div_self (norm_ne_zero_iff.2 hc), one_mul]

/-! ### The peak -/

/-- Equality in the triangle inequality for unit numbers. -/
theorem unit_sum {ι : Type} (S : Finset ι) (σ : ι → ℝ) (hσ : ∀ s ∈ S, 0 ≤ σ s) (z : ι → ℂ) (hz : ∀ s ∈ S, ‖z s‖ = 1) :
    ‖∑ s ∈ S, (σ s : ℂ) * z s‖ ≤ ∑ s ∈ S, σ s ∧
      (‖∑ s ∈ S, (σ s : ℂ) * z s‖ = ∑ s ∈ S, σ s → ∃ u : ℂ, ∀ s ∈ S, σ s ≠ 0 → z s = u) := by
  have hle : ‖∑ s ∈ S, (σ s : ℂ) * z s‖ ≤ ∑ s ∈ S, σ s := by
    refine (norm_sum_le _ _).trans (le_of_eq (sum_congr rfl fun s hs => ?_))
    rw [norm_mul, hz s hs, mul_one, Complex.norm_real, Real.norm_eq_abs, abs_of_nonneg (hσ s hs)]
  refine ⟨hle, fun he => ?_⟩
  rcases eq_or_lt_of_le (sum_nonneg hσ) with h0 | h0
  · refine ⟨0, fun s hs hne => absurd ((sum_eq_zero_iff_of_nonneg hσ).1 h0.symm s hs) hne⟩
  · set n := ∑ s ∈ S, σ s with hn
    set T := ∑ s ∈ S, (σ s : ℂ) * z s with hT
    refine ⟨T / n, fun s hs hne => ?_⟩
    have hu : ‖T / (n : ℂ)‖ = 1 := by rw [norm_div, he, Complex.norm_real, Real.norm_eq_abs, abs_of_pos h0, div_self h0.ne']
    set u := T / (n : ℂ) with hu'
    have hw : ∀ s ∈ S, ‖(starRingEnd ℂ) u * z s‖ = 1 := fun s hs => by rw [norm_mul, RCLike.norm_conj, hu, hz s hs, one_mul]
    have hre : ∀ s ∈ S, 0 ≤ σ s * (1 - ((starRingEnd ℂ) u * z s).re) := fun s hs =>
      mul_nonneg (hσ s hs) (by have := (Complex.re_le_norm ((starRingEnd ℂ) u * z s)); rw [hw s hs] at this; linarith)
    have hsum : ∑ s ∈ S, σ s * (1 - ((starRingEnd ℂ) u * z s).re) = 0 := by
      have e1 : ∑ s ∈ S, σ s * ((starRingEnd ℂ) u * z s).re = ((starRingEnd ℂ) u * T).re := by
        rw [hT, mul_sum, Complex.re_sum]
        refine sum_congr rfl fun s _ => ?_
        rw [show (starRingEnd ℂ) u * ((σ s : ℂ) * z s) = (σ s : ℂ) * ((starRingEnd ℂ) u * z s) by ring, Complex.re_ofReal_mul]
      have e2 : (starRingEnd ℂ) u * T = (n : ℂ) := by
        have hnC : (n : ℂ) ≠ 0 := by exact_mod_cast h0.ne'
        have : T = n * u := by rw [hu']; field_simp
        rw [this, mul_left_comm, mul_comm ((starRingEnd ℂ) u), Complex.mul_conj, Complex.normSq_eq_norm_sq, hu]
        simp
      have : ∑ s ∈ S, σ s * (1 - ((starRingEnd ℂ) u * z s).re) = n - ∑ s ∈ S, σ s * ((starRingEnd ℂ) u * z s).re := by
        rw [hn, ← sum_sub_distrib]
        exact sum_congr rfl fun s _ => by ring
      rw [this, e1, e2, Complex.ofReal_re, sub_self]
    have h1 := (sum_eq_zero_iff_of_nonneg hre).1 hsum s hs
    have h2 : ((starRingEnd ℂ) u * z s).re = 1 := by
      rcases mul_eq_zero.1 h1 with h | h
      · exact absurd h hne
      · linarith
    have h3 : (starRingEnd ℂ) u * z s = 1 := by
      have hsq := Complex.sq_norm ((starRingEnd ℂ) u * z s)
      rw [hw s hs, Complex.normSq_apply, h2] at hsq
      refine Complex.ext (by simpa using h2) ?_
      have : ((starRingEnd ℂ) u * z s).im * ((starRingEnd ℂ) u * z s).im = 0 := by linarith
      simpa using this
    have h4 : u * (starRingEnd ℂ) u = 1 := by rw [Complex.mul_conj, Complex.normSq_eq_norm_sq, hu]; simp
    calc z s = (u * (starRingEnd ℂ) u) * z s := by rw [h4, one_mul]
      _ = u * ((starRingEnd ℂ) u * z s) := by ring
      _ = u := by rw [h3, mul_one]

theorem supp_nonneg (g : Mat ℂ) (k l : ℕ) : 0 ≤ supp g k l := by unfold supp; split <;> norm_num

/-- The map of an image with itself at a displacement `(p, q)`: at most the value at 0, and equal to it only if the roll by `(p, q)` is a multiple. -/
theorem kern_peak (g : Mat ℂ) (hh : 0 < g.h) (hw : 0 < g.w) (p q : ℤ) :
    ‖kern g.h g.w (fun k l => (supp g k l : ℂ)) p q‖ ≤ ‖kern g.h g.w (fun k l => (supp g k l : ℂ)) 0 0‖ ∧
      (‖kern g.h g.w (fun k l => (supp g k l : ℂ)) p q‖ = ‖kern g.h g.w (fun k l => (supp g k l : ℂ)) 0 0‖ →
        ∃ c : ℂ, ∀ i < g.h, ∀ j < g.w, g.get (((i : ℤ) + p) % g.h).toNat (((j : ℤ) + q) % g.w).toNat = c * g.get i j) := by
  have hhw : (0 : ℝ) < (g.h : ℝ) * g.w := by positivity
  have e : ∀ p q : ℤ, ‖kern g.h g.w (fun k l => (supp g k l : ℂ)) p q‖ =
      ‖∑ s ∈ range g.h ×ˢ range g.w, (supp g s.1 s.2 : ℂ) * (ph g.h (s.1 * p) * ph g.w (s.2 * q))‖ / ((g.h : ℝ) * g.w) := by
    intro p q
    unfold kern
    rw [norm_div, sum_product, norm_mul, Complex.norm_natCast, Complex.norm_natCast]
  have e0 : ‖kern g.h g.w (fun k l => (supp g k l : ℂ)) 0 0‖ = (∑ s ∈ range g.h ×ˢ range g.w, supp g s.1 s.2) / ((g.h : ℝ) * g.w) := by
    rw [e]
    congr 1
    simp only [mul_zero, ph_zero, mul_one]
    rw [← Complex.ofReal_sum, Complex.norm_real, Real.norm_eq_abs, abs_of_nonneg (sum_nonneg fun s _ => supp_nonneg g _ _)]
  obtain ⟨u1, u2⟩ := unit_sum (range g.h ×ˢ range g.w) (fun s => supp g s.1 s.2) (fun s _ => supp_nonneg g _ _)
    (fun s => ph g.h (s.1 * p) * ph g.w (s.2 * q)) fun s _ => by rw [norm_mul, ph_norm, ph_norm, one_mul]
  rw [e, e0]
  refine ⟨div_le_div_of_nonneg_right u1 hhw.le, fun he => ?_⟩
  have he' := (div_left_inj' hhw.ne').1 he
  obtain ⟨u, hu⟩ := u2 he'
  refine ⟨u, fun i hi j hj => ?_⟩
  have hfreq : ∀ k < g.h, ∀ l < g.w, dft2 g.h g.w (fun i j => g.get (((i : ℤ) + p) % g.h).toNat (((j : ℤ) + q) % g.w).toNat) k l =
      dft2 g.h g.w (fun i j => u * g.get i j) k l := by
    intro k hk l hl
    have := dft2_roll g.h g.w (-p) (-q) g.get k l
    simp only [sub_neg_eq_add] at this
    rw [this, dft2_smul]
    by_cases hF : dft2 g.h g.w g.get k l = 0
    · rw [hF]; simp
    · have h := hu (k, l) (mem_product.2 ⟨mem_range.2 hk, mem_range.2 hl⟩) (by unfold supp; rw [if_neg hF]; norm_num)
      dsimp only at h
      rw [← h, show -((k : ℤ) * -p) = k * p by ring, show -((l : ℤ) * -q) = l * q by ring]
  have := idft2_congr g.h g.w _ _ i j hfreq
  rwa [idft2_dft2 _ _ _ _ _ hi hj, idft2_dft2 _ _ _ _ _ hi hj] at this

theorem kern_mod (h w : ℕ) (hh : 0 < h) (hw : 0 < w) (y : ℕ → ℕ → ℂ) (p p' q q' : ℤ) (h1 : (h : ℤ) ∣ p - p') (h2 : (w : ℤ) ∣ q - q') :
    kern h w y p q = kern h w y p' q' := by
  unfold kern
  congr 1
  refine sum_congr rfl fun k _ => sum_congr rfl fun l _ => ?_
  rw [ph_congr h hh (k * p) (k * p') (by rw [← mul_sub]; exact Dvd.dvd.mul_left h1 _),
    ph_congr w hw (l * q) (l * q') (by rw [← mul_sub]; exact Dvd.dvd.mul_left h2 _)]

theorem kern_mirror (g : Mat ℂ) (p q : ℤ) :
    ‖kern g.h g.w (fun k l => (supp g k l : ℂ)) (-p) (-q)‖ = ‖kern g.h g.w (fun k l => (supp g k l : ℂ)) p q‖ := by
  rw [← kern_conj, RCLike.norm_conj]

/-- The position of the peak. -/
theorem peak_rolled {c : ℂ} (hc : c ≠ 0) {a b : ℤ} {g1 g2 : Mat ℂ} (h : Rolled c a b g1 g2) (hh : 0 < g2.h) (hw : 0 < g2.w) (hn : NoRepeat g2) :
    Correlation.FirstMax2 (corrMap g1 g2) (a % g2.h).toNat (b % g2.w).toNat := by
  have hay := emodNat_dvd g2.h hh a
  have hbx := emodNat_dvd g2.w hw b
  have hpk : (corrMap g1 g2).get (a % g2.h).toNat (b % g2.w).toNat = ‖kern g2.h g2.w (fun k l => (supp g2 k l : ℂ)) 0 0‖ := by
    rw [corrMap_rolled hc h, kern_mod g2.h g2.w hh hw _ _ 0 _ 0]
    · have := (dvd_neg (α := ℤ)).2 hay
      rwa [neg_sub, ← sub_zero (_ - a)] at this
    · have := (dvd_neg (α := ℤ)).2 hbx
      rwa [neg_sub, ← sub_zero (_ - b)] at this
  have hd1 : (corrMap g1 g2).h = g2.h := h.1
  have hd2 : (corrMap g1 g2).w = g2.w := h.2.1
  refine ⟨by rw [hd1]; exact emodNat_lt _ hh _, by rw [hd2]; exact emodNat_lt _ hw _, fun i _ j _ => ?_, fun i hi j hj hlt => ?_⟩
  · rw [hpk, corrMap_rolled hc h]
    exact (kern_peak g2 hh hw _ _).1
  · rw [hd1] at hi
    rw [hd2] at hj
    rw [hpk, corrMap_rolled hc h]
    refine lt_of_le_of_ne (kern_peak g2 hh hw _ _).1 fun he => ?_
    obtain ⟨u, hu⟩ := (kern_peak g2 hh hw _ _).2 he
    refine hn (((i : ℤ) - a) % g2.h).toNat (emodNat_lt _ hh _) (((j : ℤ) - b) % g2.w).toNat (emodNat_lt _ hw _) ?_ ⟨u, fun i' hi' j' hj' => ?_⟩
    · intro h0
      have h1 := congrArg Prod.fst h0
      have h2 := congrArg Prod.snd h0
      dsimp only at h1 h2
      have k1 := emodNat_dvd g2.h hh ((i : ℤ) - a)
      have k2 := emodNat_dvd g2.w hw ((j : ℤ) - b)
      rw [h1] at k1
      rw [h2] at k2
      have i1 := emodNat_unique g2.h a i hi (by have := (dvd_neg (α := ℤ)).2 k1; simpa using this)
      have i2 := emodNat_unique g2.w b j hj (by have := (dvd_neg (α := ℤ)).2 k2; simpa using this)
      omega
    · rw [← hu i' hi' j' hj']
      have k1 := emodNat_dvd g2.h hh ((i : ℤ) - a)
      have k2 := emodNat_dvd g2.w hw ((j : ℤ) - b)
      have e1 : (i' + (((i : ℤ) - a) % g2.h).toNat) % g2.h = (((i' : ℤ) + ((i : ℤ) - a)) % g2.h).toNat := by
        refine (emodNat_unique g2.h _ _ (Nat.mod_lt _ hh) ?_).symm
        have k3 : (g2.h : ℤ) ∣ ((i' + (((i : ℤ) - a) % g2.h).toNat : ℕ) : ℤ) - (((i' + (((i : ℤ) - a) % g2.h).toNat) % g2.h : ℕ) : ℤ) := by
          rw [Int.natCast_mod]; exact Int.dvd_self_sub_emod
        generalize (((i : ℤ) - a) % g2.h).toNat = P at k1 k3 ⊢
        obtain ⟨q1, hq1⟩ := k1
        obtain ⟨q2, hq2⟩ := k3
        rw [Nat.cast_add] at hq2
        exact ⟨q1 + q2, by linear_combination hq1 + hq2⟩
      have e2 : (j' + (((j : ℤ) - b) % g2.w).toNat) % g2.w = (((j' : ℤ) + ((j : ℤ) - b)) % g2.w).toNat := by
        refine (emodNat_unique g2.w _ _ (Nat.mod_lt _ hw) ?_).symm
        have k3 : (g2.w : ℤ) ∣ ((j' + (((j : ℤ) - b) % g2.w).toNat : ℕ) : ℤ) - (((j' + (((j : ℤ) - b) % g2.w).toNat) % g2.w : ℕ) : ℤ) := by
          rw [Int.natCast_mod]; exact Int.dvd_self_sub_emod
        generalize (((j : ℤ) - b) % g2.w).toNat = P at k2 k3 ⊢
        obtain ⟨q1, hq1⟩ := k2
        obtain ⟨q2, hq2⟩ := k3
        rw [Nat.cast_add] at hq2
        exact ⟨q1 + q2, by linear_combination hq1 + hq2⟩
      rw [e1, e2]

theorem refine_flat (t a b : ℝ) : Center.refine t a b a = t := by
  unfold Center.refine
  simp

theorem wrap_signed (n : ℕ) (hn : 0 < n) (a : ℤ) : ∃ s : ℤ, Center.wrapShift n (((a % n).toNat : ℕ) : ℝ) = (s : ℝ) ∧ Signed n a s := by
  have h1 := emodNat_dvd n hn a
  have h2 := emodNat_lt n hn a
  generalize (a % n).toNat = t at h1 h2
  unfold Center.wrapShift Signed
  rw [Center.half_ceil, Int.cast_natCast]
  by_cases h : (t : ℝ) > ((n / 2 : ℕ) : ℝ)
  · rw [if_pos h]
    have h' : n / 2 < t := by exact_mod_cast h
    refine ⟨(t : ℤ) - n, by push_cast; ring, ?_, by omega, by omega⟩
    rw [show a - ((t : ℤ) - n) = (a - t) + n by ring]
    exact dvd_add h1 (dvd_refl _)
  · rw [if_neg h]
    have h' : t ≤ n / 2 := by
      rw [gt_iff_lt, not_lt] at h
      exact_mod_cast h
    exact ⟨t, by push_cast; rfl, h1, by omega, by omega⟩

/-- The signed representative is unique. -/
theorem signed_unique (n : ℕ) (a s t : ℤ) (hs : Signed n a s) (ht : Signed n a t) : s = t := by
  obtain ⟨h1, h2, h3⟩ := hs
  obtain ⟨k1, k2, k3⟩ := ht
  have := dvd_sub h1 k1
  obtain ⟨q, hq⟩ := this
  have : t - s = n * q := by linarith
  rcases lt_trichotomy q 0 with h | h | h
  · nlinarith
  · subst h; linarith
  · nlinarith

/-- The located shift of a rolled image. -/
theorem locate_rolled {c : ℂ} (hc : c ≠ 0) {a b : ℤ} {g1 g2 : Mat ℂ} (h : Rolled c a b g1 g2) (hh : 0 < g2.h) (hw : 0 < g2.w) (hn : NoRepeat g2)
    (sy sx : ℤ) (hy : Signed g2.h a sy) (hx : Signed g2.w b sx) : locate (corrMap g1 g2) = .ok ((sy : ℝ), (sx : ℝ)) := by
  have hd1 : (corrMap g1 g2).h = g2.h := h.1
  have hd2 : (corrMap g1 g2).w = g2.w := h.2.1
  unfold locate
  rw [Correlation.argmax2_eq (peak_rolled hc h hh hw hn)]
  show Except.ok (_, _) = Except.ok (_, _)
  dsimp only
  rw [hd1, hd2]
  have hay := emodNat_dvd g2.h hh a
  have hbx := emodNat_dvd g2.w hw b
  have hal := emodNat_lt g2.h hh a
  have hbl := emodNat_lt g2.w hw b
  have modDvd : ∀ N t : ℕ, (N : ℤ) ∣ ((t % N : ℕ) : ℤ) - t := fun N t => by
    rw [Int.natCast_mod, ← dvd_neg, neg_sub]; exact Int.dvd_self_sub_emod
  have nx : (corrMap g1 g2).get (a % g2.h).toNat (((b % g2.w).toNat + g2.w - 1) % g2.w) = (corrMap g1 g2).get (a % g2.h).toNat (((b % g2.w).toNat + 1) % g2.w) := by
    rw [corrMap_rolled hc h, corrMap_rolled hc h, ← kern_mirror]
    congr 1
    refine kern_mod _ _ hh hw _ _ _ _ _ ?_ ?_
    · obtain ⟨q1, hq1⟩ := hay
      exact ⟨q1 + q1, by linear_combination hq1 + hq1⟩
    · have k1 := modDvd g2.w ((b % g2.w).toNat + g2.w - 1)
      have k2 := modDvd g2.w ((b % g2.w).toNat + 1)
      generalize (b % g2.w).toNat = P at k1 k2 hbx ⊢
      obtain ⟨q1, hq1⟩ := hbx
      obtain ⟨q2, hq2⟩ := k1
      obtain ⟨q3, hq3⟩ := k2
      rw [Nat.cast_sub (by omega), Nat.cast_add] at hq2
      rw [Nat.cast_add] at hq3
      refine ⟨q1 + q1 - q2 - q3 - 1, ?_⟩
      push_cast at hq2 hq3 ⊢
      linear_combination hq1 + hq1 - hq2 - hq3
  have ny : (corrMap g1 g2).get (((a % g2.h).toNat + g2.h - 1) % g2.h) (b % g2.w).toNat = (corrMap g1 g2).get (((a % g2.h).toNat + 1) % g2.h) (b % g2.w).toNat := by
    rw [corrMap_rolled hc h, corrMap_rolled hc h, ← kern_mirror]
    congr 1
    refine kern_mod _ _ hh hw _ _ _ _ _ ?_ ?_
    · have k1 := modDvd g2.h ((a % g2.h).toNat + g2.h - 1)
      have k2 := modDvd g2.h ((a % g2.h).toNat + 1)
      generalize (a % g2.h).toNat = P at k1 k2 hay ⊢
      obtain ⟨q1, hq1⟩ := hay
      obtain ⟨q2, hq2⟩ := k1
      obtain ⟨q3, hq3⟩ := k2
      rw [Nat.cast_sub (by omega), Nat.cast_add] at hq2
      rw [Nat.cast_add] at hq3
      refine ⟨q1 + q1 - q2 - q3 - 1, ?_⟩
      push_cast at hq2 hq3 ⊢
      linear_combination hq1 + hq1 - hq2 - hq3
    · obtain ⟨q1, hq1⟩ := hbx
      exact ⟨q1 + q1, by linear_combination hq1 + hq1⟩
  rw [nx, ny, refine_flat, refine_flat]
  obtain ⟨s1, e1, w1⟩ := wrap_signed g2.h hh a
  obtain ⟨s2, e2, w2⟩ := wrap_signed g2.w hw b
  rw [e1, e2, signed_unique _ _ _ _ w1 hy, signed_unique _ _ _ _ w2 hx]

theorem emod_shift (N : ℕ) (hN : 0 < N) (i p : ℕ) (a : ℤ) :
    ((((i + p) % N : ℕ) : ℤ) - a) % N = (((((i : ℤ) - a) % N).toNat + p) % N : ℕ) := by
  have h1 : (0 : ℤ) ≤ ((i : ℤ) - a) % N := Int.emod_nonneg _ (by omega)
  rw [Int.natCast_mod, Int.natCast_mod, Nat.cast_add, Nat.cast_add, Int.toNat_of_nonneg h1, Int.emod_add_emod, Int.emod_sub_emod]
  congr 1
  ring

theorem emod_shift' (N : ℕ) (hN : 0 < N) (i p : ℕ) (a : ℤ) :
    (((((i + p) % N : ℕ) : ℤ) - a) % N).toNat = ((((i : ℤ) - a) % N).toNat + p) % N := by
  rw [emod_shift N hN, Int.toNat_natCast]

/-- Repetition is seen in the rolled image as well as in the original. -/
theorem noRepeat_rolled {c : ℂ} {a b : ℤ} {g1 g2 : Mat ℂ} (h : Rolled c a b g1 g2) (hn : NoRepeat g1) : NoRepeat g2 := by
  intro p hp q hq hne hrep
  obtain ⟨u, hu⟩ := hrep
  have hh : 0 < g2.h := by omega
  have hw : 0 < g2.w := by omega
  refine hn p (by rw [h.1]; exact hp) q (by rw [h.2.1]; exact hq) hne ⟨u, fun i hi j hj => ?_⟩
  rw [h.1, h.2.1] at *
  rw [h.2.2 _ (Nat.mod_lt _ hh) _ (Nat.mod_lt _ hw), h.2.2 i hi j hj, emod_shift' _ hh, emod_shift' _ hw,
    hu _ (emodNat_lt _ hh _) _ (emodNat_lt _ hw _)]
  ring

/-- A single pixel of largest magnitude excludes repetition. -/
theorem noRepeat_of_peak (g : Mat ℂ) (y x : ℕ) (hy : y < g.h) (hx : x < g.w)
    (hp : ∀ i < g.h, ∀ j < g.w, (i, j) ≠ (y, x) → ‖g.get i j‖ < ‖g.get y x‖) : NoRepeat g := by
  intro p hp' q hq' hne hrep
  obtain ⟨u, hu⟩ := hrep
  have hh : 0 < g.h := by omega
  have hw : 0 < g.w := by omega
  have hle : ∀ i < g.h, ∀ j < g.w, ‖g.get i j‖ ≤ ‖g.get y x‖ := fun i hi j hj => by
    by_cases h : (i, j) = (y, x)
    · cases h; exact le_refl _
    · exact (hp i hi j hj h).le
  have stay : ∀ N t s : ℕ, t < N → s < N → (t + s) % N = t → s = 0 := by
    intro N t s ht hs he
    rcases Nat.lt_or_ge (t + s) N with h | h
    · rw [Nat.mod_eq_of_lt h] at he; omega
    · rw [Nat.mod_eq_sub_mod h, Nat.mod_eq_of_lt (by omega)] at he; omega
  have h1 : ‖g.get ((y + p) % g.h) ((x + q) % g.w)‖ < ‖g.get y x‖ := by
    refine hp _ (Nat.mod_lt _ hh) _ (Nat.mod_lt _ hw) fun he => hne ?_
    have e1 := congrArg Prod.fst he
    have e2 := congrArg Prod.snd he
    rw [stay _ _ _ hy hp' e1, stay _ _ _ hx hq' e2]
  rw [hu y hy x hx, norm_mul] at h1
  have hpos : 0 < ‖g.get y x‖ := by
    by_contra h
    have h0 : ‖g.get y x‖ = 0 := le_antisymm (not_lt.1 h) (norm_nonneg _)
    rw [h0, mul_zero] at h1
    exact lt_irrefl _ h1
  have hu1 : ‖u‖ < 1 := by
    by_contra h
    nlinarith [not_lt.1 h]
  have back : ∀ N t s : ℕ, t < N → s < N → ((t + (N - s)) % N + s) % N = t := by
    intro N t s ht hs
    rw [Nat.mod_add_mod, show t + (N - s) + s = t + N by omega, Nat.add_mod_right, Nat.mod_eq_of_lt ht]
  have h2 := hu ((y + (g.h - p)) % g.h) (Nat.mod_lt _ hh) ((x + (g.w - q)) % g.w) (Nat.mod_lt _ hw)
  rw [back _ _ _ hy hp', back _ _ _ hx hq'] at h2
  have h3 := hle ((y + (g.h - p)) % g.h) (Nat.mod_lt _ hh) ((x + (g.w - q)) % g.w) (Nat.mod_lt _ hw)
  have h4 : ‖g.get y x‖ = ‖u‖ * ‖g.get ((y + (g.h - p)) % g.h) ((x + (g.w - q)) % g.w)‖ := by rw [← norm_mul, ← h2]
  nlinarith [norm_nonneg u]

/-! ### Gradients -/

theorem gradX_framed {v : ℝ} {m : Mat ℝ} (h : Framed v m) (i j : ℕ) (hi : i < m.h) (hj : j < m.w) :
    gradX m i j = m.get i ((j + 2) % m.w) - m.get i j := by
  unfold gradX
  split
  · rename_i hc
    have hw : 0 < m.w := by omega
    have hlt := Nat.mod_lt (j + 2) hw
    rw [h i hi j hj (by omega), h i hi _ hlt, sub_self]
    rcases Nat.lt_or_ge (j + 2) m.w with h1 | h1
    · rw [Nat.mod_eq_of_lt h1]; omega
    · rcases Nat.lt_or_ge m.w 3 with h2 | h2
      · omega
      · rw [Nat.mod_eq_sub_mod h1, Nat.mod_eq_of_lt (by omega)]; omega
  · rfl

theorem gradY_framed {v : ℝ} {m : Mat ℝ} (h : Framed v m) (i j : ℕ) (hi : i < m.h) (hj : j < m.w) :
    gradY m i j = m.get ((i + 2) % m.h) j - m.get i j := by
  unfold gradY
  split
  · rename_i hc
    have hw : 0 < m.h := by omega
    have hlt := Nat.mod_lt (i + 2) hw
    rw [h i hi j hj (by omega), h _ hlt j hj, sub_self]
    rcases Nat.lt_or_ge (i + 2) m.h with h1 | h1
    · rw [Nat.mod_eq_of_lt h1]; omega
    · rcases Nat.lt_or_ge m.h 3 with h2 | h2
      · omega
      · rw [Nat.mod_eq_sub_mod h1, Nat.mod_eq_of_lt (by omega)]; omega
  · rfl

/-- The condition on the borders: the gradient is not circular, so with `gradient=True` the image and the moved image need a uniform border; without gradient the
brightness offset must be zero. -/
def Fit (gradient : Bool) (d : ℝ) (m1 m2 : Mat ℝ) : Prop :=
  if gradient then ∃ v1 v2, Framed v1 m1 ∧ Framed v2 m2 else d = 0

theorem rolled_of_moved {gradient : Bool} {c d : ℝ} {a b : ℤ} {m1 m2 : Mat ℝ} (hf : Fit gradient d m1 m2) (h : Moved c d a b m1 m2) :
    Rolled (c : ℂ) a b (used gradient m1) (used gradient m2) := by
  obtain ⟨h1, h2, h3⟩ := h
  cases gradient with
  | false =>
    refine ⟨h1, h2, fun i hi j hj => ?_⟩
    show ((m1.get i j : ℝ) : ℂ) = (c : ℂ) * (m2.get (((i : ℤ) - a) % m2.h).toNat (((j : ℤ) - b) % m2.w).toNat : ℝ)
    unfold Fit at hf
    rw [h3 i hi j hj, show d = 0 by simpa using hf]
    push_cast
    ring
  | true =>
    obtain ⟨v1, v2, hf1, hf2⟩ : ∃ v1 v2, Framed v1 m1 ∧ Framed v2 m2 := by simpa [Fit] using hf
    refine ⟨h1, h2, fun i hi j hj => ?_⟩
    replace hi : i < m2.h := hi
    replace hj : j < m2.w := hj
    have hh : 0 < m2.h := by omega
    have hw : 0 < m2.w := by omega
    show (gradX m1 i j : ℂ) + I * (gradY m1 i j : ℂ) = (c : ℂ) * ((gradX m2 _ _ : ℂ) + I * (gradY m2 _ _ : ℂ))
    rw [gradX_framed hf1 i j (by omega) (by omega), gradY_framed hf1 i j (by omega) (by omega)]
    show _ = (c : ℂ) * ((gradX m2 (((i : ℤ) - a) % m2.h).toNat (((j : ℤ) - b) % m2.w).toNat : ℂ) +
      I * (gradY m2 (((i : ℤ) - a) % m2.h).toNat (((j : ℤ) - b) % m2.w).toNat : ℂ))
    rw [gradX_framed hf2 _ _ (emodNat_lt _ hh _) (emodNat_lt _ hw _), gradY_framed hf2 _ _ (emodNat_lt _ hh _) (emodNat_lt _ hw _), h1, h2]
    rw [h3 i hi _ (Nat.mod_lt _ hw), h3 _ (Nat.mod_lt _ hh) j hj, h3 i hi j hj, emod_shift' _ hw, emod_shift' _ hh]
    push_cast
    ring

theorem used_h (gradient : Bool) (m : Mat ℝ) : (used gradient m).h = m.h := by cases gradient <;> rfl
theorem used_w (gradient : Bool) (m : Mat ℝ) : (used gradient m).w = m.w := by cases gradient <;> rfl

/-- **C159.** If the first image is the second one moved by whole pixels, with any change of brightness scale (and offset, with `gradient=True`), the shift
found is exact: the displacement in `(-n/2, n/2]` along each axis. -/
theorem find_shift_exact (gradient : Bool) (c d : ℝ) (hc : c ≠ 0) (a b sy sx : ℤ) (m1 m2 : Mat ℝ) (hm : Moved c d a b m1 m2) (hf : Fit gradient d m1 m2)
    (hh : 0 < m1.h) (hw : 0 < m1.w) (hn : NoRepeat (seen gradient m1)) (hy : Signed m1.h a sy) (hx : Signed m1.w b sx) :
    findShift gradient m1 m2 = .ok ((sy : ℝ), (sx : ℝ)) := by
  have hr := rolled_of_moved hf hm
  unfold findShift
  rw [if_neg (by have := hm.1; have := hm.2.1; omega)]
  refine locate_rolled (by exact_mod_cast hc) hr ?_ ?_ (noRepeat_rolled hr hn) sy sx ?_ ?_
  · rw [used_h, ← hm.1]; exact hh
  · rw [used_w, ← hm.2.1]; exact hw
  · rw [used_h, ← hm.1]; exact hy
  · rw [used_w, ← hm.2.1]; exact hx

theorem framed_fliplr {v : ℝ} {m : Mat ℝ} (h : Framed v m) : Framed v m.fliplr := by
  intro i hi j hj hc
  replace hi : i < m.h := hi
  replace hj : j < m.w := hj
  replace hc : i < 4 ∨ m.h ≤ i + 4 ∨ j < 4 ∨ m.w ≤ j + 4 := hc
  exact h i hi (m.w - 1 - j) (by omega) (by omega)

theorem moved_of_mirrored {c d : ℝ} {a s : ℤ} {m1 m2 : Mat ℝ} (h : Mirrored c d a s m1 m2) : Moved c d a (s - ((m2.w : ℤ) - 1)) m1 m2.fliplr := by
  refine ⟨h.1, h.2.1, fun i hi j hj => ?_⟩
  replace hi : i < m2.h := hi
  replace hj : j < m2.w := hj
  have hw : 0 < m2.w := by omega
  rw [h.2.2 i hi j hj]
  show _ = c * m2.get (((i : ℤ) - a) % m2.h).toNat (m2.w - 1 - (((j : ℤ) - (s - ((m2.w : ℤ) - 1))) % m2.w).toNat) + d
  congr 3
  have h1 := emodNat_dvd m2.w hw ((j : ℤ) - (s - ((m2.w : ℤ) - 1)))
  have h2 := emodNat_lt m2.w hw ((j : ℤ) - (s - ((m2.w : ℤ) - 1)))
  generalize (((j : ℤ) - (s - ((m2.w : ℤ) - 1))) % m2.w).toNat = t at h1 h2 ⊢
  refine emodNat_unique _ _ _ (by omega) ?_
  rw [Nat.cast_sub (by omega), Nat.cast_sub (by omega), show s - (j : ℤ) - ((m2.w : ℤ) - (1 : ℕ) - t) = -((j : ℤ) - (s - ((m2.w : ℤ) - 1)) - t) by push_cast; ring]
  exact (dvd_neg (α := ℤ)).2 h1

/-- **C160.** Two projections that are mirror images of each other about the column `s / 2` (whole or half pixels), possibly moved vertically and with another
brightness scale: the centre found is exactly `s / 2` if it lies in the middle half of the detector, otherwise off by a multiple of half the width. -/
theorem find_center_exact (gradient : Bool) (c d : ℝ) (hc : c ≠ 0) (a s : ℤ) (m1 m2 : Mat ℝ) (hm : Mirrored c d a s m1 m2) (hf : Fit gradient d m1 m2)
    (hh : 0 < m1.h) (hw : 0 < m1.w) (hn : NoRepeat (seen gradient m1)) :
    (-(m1.w : ℤ) < 2 * (s - ((m1.w : ℤ) - 1)) ∧ 2 * (s - ((m1.w : ℤ) - 1)) ≤ m1.w → findCenter true gradient m1 m2 = .ok ((s : ℝ) / 2)) ∧
      ∃ k : ℤ, findCenter true gradient m1 m2 = .ok (((s + k * m1.w : ℤ) : ℝ) / 2) := by
  have hmv := moved_of_mirrored hm
  have hfit : Fit gradient d m1 m2.fliplr := by
    unfold Fit at hf ⊢
    by_cases hg : gradient = true
    · rw [if_pos hg] at hf ⊢
      obtain ⟨v1, v2, f1, f2⟩ := hf
      exact ⟨v1, v2, f1, framed_fliplr f2⟩
    · rw [if_neg hg] at hf ⊢
      exact hf
  obtain ⟨sy, _, wy⟩ := wrap_signed m1.h hh a
  have key : ∀ sx : ℤ, Signed m1.w (s - ((m2.w : ℤ) - 1)) sx → findCenter true gradient m1 m2 = .ok ((((m1.w : ℤ) - 1 + sx : ℤ) : ℝ) / 2) := by
    intro sx wx
    unfold findCenter
    rw [if_pos rfl, find_shift_exact gradient c d hc a _ sy sx m1 m2.fliplr hmv hfit hh hw hn wy wx]
    show Except.ok (Center.centerPhase m1.w (sx : ℝ)) = _
    unfold Center.centerPhase
    push_cast
    congr 1
    ring
  have hw2 := hm.2.1
  constructor
  · intro hr
    rw [key (s - ((m2.w : ℤ) - 1)) ⟨by simp, by rw [← hw2]; exact hr.1, by rw [← hw2]; exact hr.2⟩, hw2]
    congr 2
    push_cast
    ring
  · obtain ⟨sx, _, wx⟩ := wrap_signed m1.w hw (s - ((m2.w : ℤ) - 1))
    obtain ⟨q, hq⟩ := wx.1
    refine ⟨-q, ?_⟩
    rw [key sx wx]
    congr 3
    rw [← hw2] at hq
    linear_combination -hq

/-! ### Laws for all pairs of images -/

theorem refine_shift (t t' a b c : ℝ) : Center.refine t' c b a - t' = t - Center.refine t a b c := by
  unfold Center.refine
  dsimp only
  have e1 : c - 2 * b + a = a - 2 * b + c := by ring
  rw [e1]
  by_cases h : (a - 2 * b + c) / 2 ≠ 0
  · rw [if_pos h, if_pos h]
    have e2 : (c - a) / (2 * (a - 2 * b + c)) = -((a - c) / (2 * (a - 2 * b + c))) := by rw [← neg_div, neg_sub]
    rw [e2]
    generalize (a - c) / (2 * (a - 2 * b + c)) = r
    by_cases h2 : t - 1 ≤ t + r ∧ t + r ≤ t + 1
    · rw [if_pos h2, if_pos ⟨by linarith [h2.2], by linarith [h2.1]⟩]; ring
    · rw [if_neg h2, if_neg (fun h3 => h2 ⟨by linarith [h3.2], by linarith [h3.1]⟩)]; ring
  · rw [if_neg h, if_neg h]; ring

/-- **C159**: a shift is found for every pair of images of one non-empty shape, and it is at most half the size plus half a pixel. -/
theorem find_shift_bounded (gradient : Bool) (m1 m2 : Mat ℝ) (h1 : m1.h = m2.h) (h2 : m1.w = m2.w) (hh : 0 < m1.h) (hw : 0 < m1.w) :
    ∃ ty tx : ℝ, findShift gradient m1 m2 = .ok (ty, tx) ∧ |ty| ≤ ((m1.h : ℝ) + 1) / 2 ∧ |tx| ≤ ((m1.w : ℝ) + 1) / 2 := by
  unfold findShift
  rw [if_neg (by omega)]
  have hd1 : (corrMap (used gradient m1) (used gradient m2)).h = m1.h := used_h gradient m1
  have hd2 : (corrMap (used gradient m1) (used gradient m2)).w = m1.w := used_w gradient m1
  generalize corrMap (used gradient m1) (used gradient m2) = m at hd1 hd2
  obtain ⟨y, x, he, f1, f2, f3, _⟩ := Correlation.argmax2_spec (m := m) (by omega) (by omega)
  unfold locate
  rw [he]
  refine ⟨_, _, rfl, ?_, ?_⟩
  · have hb := abs_le.1 (Center.refine_half (y : ℝ) (m.get ((y + m.h - 1) % m.h) x) (m.get y x) (m.get ((y + 1) % m.h) x)
      (f3 _ (Nat.mod_lt _ (by omega)) _ f2) (f3 _ (Nat.mod_lt _ (by omega)) _ f2)).1
    have hy : (y : ℝ) ≤ (m.h : ℝ) - 1 := by
      have : (y : ℝ) + 1 ≤ m.h := by exact_mod_cast f1
      linarith
    rw [← hd1]
    exact (Center.wrap_shift_subpixel m.h _ (by have : (0 : ℝ) ≤ y := Nat.cast_nonneg y; linarith [hb.1]) (by linarith [hb.2]) (by omega)).2
  · have hb := abs_le.1 (Center.refine_half (x : ℝ) (m.get y ((x + m.w - 1) % m.w)) (m.get y x) (m.get y ((x + 1) % m.w))
      (f3 _ f1 _ (Nat.mod_lt _ (by omega))) (f3 _ f1 _ (Nat.mod_lt _ (by omega)))).1
    have hy : (x : ℝ) ≤ (m.w : ℝ) - 1 := by
      have : (x : ℝ) + 1 ≤ m.w := by exact_mod_cast f2
      linarith
    rw [← hd2]
    exact (Center.wrap_shift_subpixel m.w _ (by have : (0 : ℝ) ≤ x := Nat.cast_nonneg x; linarith [hb.1]) (by linarith [hb.2]) (by omega)).2

/-- **C159**: images of different shapes or without pixels raise `ValueError`. -/
theorem find_shift_error (gradient : Bool) (m1 m2 : Mat ℝ) (h : m1.h ≠ m2.h ∨ m1.w ≠ m2.w ∨ m1.h = 0 ∨ m1.w = 0) :
    findShift gradient m1 m2 = .error .valueError := by
  unfold findShift
  by_cases hs : m1.h ≠ m2.h ∨ m1.w ≠ m2.w
  · rw [if_pos hs]
  · rw [if_neg hs]
    have hd1 : (corrMap (used gradient m1) (used gradient m2)).h = m1.h := used_h gradient m1
    have hd2 : (corrMap (used gradient m1) (used gradient m2)).w = m1.w := used_w gradient m1
    unfold locate Correlation.argmax2
    rw [if_pos (by rw [hd1, hd2]; omega)]
    rfl

theorem corrMap_gain (c1 c2 : ℂ) (h1 : c1 ≠ 0) (h2 : c2 ≠ 0) (g1 g2 : Mat ℂ) :
    corrMap ⟨g1.h, g1.w, fun i j => c1 * g1.get i j⟩ ⟨g2.h, g2.w, fun i j => c2 * g2.get i j⟩ = corrMap g1 g2 := by
  have hu : c1 * (starRingEnd ℂ) c2 ≠ 0 := mul_ne_zero h1 ((map_ne_zero _).2 h2)
  have hc : ∀ k l, cross ⟨g1.h, g1.w, fun i j => c1 * g1.get i j⟩ ⟨g2.h, g2.w, fun i j => c2 * g2.get i j⟩ k l = (c1 * (starRingEnd ℂ) c2) * cross g1 g2 k l := by
    intro k l
    unfold cross
    rw [dft2_smul, dft2_smul, map_mul]
    ring
  unfold corrMap
  simp only [hc]
  generalize c1 * (starRingEnd ℂ) c2 = u at hu
  congr 1
  funext i j
  have hn : (‖u‖ : ℂ) ≠ 0 := by exact_mod_cast norm_ne_zero_iff.2 hu
  have : (fun k l => u * cross g1 g2 k l / ((if ‖u * cross g1 g2 k l‖ = 0 then 1 else ‖u * cross g1 g2 k l‖ : ℝ) : ℂ)) =
      fun k l => (u / (‖u‖ : ℂ)) * (cross g1 g2 k l / ((if ‖cross g1 g2 k l‖ = 0 then 1 else ‖cross g1 g2 k l‖ : ℝ) : ℂ)) := by
    funext k l
    by_cases h0 : cross g1 g2 k l = 0
    · rw [h0]; simp
    · have h0' : ‖cross g1 g2 k l‖ ≠ 0 := norm_ne_zero_iff.2 h0
      have h0C : (‖cross g1 g2 k l‖ : ℂ) ≠ 0 := by exact_mod_cast h0'
      rw [norm_mul, if_neg (mul_ne_zero (norm_ne_zero_iff.2 hu) h0'), if_neg h0']
      push_cast
      field_simp
  rw [this, idft2_smul, norm_mul, norm_div, Complex.norm_real, norm_norm, div_self (norm_ne_zero_iff.2 hu), one_mul]

theorem used_affine (gradient : Bool) (c d : ℝ) (hd : gradient = false → d = 0) (m : Mat ℝ) :
    used gradient (m.map fun v => c * v + d) = ⟨(used gradient m).h, (used gradient m).w, fun i j => (c : ℂ) * (used gradient m).get i j⟩ := by
  cases gradient with
  | false =>
    rw [hd rfl]
    show (⟨m.h, m.w, fun i j => ((c * m.get i j + 0 : ℝ) : ℂ)⟩ : Mat ℂ) = ⟨m.h, m.w, fun i j => (c : ℂ) * (m.get i j : ℂ)⟩
    congr 1
    funext i j
    push_cast
    ring
  | true =>
    show (⟨m.h, m.w, fun i j => (gradX (m.map fun v => c * v + d) i j : ℂ) + I * (gradY (m.map fun v => c * v + d) i j : ℂ)⟩ : Mat ℂ) =
      ⟨m.h, m.w, fun i j => (c : ℂ) * ((gradX m i j : ℂ) + I * (gradY m i j : ℂ))⟩
    congr 1
    funext i j
    have h1 : gradX (m.map fun v => c * v + d) i j = c * gradX m i j := by
      unfold gradX
      show (if j < 2 ∨ m.w ≤ j + 2 then (0 : ℝ) else (c * m.get i ((j + 2) % m.w) + d) - (c * m.get i j + d)) = _
      split <;> ring
    have h2 : gradY (m.map fun v => c * v + d) i j = c * gradY m i j := by
      unfold gradY
      show (if i < 2 ∨ m.h ≤ i + 2 then (0 : ℝ) else (c * m.get ((i + 2) % m.h) j + d) - (c * m.get i j + d)) = _
      split <;> ring
    rw [h1, h2]
    push_cast
    ring

/-- **C159**: brightness.  Multiplying the images by any non-zero numbers does not change the shift found, nor, with `gradient=True`, do offsets. -/
theorem find_shift_gain (gradient : Bool) (c1 d1 c2 d2 : ℝ) (h1 : c1 ≠ 0) (h2 : c2 ≠ 0) (hd : gradient = false → d1 = 0 ∧ d2 = 0) (m1 m2 : Mat ℝ) :
    findShift gradient (m1.map fun v => c1 * v + d1) (m2.map fun v => c2 * v + d2) = findShift gradient m1 m2 := by
  unfold findShift
  rw [used_affine gradient c1 d1 (fun h => (hd h).1), used_affine gradient c2 d2 (fun h => (hd h).2),
    corrMap_gain _ _ (by exact_mod_cast h1) (by exact_mod_cast h2)]
  rfl

theorem idft2_conj (h w : ℕ) (y : ℕ → ℕ → ℂ) (i j i' j' : ℕ) (hh : 0 < h) (hw : 0 < w) (h1 : (h : ℤ) ∣ (i : ℤ) + i') (h2 : (w : ℤ) ∣ (j : ℤ) + j') :
    idft2 h w (fun k l => (starRingEnd ℂ) (y k l)) i j = (starRingEnd ℂ) (idft2 h w y i' j') := by
  rw [idft2_kern, idft2_kern, kern_mod h w hh hw _ (i : ℤ) (-(i' : ℤ)) (j : ℤ) (-(j' : ℤ)) (by simpa using h1) (by simpa using h2)]
  unfold kern
  rw [map_div₀, map_sum, map_mul, map_natCast, map_natCast]
  congr 1
  refine sum_congr rfl fun k _ => ?_
  rw [map_sum]
  refine sum_congr rfl fun l _ => ?_
  rw [map_mul, map_mul, ph_conj, ph_conj, mul_neg, mul_neg]

/-- The map of the exchanged images is the map mirrored. -/
theorem corrMap_swap (g1 g2 : Mat ℂ) (hh : g1.h = g2.h) (hw : g1.w = g2.w) (i j i' j' : ℕ) (h0 : 0 < g1.h) (w0 : 0 < g1.w)
    (h1 : (g1.h : ℤ) ∣ (i : ℤ) + i') (h2 : (g1.w : ℤ) ∣ (j : ℤ) + j') : (corrMap g2 g1).get i j = (corrMap g1 g2).get i' j' := by
  have hc : ∀ k l, cross g2 g1 k l = (starRingEnd ℂ) (cross g1 g2 k l) := by
    intro k l
    unfold cross
    rw [map_mul, Complex.conj_conj]
    ring
  show ‖idft2 g2.h g2.w (fun k l => cross g2 g1 k l / _) i j‖ = _
  rw [← hh, ← hw]
  have : (fun k l => cross g2 g1 k l / ((if ‖cross g2 g1 k l‖ = 0 then 1 else ‖cross g2 g1 k l‖ : ℝ) : ℂ)) =
      fun k l => (starRingEnd ℂ) (cross g1 g2 k l / ((if ‖cross g1 g2 k l‖ = 0 then 1 else ‖cross g1 g2 k l‖ : ℝ) : ℂ)) := by
    funext k l
    rw [hc, RCLike.norm_conj, map_div₀, Complex.conj_ofReal]
  rw [this, idft2_conj _ _ _ i j i' j' h0 w0 h1 h2, RCLike.norm_conj]
  rfl

theorem wrap_mod (n : ℕ) (t : ℝ) : ∃ k : ℤ, Center.wrapShift n t = t + k * n := by
  unfold Center.wrapShift
  split
  · exact ⟨-1, by push_cast; ring⟩
  · exact ⟨0, by push_cast; ring⟩

/-- **C159**: exchanging the images.  If the correlation has a single highest point, exchanging the two images reverses the shift (up to whole turns of the image),
sub-pixel part included. -/
theorem find_shift_swap (gradient : Bool) (m1 m2 : Mat ℝ) (h1 : m1.h = m2.h) (h2 : m1.w = m2.w) (y x : ℕ) (hy : y < m1.h) (hx : x < m1.w)
    (hpk : ∀ i < m1.h, ∀ j < m1.w, (i, j) ≠ (y, x) →
      (corrMap (seen gradient m1) (seen gradient m2)).get i j < (corrMap (seen gradient m1) (seen gradient m2)).get y x) :
    ∃ (ty tx : ℝ) (ky kx : ℤ), findShift gradient m1 m2 = .ok (ty, tx) ∧ findShift gradient m2 m1 = .ok (-ty + ky * m1.h, -tx + kx * m1.w) := by
  have hh : 0 < m1.h := by omega
  have hw : 0 < m1.w := by omega
  have hsw := fun i j i' j' => corrMap_swap (used gradient m1) (used gradient m2) (by rw [used_h, used_h, h1]) (by rw [used_w, used_w, h2]) i j i' j'
    (by rw [used_h]; exact hh) (by rw [used_w]; exact hw)
  rw [used_h, used_w] at hsw
  unfold findShift
  rw [if_neg (by omega), if_neg (by omega)]
  have d1 : (corrMap (used gradient m1) (used gradient m2)).h = m1.h := used_h gradient m1
  have d2 : (corrMap (used gradient m1) (used gradient m2)).w = m1.w := used_w gradient m1
  have d3 : (corrMap (used gradient m2) (used gradient m1)).h = m1.h := by rw [h1]; exact used_h gradient m2
  have d4 : (corrMap (used gradient m2) (used gradient m1)).w = m1.w := by rw [h2]; exact used_w gradient m2
  replace hpk : ∀ i < m1.h, ∀ j < m1.w, (i, j) ≠ (y, x) →
      (corrMap (used gradient m1) (used gradient m2)).get i j < (corrMap (used gradient m1) (used gradient m2)).get y x := hpk
  generalize corrMap (used gradient m1) (used gradient m2) = A at *
  generalize corrMap (used gradient m2) (used gradient m1) = B at *
  have modDvd : ∀ N t : ℕ, (N : ℤ) ∣ (t : ℤ) - ((t % N : ℕ) : ℤ) := fun N t => by
    rw [Int.natCast_mod]; exact Int.dvd_self_sub_emod
  have neg : ∀ N t : ℕ, t < N → (N : ℤ) ∣ (((N - t) % N : ℕ) : ℤ) + t := by
    intro N t ht
    obtain ⟨q, hq⟩ := modDvd N (N - t)
    rw [Nat.cast_sub ht.le] at hq
    exact ⟨1 - q, by linear_combination -hq⟩
  have fA : Correlation.FirstMax2 A y x := by
    refine ⟨by omega, by omega, fun i hi j hj => ?_, fun i hi j hj hlt => ?_⟩
    · by_cases he : (i, j) = (y, x)
      · cases he; exact le_refl _
      · exact (hpk i (by omega) j (by omega) he).le
    · exact hpk i (by omega) j (by omega) fun he => by cases he; omega
  have hBpk : ∀ i < m1.h, ∀ j < m1.w, (i, j) ≠ ((m1.h - y) % m1.h, (m1.w - x) % m1.w) → B.get i j < B.get ((m1.h - y) % m1.h) ((m1.w - x) % m1.w) := by
    intro i hi j hj hne
    rw [hsw _ _ y x (neg _ _ hy) (neg _ _ hx), hsw i j ((m1.h - i) % m1.h) ((m1.w - j) % m1.w) (by have := neg _ _ hi; rwa [add_comm] at this)
      (by have := neg _ _ hj; rwa [add_comm] at this)]
    refine hpk _ (Nat.mod_lt _ hh) _ (Nat.mod_lt _ hw) fun he => hne ?_
    have e1 := congrArg Prod.fst he
    have e2 := congrArg Prod.snd he
    dsimp only at e1 e2
    rw [← e1, ← e2]
    have inv : ∀ N t : ℕ, t < N → (N - (N - t) % N) % N = t := by
      intro N t ht
      rcases Nat.eq_zero_or_pos t with rfl | h
      · simp
      · rw [Nat.mod_eq_of_lt (show N - t < N by omega), show N - (N - t) = t by omega, Nat.mod_eq_of_lt ht]
    rw [inv _ _ hi, inv _ _ hj]
  have fB : Correlation.FirstMax2 B ((m1.h - y) % m1.h) ((m1.w - x) % m1.w) := by
    have := Nat.mod_lt (m1.h - y) hh
    have := Nat.mod_lt (m1.w - x) hw
    refine ⟨by omega, by omega, fun i hi j hj => ?_, fun i hi j hj hlt => ?_⟩
    · by_cases he : (i, j) = ((m1.h - y) % m1.h, (m1.w - x) % m1.w)
      · cases he; exact le_refl _
      · exact (hBpk i (by omega) j (by omega) he).le
    · exact hBpk i (by omega) j (by omega) fun he => by cases he; omega
  have n1 : ∀ N t : ℕ, t < N → (N : ℤ) ∣ ((((N - t) % N + N - 1) % N : ℕ) : ℤ) + ((t + 1) % N : ℕ) := by
    intro N t ht
    obtain ⟨q, hq⟩ := neg N t ht
    obtain ⟨q2, hq2⟩ := modDvd N ((N - t) % N + N - 1)
    obtain ⟨q3, hq3⟩ := modDvd N (t + 1)
    rw [Nat.cast_sub (by omega), Nat.cast_add] at hq2
    rw [Nat.cast_add] at hq3
    exact ⟨q + 1 - q2 - q3, by push_cast at hq hq2 hq3 ⊢; linear_combination hq - hq2 - hq3⟩
  have n2 : ∀ N t : ℕ, t < N → (N : ℤ) ∣ ((((N - t) % N + 1) % N : ℕ) : ℤ) + ((t + N - 1) % N : ℕ) := by
    intro N t ht
    obtain ⟨q, hq⟩ := neg N t ht
    obtain ⟨q2, hq2⟩ := modDvd N ((N - t) % N + 1)
    obtain ⟨q3, hq3⟩ := modDvd N (t + N - 1)
    rw [Nat.cast_sub (by omega), Nat.cast_add] at hq3
    rw [Nat.cast_add] at hq2
    exact ⟨q + 1 - q2 - q3, by push_cast at hq hq2 hq3 ⊢; linear_combination hq - hq2 - hq3⟩
  unfold locate
  rw [Correlation.argmax2_eq fA, Correlation.argmax2_eq fB]
  rw [d1, d2, d3, d4]
  obtain ⟨a1, b1⟩ := wrap_mod m1.h (Center.refine (y : ℝ) (A.get ((y + m1.h - 1) % m1.h) x) (A.get y x) (A.get ((y + 1) % m1.h) x))
  obtain ⟨a2, b2⟩ := wrap_mod m1.w (Center.refine (x : ℝ) (A.get y ((x + m1.w - 1) % m1.w)) (A.get y x) (A.get y ((x + 1) % m1.w)))
  obtain ⟨a3, b3⟩ := wrap_mod m1.h (Center.refine (((m1.h - y) % m1.h : ℕ) : ℝ) (A.get ((y + 1) % m1.h) x) (A.get y x) (A.get ((y + m1.h - 1) % m1.h) x))
  obtain ⟨a4, b4⟩ := wrap_mod m1.w (Center.refine (((m1.w - x) % m1.w : ℕ) : ℝ) (A.get y ((x + 1) % m1.w)) (A.get y x) (A.get y ((x + m1.w - 1) % m1.w)))
  obtain ⟨q1, e1⟩ := neg _ _ hy
  obtain ⟨q2, e2⟩ := neg _ _ hx
  have e1' : (((m1.h - y) % m1.h : ℕ) : ℝ) = m1.h * q1 - y := by
    have : ((((m1.h - y) % m1.h : ℕ) : ℤ) : ℝ) = ((m1.h * q1 - y : ℤ) : ℝ) := by congr 1; linarith
    rw [Int.cast_natCast] at this
    rw [this]
    push_cast
    ring
  have e2' : (((m1.w - x) % m1.w : ℕ) : ℝ) = m1.w * q2 - x := by
    have : ((((m1.w - x) % m1.w : ℕ) : ℤ) : ℝ) = ((m1.w * q2 - x : ℤ) : ℝ) := by congr 1; linarith
    rw [Int.cast_natCast] at this
    rw [this]
    push_cast
    ring
  refine ⟨_, _, q1 + a1 + a3, q2 + a2 + a4, rfl, ?_⟩
  show Except.ok (_, _) = Except.ok (_, _)
  rw [hsw _ _ y x (neg _ _ hy) (neg _ _ hx), hsw _ _ ((y + 1) % m1.h) x (n1 _ _ hy) (neg _ _ hx), hsw _ _ ((y + m1.h - 1) % m1.h) x (n2 _ _ hy) (neg _ _ hx),
    hsw _ _ y ((x + 1) % m1.w) (neg _ _ hy) (n1 _ _ hx), hsw _ _ y ((x + m1.w - 1) % m1.w) (neg _ _ hy) (n2 _ _ hx), b3, b4]
  dsimp only
  rw [b1, b2]
  have r1 := refine_shift (y : ℝ) (((m1.h - y) % m1.h : ℕ) : ℝ) (A.get ((y + m1.h - 1) % m1.h) x) (A.get y x) (A.get ((y + 1) % m1.h) x)
  have r2 := refine_shift (x : ℝ) (((m1.w - x) % m1.w : ℕ) : ℝ) (A.get y ((x + m1.w - 1) % m1.w)) (A.get y x) (A.get y ((x + 1) % m1.w))
  congr 2
  · push_cast
    linear_combination r1 + e1'
  · push_cast
    linear_combination r2 + e2'

/-! ### Examples -/

/-- A bright pixel (value 5) on a background of 2. -/
def dot (h w y x : ℕ) : Mat ℝ := ⟨h, w, fun i j => if i = y ∧ j = x then 5 else 2⟩

theorem dot_framed (h w y x : ℕ) (hy : 4 ≤ y ∧ y + 4 < h) (hx : 4 ≤ x ∧ x + 4 < w) : Framed 2 (dot h w y x) := by
  intro i _ j _ hc
  show (if i = y ∧ j = x then (5 : ℝ) else 2) = 2
  rw [if_neg]
  replace hc : i < 4 ∨ h ≤ i + 4 ∨ j < 4 ∨ w ≤ j + 4 := hc
  omega

theorem dot_noRepeat (h w y x : ℕ) (hy : 4 ≤ y ∧ y + 4 < h) (hx : 4 ≤ x ∧ x + 4 < w) : NoRepeat (seen true (dot h w y x)) := by
  have gX : ∀ i < h, ∀ j < w, gradX (dot h w y x) i j = if i = y ∧ j = x then -3 else if i = y ∧ j + 2 = x then 3 else 0 := by
    intro i hi j hj
    rw [gradX_framed (dot_framed h w y x hy hx) i j hi hj]
    show (if i = y ∧ (j + 2) % w = x then (5 : ℝ) else 2) - (if i = y ∧ j = x then 5 else 2) = _
    have : (j + 2) % w = x ↔ j + 2 = x := by
      rcases Nat.lt_or_ge (j + 2) w with h1 | h1
      · rw [Nat.mod_eq_of_lt h1]
      · rw [Nat.mod_eq_sub_mod h1, Nat.mod_eq_of_lt (by omega)]; omega
    simp only [this]
    by_cases a : i = y ∧ j = x
    · rw [if_pos a, if_pos a, if_neg (by omega)]; norm_num
    · rw [if_neg a, if_neg a]
      by_cases b : i = y ∧ j + 2 = x
      · rw [if_pos b, if_pos b]; norm_num
      · rw [if_neg b, if_neg b]; norm_num
  have gY : ∀ i < h, ∀ j < w, gradY (dot h w y x) i j = if i = y ∧ j = x then -3 else if i + 2 = y ∧ j = x then 3 else 0 := by
    intro i hi j hj
    rw [gradY_framed (dot_framed h w y x hy hx) i j hi hj]
    show (if (i + 2) % h = y ∧ j = x then (5 : ℝ) else 2) - (if i = y ∧ j = x then 5 else 2) = _
    have : (i + 2) % h = y ↔ i + 2 = y := by
      rcases Nat.lt_or_ge (i + 2) h with h1 | h1
      · rw [Nat.mod_eq_of_lt h1]
      · rw [Nat.mod_eq_sub_mod h1, Nat.mod_eq_of_lt (by omega)]; omega
    simp only [this]
    by_cases a : i = y ∧ j = x
    · rw [if_pos a, if_pos a, if_neg (by omega)]; norm_num
    · rw [if_neg a, if_neg a]
      by_cases b : i + 2 = y ∧ j = x
      · rw [if_pos b, if_pos b]; norm_num
      · rw [if_neg b, if_neg b]; norm_num
  have nn : ∀ i j : ℕ, ‖(seen true (dot h w y x)).get i j‖ = √(gradX (dot h w y x) i j ^ 2 + gradY (dot h w y x) i j ^ 2) := by
    intro i j
    show ‖(gradX (dot h w y x) i j : ℂ) + I * (gradY (dot h w y x) i j : ℂ)‖ = _
    rw [mul_comm, Complex.norm_add_mul_I]
  refine noRepeat_of_peak _ y x (show y < h by omega) (show x < w by omega) fun i hi j hj hne => ?_
  replace hi : i < h := hi
  replace hj : j < w := hj
  have hne' : ¬ (i = y ∧ j = x) := fun he => hne (by rw [he.1, he.2])
  rw [nn, nn, gX i hi j hj, gY i hi j hj, gX y (by omega) x (by omega), gY y (by omega) x (by omega), if_neg hne', if_neg hne', if_pos (show y = y ∧ x = x from ⟨rfl, rfl⟩), if_pos (show y = y ∧ x = x from ⟨rfl, rfl⟩)]
  apply Real.sqrt_lt_sqrt (by positivity)
  by_cases b : i = y ∧ j + 2 = x
  · rw [if_pos b, if_neg (by omega)]; norm_num
  · rw [if_neg b]
    by_cases b' : i + 2 = y ∧ j = x
    · rw [if_pos b']; norm_num
    · rw [if_neg b']; norm_num

/-- A dot moved from (5, 6) to (4, 4) in a 12 x 11 image with a darker exposure and another background. -/
example : findShift true ⟨12, 11, fun i j => -1 / 2 * (dot 12 11 4 4).get i j + 7⟩ (dot 12 11 5 6) = .ok (((-1 : ℤ) : ℝ), ((-2 : ℤ) : ℝ)) := by
  have hmv : Moved (-1 / 2) 7 (-1) (-2) ⟨12, 11, fun i j => -1 / 2 * (dot 12 11 4 4).get i j + 7⟩ (dot 12 11 5 6) := by
    refine ⟨rfl, rfl, fun i hi j hj => ?_⟩
    show -1 / 2 * (if i = 4 ∧ j = 4 then (5 : ℝ) else 2) + 7 = -1 / 2 * (if (((i : ℤ) - -1) % (12 : ℕ)).toNat = 5 ∧ (((j : ℤ) - -2) % (11 : ℕ)).toNat = 6 then (5 : ℝ) else 2) + 7
    replace hi : i < 12 := hi
    replace hj : j < 11 := hj
    have : (i = 4 ∧ j = 4) ↔ ((((i : ℤ) - -1) % (12 : ℕ)).toNat = 5 ∧ (((j : ℤ) - -2) % (11 : ℕ)).toNat = 6) := by omega
    congr 3
    exact propext this
  have hgain := find_shift_gain true (-1 / 2) 7 1 0 (by norm_num) (by norm_num) (by simp) (dot 12 11 4 4) (dot 12 11 5 6)
  have e : (dot 12 11 5 6).map (fun v => 1 * v + 0) = dot 12 11 5 6 := by
    show (⟨12, 11, fun i j => 1 * (dot 12 11 5 6).get i j + 0⟩ : Mat ℝ) = ⟨12, 11, fun i j => (dot 12 11 5 6).get i j⟩
    simp
  rw [e] at hgain
  refine hgain.trans (find_shift_exact true 1 0 (by norm_num) (-1) (-2) (-1) (-2) (dot 12 11 4 4) (dot 12 11 5 6) ?_ ?_ (by decide) (by decide)
    (dot_noRepeat 12 11 4 4 (by omega) (by omega)) ⟨by simp, by decide, by decide⟩ ⟨by simp, by decide, by decide⟩)
  · refine ⟨rfl, rfl, fun i hi j hj => ?_⟩
    have := hmv.2.2 i hi j hj
    dsimp only at this
    linarith
  · unfold Fit
    rw [if_pos rfl]
    exact ⟨2, 2, dot_framed 12 11 4 4 (by omega) (by omega), dot_framed 12 11 5 6 (by omega) (by omega)⟩

/-- Projections at 0 and 180 degrees with a dot at columns 4 and 7: the centre is at 5.5. -/
example : findCenter true true (dot 12 12 5 4) (dot 12 12 5 7) = .ok (((11 : ℤ) : ℝ) / 2) := by
  refine (find_center_exact true 1 0 (by norm_num) 0 11 (dot 12 12 5 4) (dot 12 12 5 7) ⟨rfl, rfl, fun i hi j hj => ?_⟩ ?_ (by decide) (by decide)
    (dot_noRepeat 12 12 5 4 (by omega) (by omega))).1 ⟨by decide, by decide⟩
  · show (if i = 5 ∧ j = 4 then (5 : ℝ) else 2) = 1 * (if (((i : ℤ) - 0) % (12 : ℕ)).toNat = 5 ∧ ((11 - (j : ℤ)) % (12 : ℕ)).toNat = 7 then (5 : ℝ) else 2) + 0
    replace hi : i < 12 := hi
    replace hj : j < 12 := hj
    have : (i = 5 ∧ j = 4) ↔ ((((i : ℤ) - 0) % (12 : ℕ)).toNat = 5 ∧ ((11 - (j : ℤ)) % (12 : ℕ)).toNat = 7) := by omega
    rw [one_mul, add_zero]
    congr 1
    exact propext this
  · unfold Fit
    rw [if_pos rfl]
    exact ⟨2, 2, dot_framed 12 12 5 4 (by omega) (by omega), dot_framed 12 12 5 7 (by omega) (by omega)⟩

end Verif.PhaseCorr
