import Verif.Model.Dfi
import Verif.Props.Recon2
import Verif.Props.Windows
import Mathlib.Analysis.SpecialFunctions.Complex.Arg

/-! C107 — Cartesian to polar mapping of the direct Fourier method.  C108 — its handling of user-supplied angles.
C109 — `dfi_reconstruction`. -/

set_option linter.unusedSectionVars false
set_option linter.unusedSimpArgs false

namespace Verif.Dfi
open Verif.Fourier Verif.Simulation Verif.Recon Verif.BackProj Verif.Calibration

/-! ### Specification -/

/-- The interpolation reproduces the samples at the sample positions. -/
structure Spline.Exact (I : Spline) : Prop where
  line : ∀ (n : ℕ) (g : ℕ → ℝ) (k : ℕ), k < n → I.line n g k = g k
  plane : ∀ (m : Mat ℂ) (i j : ℕ), i < m.h → j < m.w → I.plane m i j = m.get i j

/-- The interpolation is linear in the samples. -/
structure Spline.Linear (I : Spline) : Prop where
  line : ∀ (n : ℕ) (g h : ℕ → ℝ) (α β t : ℝ), I.line n (fun k => α * g k + β * h k) t = α * I.line n g t + β * I.line n h t
  plane : ∀ (m m' : Mat ℂ) (α β : ℂ) (y x : ℝ), m'.h = m.h → m'.w = m.w →
    I.plane ⟨m.h, m.w, fun i j => α * m.get i j + β * m'.get i j⟩ y x = α * I.plane m y x + β * I.plane m' y x

/-- An interpolation with both properties: the sample to the left. -/
noncomputable def leftSample : Spline := ⟨fun _ g t => g ⌊t⌋₊, fun m y x => m.get ⌊y⌋₊ ⌊x⌋₊⟩

theorem leftSample_exact : leftSample.Exact := ⟨fun n g k _ => by simp [leftSample], fun m i j _ _ => by simp [leftSample]⟩
theorem leftSample_linear : leftSample.Linear := ⟨fun _ _ _ _ _ _ => rfl, fun _ _ _ _ _ _ _ _ => rfl⟩

/-! ### C107 -/

theorem clip_bounds (v lo hi : ℝ) (h : lo ≤ hi) : lo ≤ clip v lo hi ∧ clip v lo hi ≤ hi :=
  ⟨le_min (le_max_right _ _) h, min_le_right _ _⟩

theorem clip_id (v lo hi : ℝ) (h0 : lo ≤ v) (h1 : v ≤ hi) : clip v lo hi = v := by
  unfold clip
  rw [max_eq_left h0, min_eq_left h1]

/-- C107: `generate_mapping_coordinate`.  Pixel `(i, j)` of the reconstructed plane has polar coordinates `(ρ, φ)`, `0 < φ ≤ π`, around the
centre of the plane (`x` to the right, `y` upwards); it is mapped to row `φ (hs - 1) / π`, the row of the projection at angle `φ`, and to
column `r_max + ρ`, with `ρ` limited to `[-r_max, r_max]`. The sinogram may have any
width: positions beyond its last column are read there. -/
theorem mapping_spec_all (ws hs wr hr i j : ℕ) (hi : i < hr) (hj : j < wr) :
    ∃ ρ φ : ℝ, 0 < φ ∧ φ ≤ Real.pi ∧ (j : ℝ) - ((wr : ℝ) - 1) / 2 = ρ * Real.cos φ ∧ ((hr : ℝ) - 1) / 2 - i = ρ * Real.sin φ ∧
      mapCoord ws hs wr hr i j =
        (clip (rMax wr hr + clip ρ (-rMax wr hr) (rMax wr hr)) 0 ((ws : ℝ) - 1), φ * ((hs : ℝ) - 1) / Real.pi) := by
  have hx : ((wr - 1 - j : ℕ) : ℝ) - ((wr : ℝ) - 1) * 0.5 = -((j : ℝ) - ((wr : ℝ) - 1) / 2) := by
    rw [Nat.cast_sub (by omega), Nat.cast_sub (by omega)]
    push_cast
    ring
  have hrm : 0 ≤ rMax wr hr := by
    unfold rMax
    have h1 : (1 : ℝ) ≤ wr := by exact_mod_cast (by omega : 1 ≤ wr)
    have h2 : (1 : ℝ) ≤ hr := by exact_mod_cast (by omega : 1 ≤ hr)
    have : (0 : ℤ) ≤ ⌊min (((wr : ℝ) - 1) * 0.5) (((hr : ℝ) - 1) * 0.5)⌋ :=
      Int.floor_nonneg.2 (le_min (by nlinarith) (by nlinarith))
    exact_mod_cast this
  set z : ℂ := ⟨((wr - 1 - j : ℕ) : ℝ) - ((wr : ℝ) - 1) * 0.5, (i : ℝ) - ((hr : ℝ) - 1) * 0.5⟩ with hz
  have hre : ‖z‖ * Real.cos z.arg = -((j : ℝ) - ((wr : ℝ) - 1) / 2) := by rw [Complex.norm_mul_cos_arg, ← hx]
  have him : ‖z‖ * Real.sin z.arg = (i : ℝ) - ((hr : ℝ) - 1) / 2 := by
    rw [Complex.norm_mul_sin_arg, hz]
    ring
  have hnorm : Real.sqrt ((((wr - 1 - j : ℕ) : ℝ) - ((wr : ℝ) - 1) * 0.5) ^ 2 + ((i : ℝ) - ((hr : ℝ) - 1) * 0.5) ^ 2) = ‖z‖ := by
    rw [Complex.norm_eq_sqrt_sq_add_sq]
  have hz0 := norm_nonneg z
  have hle := Complex.arg_le_pi z
  have hgt := Complex.neg_pi_lt_arg z
  have ht : theta0 wr hr i j = Real.pi + z.arg := rfl
  unfold mapCoord
  dsimp only
  rw [hnorm, ht]
  set rm := rMax wr hr with hrmd
  by_cases hc : Real.pi < Real.pi + z.arg
  · rw [if_pos hc, if_pos hc]
    refine ⟨-‖z‖, z.arg, by linarith, hle, by linarith, by linarith, ?_⟩
    rw [show Real.pi + z.arg - Real.pi = z.arg by ring]
    congr 2
    unfold clip
    rw [max_eq_left hz0]
    rw [min_eq_left (max_le (by linarith) (by linarith)), max_neg_neg]
    ring
  · rw [if_neg hc, if_neg hc]
    refine ⟨‖z‖, Real.pi + z.arg, by linarith, by linarith, ?_, ?_, ?_⟩
    · rw [add_comm, Real.cos_add_pi]
      linarith
    · rw [add_comm, Real.sin_add_pi]
      linarith
    · congr 2
      unfold clip
      rw [max_eq_left hz0, max_eq_left (by linarith)]
      ring

/-- C107: `generate_mapping_coordinate`.  Pixel `(i, j)` of the reconstructed plane has polar coordinates `(ρ, φ)`, `0 < φ ≤ π`, around the
centre of the plane (`x` to the right, `y` upwards); it is mapped to row `φ (hs - 1) / π`, the row of the projection at angle `φ`, and to
column `r_max + ρ`, with `ρ` limited to `[-r_max, r_max]`. Sinogram at least as wide as the
plane. -/
theorem mapping_spec (ws hs wr hr i j : ℕ) (hi : i < hr) (hj : j < wr) (hw : 2 * rMax wr hr ≤ (ws : ℝ) - 1) :
    ∃ ρ φ : ℝ, 0 < φ ∧ φ ≤ Real.pi ∧ (j : ℝ) - ((wr : ℝ) - 1) / 2 = ρ * Real.cos φ ∧ ((hr : ℝ) - 1) / 2 - i = ρ * Real.sin φ ∧
      mapCoord ws hs wr hr i j = (rMax wr hr + clip ρ (-rMax wr hr) (rMax wr hr), φ * ((hs : ℝ) - 1) / Real.pi) := by
  obtain ⟨ρ, φ, h0, h1, h2, h3, h4⟩ := mapping_spec_all ws hs wr hr i j hi hj
  refine ⟨ρ, φ, h0, h1, h2, h3, ?_⟩
  rw [h4]
  have hrm : 0 ≤ rMax wr hr := by
    unfold rMax
    have h1 : (1 : ℝ) ≤ wr := by exact_mod_cast (by omega : 1 ≤ wr)
    have h2 : (1 : ℝ) ≤ hr := by exact_mod_cast (by omega : 1 ≤ hr)
    have : (0 : ℤ) ≤ ⌊min (((wr : ℝ) - 1) * 0.5) (((hr : ℝ) - 1) * 0.5)⌋ :=
      Int.floor_nonneg.2 (le_min (by nlinarith) (by nlinarith))
    exact_mod_cast this
  congr 1
  have k1 : -rMax wr hr ≤ clip ρ (-rMax wr hr) (rMax wr hr) := by
    unfold clip
    exact le_min (le_max_right _ _) (by linarith)
  have k2 : clip ρ (-rMax wr hr) (rMax wr hr) ≤ rMax wr hr := min_le_right _ _
  generalize clip ρ (-rMax wr hr) (rMax wr hr) = u at *
  unfold clip
  rw [max_eq_left (by linarith), min_eq_left (by linarith)]

/-- C107: the coordinates always lie inside the sinogram. -/
theorem mapping_range (ws hs wr hr i j : ℕ) (hws : 1 ≤ ws) (hhs : 1 ≤ hs) :
    0 ≤ (mapCoord ws hs wr hr i j).1 ∧ (mapCoord ws hs wr hr i j).1 ≤ (ws : ℝ) - 1 ∧
    0 ≤ (mapCoord ws hs wr hr i j).2 ∧ (mapCoord ws hs wr hr i j).2 ≤ (hs : ℝ) - 1 := by
  have h1 : (1 : ℝ) ≤ ws := by exact_mod_cast hws
  have h2 : (1 : ℝ) ≤ hs := by exact_mod_cast hhs
  have hc := clip_bounds ((if Real.pi < theta0 wr hr i j then
    clip (Real.sqrt ((((wr - 1 - j : ℕ) : ℝ) - ((wr : ℝ) - 1) * 0.5) ^ 2 + ((i : ℝ) - ((hr : ℝ) - 1) * 0.5) ^ 2)) 0 (rMax wr hr) * (-1) else
    clip (Real.sqrt ((((wr - 1 - j : ℕ) : ℝ) - ((wr : ℝ) - 1) * 0.5) ^ 2 + ((i : ℝ) - ((hr : ℝ) - 1) * 0.5) ^ 2)) 0 (rMax wr hr)) + rMax wr hr)
    0 ((ws : ℝ) - 1) (by linarith)
  refine ⟨hc.1, hc.2, ?_⟩
  unfold mapCoord theta0
  dsimp only
  set z : ℂ := ⟨((wr - 1 - j : ℕ) : ℝ) - ((wr : ℝ) - 1) * 0.5, (i : ℝ) - ((hr : ℝ) - 1) * 0.5⟩ with hz
  have hle := Complex.arg_le_pi z
  have hgt := Complex.neg_pi_lt_arg z
  have hpi := Real.pi_pos
  have ht : ∀ t : ℝ, 0 ≤ t → t ≤ Real.pi → 0 ≤ t * ((hs : ℝ) - 1) / Real.pi ∧ t * ((hs : ℝ) - 1) / Real.pi ≤ (hs : ℝ) - 1 := by
    intro t t0 t1
    refine ⟨by apply div_nonneg (mul_nonneg t0 (by linarith)) hpi.le, ?_⟩
    rw [div_le_iff₀ hpi, mul_comm]
    exact mul_le_mul_of_nonneg_left t1 (by linarith)
  show 0 ≤ (if Real.pi < Real.pi + z.arg then Real.pi + z.arg - Real.pi else Real.pi + z.arg) * ((hs : ℝ) - 1) / Real.pi ∧
    (if Real.pi < Real.pi + z.arg then Real.pi + z.arg - Real.pi else Real.pi + z.arg) * ((hs : ℝ) - 1) / Real.pi ≤ (hs : ℝ) - 1
  split
  · exact ht _ (by linarith) (by linarith)
  · exact ht _ (by linarith) (by linarith)

theorem rMax_square (n : ℕ) (hn : n % 2 = 1) : rMax n n = ((n / 2 : ℕ) : ℝ) := by
  unfold rMax
  rw [min_self]
  have : ((n : ℝ) - 1) * 0.5 = ((n / 2 : ℕ) : ℝ) := by
    have : n = 2 * (n / 2) + 1 := by omega
    have hr : (n : ℝ) = 2 * ((n / 2 : ℕ) : ℝ) + 1 := by exact_mod_cast this
    rw [hr]
    ring
  rw [this, Int.floor_natCast, Int.cast_natCast]

/-- Hypotheses of `mapping_spec` as used by `dfi_reconstruction`: an odd width, the same for the sinogram and the image. -/
theorem mapping_hyp (n : ℕ) (hn : n % 2 = 1) : 2 * rMax n n ≤ (n : ℝ) - 1 := by
  rw [rMax_square n hn]
  have : n = 2 * (n / 2) + 1 := by omega
  have hr : (n : ℝ) = 2 * ((n / 2 : ℕ) : ℝ) + 1 := by exact_mod_cast this
  rw [hr]
  linarith

theorem central_theta (n hs j : ℕ) (hn : n % 2 = 1) : (mapCoord n hs n n (n / 2) j).2 = (hs : ℝ) - 1 := by
  have hpi := Real.pi_pos
  have hnr : (n : ℝ) = 2 * ((n / 2 : ℕ) : ℝ) + 1 := by exact_mod_cast (by omega : n = 2 * (n / 2) + 1)
  unfold mapCoord theta0
  dsimp only
  have hy0 : ((n / 2 : ℕ) : ℝ) - ((n : ℝ) - 1) * 0.5 = 0 := by rw [hnr]; ring
  rw [hy0]
  unfold arctan2
  have hcases : Complex.arg (⟨((n - 1 - j : ℕ) : ℝ) - ((n : ℝ) - 1) * 0.5, 0⟩ : ℂ) = 0 ∨
      Complex.arg (⟨((n - 1 - j : ℕ) : ℝ) - ((n : ℝ) - 1) * 0.5, 0⟩ : ℂ) = Real.pi := by
    rcases le_or_gt 0 (((n - 1 - j : ℕ) : ℝ) - ((n : ℝ) - 1) * 0.5) with h | h
    · exact .inl (Complex.arg_ofReal_of_nonneg h)
    · exact .inr (Complex.arg_ofReal_of_neg h)
  rcases hcases with h | h
  · rw [h, if_neg (by simp)]
    field_simp
    ring
  · rw [h, if_pos (by linarith)]
    field_simp
    ring

/-- C107: the row through the centre of the plane is read, mirrored, from the last row of the sinogram, at sample positions. -/
theorem mapping_central_row (n hs j : ℕ) (hn : n % 2 = 1) (hj : j < n) (hh : 1 ≤ hs) :
    mapCoord n hs n n (n / 2) j = (((n - 1 - j : ℕ) : ℝ), ((hs - 1 : ℕ) : ℝ)) := by
  have hnr : (n : ℝ) = 2 * ((n / 2 : ℕ) : ℝ) + 1 := by exact_mod_cast (by omega : n = 2 * (n / 2) + 1)
  have hpi := Real.pi_pos
  refine Prod.ext ?_ ?_
  · -- independent of `hs`
    have hind : (mapCoord n hs n n (n / 2) j).1 = (mapCoord n 2 n n (n / 2) j).1 := rfl
    rw [hind]
    obtain ⟨ρ, φ, h0, h1, hx, hy, he⟩ := mapping_spec n 2 n n (n / 2) j (by omega) hj (mapping_hyp n hn)
    have hth := central_theta n 2 j hn
    rw [he] at hth ⊢
    dsimp only at hth ⊢
    have hφ : φ = Real.pi := by
      field_simp at hth
      push_cast at hth
      linarith
    rw [hφ, Real.cos_pi] at hx
    have hjr : (j : ℝ) ≤ 2 * ((n / 2 : ℕ) : ℝ) := by exact_mod_cast (by omega : j ≤ 2 * (n / 2))
    have hj0 : (0 : ℝ) ≤ j := Nat.cast_nonneg j
    rw [rMax_square n hn, clip_id _ _ _ (by linarith) (by linarith)]
    rw [Nat.cast_sub (by omega), Nat.cast_sub (by omega)]
    push_cast
    linarith
  · rw [central_theta n hs j hn]
    dsimp only
    rw [Nat.cast_sub hh]
    push_cast
    ring

/-- C107: the column through the centre of the plane, except the centre itself, is read, upside down, from the middle of the sinogram. -/
theorem mapping_central_column (n hs i : ℕ) (hn : n % 2 = 1) (hi : i < n) (hh : hs % 2 = 1) (hne : i ≠ n / 2) :
    mapCoord n hs n n i (n / 2) = (((n - 1 - i : ℕ) : ℝ), ((hs / 2 : ℕ) : ℝ)) := by
  have hnr : (n : ℝ) = 2 * ((n / 2 : ℕ) : ℝ) + 1 := by exact_mod_cast (by omega : n = 2 * (n / 2) + 1)
  have hhr : (hs : ℝ) = 2 * ((hs / 2 : ℕ) : ℝ) + 1 := by exact_mod_cast (by omega : hs = 2 * (hs / 2) + 1)
  obtain ⟨ρ, φ, h0, h1, hx, hy, he⟩ := mapping_spec n hs n n i (n / 2) hi (by omega) (mapping_hyp n hn)
  have hpi := Real.pi_pos
  have hρ : ρ ≠ 0 := by
    rintro rfl
    apply hne
    have : (i : ℝ) = ((n / 2 : ℕ) : ℝ) := by
      rw [hnr] at hy
      linarith
    exact_mod_cast this
  have hcos : Real.cos φ = 0 := by
    have : ρ * Real.cos φ = 0 := by rw [← hx, hnr]; ring
    exact (mul_eq_zero.1 this).resolve_left hρ
  have hφ : φ = Real.pi / 2 := by
    have hinj := Real.injOn_cos (⟨h0.le, h1⟩ : φ ∈ Set.Icc 0 Real.pi) (⟨by positivity, by linarith⟩ : Real.pi / 2 ∈ Set.Icc 0 Real.pi)
    exact hinj (by rw [hcos, Real.cos_pi_div_two])
  rw [he, hφ]
  rw [hφ, Real.sin_pi_div_two] at hy
  have hir : (i : ℝ) ≤ 2 * ((n / 2 : ℕ) : ℝ) := by exact_mod_cast (by omega : i ≤ 2 * (n / 2))
  have hi0 : (0 : ℝ) ≤ i := Nat.cast_nonneg i
  rw [rMax_square n hn, clip_id _ _ _ (by linarith) (by linarith)]
  refine Prod.ext ?_ ?_
  · dsimp only
    rw [Nat.cast_sub (by omega), Nat.cast_sub (by omega)]
    push_cast
    linarith
  · dsimp only
    rw [hhr]
    field_simp
    ring

/-- Concrete instance: a plane of width 5 and a sinogram of 7 rows. -/
example : mapCoord 5 7 5 5 2 0 = (4, 6) ∧ mapCoord 5 7 5 5 0 2 = (4, 3) := by
  have h1 := mapping_central_row 5 7 0 (by norm_num) (by norm_num) (by norm_num)
  have h2 := mapping_central_column 5 7 0 (by norm_num) (by norm_num) (by norm_num) (by norm_num)
  norm_num at h1 h2
  exact ⟨h1, h2⟩

/-! ### C108 -/

/-- Projections of an object at every angle: turning by π mirrors the projection. -/
def HalfTurn (P : ℝ → ℕ → ℝ) (w : ℕ) : Prop := ∀ θ, ∀ c < w, P (θ + Real.pi) c = P θ (w - 1 - c)

theorem HalfTurn.period {P : ℝ → ℕ → ℝ} {w : ℕ} (h : HalfTurn P w) (θ : ℝ) (c : ℕ) (hc : c < w) (k : ℤ) :
    P (θ + k * (2 * Real.pi)) c = P θ c := by
  have h2 : ∀ θ, P (θ + 2 * Real.pi) c = P θ c := by
    intro θ
    rw [show θ + 2 * Real.pi = (θ + Real.pi) + Real.pi by ring, h _ c hc, h _ _ (by omega)]
    congr 1
    omega
  induction k using Int.induction_on with
  | zero => simp
  | succ n ih =>
    rw [show θ + ((n : ℤ) + 1 : ℤ) * (2 * Real.pi) = (θ + (n : ℤ) * (2 * Real.pi)) + 2 * Real.pi by push_cast; ring, h2, ih]
  | pred n ih =>
    rw [← h2, show θ + (-(n : ℤ) - 1 : ℤ) * (2 * Real.pi) + 2 * Real.pi = θ + (-(n : ℤ) : ℤ) * (2 * Real.pi) by push_cast; ring, ih]

theorem diff_map (f : ℕ → ℝ) (n : ℕ) : diff ((List.range n).map f) = (List.range (n - 1)).map fun k => f (k + 1) - f k := by
  unfold diff
  apply List.ext_getElem
  · simp
  · intro i h1 h2
    simp [add_comm 1 i]

theorem wrapPos_int (len : ℕ) (hl : 2 ≤ len) (t : ℤ) :
    ∃ k : ℕ, k < len ∧ wrapPos len t = k ∧ ∃ z : ℤ, (k : ℤ) = t + z * ((len : ℤ) - 1) := by
  have hlr : (2 : ℝ) ≤ len := by exact_mod_cast hl
  have hsz : (0 : ℝ) < (len : ℝ) - 1 := by linarith
  unfold wrapPos
  dsimp only
  by_cases h0 : (t : ℝ) < 0
  · rw [if_pos h0]
    set z : ℤ := ⌊-(t : ℝ) / ((len : ℝ) - 1)⌋ + 1 with hz
    have h1 := Int.floor_le (-(t : ℝ) / ((len : ℝ) - 1))
    have h2 := Int.lt_floor_add_one (-(t : ℝ) / ((len : ℝ) - 1))
    have hzr : (z : ℝ) = (⌊-(t : ℝ) / ((len : ℝ) - 1)⌋ : ℝ) + 1 := by rw [hz]; push_cast; ring
    rw [← hzr] at h2
    rw [le_div_iff₀ hsz] at h1
    rw [div_lt_iff₀ hsz] at h2
    have ha : (0 : ℝ) < (t : ℝ) + z * ((len : ℝ) - 1) := by linarith
    have hb : (t : ℝ) + z * ((len : ℝ) - 1) ≤ (len : ℝ) - 1 := by rw [hzr]; nlinarith
    have ha' : 0 < t + z * ((len : ℤ) - 1) := by exact_mod_cast ha
    have hb' : t + z * ((len : ℤ) - 1) ≤ (len : ℤ) - 1 := by exact_mod_cast hb
    refine ⟨(t + z * ((len : ℤ) - 1)).toNat, by omega, ?_, z, Int.toNat_of_nonneg ha'.le⟩
    have : (((t + z * ((len : ℤ) - 1)).toNat : ℤ) : ℝ) = ((t + z * ((len : ℤ) - 1) : ℤ) : ℝ) := by rw [Int.toNat_of_nonneg ha'.le]
    rw [show (((t + z * ((len : ℤ) - 1)).toNat : ℕ) : ℝ) = (((t + z * ((len : ℤ) - 1)).toNat : ℤ) : ℝ) by push_cast; rfl, this]
    push_cast
    rw [hzr]
    ring
  · rw [if_neg h0]
    have h0 := not_lt.1 h0
    have h0' : 0 ≤ t := by exact_mod_cast h0
    by_cases h1 : (len : ℝ) - 1 < t
    · rw [if_pos h1]
      set z : ℤ := ⌊(t : ℝ) / ((len : ℝ) - 1)⌋ with hz
      have h1 := Int.floor_le ((t : ℝ) / ((len : ℝ) - 1))
      have h2 := Int.lt_floor_add_one ((t : ℝ) / ((len : ℝ) - 1))
      rw [← hz] at h1 h2
      rw [le_div_iff₀ hsz] at h1
      rw [div_lt_iff₀ hsz] at h2
      have ha : (0 : ℝ) ≤ (t : ℝ) - z * ((len : ℝ) - 1) := by linarith
      have hb : (t : ℝ) - z * ((len : ℝ) - 1) < (len : ℝ) - 1 := by nlinarith
      have ha' : 0 ≤ t - z * ((len : ℤ) - 1) := by exact_mod_cast ha
      have hb' : t - z * ((len : ℤ) - 1) < (len : ℤ) - 1 := by exact_mod_cast hb
      refine ⟨(t - z * ((len : ℤ) - 1)).toNat, by omega, ?_, -z, by rw [Int.toNat_of_nonneg ha']; ring⟩
      have : (((t - z * ((len : ℤ) - 1)).toNat : ℤ) : ℝ) = ((t - z * ((len : ℤ) - 1) : ℤ) : ℝ) := by rw [Int.toNat_of_nonneg ha']
      rw [show (((t - z * ((len : ℤ) - 1)).toNat : ℕ) : ℝ) = (((t - z * ((len : ℤ) - 1)).toNat : ℤ) : ℝ) by push_cast; rfl, this]
      push_cast
      ring
    · rw [if_neg h1]
      have h1' : t ≤ (len : ℤ) - 1 := by exact_mod_cast not_lt.1 h1
      refine ⟨t.toNat, by omega, ?_, 0, by rw [Int.toNat_of_nonneg h0']; ring⟩
      have : ((t.toNat : ℤ) : ℝ) = (t : ℝ) := by rw [Int.toNat_of_nonneg h0']
      rw [← this]
      push_cast
      rfl

/-- The measurement: `h` equidistant angles from `a0` on in steps of `σ * step`, `σ = ±1`. -/
noncomputable def anglesOf (a0 step σ : ℝ) (h : ℕ) : List ℝ := (List.range h).map fun (k : ℕ) => a0 + σ * (k * step)

/-- Both directions at once. -/
theorem handle_angles_core (I : Spline) (hI : I.Exact) (m : Mat ℝ) (a0 step σ : ℝ) (hσ : σ = 1 ∨ σ = -1) (hstep : 0 < step) (hh : 2 ≤ m.h)
    (hcov : ((m.h : ℝ) - 1) * step = Real.pi ∨ (m.h % 2 = 1 ∧ ((m.h : ℝ) - 1) * step = 2 * Real.pi)) (q : ℤ) (ha0 : a0 = q * step)
    (P : ℝ → ℕ → ℝ) (hP : HalfTurn P m.w) (hm : ∀ k < m.h, ∀ c < m.w, m.get k c = P (a0 + σ * (k * step)) c) :
    ∃ out, handleAngles I m (anglesOf a0 step σ m.h) = .ok out ∧ ((out.h : ℝ) - 1) * step = Real.pi ∧ out.w = m.w ∧
      ∀ i < out.h, ∀ c < m.w, out.get i c = if σ = 1 then P (i * step) c else P (i * step + 2 * a0) c := by
  classical
  have hpi := Real.pi_pos
  have hσ1 : |σ| = 1 := by rcases hσ with rfl | rfl <;> norm_num
  have hlen : (anglesOf a0 step σ m.h).length = m.h := by simp [anglesOf]
  have hm1 : ((m.h - 1 : ℕ) : ℝ) = (m.h : ℝ) - 1 := by rw [Nat.cast_sub (by omega)]; norm_num
  have hm0 : (m.h : ℝ) - 1 ≠ 0 := by
    have : (2 : ℝ) ≤ m.h := by exact_mod_cast hh
    linarith
  have hT : ((diff ((anglesOf a0 step σ m.h).map fun a => a * 180 / Real.pi)).map fun d => |d|).sum = ((m.h : ℝ) - 1) * step * 180 / Real.pi := by
    unfold anglesOf
    rw [List.map_map, diff_map, List.map_map]
    have : ∀ k : ℕ, ((fun d : ℝ => |d|) ∘ fun k : ℕ => ((fun a : ℝ => a * 180 / Real.pi) ∘ fun (k : ℕ) => a0 + σ * (k * step)) (k + 1) -
        ((fun a : ℝ => a * 180 / Real.pi) ∘ fun (k : ℕ) => a0 + σ * (k * step)) k) k = step * 180 / Real.pi := by
      intro k
      simp only [Function.comp]
      rw [show (a0 + σ * (((k + 1 : ℕ) : ℝ) * step)) * 180 / Real.pi - (a0 + σ * ((k : ℝ) * step)) * 180 / Real.pi = σ * (step * 180 / Real.pi) by
        push_cast; ring, abs_mul, hσ1, one_mul, abs_of_pos (by positivity)]
    rw [List.map_congr_left fun k _ => this k]
    simp only [List.map_const', List.length_range, List.sum_replicate, nsmul_eq_mul]
    rw [hm1]
    ring
  have hS : ((diff (anglesOf a0 step σ m.h)).map fun d => |d|).sum / ((diff (anglesOf a0 step σ m.h)).length : ℝ) = step := by
    unfold anglesOf
    rw [diff_map, List.map_map]
    have : ∀ k : ℕ, ((fun d : ℝ => |d|) ∘ fun k : ℕ => (a0 + σ * (((k + 1 : ℕ) : ℝ) * step)) - (a0 + σ * ((k : ℝ) * step))) k = step := by
      intro k
      simp only [Function.comp]
      rw [show (a0 + σ * (((k + 1 : ℕ) : ℝ) * step)) - (a0 + σ * ((k : ℝ) * step)) = σ * step by
        push_cast; ring, abs_mul, hσ1, one_mul, abs_of_pos hstep]
    rw [List.map_congr_left fun k _ => this k]
    simp only [List.map_const', List.length_range, List.sum_replicate, nsmul_eq_mul, List.length_map]
    rw [hm1]
    field_simp
  have hA0 : (anglesOf a0 step σ m.h).getD 0 0 = a0 := by
    rw [List.getD_eq_getElem _ _ (by rw [hlen]; omega)]
    simp [anglesOf]
  have hA1 : (anglesOf a0 step σ m.h).getD (m.h - 1) 0 = a0 + σ * (((m.h : ℝ) - 1) * step) := by
    rw [List.getD_eq_getElem _ _ (by rw [hlen]; omega)]
    simp [anglesOf, hm1]
  unfold handleAngles
  rw [if_neg (by rw [hlen]; exact not_not.2 rfl)]
  dsimp only
  rw [hT, hS, hA0, hA1]
  -- number of rows after folding, and the folded sinogram
  set fold : Prop := |((m.h : ℝ) - 1) * step * 180 / Real.pi - 360| < 10 with hfold
  set nrow := if fold then m.h / 2 + 1 else m.h with hnrow
  set s : ℕ → ℕ → ℝ := fun i c => if fold then (m.get i c + m.get (m.h - nrow + i) (m.w - 1 - c)) / 2 else m.get i c with hs
  have hn : ((nrow : ℝ) - 1) * step = Real.pi ∧ 2 ≤ nrow ∧ ∀ i < nrow, ∀ c < m.w, s i c = P (a0 + σ * (i * step)) c := by
    rcases hcov with hc | ⟨hodd, hc⟩
    · have hf : ¬ fold := by
        rw [hfold, hc, show Real.pi * 180 / Real.pi = 180 by field_simp]
        norm_num
      have hnr : nrow = m.h := if_neg hf
      rw [hnr]
      refine ⟨hc, hh, fun i hi c hcw => ?_⟩
      rw [hs]
      dsimp only
      rw [if_neg hf, hm i hi c hcw]
    · have hf : fold := by
        rw [hfold, hc, show 2 * Real.pi * 180 / Real.pi = 360 by field_simp; norm_num]
        norm_num
      have hnr : nrow = m.h / 2 + 1 := if_pos hf
      rw [hnr]
      have hmr : (m.h : ℝ) = 2 * ((m.h / 2 : ℕ) : ℝ) + 1 := by exact_mod_cast (by omega : m.h = 2 * (m.h / 2) + 1)
      have hhalf : ((m.h / 2 : ℕ) : ℝ) * step = Real.pi := by rw [hmr] at hc; linarith
      refine ⟨by push_cast; linarith, by omega, fun i hi c hcw => ?_⟩
      rw [hs]
      dsimp only
      rw [if_pos hf, hnr, hm i (by omega) c hcw, hm _ (by omega) _ (by omega)]
      have hi2 : ((m.h - (m.h / 2 + 1) + i : ℕ) : ℝ) * step = Real.pi + i * step := by
        rw [show m.h - (m.h / 2 + 1) + i = m.h / 2 + i by omega]
        push_cast
        rw [add_mul, hhalf]
      have : P (a0 + σ * (((m.h - (m.h / 2 + 1) + i : ℕ) : ℝ) * step)) (m.w - 1 - c) = P (a0 + σ * (i * step)) c := by
        rw [hi2, ← hP _ c hcw]
        rcases hσ with rfl | rfl
        · rw [show a0 + 1 * (Real.pi + i * step) + Real.pi = (a0 + 1 * (i * step)) + (1 : ℤ) * (2 * Real.pi) by push_cast; ring, hP.period _ c hcw]
        · congr 1
          ring
      rw [this]
      ring
  obtain ⟨hnpi, hn2, hsP⟩ := hn
  have hn1 : ((nrow - 1 : ℕ) : ℝ) = (nrow : ℝ) - 1 := by rw [Nat.cast_sub (by omega)]; norm_num
  set len := nrow - 1 + nrow with hlend
  set s360 : ℕ → ℕ → ℝ := fun k c => if k < nrow - 1 then s k c else s (k - (nrow - 1)) (m.w - 1 - c) with hs360
  have h360 : ∀ k < len, ∀ c < m.w, s360 k c = P (a0 + σ * (k * step)) c := by
    intro k hk c hc
    rw [hs360]
    dsimp only
    by_cases h : k < nrow - 1
    · rw [if_pos h]
      exact hsP k (by omega) c hc
    · rw [if_neg h, hsP _ (by omega) _ (by omega), ← hP _ c hc, Nat.cast_sub (by omega), hn1]
      rw [show a0 + σ * (((k : ℝ) - ((nrow : ℝ) - 1)) * step) + Real.pi = a0 + σ * (k * step) - σ * (((nrow : ℝ) - 1) * step) + Real.pi by ring, hnpi]
      rcases hσ with rfl | rfl
      · congr 1
        ring
      · rw [show a0 + -1 * ((k : ℝ) * step) - -1 * Real.pi + Real.pi = (a0 + -1 * (k * step)) + (1 : ℤ) * (2 * Real.pi) by push_cast; ring,
          hP.period _ c hc]
  set zb : ℤ := ⌊a0 / (2 * Real.pi)⌋ with hzb
  have hlenr : (len : ℝ) - 1 = 2 * ((nrow : ℝ) - 1) := by
    rw [hlend]
    push_cast
    rw [hn1]
    ring
  have hb : (a0 - (zb : ℝ) * (2 * Real.pi)) / step = ((q - zb * ((len : ℤ) - 1) : ℤ) : ℝ) := by
    push_cast
    rw [hlenr, ← hnpi, ha0]
    field_simp
  have hshift : ∀ i : ℕ, ∀ c < m.w, I.line len (fun k => s360 k c) (wrapPos len ((i : ℝ) - (a0 - (zb : ℝ) * (2 * Real.pi)) / step)) =
      P (a0 + σ * (i * step) - σ * a0) c := by
    intro i c hc
    rw [hb, show (i : ℝ) - ((q - zb * ((len : ℤ) - 1) : ℤ) : ℝ) = (((i : ℤ) - (q - zb * ((len : ℤ) - 1)) : ℤ) : ℝ) by push_cast; ring]
    obtain ⟨k, hk, hw, z, hz⟩ := wrapPos_int len (by omega) ((i : ℤ) - (q - zb * ((len : ℤ) - 1)))
    rw [hw, hI.line len _ k hk, h360 k hk c hc]
    have hkr : (k : ℝ) = (i : ℝ) - q + (zb + z) * ((len : ℝ) - 1) := by
      have : (k : ℤ) = (i : ℤ) - q + (zb + z) * ((len : ℤ) - 1) := by rw [hz]; ring
      exact_mod_cast this
    rw [hkr, hlenr]
    rcases hσ with rfl | rfl
    · rw [show a0 + 1 * (((i : ℝ) - q + ((zb : ℝ) + z) * (2 * ((nrow : ℝ) - 1))) * step) =
        (a0 + 1 * (i * step) - 1 * a0) + ((zb + z : ℤ) : ℝ) * (2 * Real.pi) by rw [← hnpi, ha0]; push_cast; ring, hP.period _ c hc]
    · rw [show a0 + -1 * (((i : ℝ) - q + ((zb : ℝ) + z) * (2 * ((nrow : ℝ) - 1))) * step) =
        (a0 + -1 * (i * step) - -1 * a0) + ((-(zb + z) : ℤ) : ℝ) * (2 * Real.pi) by rw [← hnpi, ha0]; push_cast; ring, hP.period _ c hc]
  have hpos : 0 < ((m.h : ℝ) - 1) * step := by rcases hcov with h | ⟨_, h⟩ <;> rw [h] <;> positivity
  rcases hσ with rfl | rfl
  · rw [if_neg (by linarith)]
    refine ⟨_, rfl, hnpi, rfl, fun i hi c hc => ?_⟩
    rw [if_pos rfl]
    refine (hshift i c hc).trans ?_
    congr 1
    ring
  · rw [if_pos (by linarith)]
    refine ⟨_, rfl, hnpi, rfl, fun i hi c hc => ?_⟩
    rw [if_neg (by norm_num)]
    have hi : i < nrow := hi
    refine (hshift (nrow - 1 - i) (m.w - 1 - c) (by omega)).trans ?_
    rw [← hP _ c hc, Nat.cast_sub (by omega), hn1]
    congr 1
    rw [show a0 + -1 * (((nrow : ℝ) - 1 - i) * step) - -1 * a0 + Real.pi = 2 * a0 + i * step - ((nrow : ℝ) - 1) * step + Real.pi by ring, hnpi]
    ring

/-- C108: angles in ascending order, from any start, over 180 degrees, or over 360 degrees in an even number of steps: row `i` of the sinogram that is
reconstructed is the projection at the angle `i * step`, for `i * step` from 0 to π; so the object appears in its true orientation.  The
start angle is a multiple of the step (otherwise the rows are interpolated). -/
theorem dfi_angles_ascending (I : Spline) (hI : I.Exact) (m : Mat ℝ) (a0 step : ℝ) (hstep : 0 < step) (hh : 2 ≤ m.h)
    (hcov : ((m.h : ℝ) - 1) * step = Real.pi ∨ (m.h % 2 = 1 ∧ ((m.h : ℝ) - 1) * step = 2 * Real.pi)) (q : ℤ) (ha0 : a0 = q * step)
    (P : ℝ → ℕ → ℝ) (hP : HalfTurn P m.w) (hm : ∀ k < m.h, ∀ c < m.w, m.get k c = P (a0 + k * step) c) :
    ∃ out, handleAngles I m ((List.range m.h).map fun (k : ℕ) => a0 + k * step) = .ok out ∧ ((out.h : ℝ) - 1) * step = Real.pi ∧ out.w = m.w ∧
      ∀ i < out.h, ∀ c < m.w, out.get i c = P (i * step) c := by
  obtain ⟨out, h1, h2, h3, h4⟩ := handle_angles_core I hI m a0 step 1 (.inl rfl) hstep hh hcov q ha0 P hP (by simpa using hm)
  refine ⟨out, ?_, h2, h3, fun i hi c hc => by rw [h4 i hi c hc, if_pos rfl]⟩
  rw [← h1]
  simp [anglesOf]

/-- C108: angles in descending order: row `i` is the projection at the angle `i * step + 2 * a0`; the object is turned by twice the start
angle. -/
theorem dfi_angles_descending (I : Spline) (hI : I.Exact) (m : Mat ℝ) (a0 step : ℝ) (hstep : 0 < step) (hh : 2 ≤ m.h)
    (hcov : ((m.h : ℝ) - 1) * step = Real.pi ∨ (m.h % 2 = 1 ∧ ((m.h : ℝ) - 1) * step = 2 * Real.pi)) (q : ℤ) (ha0 : a0 = q * step)
    (P : ℝ → ℕ → ℝ) (hP : HalfTurn P m.w) (hm : ∀ k < m.h, ∀ c < m.w, m.get k c = P (a0 - k * step) c) :
    ∃ out, handleAngles I m ((List.range m.h).map fun (k : ℕ) => a0 - k * step) = .ok out ∧ ((out.h : ℝ) - 1) * step = Real.pi ∧ out.w = m.w ∧
      ∀ i < out.h, ∀ c < m.w, out.get i c = P (i * step + 2 * a0) c := by
  obtain ⟨out, h1, h2, h3, h4⟩ := handle_angles_core I hI m a0 step (-1) (.inr rfl) hstep hh hcov q ha0 P hP fun k hk c hc => by
    rw [hm k hk c hc]
    congr 1
    ring
  refine ⟨out, ?_, h2, h3, fun i hi c hc => by rw [h4 i hi c hc, if_neg (by norm_num)]⟩
  rw [← h1]
  unfold anglesOf
  congr 2
  funext k
  ring

/-- C108: hence descending angles are handled correctly when the scan starts at a multiple of π. -/
theorem dfi_angles_descending_partial (I : Spline) (hI : I.Exact) (m : Mat ℝ) (step : ℝ) (z : ℤ) (hstep : 0 < step) (hh : 2 ≤ m.h)
    (hcov : ((m.h : ℝ) - 1) * step = Real.pi) (P : ℝ → ℕ → ℝ) (hP : HalfTurn P m.w)
    (hm : ∀ k < m.h, ∀ c < m.w, m.get k c = P (z * Real.pi - k * step) c) :
    ∃ out, handleAngles I m ((List.range m.h).map fun (k : ℕ) => z * Real.pi - k * step) = .ok out ∧ out.w = m.w ∧
      ∀ i < out.h, ∀ c < m.w, out.get i c = P (i * step) c := by
  obtain ⟨out, h1, h2, h3, h4⟩ := dfi_angles_descending I hI m (z * Real.pi) step hstep hh (.inl hcov) (z * ((m.h : ℤ) - 1))
    (by push_cast; rw [← hcov]; ring) P hP hm
  refine ⟨out, h1, h3, fun i hi c hc => ?_⟩
  rw [h4 i hi c hc, show (i : ℝ) * step + 2 * (z * Real.pi) = i * step + z * (2 * Real.pi) by ring, hP.period _ c hc]

/-- A point object at distance 1 from the axis (first moment of its projections), seen by two columns. -/
noncomputable def exP (θ : ℝ) (c : ℕ) : ℝ := if c = 0 then -Real.cos θ else Real.cos θ

theorem exP_halfTurn : HalfTurn exP 2 := by
  intro θ c hc
  unfold exP
  rw [Real.cos_add_pi]
  interval_cases c <;> simp

/-- C108, refuted in general: a scan from π/2 down to -π/2 of a consistent object; the first row that is reconstructed is not the projection at angle
zero (it is the one at π: the object comes out turned upside down). -/
theorem dfi_angles_descending_refuted : ∃ (m out : Mat ℝ) (l : List ℝ), HalfTurn exP m.w ∧ l.length = m.h ∧
    (∀ k < m.h, ∀ c < m.w, m.get k c = exP (l.getD k 0) c) ∧ handleAngles leftSample m l = .ok out ∧ out.get 0 0 ≠ exP 0 0 ∧
    ∀ c < m.w, out.get 0 c = exP Real.pi c := by
  have hpi := Real.pi_pos
  have hm : ∀ k < 3, ∀ c < 2, (⟨3, 2, fun k c => exP (Real.pi / 2 - k * (Real.pi / 2)) c⟩ : Mat ℝ).get k c = exP (Real.pi / 2 - k * (Real.pi / 2)) c :=
    fun _ _ _ _ => rfl
  obtain ⟨out, h1, h2, h3, h4⟩ := dfi_angles_descending leftSample leftSample_exact
    ⟨3, 2, fun k c => exP (Real.pi / 2 - k * (Real.pi / 2)) c⟩ (Real.pi / 2) (Real.pi / 2) (by positivity) (by norm_num)
    (.inl (by push_cast; ring)) 1 (by push_cast; ring) exP exP_halfTurn hm
  have hh : 0 < out.h := by
    rcases Nat.eq_zero_or_pos out.h with h | h
    · rw [h] at h2
      push_cast at h2
      linarith
    · exact h
  refine ⟨_, out, _, exP_halfTurn, by simp, fun k hk c hc => ?_, h1, ?_, fun c hc => ?_⟩
  · rw [List.getD_eq_getElem _ _ (by simpa using hk)]
    simp
  · rw [h4 0 hh 0 (by norm_num)]
    unfold exP
    rw [show ((0 : ℕ) : ℝ) * (Real.pi / 2) + 2 * (Real.pi / 2) = Real.pi by push_cast; ring]
    norm_num
  · rw [h4 0 hh c hc]
    congr 1
    push_cast
    ring

end Verif.Dfi
