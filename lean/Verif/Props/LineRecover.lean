import Verif.Props.GpuShifts2
import Verif.Props.ShiftFind

/-!
C72 in one direction: `find_local_shifts(dim=1)` recovers the translation of every line, along x and along y.
-/

set_option linter.unusedSectionVars false
set_option linter.unusedSimpArgs false

namespace Verif.GpuShifts
open Finset Verif.Correlation Verif.LocalShifts

/-! ### Specification: `d` lines of a reference `r` and of a sample `s` -/

/-- In the window of half size `radi` around position `j`, every line of the sample is the line of the reference translated by `dx`, up to one common
brightness and contrast. -/
def LineCopy (d : ℕ) (r s : ℕ → ℕ → ℝ) (j radi : ℕ) (dx : ℤ) (a b : ℝ) : Prop :=
  ∀ n < d, ∀ q : ℕ, j ≤ q + radi → q ≤ j + radi → s n q = a * r n (q + dx).toNat + b

/-- `dx` is the translation of that window, the only one within the margin, and the sample is not constant in the window. -/
def LineShift (d : ℕ) (r s : ℕ → ℕ → ℝ) (j radi margin : ℕ) (dx : ℤ) : Prop :=
  (∃ a b : ℝ, 0 < a ∧ LineCopy d r s j radi dx a b) ∧
  (∃ n < d, ∃ n' < d, ∃ q q' : ℕ, (j ≤ q + radi ∧ q ≤ j + radi) ∧ (j ≤ q' + radi ∧ q' ≤ j + radi) ∧ s n q ≠ s n' q') ∧
  ∀ ex : ℤ, |ex| ≤ margin → (∃ a b : ℝ, 0 < a ∧ LineCopy d r s j radi ex a b) → ex = dx

/-! ### One position -/

theorem lineCopy_translated {d radi margin j : ℕ} {r s : ℕ → ℕ → ℝ} (hj : margin + radi ≤ j) (ex : ℤ) (hx : |ex| ≤ margin) (a b : ℝ) :
    LineCopy d r s j radi ex a b ↔
      Translated ⟨1, d, 2 * (radi + margin) + 1, fun _ k q => r k (j - (margin + radi) + q)⟩
        ⟨1, d, 2 * (radi + margin) + 1, fun _ k q => s k (j - (margin + radi) + q)⟩ 0 margin 0 ex a b := by
  rw [abs_le] at hx
  constructor
  · intro h i _ n q _ hn hq hq'
    change q + margin < 2 * (radi + margin) + 1 at hq'
    show s n (j - (margin + radi) + q) = a * r ((n : ℤ) + 0).toNat (j - (margin + radi) + ((q : ℤ) + ex).toNat) + b
    rw [h n hn _ (by omega) (by omega)]
    congr 3 <;> omega
  · intro h n hn q h1 h2
    have := h 0 Nat.zero_lt_one n (q + (margin + radi) - j) (Nat.zero_le _) hn (by omega)
      (by show q + (margin + radi) - j + margin < 2 * (radi + margin) + 1; omega)
    change s n (j - (margin + radi) + (q + (margin + radi) - j))
      = a * r ((n : ℤ) + 0).toNat (j - (margin + radi) + (((q + (margin + radi) - j : ℕ) : ℤ) + ex).toNat) + b at this
    rw [show j - (margin + radi) + (q + (margin + radi) - j) = q by omega] at this
    rw [this]
    congr 3 <;> omega

/-- **C72.** One position of the one-direction search. -/
theorem pixCol_recovers {d radi margin j : ℕ} {r s : ℕ → ℕ → ℝ} {dx : ℤ} (hm : 1 ≤ margin) (hj : margin + radi ≤ j) (hx : |dx| ≤ margin)
    (h : LineShift d r s j radi margin dx) (method : Method ℝ) (size : Int) :
    ∃ v, pixCol d radi margin method size (fun q => (fun k => r k (j - (margin + radi) + q), fun k => s k (j - (margin + radi) + q))) = .ok v ∧
      |v| ≤ margin ∧ (method = .diff → |v - dx| ≤ 1 / 2) := by
  obtain ⟨⟨a, b, ha, hc⟩, ⟨n, hn, n', hn', q, q', hq, hq', hne⟩, hu⟩ := h
  set R : Arr3 ℝ := ⟨1, d, 2 * (radi + margin) + 1, fun _ k q => r k (j - (margin + radi) + q)⟩ with hR
  set S : Arr3 ℝ := ⟨1, d, 2 * (radi + margin) + 1, fun _ k q => s k (j - (margin + radi) + q)⟩ with hS
  have hx' := abs_le.1 hx
  obtain ⟨M, hM, eh, ew, hp⟩ := map_peak (ref := R) (mat := S) (my := 0) (mx := margin) (dy := 0) (dx := dx) rfl rfl rfl
    (by show 2 * 0 < d; omega) (by show 2 * margin < 2 * (radi + margin) + 1; omega) (by simp) hx ha
    ((lineCopy_translated hj dx hx a b).1 hc)
    ⟨0, Nat.zero_lt_one, 0, Nat.zero_lt_one, n, q + (margin + radi) - j, n', q' + (margin + radi) - j,
      ⟨Nat.zero_le _, hn, by omega, by show q + (margin + radi) - j + margin < 2 * (radi + margin) + 1; omega⟩,
      ⟨Nat.zero_le _, hn', by omega, by show q' + (margin + radi) - j + margin < 2 * (radi + margin) + 1; omega⟩,
      by
        show s n (j - (margin + radi) + (q + (margin + radi) - j)) ≠ s n' (j - (margin + radi) + (q' + (margin + radi) - j))
        rwa [show j - (margin + radi) + (q + (margin + radi) - j) = q by omega,
          show j - (margin + radi) + (q' + (margin + radi) - j) = q' by omega]⟩
    (by
      rintro ey ex hy hx2 ⟨a', b', ha', ht⟩
      have hy0 : ey = 0 := by rw [abs_le] at hy; omega
      subst hy0
      exact ⟨rfl, hu ex hx2 ⟨a', b', ha', (lineCopy_translated hj ex hx2 a' b').2 ht⟩⟩)
  have hin : inner S 0 margin = ⟨1, d, 2 * radi + 1, fun _ k q => s k (j - (margin + radi) + (margin + q))⟩ := by
    unfold inner
    congr 1
    · show 2 * (radi + margin) + 1 - 2 * margin = 2 * radi + 1; omega
    · funext i k q
      show s (0 + k) _ = _
      rw [Nat.zero_add]
  rw [hin] at hM
  have hcm := cellMap_eq (ref := R) (mat := ⟨1, d, 2 * radi + 1, fun _ k q => s k (j - (margin + radi) + (margin + q))⟩)
    (Nat.le_refl _) (by show 2 * radi + 1 ≤ 2 * (radi + margin) + 1; omega) rfl
  rw [hM] at hcm
  have hcm := Except.ok.inj hcm
  obtain ⟨t, ht, hok⟩ := locatePeak_of_argmax (mat := M) (maxPeak := true) (by unfold flipPeak; simp) hp true method 1 size
  refine ⟨t.1 - margin, ?_, ?_, ?_⟩
  · unfold pixCol
    rw [findShift_line (ref := R) (t := ⟨1, d, 2 * radi + 1, fun _ k q => s k (j - (margin + radi) + (margin + q))⟩) hm rfl rfl
      (by show 2 * (radi + margin) + 1 = 2 * radi + 1 + 2 * margin; omega), ← hcm, ht]
    rfl
  · have b0 := hok.1
    have b1 := hok.2.1
    rw [ew] at b1
    push_cast at b1
    rw [abs_le]
    constructor <;> linarith
  · intro hd
    obtain ⟨h1, -⟩ := hok.2.2.2.2.2.2 hd rfl
    rw [← Int.cast_natCast (R := ℝ), Int.toNat_of_nonneg (by omega)] at h1
    push_cast at h1
    rwa [sub_sub]

/-! ### The search along x -/

/-- The lines the search along x compares: row `i` of the two stacks, normalised (every image's row divided by its sum and every column by its sum
over the images, then standardised) when `norm` is set. -/
noncomputable def usedRef (ref mat : Arr3 ℝ) (norm : Bool) (i : ℕ) : ℕ → ℕ → ℝ := fun k j => (colNorm ref.d norm ref.w (linesOf ref mat i) j).1 k
noncomputable def usedMat (ref mat : Arr3 ℝ) (norm : Bool) (i : ℕ) : ℕ → ℕ → ℝ := fun k j => (colNorm ref.d norm ref.w (linesOf ref mat i) j).2 k

theorem used_raw (ref mat : Arr3 ℝ) (i k j : ℕ) : usedRef ref mat false i k j = ref.get k i j ∧ usedMat ref mat false i k j = mat.get k i j := ⟨rfl, rfl⟩

/-- **C72.** Along x, for every chunk size and both settings of `norm`: at every position whose window of (normalised) lines is translated by some
integer `dx` within the margin, and by no other, the result is within half a pixel of `dx` (method "diff"), and within the margin (any method). -/
theorem shifts_x_recovers {ref mat : Arr3 ℝ} {radi margin : ℕ} {chunkSize : Option ℤ} {norm : Bool} {method : Method ℝ} {size : Int}
    (hs : mat.d = ref.d ∧ mat.h = ref.h ∧ mat.w = ref.w) (hh : 0 < ref.h) (hw : 2 * (margin + radi) + 1 ≤ ref.w) (hm : 1 ≤ margin) :
    ∃ out, shiftsX ref mat radi margin chunkSize norm method size = .ok out ∧
      ∀ (i j : ℕ) (dx : ℤ), i < ref.h → margin + radi ≤ j → j + (margin + radi) < ref.w → |dx| ≤ margin →
        LineShift ref.d (usedRef ref mat norm i) (usedMat ref mat norm i) j radi margin dx →
        ∃ v, out i j = .ok v ∧ |v| ≤ margin ∧ (method = .diff → |v - dx| ≤ 1 / 2) := by
  obtain ⟨out, h1, h2⟩ := shifts_x (chunkSize := chunkSize) (norm := norm) (method := method) (size := size) hs hh hw
  refine ⟨out, h1, fun i j dx hi hj hj' hx h => ?_⟩
  obtain ⟨v, hv, hb, hd⟩ := pixCol_recovers hm hj hx h method size
  refine ⟨v, ?_, hb, hd⟩
  rw [(h2 i hi j (by omega)).1 hj hj', ← hv]
  rfl

/-- **C72.** The same for the GPU. -/
theorem shifts_x_gpu_recovers {ref mat : Arr3 ℝ} {radi margin : ℕ} {chunkSize : Option ℤ} {norm : Bool} {block : ℕ × ℕ}
    (hs : mat.d = ref.d ∧ mat.h = ref.h ∧ mat.w = ref.w) (hh : 0 < ref.h) (hw : 2 * (margin + radi) + 1 ≤ ref.w) (hm : 1 ≤ margin)
    (hb : 0 < block.1 ∧ 0 < block.2) :
    ∃ out, shiftsXGpu ref mat radi margin chunkSize block norm = .ok out ∧
      ∀ (i j : ℕ) (dx : ℤ), i < ref.h → margin + radi ≤ j → j + (margin + radi) < ref.w → |dx| ≤ margin →
        LineShift ref.d (usedRef ref mat norm i) (usedMat ref mat norm i) j radi margin dx →
        ∃ v, out i j = .ok v ∧ |v - dx| ≤ 1 / 2 := by
  obtain ⟨out, h1, h2⟩ := shifts_x_recovers (chunkSize := chunkSize) (norm := norm) (method := .diff) (size := 3) hs hh hw hm
  refine ⟨out, by rw [gpu_1d_x hm hb]; exact h1, fun i j dx hi hj hj' hx h => ?_⟩
  obtain ⟨v, hv, -, hd⟩ := h2 i j dx hi hj hj' hx h
  exact ⟨v, hv, hd rfl⟩

/-! ### The search along y (without normalisation) -/

/-- **C72.** Along y, for every chunk size without empty chunks. -/
theorem shifts_y_recovers_partial {ref mat : Arr3 ℝ} {c radi margin : ℕ} {chunkSize : Option ℤ} {method : Method ℝ} {size : Int}
    (hh : 2 * (margin + radi) + 1 ≤ ref.h) (hn : numChunk ref.h chunkSize ≤ ref.h - 2 * (margin + radi)) (hm : 1 ≤ margin) :
    ∃ out, findLocalShiftsY ref mat c radi margin chunkSize false method size = .ok out ∧
      ∀ (i : ℕ) (dy : ℤ), margin + radi ≤ i → i + (margin + radi) < ref.h → |dy| ≤ margin →
        LineShift ref.d (fun n p => ref.get n p c) (fun n p => mat.get n p c) i radi margin dy →
        ∃ v, out i = .ok v ∧ |v| ≤ margin ∧ (method = .diff → |v - dy| ≤ 1 / 2) := by
  obtain ⟨out, h1, h2, -⟩ := find_local_shifts_y_partial (mat := mat) (c := c) (method := method) (size := size) hh hn
  refine ⟨out, h1, fun i dy hi hi' hy h => ?_⟩
  obtain ⟨v, hv, hb, hd⟩ := pixCol_recovers hm hi hy h method size
  exact ⟨v, by rw [h2 i hi hi', ← hv], hb, hd⟩

/-- **C72.** The same for the GPU. -/
theorem shifts_y_gpu_recovers_partial {ref mat : Arr3 ℝ} {c radi margin : ℕ} {chunkSize : Option ℤ} {block : ℕ × ℕ}
    (hh : 2 * (margin + radi) + 1 ≤ ref.h) (hn : numChunk ref.h chunkSize ≤ ref.h - 2 * (margin + radi)) (hm : 1 ≤ margin)
    (hb : 0 < block.1 ∧ 0 < block.2) (hc : c < ref.w) :
    ∃ out, shiftsYGpu ref mat c radi margin chunkSize block false = .ok out ∧
      ∀ (i : ℕ) (dy : ℤ), margin + radi ≤ i → i + (margin + radi) < ref.h → |dy| ≤ margin →
        LineShift ref.d (fun n p => ref.get n p c) (fun n p => mat.get n p c) i radi margin dy →
        ∃ v, out i = .ok v ∧ |v - dy| ≤ 1 / 2 := by
  obtain ⟨out, h1, h2⟩ := shifts_y_recovers_partial (mat := mat) (c := c) (method := .diff) (size := 3) hh hn hm
  refine ⟨out, by rw [gpu_1d_y hm hb hc]; exact h1, fun i dy hi hi' hy h => ?_⟩
  obtain ⟨v, hv, -, hd⟩ := h2 i dy hi hi' hy h
  exact ⟨v, hv, hd rfl⟩

/-! ### Normalised lines -/

theorem sum_range_roll {n : ℕ} (hn : 0 < n) (dx : ℤ) (f : ℕ → ℝ) : ∑ q ∈ range n, f (((q : ℤ) + dx) % n).toNat = ∑ q ∈ range n, f q := by
  have hn0 : (n : ℤ) ≠ 0 := by omega
  refine Finset.sum_bij (fun q _ => (((q : ℤ) + dx) % n).toNat) ?_ ?_ ?_ ?_
  · intro q _
    have := Int.emod_lt_of_pos ((q : ℤ) + dx) (by omega : (0 : ℤ) < n)
    have := Int.emod_nonneg ((q : ℤ) + dx) hn0
    rw [mem_range]; omega
  · intro p hp q hq h
    rw [mem_range] at hp hq
    have h1 := Int.emod_nonneg ((q : ℤ) + dx) hn0
    have h2 := Int.emod_nonneg ((p : ℤ) + dx) hn0
    have h3 : ((p : ℤ) + dx) % n = ((q : ℤ) + dx) % n := by omega
    have h5 : (p : ℤ) % n = (q : ℤ) % n := Int.emod_add_cancel_right dx |>.1 h3
    rw [Int.emod_eq_of_lt (by omega) (by omega), Int.emod_eq_of_lt (by omega) (by omega)] at h5
    omega
  · intro q hq
    rw [mem_range] at hq
    have h1 := Int.emod_nonneg ((q : ℤ) - dx) hn0
    have h2 := Int.emod_lt_of_pos ((q : ℤ) - dx) (by omega : (0 : ℤ) < n)
    refine ⟨(((q : ℤ) - dx) % n).toNat, by rw [mem_range]; omega, ?_⟩
    rw [Int.toNat_of_nonneg h1, Int.emod_add_emod, sub_add_cancel, Int.emod_eq_of_lt (by omega) (by omega)]
    rfl
  · intro q _; rfl

/-- Lines rolled around and multiplied by a common positive factor have the same normalised values, rolled. -/
theorem normalize2_roll {d w : ℕ} {x y : ℕ → ℕ → ℝ} {dx : ℤ} {a : ℝ} (hw : 0 < w) (ha : 0 < a)
    (h : ∀ n < d, ∀ j < w, y n j = a * x n (((j : ℤ) + dx) % w).toNat) (n j : ℕ) (hn : n < d) (hj : j < w) :
    normalize2 d w y n j = normalize2 d w x n (((j : ℤ) + dx) % w).toNat := by
  have ha0 := ha.ne'
  have hm : ∀ j : ℕ, (((j : ℤ) + dx) % w).toNat < w := fun j => by
    have := Int.emod_lt_of_pos ((j : ℤ) + dx) (by omega : (0 : ℤ) < w)
    have := Int.emod_nonneg ((j : ℤ) + dx) (by omega : (w : ℤ) ≠ 0)
    omega
  have hd : ∀ n < d, ∀ j < w, divSums d w y n j = a⁻¹ * divSums d w x n (((j : ℤ) + dx) % w).toNat := by
    intro n hn j hj
    unfold divSums
    rw [h n hn j hj, Finset.sum_congr rfl fun p hp => h p (mem_range.1 hp) j hj,
      Finset.sum_congr rfl fun q hq => h n hn q (mem_range.1 hq), ← mul_sum, ← mul_sum, sum_range_roll hw dx (fun q => x n q),
      mul_div_mul_left _ _ ha0, inv_mul_eq_div, div_div, div_div, div_div]
    congr 1
    ring
  have hsum : ∀ g : ℕ → ℕ → ℝ, sum3 1 d w (fun _ k i => g k (((i : ℤ) + dx) % w).toNat) = sum3 1 d w fun _ k i => g k i := by
    intro g
    unfold sum3
    refine Finset.sum_congr rfl fun i _ => Finset.sum_congr rfl fun k _ => ?_
    exact sum_range_roll hw dx fun q => g k q
  have hcong : ∀ g g' : ℕ → ℕ → ℝ, (∀ k < d, ∀ i < w, g k i = g' k i) → sum3 1 d w (fun _ k i => g k i) = sum3 1 d w fun _ k i => g' k i := by
    intro g g' hg
    unfold sum3
    exact Finset.sum_congr rfl fun i _ => Finset.sum_congr rfl fun k hk => Finset.sum_congr rfl fun q hq => hg k (mem_range.1 hk) q (mem_range.1 hq)
  have hmul : ∀ (c : ℝ) (g : ℕ → ℕ → ℝ), sum3 1 d w (fun _ k i => c * g k i) = c * sum3 1 d w fun _ k i => g k i := by
    intro c g
    unfold sum3
    simp only [mul_sum]
  have hmean : mean3 1 d w (fun _ k i => divSums d w y k i) = a⁻¹ * mean3 1 d w fun _ k i => divSums d w x k i := by
    unfold mean3
    rw [hcong _ _ hd, hmul a⁻¹ (fun k i => divSums d w x k (((i : ℤ) + dx) % w).toNat), hsum fun k i => divSums d w x k i]
    ring
  unfold normalize2
  dsimp only
  rw [hmean, hd n hn j hj]
  set μ := mean3 1 d w fun _ k i => divSums d w x k i
  have hvar : mean3 1 d w (fun _ k i => (divSums d w y k i - a⁻¹ * μ) ^ 2) = a⁻¹ ^ 2 * mean3 1 d w fun _ k i => (divSums d w x k i - μ) ^ 2 := by
    unfold mean3
    rw [hcong (fun k i => (divSums d w y k i - a⁻¹ * μ) ^ 2) (fun k i => a⁻¹ ^ 2 * (divSums d w x k (((i : ℤ) + dx) % w).toNat - μ) ^ 2)
      (fun k hk i hi => by rw [hd k hk i hi]; ring), hmul (a⁻¹ ^ 2) (fun k i => (divSums d w x k (((i : ℤ) + dx) % w).toNat - μ) ^ 2),
      hsum fun k i => (divSums d w x k i - μ) ^ 2]
    ring
  rw [hvar, Real.sqrt_mul (sq_nonneg _), Real.sqrt_sq (inv_nonneg.2 ha.le), ← mul_sub, mul_div_mul_left _ _ (inv_ne_zero ha0)]

/-- **C72.** With the default normalisation: if in row `i` every image of the second stack is the reference image rolled around by `dx` and multiplied
by one positive factor, and the normalised reference has no other matching translation, the x-shift is recovered at every position. -/
theorem shifts_x_norm_recovers {ref mat : Arr3 ℝ} {radi margin : ℕ} {chunkSize : Option ℤ} {method : Method ℝ} {size : Int}
    (hs : mat.d = ref.d ∧ mat.h = ref.h ∧ mat.w = ref.w) (hh : 0 < ref.h) (hw : 2 * (margin + radi) + 1 ≤ ref.w) (hm : 1 ≤ margin) :
    ∃ out, shiftsX ref mat radi margin chunkSize true method size = .ok out ∧
      ∀ (i j : ℕ) (dx : ℤ) (a : ℝ), i < ref.h → margin + radi ≤ j → j + (margin + radi) < ref.w → |dx| ≤ margin → 0 < a →
        (∀ n < ref.d, ∀ k < ref.w, mat.get n i k = a * ref.get n i (((k : ℤ) + dx) % ref.w).toNat) →
        (∃ n < ref.d, ∃ n' < ref.d, ∃ q q' : ℕ, (j ≤ q + radi ∧ q ≤ j + radi) ∧ (j ≤ q' + radi ∧ q' ≤ j + radi) ∧
          normalize2 ref.d ref.w (fun n k => ref.get n i k) n (q + dx).toNat ≠ normalize2 ref.d ref.w (fun n k => ref.get n i k) n' (q' + dx).toNat) →
        (∀ ex : ℤ, |ex| ≤ margin → (∃ α β : ℝ, 0 < α ∧ ∀ n < ref.d, ∀ q : ℕ, j ≤ q + radi → q ≤ j + radi →
          normalize2 ref.d ref.w (fun n k => ref.get n i k) n (q + dx).toNat
            = α * normalize2 ref.d ref.w (fun n k => ref.get n i k) n (q + ex).toNat + β) → ex = dx) →
        ∃ v, out i j = .ok v ∧ |v| ≤ margin ∧ (method = .diff → |v - dx| ≤ 1 / 2) := by
  obtain ⟨out, h1, h2⟩ := shifts_x_recovers (chunkSize := chunkSize) (norm := true) (method := method) (size := size) hs hh hw hm
  refine ⟨out, h1, fun i j dx a hi hj hj' hx ha hroll htex hu => ?_⟩
  have hx' := abs_le.1 hx
  have key : ∀ n < ref.d, ∀ q : ℕ, j ≤ q + radi → q ≤ j + radi →
      usedMat ref mat true i n q = normalize2 ref.d ref.w (fun n k => ref.get n i k) n (q + dx).toNat := by
    intro n hn q hq hq'
    have := normalize2_roll (x := fun n k => ref.get n i k) (y := fun n k => mat.get n i k) (by omega : 0 < ref.w) ha hroll n q hn (by omega)
    rw [Int.emod_eq_of_lt (by omega) (by omega)] at this
    exact this
  refine h2 i j dx hi hj hj' hx ⟨⟨1, 0, one_pos, ?_⟩, ?_, ?_⟩
  · intro n hn q hq hq'
    rw [key n hn q hq hq', one_mul, add_zero]
    rfl
  · obtain ⟨n, hn, n', hn', q, q', hq, hq', hne⟩ := htex
    exact ⟨n, hn, n', hn', q, q', hq, hq', by rwa [key n hn q hq.1 hq.2, key n' hn' q' hq'.1 hq'.2]⟩
  · rintro ex hex ⟨α, β, hα, hc⟩
    exact hu ex hex ⟨α, β, hα, fun n hn q hq hq' => by rw [← key n hn q hq hq', hc n hn q hq hq']; rfl⟩

/-! ### Non-vacuity: two images, one row of nine pixels, window 3, margin 1 -/

def exLineRef : Arr3 ℝ := ⟨2, 1, 9, fun n _ j => if n = 0 ∧ j = 5 then 1 else 0⟩
def exLineMat : Arr3 ℝ := ⟨2, 1, 9, fun n _ j => if n = 0 ∧ j = 4 then 5 else 2⟩

theorem exLine_shift : LineShift 2 (usedRef exLineRef exLineMat false 0) (usedMat exLineRef exLineMat false 0) 4 1 1 1 := by
  refine ⟨⟨3, 2, by norm_num, ?_⟩, ⟨0, by norm_num, 1, by norm_num, 4, 4, by omega, by omega, ?_⟩, ?_⟩
  · intro n hn q h1 h2
    rw [(used_raw exLineRef exLineMat 0 n _).1, (used_raw exLineRef exLineMat 0 n _).2]
    show (if n = 0 ∧ q = 4 then (5 : ℝ) else 2) = 3 * (if n = 0 ∧ ((q : ℤ) + 1).toNat = 5 then 1 else 0) + 2
    by_cases hc : n = 0 ∧ q = 4
    · rw [if_pos hc, if_pos (by omega)]; norm_num
    · rw [if_neg hc, if_neg (by omega)]; norm_num
  · rw [(used_raw exLineRef exLineMat 0 0 _).2, (used_raw exLineRef exLineMat 0 1 _).2]
    norm_num [exLineMat]
  · rintro ex hx ⟨a, b, ha, h⟩
    rw [abs_le] at hx
    push_cast at hx
    have e1 := h 0 (by norm_num) 4 (by omega) (by omega)
    have e2 := h 1 (by norm_num) 4 (by omega) (by omega)
    rw [(used_raw exLineRef exLineMat 0 0 _).1, (used_raw exLineRef exLineMat 0 0 _).2] at e1
    rw [(used_raw exLineRef exLineMat 0 1 _).1, (used_raw exLineRef exLineMat 0 1 _).2] at e2
    change (if 0 = 0 ∧ 4 = 4 then (5 : ℝ) else 2) = a * (if 0 = 0 ∧ (((4 : ℕ) : ℤ) + ex).toNat = 5 then 1 else 0) + b at e1
    change (if 1 = 0 ∧ 4 = 4 then (5 : ℝ) else 2) = a * (if 1 = 0 ∧ (((4 : ℕ) : ℤ) + ex).toNat = 5 then 1 else 0) + b at e2
    norm_num at e1 e2
    by_contra hne
    rw [if_neg (by omega)] at e1
    linarith

example : ∃ out, shiftsX exLineRef exLineMat 1 1 none false .diff 3 = .ok out ∧ ∃ v, out 0 4 = .ok v ∧ |v - 1| ≤ 1 / 2 := by
  obtain ⟨out, h1, h2⟩ := shifts_x_recovers (ref := exLineRef) (mat := exLineMat) (radi := 1) (margin := 1) (chunkSize := none) (norm := false)
    (method := .diff) (size := 3) ⟨rfl, rfl, rfl⟩ (by norm_num [exLineRef]) (by norm_num [exLineRef]) (le_refl _)
  obtain ⟨v, hv, -, hd⟩ := h2 0 4 1 (by norm_num [exLineRef]) (by norm_num) (by norm_num [exLineRef]) (by norm_num) exLine_shift
  exact ⟨out, h1, v, hv, by exact_mod_cast hd rfl⟩

/-- Two images, one row; the second stack is the first rolled by one pixel and five times as bright. -/
def exNormRef : Arr3 ℝ := ⟨2, 1, 9, fun n _ j => if n = 0 ∧ j = 5 then 2 else 1⟩
def exNormMat : Arr3 ℝ := ⟨2, 1, 9, fun n _ j => if n = 0 ∧ j = 4 then 10 else 5⟩

theorem exNorm_vals : normalize2 2 9 (fun n k => exNormRef.get n 0 k) 0 3 = normalize2 2 9 (fun n k => exNormRef.get n 0 k) 0 4 ∧
    normalize2 2 9 (fun n k => exNormRef.get n 0 k) 0 2 = normalize2 2 9 (fun n k => exNormRef.get n 0 k) 0 3 ∧
    normalize2 2 9 (fun n k => exNormRef.get n 0 k) 0 4 < normalize2 2 9 (fun n k => exNormRef.get n 0 k) 0 5 := by
  have e : ∀ j j' : ℕ, divSums 2 9 (fun n k => exNormRef.get n 0 k) 0 j = divSums 2 9 (fun n k => exNormRef.get n 0 k) 0 j' →
      normalize2 2 9 (fun n k => exNormRef.get n 0 k) 0 j = normalize2 2 9 (fun n k => exNormRef.get n 0 k) 0 j' := by
    intro j j' h
    unfold normalize2
    dsimp only
    rw [h]
  refine ⟨e _ _ ?_, e _ _ ?_, normalize2_lt (by norm_num) (by norm_num) (by norm_num) (by norm_num) ?_⟩ <;>
    norm_num [divSums, Finset.sum_range_succ, exNormRef]

example : ∃ out, shiftsX exNormRef exNormMat 1 1 none true .diff 3 = .ok out ∧ ∃ v, out 0 4 = .ok v ∧ |v - 1| ≤ 1 / 2 := by
  obtain ⟨out, h1, h2⟩ := shifts_x_norm_recovers (ref := exNormRef) (mat := exNormMat) (radi := 1) (margin := 1) (chunkSize := none)
    (method := .diff) (size := 3) ⟨rfl, rfl, rfl⟩ (by norm_num [exNormRef]) (by norm_num [exNormRef]) (le_refl _)
  obtain ⟨v1, v2, v3⟩ := exNorm_vals
  obtain ⟨v, hv, -, hd⟩ := h2 0 4 1 5 (by norm_num [exNormRef]) (by norm_num) (by norm_num [exNormRef]) (by norm_num) (by norm_num)
    (by
      intro n hn k hk
      have hk : k < 9 := hk
      show (if n = 0 ∧ k = 4 then (10 : ℝ) else 5) = 5 * (if n = 0 ∧ (((k : ℤ) + 1) % (9 : ℕ)).toNat = 5 then 2 else 1)
      by_cases hc : n = 0 ∧ k = 4
      · rw [if_pos hc, if_pos (by omega)]; norm_num
      · rw [if_neg hc, if_neg (by omega)]; norm_num)
    ⟨0, by norm_num [exNormRef], 0, by norm_num [exNormRef], 4, 3, by omega, by omega, v3.ne'⟩
    (by
      rintro ex hx ⟨α, β, hα, h⟩
      rw [abs_le] at hx
      push_cast at hx
      have a1 : normalize2 2 9 (fun n k => exNormRef.get n 0 k) 0 4
        = α * normalize2 2 9 (fun n k => exNormRef.get n 0 k) 0 (((3 : ℕ) : ℤ) + ex).toNat + β := h 0 (by norm_num [exNormRef]) 3 (by omega) (by omega)
      have a2 : normalize2 2 9 (fun n k => exNormRef.get n 0 k) 0 5
        = α * normalize2 2 9 (fun n k => exNormRef.get n 0 k) 0 (((4 : ℕ) : ℤ) + ex).toNat + β := h 0 (by norm_num [exNormRef]) 4 (by omega) (by omega)
      by_contra hne
      rcases (show ex = 0 ∨ ex = -1 by omega) with rfl | rfl
      · change _ = α * normalize2 2 9 (fun n k => exNormRef.get n 0 k) 0 3 + β at a1
        change _ = α * normalize2 2 9 (fun n k => exNormRef.get n 0 k) 0 4 + β at a2
        rw [v1] at a1
        linarith
      · change _ = α * normalize2 2 9 (fun n k => exNormRef.get n 0 k) 0 2 + β at a1
        change _ = α * normalize2 2 9 (fun n k => exNormRef.get n 0 k) 0 3 + β at a2
        rw [v2] at a1
        linarith)
  exact ⟨out, h1, v, hv, by exact_mod_cast hd rfl⟩

end Verif.GpuShifts
