import Verif.Model.UmpaFull
import Verif.Props.Umpa
import Verif.Props.GpuShifts3
import Verif.Props.Windows
import Verif.Lemmas.Num
import Mathlib.Algebra.BigOperators.Field

/-!
C137, C138: the UMPA driver on the CPU and on the GPU.
-/

set_option linter.unusedSectionVars false
set_option linter.unusedSimpArgs false

namespace Verif.UmpaFull
open Finset Verif.Correlation Verif.LocalShifts Verif.GpuShifts Verif.Umpa
open Verif.Fourier (edgeIdx)

/-! ### Specification -/

/-- Both stacks have the same shape, one window with its margin fits, and there are at most as many chunks as rows with a full window. -/
structure Fits (ref mat : Arr3 ℝ) (r m : ℕ) (chunkSize : Option ℤ) : Prop where
  d : ref.d = mat.d
  h : ref.h = mat.h
  w : ref.w = mat.w
  edge : 1 ≤ m + r
  high : 2 * (m + r) + 1 ≤ ref.h
  wide : 2 * (m + r) + 1 ≤ ref.w
  chunks : numChunk ref.h chunkSize ≤ ref.h - 2 * (m + r)

/-- The pixel has a full window with margin around it. -/
def Interior (ref : Arr3 ℝ) (r m i j : ℕ) : Prop :=
  m + r ≤ i ∧ i + (m + r) < ref.h ∧ m + r ≤ j ∧ j + (m + r) < ref.w

/-- `(a, b)` is the map entry nearest to the position `(y, x)`. -/
def Nearest (m a b : ℕ) (x y : ℝ) : Prop := a ≤ 2 * m ∧ b ≤ 2 * m ∧ |(a : ℝ) - y| ≤ 1 / 2 ∧ |(b : ℝ) - x| ≤ 1 / 2

/-! ### The window -/

/-- Every window the program builds has non-negative weights of sum one. -/
theorem window_good (f : Recon.Filter) (r : ℕ) : GoodWindow r (window f r) := by
  have hnn : ∀ u < 2 * r + 1, 0 ≤ Recon.smoothingWindow f (2 * r + 1) u := fun u hu => (Recon.window_low_pass f _ u u hu hu).1
  have hmid : 0 < Recon.smoothingWindow f (2 * r + 1) r := by
    have : Recon.smoothingWindow f (2 * r + 1) r = 1 := by
      by_cases hf : f = .other
      · subst hf; rfl
      by_cases h2 : 2 ≤ 2 * r + 1
      · exact ((Recon.window_low_pass f (2 * r + 1) r r (by omega) (by omega)).2.2.2.2 hf h2).2 rfl
      · exact Recon.window_short f _ _ (by omega)
    rw [this]; exact one_pos
  have hs : 0 < ∑ p ∈ range (2 * r + 1), ∑ q ∈ range (2 * r + 1),
      Recon.smoothingWindow f (2 * r + 1) p * Recon.smoothingWindow f (2 * r + 1) q := by
    refine Finset.sum_pos' (fun p hp => Finset.sum_nonneg fun q hq => mul_nonneg (hnn p (mem_range.1 hp)) (hnn q (mem_range.1 hq)))
      ⟨r, mem_range.2 (by omega), Finset.sum_pos' (fun q hq => mul_nonneg hmid.le (hnn q (mem_range.1 hq)))
        ⟨r, mem_range.2 (by omega), mul_pos hmid hmid⟩⟩
  constructor
  · intro u hu v hv
    unfold window
    exact div_nonneg (mul_nonneg (hnn u hu) (hnn v hv)) hs.le
  · unfold window
    simp only [← Finset.sum_div]
    exact div_self hs.ne'

/-! ### Terms -/

theorem cpuTerms_eq {ref mat : Arr3 ℝ} {r m b i j : ℕ} (win : ℕ → ℕ → ℝ) (hb : m + r ≤ b) (hi : b ≤ i) (hj : m + r ≤ j) (p q : ℕ) :
    cpuTerms ref.d r m win (imMean ref ^ 2 * ref.d) (fun t => lineOf ref mat r win (b - (m + r) + t)) (r + m + (i - b)) (r + m + (j - (r + m))) p q =
      terms ref mat r m win i j p q := by
  unfold cpuTerms terms lineOf
  dsimp only
  have e1 : b - (m + r) + (r + m + (i - b)) = i := by omega
  have e2 : r + m + (j - (r + m)) = j := by omega
  have e3 : b - (m + r) + (r + m + (i - b) - m + p) = i - m + p := by omega
  have e5 : ∀ t, b - (m + r) + (r + m + (i - b) - (r + m) + t) = i - (r + m) + t := fun t => by omega
  have e6 : ∀ t, b - (m + r) + (r + m + (i - b) - r + t) = i - r + t := fun t => by omega
  simp only [e1, e2, e3, e5, e6]

theorem accu_fold (n : ℕ) (ref mat : ℕ → ℕ → ℕ → ℝ) (win : ℕ → ℕ → ℝ) (d : ℕ) (i j : ℕ) :
    (List.range d).foldl (fun t k => accuCorrelate n (ref k) (mat k) win t) (fun _ _ => 0) i j =
      ∑ k ∈ range d, sumMultiply n (fun p q => ref k (i + p) (j + q)) (mat k) win := by
  induction d with
  | zero => simp
  | succ d ih =>
    rw [List.range_succ, List.foldl_append, Finset.sum_range_succ, ← ih]
    rfl

theorem gpuTerms_eq {ref mat : Arr3 ℝ} {r m b i j : ℕ} (win : ℕ → ℕ → ℝ) (hb : m + r ≤ b) (hi : b ≤ i) (hj : m + r ≤ j) (p q : ℕ) :
    gpuTerms ref.d r m win (imMean ref ^ 2 * ref.d) (fun t => lineOf ref mat r win (b - (m + r) + t)) (i - b) (j - (r + m)) p q =
      terms ref mat r m win i j p q := by
  rw [← cpuTerms_eq win hb hi hj]
  unfold gpuTerms cpuTerms
  dsimp only
  have e0 : i - b + (m + r) = r + m + (i - b) := by omega
  have e1 : j - (r + m) + (m + r) = r + m + (j - (r + m)) := by omega
  have e2 : m + r = r + m := Nat.add_comm _ _
  rw [accu_fold, e0, e1, e2]
  congr 1
  refine Finset.sum_congr rfl fun k _ => ?_
  unfold sumMultiply correlateValid
  refine Finset.sum_congr rfl fun u _ => Finset.sum_congr rfl fun v _ => ?_
  ring

/-! ### Kernel arithmetic -/

theorem gpuFit_eq (dark : Bool) (t : Terms) : gpuFit dark t = (fitK dark (used dark t), fitBeta dark (used dark t)) := by
  cases dark <;> simp [gpuFit, fitK, fitBeta, used]

theorem gpuCost_eq (dark : Bool) (t : Terms) : gpuCost dark t = cost dark t := by
  unfold gpuCost cost
  rw [gpuFit_eq]
  cases dark
  · simp [used, fitBeta]
  · simp only [used, if_true]; ring

theorem gpuAV_eq (t : Terms) : (|gpuA t|, |gpuV t|) = transDark t := by
  unfold gpuV gpuA transDark
  rw [gpuFit_eq]
  dsimp only
  by_cases h : fitBeta true (used true t) + fitK true (used true t) = 0
  · simp [h]
  · rw [if_pos h]

theorem scan_spec (f : ℕ → ℝ) (v : ℝ) (n : ℕ) :
    let r := (List.range n).foldl (fun v j => if v < f j then f j else v) v
    v ≤ r ∧ (∀ j < n, f j ≤ r) ∧ (r = v ∨ ∃ j < n, r = f j) := by
  induction n with
  | zero => simp
  | succ n ih =>
    dsimp only at ih ⊢
    rw [List.range_succ, List.foldl_append]
    simp only [List.foldl_cons, List.foldl_nil]
    generalize (List.range n).foldl (fun v j => if v < f j then f j else v) v = r at ih
    obtain ⟨h1, h2, h3⟩ := ih
    by_cases h : r < f n
    · rw [if_pos h]
      refine ⟨h1.trans h.le, fun j hj => ?_, Or.inr ⟨n, by omega, rfl⟩⟩
      rcases Nat.lt_succ_iff_lt_or_eq.1 hj with q | rfl
      · exact (h2 j q).trans h.le
      · exact le_rfl
    · rw [if_neg h]
      refine ⟨h1, fun j hj => ?_, ?_⟩
      · rcases Nat.lt_succ_iff_lt_or_eq.1 hj with q | rfl
        · exact h2 j q
        · exact not_lt.1 h
      · rcases h3 with h3 | ⟨j, hj, h3⟩
        · exact Or.inl h3
        · exact Or.inr ⟨j, by omega, h3⟩

theorem getMax_spec {m : Mat ℝ} (hh : 0 < m.h) (hw : 0 < m.w) :
    (∀ i < m.h, ∀ j < m.w, m.get i j ≤ getMax m) ∧ ∃ i < m.h, ∃ j < m.w, getMax m = m.get i j := by
  have key : ∀ n, let r := (List.range n).foldl (fun v i => (List.range m.w).foldl (fun v j => if v < m.get i j then m.get i j else v) v) (m.get 0 0)
      (∀ i < n, ∀ j < m.w, m.get i j ≤ r) ∧ (r = m.get 0 0 ∨ ∃ i < n, ∃ j < m.w, r = m.get i j) := by
    intro n
    induction n with
    | zero => simp
    | succ n ih =>
      dsimp only at ih ⊢
      rw [List.range_succ, List.foldl_append]
      simp only [List.foldl_cons, List.foldl_nil]
      generalize (List.range n).foldl (fun v i => (List.range m.w).foldl (fun v j => if v < m.get i j then m.get i j else v) v) (m.get 0 0) = r at ih
      obtain ⟨h1, h2⟩ := ih
      obtain ⟨s1, s2, s3⟩ := scan_spec (fun j => m.get n j) r m.w
      refine ⟨fun i hi j hj => ?_, ?_⟩
      · rcases Nat.lt_succ_iff_lt_or_eq.1 hi with q | rfl
        · exact (h1 i q j hj).trans s1
        · exact s2 j hj
      · rcases s3 with s3 | ⟨j, hj, s3⟩
        · rw [s3]
          rcases h2 with h2 | ⟨i, hi, j, hj, h2⟩
          · exact Or.inl h2
          · exact Or.inr ⟨i, by omega, j, hj, h2⟩
        · exact Or.inr ⟨n, by omega, j, hj, s3⟩
  obtain ⟨h1, h2⟩ := key m.h
  refine ⟨h1, ?_⟩
  rcases h2 with h2 | h2
  · exact ⟨0, hh, 0, hw, h2⟩
  · exact h2

/-- The kernel inverts the map as `locate_peak(max_peak=False)` does. -/
theorem flip_inverse {m : Mat ℝ} (hh : 0 < m.h) (hw : 0 < m.w) : flipPeak m false = .ok (inverse m) := by
  obtain ⟨y, x, h, hp⟩ := argmax2_spec hh hw
  obtain ⟨g1, i, hi, j, hj, g2⟩ := getMax_spec hh hw
  have e : m.get y x = getMax m := le_antisymm (g1 y hp.1 x hp.2.1) (by rw [g2]; exact hp.2.2.1 i hi j hj)
  unfold flipPeak inverse
  simp only [bind, Except.bind, h, e, Bool.false_eq_true, if_false]

theorem locate_inverse {m : Mat ℝ} (hh : 0 < m.h) (hw : 0 < m.w) (method : Method ℝ) (dim size : Int) :
    locatePeak m true method dim size false = locatePeak (inverse m) true method dim size true := by
  unfold locatePeak
  rw [flip_inverse hh hw]
  rfl

end Verif.UmpaFull
