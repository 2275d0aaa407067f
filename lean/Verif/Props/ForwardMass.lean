import Verif.Props.ForwardProj

/-! C125, continued: the sum of a row of the sinogram of an image of even size. -/

set_option linter.unusedSectionVars false
set_option linter.unusedSimpArgs false

namespace Verif.ForwardProj

/-- **C125.** Images of even size without padding (mode "edge"): the row for angle 0 has the sum of the image plus that of its last row. -/
theorem sinogram_mass_even {interp : Mat ℝ → ℝ → ℝ → ℝ} (he : Exact interp) {m : Mat ℝ} {angles : List ℝ} {padRate : ℝ} {s : Mat ℝ}
    (hs : makeSinogram interp m angles padRate .edge = .ok s) (hp : pyTrunc (padRate * m.h) = 0) (ho : m.w % 2 = 0) (r : ℕ) (ha : angles.getD r 0 = 0) :
    ∑ j ∈ Finset.range m.w, s.get r j = (∑ i ∈ Finset.range m.h, ∑ j ∈ Finset.range m.w, m.get i j) + rowSum m (m.w - 1) := by
  have hx : extra m.w = 1 := by unfold extra; omega
  rw [Finset.sum_congr rfl fun j hj => sinogram_edge he hs 0 (by rw [hp]; rfl) r j (Finset.mem_range.1 hj) ha]
  rw [hx, Finset.sum_comm (s := Finset.range m.h)]
  unfold rowSum colSum
  rw [← Finset.sum_add_distrib]
  refine Finset.sum_congr rfl fun j _ => ?_
  push_cast
  ring

/-- **C125.** Images of even size with padding by zeros: the row for π/2 lacks the first row of the image. -/
theorem sinogram_mass_padded_even {interp : Mat ℝ → ℝ → ℝ → ℝ} (he : Exact interp) {m : Mat ℝ} {angles : List ℝ} {padRate : ℝ} {s : Mat ℝ}
    (hs : makeSinogram interp m angles padRate .constant = .ok s) (hp : 1 ≤ pyTrunc (padRate * m.h)) (ho : m.w % 2 = 0) (r : ℕ)
    (ha : angles.getD r 0 = Real.pi / 2) :
    (∑ j ∈ Finset.range m.w, s.get r j) + rowSum m 0 = ∑ i ∈ Finset.range m.h, rowSum m i := by
  obtain ⟨_, _, hm, _⟩ := sinogram_ok hs
  rw [Finset.sum_congr rfl fun j hj => (sinogram_sums he hs (.inl hp) r j (Finset.mem_range.1 hj)).2.2 ha ho, hm]
  have hpos : m.w ≠ 0 := by
    intro h0
    have : (m.h : ℝ) = 0 := by rw [hm, h0]; norm_num
    rw [this, mul_zero] at hp
    have : pyTrunc (0 : ℝ) = 0 := by simp [pyTrunc]
    omega
  obtain ⟨n, hn⟩ := Nat.exists_eq_succ_of_ne_zero hpos
  rw [hn, Finset.sum_range_succ', if_pos rfl, add_zero, Finset.sum_range_succ' (fun i => rowSum m i)]
  congr 1
  rw [← Finset.sum_range_reflect]
  refine Finset.sum_congr rfl fun j hj => ?_
  have := Finset.mem_range.1 hj
  rw [if_neg (by omega)]
  congr 1
  omega

/-- The sum of the image is found in every row of the unpadded sinogram. -/
def MassKept (interp : Mat ℝ → ℝ → ℝ → ℝ) : Prop := ∀ (m s : Mat ℝ) (angles : List ℝ) (mode : PadMode) (r : ℕ), r < angles.length →
  makeSinogram interp m angles 0 mode = .ok s → ∑ j ∈ Finset.range m.w, s.get r j = ∑ i ∈ Finset.range m.h, ∑ j ∈ Finset.range m.w, m.get i j

/-- **C125** is false of the code for even sizes: a 2 × 2 image of ones has the sum 6 in the row for angle 0, with every interpolation. -/
theorem mass_refuted {interp : Mat ℝ → ℝ → ℝ → ℝ} (he : Exact interp) : ¬ MassKept interp := by
  intro h
  have hp : pyTrunc ((0 : ℝ) * ((2 : ℕ) : ℝ)) = 0 := by simp [pyTrunc]
  obtain ⟨s, hs⟩ := (sinogram_error interp ⟨2, 2, fun _ _ => 1⟩ [0] 0 .edge).2 ⟨rfl, by simp, by rw [hp]⟩
  have h1 := h _ s [0] .edge 0 (by simp) hs
  rw [sinogram_mass_even he hs hp rfl 0 rfl] at h1
  simp [rowSum] at h1

example : ∃ interp : Mat ℝ → ℝ → ℝ → ℝ, Exact interp := ⟨nearest, nearest_exact⟩

end Verif.ForwardProj
