import Verif.Props.UmpaFull4

/-!
C137: what the shift of `find_local_shifts_umpa` minimises, stated with the residual of the model on the caller's images.
-/

set_option linter.unusedSectionVars false
set_option linter.unusedSimpArgs false

namespace Verif.UmpaFull
open Finset Verif.Correlation Verif.LocalShifts Verif.GpuShifts Verif.Umpa

/-- The fit is well posed at every displacement within the margin. -/
def WellPosed (ref : Arr3 ℝ) (r m : ℕ) (win : ℕ → ℕ → ℝ) (dark : Bool) (i j : ℕ) : Prop :=
  ∀ a ≤ 2 * m, ∀ b ≤ 2 * m, if dark then imMean ref ≠ 0 ∧ Varied ref r m win i j a b else NonZero ref r m win i j a b

/-- **C137.** At every interior pixel the returned shift lies (method "diff") less than one pixel from a displacement `(a - m, b - m)` that, together
with its best coefficients, has the smallest residual of all displacements within the margin and all coefficients: with `dark_signal` of all
`mat ≈ beta * mean + K * ref`, without it of all `mat ≈ K * ref`.  For every chunk size with at most as many chunks as full windows. -/
theorem umpa_full_best (o : Opts) (f : Recon.Filter) {ref mat : Arr3 ℝ} {r m : ℕ} {chunkSize : Option ℤ} (dark : Bool) (h : Fits ref mat r m chunkSize)
    (hc : o.gpu = false ∨ o.cuda = false) (hd : o.method = .diff) :
    ∃ xy td, findUmpa o f ref mat r m chunkSize dark = .ok (xy, td) ∧
      ∀ i j, Interior ref r m i j → WellPosed ref r m (window f r) dark i j →
        ∃ (x y : ℝ) (a b : ℕ) (beta K : ℝ), xy i j = .ok (x, y) ∧ a ≤ 2 * m ∧ b ≤ 2 * m ∧ (dark = false → beta = 0) ∧
          |x - ((b : ℝ) - m)| < 1 ∧ |y - ((a : ℝ) - m)| < 1 ∧
          ∀ a' ≤ 2 * m, ∀ b' ≤ 2 * m, ∀ beta' K' : ℝ, (dark = false → beta' = 0) →
            residual ref mat r m (window f r) i j a b beta K ≤ residual ref mat r m (window f r) i j a' b' beta' K' := by
  obtain ⟨xy, td, h1, -, h3, -⟩ := umpa_full o f dark h hc
  refine ⟨xy, td, h1, fun i j hij hwp => ?_⟩
  obtain ⟨x, y, hs, hxy, -⟩ := h3 i j hij
  have hw := window_good f r
  have hin : ∀ a' ≤ 2 * m, ∀ b' ≤ 2 * m, Inside ref mat r m i j a' b' := by
    intro a' ha' b' hb'
    obtain ⟨q1, q2, q3, q4⟩ := hij
    exact ⟨h.d, h.h, h.w, by omega, by omega, by omega, by omega, ha', hb'⟩
  obtain ⟨a, ha, b, hb, hmin, q, hq, hok⟩ := locate_peak_min (m := costMap ref mat r m (window f r) dark i j)
    (by show 0 < 2 * m + 1; omega) (by show 0 < 2 * m + 1; omega) true o.method 2 o.size
  have ha : a < 2 * m + 1 := ha
  have hb : b < 2 * m + 1 := hb
  have hmin : ∀ a' ≤ 2 * m, ∀ b' ≤ 2 * m, cost dark (terms ref mat r m (window f r) i j a b) ≤ cost dark (terms ref mat r m (window f r) i j a' b') :=
    fun a' ha' b' hb' => hmin a' (by show a' < 2 * m + 1; omega) b' (by show b' < 2 * m + 1; omega)
  unfold shiftAt at hs
  simp only [bind, Except.bind, hq] at hs
  have hs := Except.ok.inj hs
  obtain ⟨rfl, rfl⟩ := Prod.mk.inj hs
  obtain ⟨k1, k2⟩ := hok.2.2.2.2.2.1 hd
  have c1 : |q.1 - m - ((b : ℝ) - m)| < 1 := by rwa [show q.1 - (m : ℝ) - (b - m) = q.1 - b by ring]
  have c2 : |q.2 - m - ((a : ℝ) - m)| < 1 := by rwa [show q.2 - (m : ℝ) - (a - m) = q.2 - a by ring]
  cases dark with
  | true =>
    have hwp' : ∀ a ≤ 2 * m, ∀ b ≤ 2 * m, imMean ref ≠ 0 ∧ Varied ref r m (window f r) i j a b := fun a ha b hb => by
      have := hwp a ha b hb
      simpa using this
    obtain ⟨beta, K, he⟩ := (umpa_dark_optimal hw (hin a (by omega) b (by omega)) (hwp' a (by omega) b (by omega)).1 (hwp' a (by omega) b (by omega)).2).1
    refine ⟨_, _, a, b, beta, K, hxy, by omega, by omega, nofun, c1, c2, fun a' ha' b' hb' beta' K' _ => ?_⟩
    rw [← he]
    exact le_trans (hmin a' ha' b' hb') ((umpa_dark_optimal hw (hin a' ha' b' hb') (hwp' a' ha' b' hb').1 (hwp' a' ha' b' hb').2).2 beta' K')
  | false =>
    have hwp' : ∀ a ≤ 2 * m, ∀ b ≤ 2 * m, NonZero ref r m (window f r) i j a b := fun a ha b hb => by
      have := hwp a ha b hb
      simpa using this
    obtain ⟨K, he⟩ := (umpa_optimal hw (hin a (by omega) b (by omega)) (hwp' a (by omega) b (by omega))).1
    refine ⟨_, _, a, b, 0, K, hxy, by omega, by omega, fun _ => rfl, c1, c2, fun a' ha' b' hb' beta' K' hz => ?_⟩
    rw [← he, hz rfl]
    exact le_trans (hmin a' ha' b' hb') ((umpa_optimal hw (hin a' ha' b' hb') (hwp' a' ha' b' hb')).2 K')

/-- The reference of the example has no zeros, so the fit is well posed at every displacement. -/
theorem exUm_wellPosed (f : Recon.Filter) : WellPosed exUmRef 0 1 (window f 0) false 1 1 := by
  intro a ha b hb
  have : NonZero exUmRef 0 1 (window f 0) 1 1 a b :=
    ⟨0, by norm_num [exUmRef], 0, le_refl _, 0, le_refl _, by rw [window_zero]; exact one_pos, by
      show (if 0 = 0 ∧ _ then (3 : ℝ) else 1) ≠ 0
      split_ifs <;> norm_num⟩
  simpa using this

example (f : Recon.Filter) : ∃ xy td, findUmpa ⟨false, true, (16, 16), .diff, 3⟩ f exUmRef exUmMat 0 1 none false = .ok (xy, td) ∧
    ∃ (x y : ℝ) (a b : ℕ) (K : ℝ), xy 1 1 = .ok (x, y) ∧ |x - ((b : ℝ) - 1)| < 1 ∧ |y - ((a : ℝ) - 1)| < 1 ∧
      ∀ a' ≤ 2, ∀ b' ≤ 2, ∀ K' : ℝ, residual exUmRef exUmMat 0 1 (window f 0) 1 1 a b 0 K ≤ residual exUmRef exUmMat 0 1 (window f 0) 1 1 a' b' 0 K' := by
  obtain ⟨xy, td, h1, h2⟩ := umpa_full_best ⟨false, true, (16, 16), .diff, 3⟩ f false exUm_fits (Or.inl rfl) rfl
  obtain ⟨x, y, a, b, beta, K, q1, -, -, q2, q3, q4, q5⟩ := h2 1 1 exUm_interior (exUm_wellPosed f)
  refine ⟨xy, td, h1, x, y, a, b, K, q1, by exact_mod_cast q3, by exact_mod_cast q4, fun a' ha' b' hb' K' => ?_⟩
  have := q5 a' ha' b' hb' 0 K' fun _ => rfl
  rwa [q2 rfl] at this

end Verif.UmpaFull
