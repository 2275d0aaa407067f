import Verif.Props.PhaseFft2

/-!
C114: final statements for `unwrap_phase_based_fft` and `unwrap_phase_iterative_fft`.
-/

set_option linter.unusedSectionVars false
set_option linter.unusedSimpArgs false

namespace Verif.PhaseFft
open Complex Finset Verif.Fourier Verif.Phase

/-- The result with the default windows. -/
noncomputable def plain (m : Mat ℝ) : Mat ℝ := core m (laplaceWindow (2 * m.h) (2 * m.w) true) (laplaceWindow (2 * m.h) (2 * m.w) false)

theorem unwrapFft_plain (m : Mat ℝ) : unwrapFft m none none = .ok (plain m) := rfl

theorem eqv_samePhase {a b : Mat ℝ} (e : b.Eqv a) : SamePhase a b :=
  ⟨e.1, e.2.1, 0, fun i hi j hj => ⟨0, by rw [e.2.2 i (e.1 ▸ hi) j (e.2.1 ▸ hj)]; simp⟩⟩

theorem plain_same {a b : Mat ℝ} (hs : SamePhase a b) : plain b = plain a := by
  unfold plain
  rw [hs.1, hs.2.1]
  exact core_same_phase hs _ _

theorem plain_congr {a b : Mat ℝ} (e : b.Eqv a) : plain b = plain a := plain_same (eqv_samePhase e)

theorem plain_mirror (m : Mat ℝ) : (plain (mirror m)).Eqv (mirror (plain m)) := core_mirror (laplaceWindow_good _ _ _) (laplaceWindow_good _ _ _)
theorem plain_flip (m : Mat ℝ) : (plain (flip m)).Eqv (flip (plain m)) := core_flip (laplaceWindow_good _ _ _) (laplaceWindow_good _ _ _)
theorem plain_transp (m : Mat ℝ) : (plain (transp m)).Eqv (transp (plain m)) :=
  core_transp (fun i j => laplaceWindow_transpose _ _ _ _ _) (fun i j => laplaceWindow_transpose _ _ _ _ _)
theorem plain_neg (m : Mat ℝ) : plain (negate m) = negate (plain m) := core_neg (laplaceWindow_good _ _ _)

theorem total_of_empty {m : Mat ℝ} (h : ¬ (0 < m.h ∧ 0 < m.w)) : total m = 0 := by
  unfold total
  rcases Nat.eq_zero_or_pos m.h with h0 | h0
  · rw [h0]; simp
  · have : m.w = 0 := by omega
    rw [this]; simp

theorem plain_total (m : Mat ℝ) : total (plain m) = 0 := by
  by_cases h : 0 < m.h ∧ 0 < m.w
  · exact core_total h.1 h.2 (laplaceWindow_good _ _ _) (laplaceWindow_good _ _ _)
  · exact total_of_empty h

/-- **C114.** `unwrap_phase_based_fft` with its default windows: an image of the same size with total zero; mirroring, turning upside down,
transposing or negating the phase does the same to the result. -/
theorem unwrap_fft_symmetric (m : Mat ℝ) : ∃ u, unwrapFft m none none = .ok u ∧ (u.h = m.h ∧ u.w = m.w) ∧ total u = 0 ∧
    (∃ v, unwrapFft (mirror m) none none = .ok v ∧ v.Eqv (mirror u)) ∧ (∃ v, unwrapFft (flip m) none none = .ok v ∧ v.Eqv (flip u)) ∧
    (∃ v, unwrapFft (transp m) none none = .ok v ∧ v.Eqv (transp u)) ∧ unwrapFft (negate m) none none = .ok (negate u) := by
  refine ⟨plain m, unwrapFft_plain m, ⟨rfl, rfl⟩, plain_total m, ⟨_, unwrapFft_plain _, plain_mirror m⟩, ⟨_, unwrapFft_plain _, plain_flip m⟩,
    ⟨_, unwrapFft_plain _, plain_transp m⟩, ?_⟩
  rw [unwrapFft_plain, plain_neg]

/-- **C114.** A constant phase is unwrapped to zero. -/
theorem unwrap_fft_constant (m : Mat ℝ) (c : ℝ) (hc : ∀ i < m.h, ∀ j < m.w, m.get i j = c) :
    ∃ u, unwrapFft m none none = .ok u ∧ ∀ i < m.h, ∀ j < m.w, u.get i j = 0 := by
  refine ⟨plain m, unwrapFft_plain m, fun i hi j hj => ?_⟩
  -- the same phase as zero, which is its own negative
  have h0 : SamePhase (⟨m.h, m.w, fun _ _ => 0⟩ : Mat ℝ) m := ⟨rfl, rfl, c, fun i hi j hj => ⟨0, by rw [hc i hi j hj]; simp⟩⟩
  have h1 : (negate (⟨m.h, m.w, fun _ _ => 0⟩ : Mat ℝ)).Eqv ⟨m.h, m.w, fun _ _ => 0⟩ := ⟨rfl, rfl, fun i _ j _ => by simp [negate]⟩
  have h2 := plain_neg (⟨m.h, m.w, fun _ _ => 0⟩ : Mat ℝ)
  rw [plain_congr h1] at h2
  have h3 : (plain (⟨m.h, m.w, fun _ _ => 0⟩ : Mat ℝ)).get i j = -(plain (⟨m.h, m.w, fun _ _ => 0⟩ : Mat ℝ)).get i j :=
    congrArg (fun a : Mat ℝ => a.get i j) h2
  rw [plain_same h0]
  linarith

/-- **C114.** The windows must have twice the size of the image; then there is a result, of the size of the image. -/
theorem unwrap_fft_ok_iff (m : Mat ℝ) (wf wb : Option (Mat ℝ)) : (∃ u, unwrapFft m wf wb = .ok u) ↔
    (∀ a, wf = some a → a.h = 2 * m.h ∧ a.w = 2 * m.w) ∧ ∀ b, wb = some b → b.h = 2 * m.h ∧ b.w = 2 * m.w := by
  rw [unwrapFft_core]
  unfold resolveWindow
  rcases wf with _ | a <;> rcases wb with _ | b
  · exact ⟨fun _ => ⟨fun a h => (nomatch h), fun b h => (nomatch h)⟩, fun _ => ⟨_, rfl⟩⟩
  · dsimp only
    by_cases hb : b.h = 2 * m.h ∧ b.w = 2 * m.w
    · rw [if_pos hb]
      exact ⟨fun _ => ⟨fun a h => (nomatch h), fun b' h => by rw [← Option.some.inj h]; exact hb⟩, fun _ => ⟨_, rfl⟩⟩
    · rw [if_neg hb]
      exact ⟨fun ⟨u, hu⟩ => (nomatch hu), fun h => absurd (h.2 b rfl) hb⟩
  · dsimp only
    by_cases ha : a.h = 2 * m.h ∧ a.w = 2 * m.w
    · rw [if_pos ha]
      exact ⟨fun _ => ⟨fun a' h => by rw [← Option.some.inj h]; exact ha, fun b h => (nomatch h)⟩, fun _ => ⟨_, rfl⟩⟩
    · rw [if_neg ha]
      exact ⟨fun ⟨u, hu⟩ => (nomatch hu), fun h => absurd (h.1 a rfl) ha⟩
  · dsimp only
    by_cases ha : a.h = 2 * m.h ∧ a.w = 2 * m.w
    · rw [if_pos ha]
      by_cases hb : b.h = 2 * m.h ∧ b.w = 2 * m.w
      · rw [if_pos hb]
        exact ⟨fun _ => ⟨fun a' h => by rw [← Option.some.inj h]; exact ha, fun b' h => by rw [← Option.some.inj h]; exact hb⟩, fun _ => ⟨_, rfl⟩⟩
      · rw [if_neg hb]
        exact ⟨fun ⟨u, hu⟩ => (nomatch hu), fun h => absurd (h.2 b rfl) hb⟩
    · rw [if_neg ha]
      exact ⟨fun ⟨u, hu⟩ => (nomatch hu), fun h => absurd (h.1 a rfl) ha⟩

/-! ### The iterative version -/

theorem residual_same {m m' u : Mat ℝ} (hs : SamePhase m m') : SamePhase (residual m u fun _ _ => 1) (residual m' u fun _ _ => 1) := by
  obtain ⟨hh, hw, c, hk⟩ := hs
  choose! k hk using hk
  obtain ⟨h', w', get'⟩ := m'
  obtain rfl : h' = m.h := hh
  obtain rfl : w' = m.w := hw
  -- the two means differ by a constant
  refine ⟨rfl, rfl, c + mean2 ⟨m.h, m.w, fun i j => m.get i j - wrapToPi (u.get i j)⟩
    - mean2 ⟨m.h, m.w, fun i j => get' i j - wrapToPi (u.get i j)⟩, fun i hi j hj => ?_⟩
  have hi : i < m.h := hi
  have hj : j < m.w := hj
  unfold residual
  dsimp only
  generalize mean2 ⟨m.h, m.w, fun i j => m.get i j - wrapToPi (u.get i j)⟩ = n1
  generalize mean2 ⟨m.h, m.w, fun i j => get' i j - wrapToPi (u.get i j)⟩ = n2
  have e : get' i j = m.get i j + 2 * Real.pi * k i j + c := hk i hi j hj
  rw [e, mul_one, mul_one]
  obtain ⟨a, ha, -⟩ := wrapToPi_spec (m.get i j + 2 * Real.pi * k i j + c - wrapToPi (u.get i j) - n2)
  obtain ⟨b, hb, -⟩ := wrapToPi_spec (m.get i j - wrapToPi (u.get i j) - n1)
  refine ⟨k i j - a + b, ?_⟩
  rw [ha, hb]
  push_cast
  ring

theorem iterate_same {m m' : Mat ℝ} (hs : SamePhase m m') (wf wb : Option (Mat ℝ)) (n : ℕ) : ∀ u, iterate m' wf wb (fun _ _ => 1) n u =
    iterate m wf wb (fun _ _ => 1) n u := by
  induction n with
  | zero => intro u; rfl
  | succ n ih =>
    intro u
    unfold iterate
    rw [unwrap_fft_same_phase (residual_same hs), hs.1, hs.2.1]
    simp only [ih]

/-- **C114.** The iterative version too depends on the phase only, for every number of iterations and every pair of windows (without a weight map). -/
theorem unwrap_iterative_same_phase {m m' : Mat ℝ} (hs : SamePhase m m') (n : ℤ) (wf wb : Option (Mat ℝ)) :
    unwrapIterative m' n wf wb none = unwrapIterative m n wf wb none := by
  have hf : ∀ f o, fillWindow m' f o = fillWindow m f o := by
    intro f o
    unfold fillWindow
    rw [hs.1, hs.2.1]
  have h1 : SamePhase (⟨m.h, m.w, fun i j => m.get i j * 1⟩ : Mat ℝ) ⟨m'.h, m'.w, fun i j => m'.get i j * 1⟩ := by
    obtain ⟨hh, hw, c, hk⟩ := hs
    refine ⟨hh, hw, c, fun i hi j hj => ?_⟩
    obtain ⟨k, e⟩ := hk i hi j hj
    exact ⟨k, by simp only [mul_one]; exact e⟩
  unfold unwrapIterative
  dsimp only [Option.getD_none]
  rw [hf, hf, unwrap_fft_same_phase h1]
  simp only [iterate_same hs]

/-- One step of the loop with default windows. -/
noncomputable def step (m : Mat ℝ) (weight : ℕ → ℕ → ℝ) (u : Mat ℝ) : Mat ℝ :=
  ⟨m.h, m.w, fun i j => u.get i j + (plain (residual m u weight)).get i j⟩

theorem unwrapFft_filled (m x : Mat ℝ) (hh : x.h = m.h) (hw : x.w = m.w) : unwrapFft x (fillWindow m true none) (fillWindow m false none) = .ok (plain x) := by
  rw [unwrapFft_core]
  unfold fillWindow resolveWindow plain
  dsimp only
  rw [hh, hw, if_pos ⟨rfl, rfl⟩, if_pos ⟨rfl, rfl⟩]
  rfl

theorem iterate_default (m : Mat ℝ) (weight : ℕ → ℕ → ℝ) (n : ℕ) : ∀ u, iterate m (fillWindow m true none) (fillWindow m false none) weight n u =
    .ok ((step m weight)^[n] u) := by
  induction n with
  | zero => intro u; rfl
  | succ n ih =>
    intro u
    unfold iterate
    rw [unwrapFft_filled m (residual m u weight) rfl rfl, Function.iterate_succ_apply]
    exact ih _

/-- The first estimate. -/
noncomputable def start (m : Mat ℝ) (weight : ℕ → ℕ → ℝ) : Mat ℝ := plain ⟨m.h, m.w, fun i j => m.get i j * weight i j⟩

theorem unwrapIterative_default (m : Mat ℝ) (n : ℤ) (wm : Option (ℕ → ℕ → ℝ)) :
    unwrapIterative m n none none wm = .ok ((step m (wm.getD fun _ _ => 1))^[n.toNat] (start m (wm.getD fun _ _ => 1))) := by
  unfold unwrapIterative
  dsimp only
  rw [unwrapFft_filled m ⟨m.h, m.w, fun i j => m.get i j * (wm.getD fun _ _ => 1) i j⟩ rfl rfl]
  exact iterate_default m _ _ _

/-! Mirror images of the iteration. -/

theorem mean2_mirror (m : Mat ℝ) : mean2 (mirror m) = mean2 m := by
  unfold mean2 mirror
  dsimp only
  congr 1
  exact sum_congr rfl fun i _ => Finset.sum_range_reflect (fun j => m.get i j) m.w

theorem mean2_flip (m : Mat ℝ) : mean2 (flip m) = mean2 m := by
  unfold mean2 flip
  dsimp only
  congr 1
  exact Finset.sum_range_reflect (fun i => ∑ j ∈ range m.w, m.get i j) m.h

theorem mean2_transp (m : Mat ℝ) : mean2 (transp m) = mean2 m := by
  unfold mean2 transp
  dsimp only
  rw [sum_comm, mul_comm (m.w : ℝ)]

theorem mean2_congr {a b : Mat ℝ} (e : a.Eqv b) : mean2 a = mean2 b := by
  unfold mean2
  rw [← e.1, ← e.2.1]
  congr 1
  exact sum_congr rfl fun i hi => sum_congr rfl fun j hj => e.2.2 i (mem_range.1 hi) j (mem_range.1 hj)

theorem residual_mirror {m u u' : Mat ℝ} (weight : ℕ → ℕ → ℝ) (hu : ∀ i < m.h, ∀ j < m.w, u'.get i j = u.get i (m.w - 1 - j)) :
    (residual (mirror m) u' fun i j => weight i (m.w - 1 - j)).Eqv (mirror (residual m u weight)) := by
  refine ⟨rfl, rfl, fun i hi j hj => ?_⟩
  have hi : i < m.h := hi
  have hj : j < m.w := hj
  have hm : mean2 ⟨m.h, m.w, fun i j => m.get i (m.w - 1 - j) - wrapToPi (u'.get i j)⟩ =
      mean2 ⟨m.h, m.w, fun i j => m.get i j - wrapToPi (u.get i j)⟩ := by
    rw [← mean2_mirror ⟨m.h, m.w, fun i j => m.get i j - wrapToPi (u.get i j)⟩]
    refine mean2_congr ⟨rfl, rfl, fun a ha b hb => ?_⟩
    show m.get a (m.w - 1 - b) - wrapToPi (u'.get a b) = m.get a (m.w - 1 - b) - wrapToPi (u.get a (m.w - 1 - b))
    rw [hu a ha b hb]
  show wrapToPi (m.get i (m.w - 1 - j) - wrapToPi (u'.get i j) - mean2 ⟨m.h, m.w, fun i j => m.get i (m.w - 1 - j) - wrapToPi (u'.get i j)⟩) * _ =
    wrapToPi (m.get i (m.w - 1 - j) - wrapToPi (u.get i (m.w - 1 - j)) - mean2 ⟨m.h, m.w, fun i j => m.get i j - wrapToPi (u.get i j)⟩) * _
  rw [hm, hu i hi j hj]
  rfl

theorem residual_flip {m u u' : Mat ℝ} (weight : ℕ → ℕ → ℝ) (hu : ∀ i < m.h, ∀ j < m.w, u'.get i j = u.get (m.h - 1 - i) j) :
    (residual (flip m) u' fun i j => weight (m.h - 1 - i) j).Eqv (flip (residual m u weight)) := by
  refine ⟨rfl, rfl, fun i hi j hj => ?_⟩
  have hi : i < m.h := hi
  have hj : j < m.w := hj
  have hm : mean2 ⟨m.h, m.w, fun i j => m.get (m.h - 1 - i) j - wrapToPi (u'.get i j)⟩ =
      mean2 ⟨m.h, m.w, fun i j => m.get i j - wrapToPi (u.get i j)⟩ := by
    rw [← mean2_flip ⟨m.h, m.w, fun i j => m.get i j - wrapToPi (u.get i j)⟩]
    refine mean2_congr ⟨rfl, rfl, fun a ha b hb => ?_⟩
    show m.get (m.h - 1 - a) b - wrapToPi (u'.get a b) = m.get (m.h - 1 - a) b - wrapToPi (u.get (m.h - 1 - a) b)
    rw [hu a ha b hb]
  show wrapToPi (m.get (m.h - 1 - i) j - wrapToPi (u'.get i j) - mean2 ⟨m.h, m.w, fun i j => m.get (m.h - 1 - i) j - wrapToPi (u'.get i j)⟩) * _ =
    wrapToPi (m.get (m.h - 1 - i) j - wrapToPi (u.get (m.h - 1 - i) j) - mean2 ⟨m.h, m.w, fun i j => m.get i j - wrapToPi (u.get i j)⟩) * _
  rw [hm, hu i hi j hj]
  rfl

theorem residual_transp {m u u' : Mat ℝ} (weight : ℕ → ℕ → ℝ) (hu : ∀ i < m.w, ∀ j < m.h, u'.get i j = u.get j i) :
    (residual (transp m) u' fun i j => weight j i).Eqv (transp (residual m u weight)) := by
  refine ⟨rfl, rfl, fun i hi j hj => ?_⟩
  have hi : i < m.w := hi
  have hj : j < m.h := hj
  have hm : mean2 ⟨m.w, m.h, fun i j => m.get j i - wrapToPi (u'.get i j)⟩ =
      mean2 ⟨m.h, m.w, fun i j => m.get i j - wrapToPi (u.get i j)⟩ := by
    rw [← mean2_transp ⟨m.h, m.w, fun i j => m.get i j - wrapToPi (u.get i j)⟩]
    refine mean2_congr ⟨rfl, rfl, fun a ha b hb => ?_⟩
    show m.get b a - wrapToPi (u'.get a b) = m.get b a - wrapToPi (u.get b a)
    rw [hu a ha b hb]
  show wrapToPi (m.get j i - wrapToPi (u'.get i j) - mean2 ⟨m.w, m.h, fun i j => m.get j i - wrapToPi (u'.get i j)⟩) * _ =
    wrapToPi (m.get j i - wrapToPi (u.get j i) - mean2 ⟨m.h, m.w, fun i j => m.get i j - wrapToPi (u.get i j)⟩) * _
  rw [hm, hu i hi j hj]

theorem steps_mirror (m : Mat ℝ) (weight : ℕ → ℕ → ℝ) (n : ℕ) : ∀ i < m.h, ∀ j < m.w,
    ((step (mirror m) fun i j => weight i (m.w - 1 - j))^[n] (start (mirror m) fun i j => weight i (m.w - 1 - j))).get i j =
      ((step m weight)^[n] (start m weight)).get i (m.w - 1 - j) := by
  induction n with
  | zero =>
    intro i hi j hj
    have := (plain_mirror ⟨m.h, m.w, fun i j => m.get i j * weight i j⟩).2.2 i hi j hj
    exact this
  | succ n ih =>
    intro i hi j hj
    rw [Function.iterate_succ_apply', Function.iterate_succ_apply']
    show _ + (plain (residual _ _ _)).get i j = _ + (plain (residual _ _ _)).get i (m.w - 1 - j)
    rw [ih i hi j hj, plain_congr (residual_mirror weight ih)]
    exact congrArg _ ((plain_mirror (residual m ((step m weight)^[n] (start m weight)) weight)).2.2 i hi j hj)

theorem steps_flip (m : Mat ℝ) (weight : ℕ → ℕ → ℝ) (n : ℕ) : ∀ i < m.h, ∀ j < m.w,
    ((step (flip m) fun i j => weight (m.h - 1 - i) j)^[n] (start (flip m) fun i j => weight (m.h - 1 - i) j)).get i j =
      ((step m weight)^[n] (start m weight)).get (m.h - 1 - i) j := by
  induction n with
  | zero =>
    intro i hi j hj
    exact (plain_flip ⟨m.h, m.w, fun i j => m.get i j * weight i j⟩).2.2 i hi j hj
  | succ n ih =>
    intro i hi j hj
    rw [Function.iterate_succ_apply', Function.iterate_succ_apply']
    show _ + (plain (residual _ _ _)).get i j = _ + (plain (residual _ _ _)).get (m.h - 1 - i) j
    rw [ih i hi j hj, plain_congr (residual_flip weight ih)]
    exact congrArg _ ((plain_flip (residual m ((step m weight)^[n] (start m weight)) weight)).2.2 i hi j hj)

theorem steps_transp (m : Mat ℝ) (weight : ℕ → ℕ → ℝ) (n : ℕ) : ∀ i < m.w, ∀ j < m.h,
    ((step (transp m) fun i j => weight j i)^[n] (start (transp m) fun i j => weight j i)).get i j =
      ((step m weight)^[n] (start m weight)).get j i := by
  induction n with
  | zero =>
    intro i hi j hj
    exact (plain_transp ⟨m.h, m.w, fun i j => m.get i j * weight i j⟩).2.2 i hi j hj
  | succ n ih =>
    intro i hi j hj
    rw [Function.iterate_succ_apply', Function.iterate_succ_apply']
    show _ + (plain (residual _ _ _)).get i j = _ + (plain (residual _ _ _)).get j i
    rw [ih i hi j hj, plain_congr (residual_transp weight ih)]
    exact congrArg _ ((plain_transp (residual m ((step m weight)^[n] (start m weight)) weight)).2.2 i hi j hj)

theorem steps_size (m : Mat ℝ) (weight : ℕ → ℕ → ℝ) (n : ℕ) :
    ((step m weight)^[n] (start m weight)).h = m.h ∧ ((step m weight)^[n] (start m weight)).w = m.w := by
  induction n with
  | zero => exact ⟨rfl, rfl⟩
  | succ n ih => rw [Function.iterate_succ_apply']; exact ⟨rfl, rfl⟩

theorem steps_total (m : Mat ℝ) (weight : ℕ → ℕ → ℝ) (n : ℕ) : total ((step m weight)^[n] (start m weight)) = 0 := by
  induction n with
  | zero => exact plain_total _
  | succ n ih =>
    rw [Function.iterate_succ_apply']
    have h1 := steps_size m weight n
    generalize (step m weight)^[n] (start m weight) = u at ih h1 ⊢
    have h2 := plain_total (residual m u weight)
    unfold total at *
    rw [h1.1, h1.2] at ih
    show ∑ i ∈ range m.h, ∑ j ∈ range m.w, (u.get i j + (plain (residual m u weight)).get i j) = 0
    have h2' : ∑ i ∈ range m.h, ∑ j ∈ range m.w, (plain (residual m u weight)).get i j = 0 := h2
    simp only [Finset.sum_add_distrib]
    rw [ih, h2', add_zero]

/-- **C114.** `unwrap_phase_iterative_fft` with its default windows, for every number of iterations and every weight map: an image of the same size
with total zero; mirroring, turning or transposing the phase (and the weights) does the same to the result. -/
theorem unwrap_iterative_symmetric (m : Mat ℝ) (n : ℤ) (wm : Option (ℕ → ℕ → ℝ)) : ∃ u, unwrapIterative m n none none wm = .ok u ∧
    (u.h = m.h ∧ u.w = m.w) ∧ total u = 0 ∧
    (∃ v, unwrapIterative (mirror m) n none none (wm.map fun f i j => f i (m.w - 1 - j)) = .ok v ∧ v.Eqv (mirror u)) ∧
    (∃ v, unwrapIterative (flip m) n none none (wm.map fun f i j => f (m.h - 1 - i) j) = .ok v ∧ v.Eqv (flip u)) ∧
    (∃ v, unwrapIterative (transp m) n none none (wm.map fun f i j => f j i) = .ok v ∧ v.Eqv (transp u)) := by
  have e1 : (wm.map fun f i j => f i (m.w - 1 - j)).getD (fun _ _ => 1) = fun i j => (wm.getD fun _ _ => 1) i (m.w - 1 - j) := by cases wm <;> rfl
  have e2 : (wm.map fun f i j => f (m.h - 1 - i) j).getD (fun _ _ => 1) = fun i j => (wm.getD fun _ _ => 1) (m.h - 1 - i) j := by cases wm <;> rfl
  have e3 : (wm.map fun f i j => f j i).getD (fun _ _ => 1) = fun i j => (wm.getD fun _ _ => 1) j i := by cases wm <;> rfl
  have s0 := steps_size m (wm.getD fun _ _ => 1) n.toNat
  refine ⟨_, unwrapIterative_default m n wm, s0, steps_total m _ _, ⟨_, unwrapIterative_default _ n _, ?_⟩,
    ⟨_, unwrapIterative_default _ n _, ?_⟩, ⟨_, unwrapIterative_default _ n _, ?_⟩⟩
  · rw [e1]
    have s := steps_size (mirror m) (fun i j => (wm.getD fun _ _ => 1) i (m.w - 1 - j)) n.toNat
    refine ⟨s.1.trans s0.1.symm, s.2.trans s0.2.symm, fun i hi j hj => ?_⟩
    rw [s.1] at hi
    rw [s.2] at hj
    rw [steps_mirror m _ n.toNat i hi j hj]
    show _ = ((step m _)^[n.toNat] (start m _)).get i (((step m _)^[n.toNat] (start m _)).w - 1 - j)
    rw [s0.2]
  · rw [e2]
    have s := steps_size (flip m) (fun i j => (wm.getD fun _ _ => 1) (m.h - 1 - i) j) n.toNat
    refine ⟨s.1.trans s0.1.symm, s.2.trans s0.2.symm, fun i hi j hj => ?_⟩
    rw [s.1] at hi
    rw [s.2] at hj
    rw [steps_flip m _ n.toNat i hi j hj]
    show _ = ((step m _)^[n.toNat] (start m _)).get (((step m _)^[n.toNat] (start m _)).h - 1 - i) j
    rw [s0.1]
  · rw [e3]
    have s := steps_size (transp m) (fun i j => (wm.getD fun _ _ => 1) j i) n.toNat
    refine ⟨s.1.trans s0.2.symm, s.2.trans s0.1.symm, fun i hi j hj => ?_⟩
    rw [s.1] at hi
    rw [s.2] at hj
    exact steps_transp m _ n.toNat i hi j hj

/-- Non-vacuity of `SamePhase`: a ramp and the same ramp wrapped (pixel 5 is one turn lower) and offset. -/
example : SamePhase (⟨1, 8, fun _ j => (j : ℝ)⟩ : Mat ℝ) ⟨1, 8, fun _ j => wrapToPi j + 3⟩ := by
  refine ⟨rfl, rfl, 3, fun i _ j _ => ?_⟩
  obtain ⟨k, hk, -⟩ := wrapToPi_spec (j : ℝ)
  exact ⟨-k, by show wrapToPi (j : ℝ) + 3 = (j : ℝ) + 2 * Real.pi * ((-k : ℤ) : ℝ) + 3; rw [hk]; push_cast; ring⟩

end Verif.PhaseFft
