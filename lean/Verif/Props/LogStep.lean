import Verif.Model.LogStep
import Mathlib.Algebra.Order.Field.Rat
import Mathlib.Tactic.Linarith
import Mathlib.Tactic.NormNum

/-! C46 — what happens to the caller's array. -/

set_option linter.unusedSectionVars false
set_option linter.unusedSimpArgs false

namespace Verif.LogStep

variable {ι K : Type _} [Field K] [LinearOrder K] [IsStrictOrderedRing K]

theorem logStep_caller (lg : K → K) (b : Bool) (s : St ι K) (q : ι) : (logStep lg b s).caller q
    = open Classical in if b = true ∧ s.loc = none ∧ s.view q ∧ s.caller q ≤ 0 then 1 else s.caller q := by
  classical
  unfold logStep
  obtain ⟨c, v, l⟩ := s
  cases b with
  | false => simp
  | true =>
    simp only [if_true, St.rebind, true_and]
    by_cases h : ∃ q, v q ∧ (⟨c, v, l⟩ : St ι K).read q ≤ 0
    · rw [if_pos h]
      cases l <;> simp [St.fixInPlace]
    · rw [if_neg h]
      cases l with
      | none =>
        have hq : ¬ (v q ∧ c q ≤ 0) := fun hc => h ⟨q, hc⟩
        simp [hq]
      | some a => simp

theorem logStep_read (lg : K → K) (b : Bool) (s : St ι K) (q : ι) : (logStep lg b s).read q
    = open Classical in if b = true then lg (if s.view q ∧ s.read q ≤ 0 then 1 else s.read q) else s.read q := by
  classical
  unfold logStep
  obtain ⟨c, v, l⟩ := s
  cases b with
  | false => simp
  | true =>
    simp only [if_true, St.rebind]
    by_cases h : ∃ q, v q ∧ (⟨c, v, l⟩ : St ι K).read q ≤ 0
    · rw [if_pos h]
      cases l <;> simp [St.fixInPlace, St.read] <;> congr
    · rw [if_neg h]
      have hq : ¬ (v q ∧ (⟨c, v, l⟩ : St ι K).read q ≤ 0) := fun hc => h ⟨q, hc⟩
      rw [if_neg hq]
      rfl

/-- C46 (exact effect of fbp / bpf / gridrec / astra on the caller's array): non-positive values become one when
`apply_log` is set; nothing else changes. -/
theorem direct_caller (lg : K → K) (applyLog : Bool) (sino : ι → K) (q : ι) :
    (directCall lg applyLog sino).caller q
      = if applyLog = true ∧ sino q ≤ 0 then 1 else sino q := by
  unfold directCall
  rw [logStep_caller]
  simp

/-- C46 is false as stated: with `apply_log` a caller's sinogram holding a non-positive value is modified. -/
theorem reconstruction_input_unchanged_refuted :
    ¬ ∀ (lg : ℚ → ℚ) (sino : Nat → ℚ), (directCall lg true sino).caller = sino := by
  intro h
  have := congrFun (h id (fun _ => 0)) 0
  rw [direct_caller] at this
  norm_num at this

/-- C46 (partial): the caller's sinogram is unchanged exactly when `apply_log` is off or all its values are
positive.  Missing: data with non-positive values. -/
theorem reconstruction_input_unchanged_partial (lg : K → K) (applyLog : Bool) (sino : ι → K) :
    (directCall lg applyLog sino).caller = sino ↔ applyLog = false ∨ ∀ q, 0 < sino q := by
  constructor
  · intro h
    by_contra hc
    push Not at hc
    obtain ⟨h1, q, h2⟩ := hc
    have h3 := congrFun h q
    rw [direct_caller, if_pos ⟨by simpa using h1, h2⟩] at h3
    linarith
  · intro h
    funext q
    rw [direct_caller, if_neg]
    rintro ⟨h1, h2⟩
    rcases h with h | h
    · rw [h] at h1; cases h1
    · exact absurd (h q) (not_lt.mpr h2)

/-- The array reconstructed from: `-log` of the value, non-positive values counting as one. -/
theorem direct_local (lg : K → K) (sino : ι → K) (q : ι) :
    (directCall lg true sino).read q = lg (if sino q ≤ 0 then 1 else sino q) := by
  unfold directCall
  rw [logStep_read]
  simp [St.read]

/-- C46 (partial): the modification cannot change results: calling the same reconstruction again with the array left
behind by the first call reconstructs from the same data. -/
theorem reconstruction_repeatable_partial (lg : K → K) (applyLog : Bool) (sino : ι → K) :
    (directCall lg applyLog (directCall lg applyLog sino).caller).read = (directCall lg applyLog sino).read := by
  cases applyLog with
  | false =>
    have : (directCall lg false sino).caller = sino :=
      (reconstruction_input_unchanged_partial lg false sino).mpr (Or.inl rfl)
    rw [this]
  | true =>
    funext q
    rw [direct_local, direct_local, direct_caller]
    by_cases h : sino q ≤ 0
    · have h1 : ¬ (1 : K) ≤ 0 := by norm_num
      simp [h, h1]
    · simp [h]

/-- C46: `dfi_reconstruction` never modifies the caller's sinogram. -/
theorem dfi_input_unchanged (lg : K → K) (pre : (ι → K) → ι → K) (applyLog : Bool) (sino : ι → K) :
    (dfiCall lg pre applyLog sino).caller = sino := by
  funext q
  unfold dfiCall
  rw [logStep_caller]
  simp [St.rebind]

/-- C46: the centre searches leave the caller's array alone when smoothing is on; without smoothing they behave
like the direct routines. -/
theorem center_search_input (lg : K → K) (smooth : (ι → K) → ι → K) (sigma : K) (applyLog : Bool) (sino : ι → K) :
    (0 < sigma → (centerCall lg smooth sigma applyLog sino).caller = sino) ∧
    (sigma ≤ 0 → (centerCall lg smooth sigma applyLog sino).caller = (directCall lg applyLog sino).caller) := by
  classical
  constructor
  · intro h
    funext q
    unfold centerCall
    rw [logStep_caller]
    simp [h, St.rebind]
  · intro h
    unfold centerCall directCall
    simp only [not_lt.mpr h, gt_iff_lt, if_false]

theorem chunkPass_caller (lg : K → K) (flat : Option ((ι → K) → ι → K)) (applyLog : Bool) (chunk : ι → Prop)
    (proj : ι → K) (q : ι) : (chunkPass lg flat applyLog chunk proj).1 q
      = open Classical in if flat = none ∧ applyLog = true ∧ chunk q ∧ proj q ≤ 0 then 1 else proj q := by
  classical
  unfold chunkPass
  dsimp only
  rw [logStep_caller]
  cases flat <;> simp [St.rebind]

/-- C46 (vertical reconstruction, exact effect on the caller's projections): without flat/dark correction and with
`apply_log`, non-positive values inside the processed chunks and crop become one; all other values, and all values
in any other mode, are unchanged. -/
theorem vertical_caller (lg : K → K) (flat : Option ((ι → K) → ι → K)) (applyLog : Bool)
    (chunks : List (ι → Prop)) (proj : ι → K) (q : ι) :
    chunkLoop lg flat applyLog chunks proj q
      = open Classical in if flat = none ∧ applyLog = true ∧ (∃ c ∈ chunks, c q) ∧ proj q ≤ 0 then 1 else proj q := by
  classical
  unfold chunkLoop
  induction chunks generalizing proj with
  | nil => simp
  | cons c cs ih =>
    rw [List.foldl_cons, ih, chunkPass_caller]
    by_cases hf : flat = none ∧ applyLog = true
    · obtain ⟨h1, h2⟩ := hf
      simp only [h1, h2, true_and]
      by_cases hp : proj q ≤ 0
      · by_cases hc : c q
        · have h10 : ¬ (1 : K) ≤ 0 := by norm_num
          simp [hp, hc, h10]
        · simp [hp, hc]
      · simp [hp]
    · have h1 : ∀ P Q : Prop, ¬ (flat = none ∧ applyLog = true ∧ P ∧ Q) := fun P Q h => hf ⟨h.1, h.2.1⟩
      simp only [h1, if_false]

/-- C46 (partial, vertical reconstruction): with a flat or dark field, or `apply_log` off, or positive data, the caller's
projections are unchanged. -/
theorem vertical_input_unchanged_partial (lg : K → K) (flat : Option ((ι → K) → ι → K)) (applyLog : Bool)
    (chunks : List (ι → Prop)) (proj : ι → K) (h : flat ≠ none ∨ applyLog = false ∨ ∀ q, 0 < proj q) :
    chunkLoop lg flat applyLog chunks proj = proj := by
  classical
  funext q
  rw [vertical_caller, if_neg]
  rintro ⟨h1, h2, _, h3⟩
  rcases h with h | h | h
  · exact h h1
  · rw [h] at h2; cases h2
  · exact absurd (h q) (not_lt.mpr h3)

/-- Non-vacuity: a caller array `[2, -1]`; the second entry becomes 1, the first stays. -/
example : (directCall (fun x : ℚ => x) true (fun q : Bool => if q then 2 else -1)).caller false = 1 ∧
    (directCall (fun x : ℚ => x) true (fun q : Bool => if q then 2 else -1)).caller true = 2 := by
  constructor <;> rw [direct_caller] <;> norm_num

end Verif.LogStep
