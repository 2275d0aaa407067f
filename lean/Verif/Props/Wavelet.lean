import Verif.Model.Wavelet
import Mathlib.Data.List.GetD
import Mathlib.Tactic.Linarith

/-! C86–C88 — wavelet helpers. -/

set_option linter.unusedSectionVars false
set_option linter.unusedSimpArgs false

namespace Verif.Wavelet

/-! ### C86 -/

/-- What the `level` argument asks for, given `n` available levels: all levels, one level, or the listed levels in that order. -/
def Requested (n : Nat) : LevelArg → List Int → Prop
  | .none, l => l.length = n ∧ ∀ k < n, l.getD k 0 = (k : Int) + 1
  | .int i, l => l = [i] ∧ 1 ≤ i ∧ i ≤ n
  | .list r, l => l = r ∧ ∀ i ∈ r, 1 ≤ i ∧ i ≤ (n : Int)
  | .other, _ => False

/-- C86: `check_level` returns the requested levels if they all exist and raises `ValueError` otherwise. -/
theorem check_level_spec (arg : LevelArg) (n : Nat) (l : List Int) :
    (checkLevel arg n = .ok l ↔ Requested n arg l) ∧ ((∀ l, ¬ Requested n arg l) → checkLevel arg n = .error .valueError) := by
  have key : ∀ r : List Int, (∀ i ∈ r, 1 ≤ i ∧ i ≤ (n : Int)) → (r.map fun i => if 0 < i ∧ i ≤ (n : Int) then i else 0) = r := by
    intro r hr
    conv_rhs => rw [← List.map_id r]
    apply List.map_congr_left
    intro i hi
    have := hr i hi
    rw [if_pos (by omega)]
    rfl
  have key2 : ∀ r : List Int, ((r.map fun i => if 0 < i ∧ i ≤ (n : Int) then i else 0).contains 0 = true) ↔ ¬ ∀ i ∈ r, 1 ≤ i ∧ i ≤ (n : Int) := by
    intro r
    rw [List.contains_iff_mem, List.mem_map]
    constructor
    · rintro ⟨i, hi, h0⟩ hall
      have := hall i hi
      rw [if_pos (by omega)] at h0
      omega
    · intro h
      rw [not_forall] at h
      obtain ⟨i, h⟩ := h
      rw [Classical.not_imp] at h
      exact ⟨i, h.1, if_neg (by have := h.2; omega)⟩
  cases arg with
  | none =>
    constructor
    · unfold checkLevel Requested
      dsimp only
      constructor
      · intro h
        have h := (Except.ok.inj h).symm
        subst h
        refine ⟨by simp, ?_⟩
        intro k hk
        simp [hk]
      · rintro ⟨h1, h2⟩
        congr 1
        apply List.ext_getElem
        · simpa using h1.symm
        · intro k hk1 hk2
          have := h2 k (by omega)
          rw [List.getD_eq_getElem _ _ hk2] at this
          rw [this]
          simp
    · intro h
      exact absurd ⟨by simp, fun k hk => by simp [hk]⟩ (h ((List.range n).map fun k : Nat => (k : Int) + 1))
  | int i =>
    unfold checkLevel Requested
    dsimp only
    by_cases hi : 0 < i ∧ i ≤ n
    · rw [if_pos hi]
      constructor
      · constructor
        · intro h
          exact ⟨(Except.ok.inj h).symm, by omega, by omega⟩
        · rintro ⟨rfl, _⟩
          rfl
      · intro h
        exact absurd ⟨rfl, by omega, by omega⟩ (h [i])
    · rw [if_neg hi]
      constructor
      · constructor
        · intro h; cases h
        · rintro ⟨_, a, b⟩
          exact absurd ⟨by omega, by omega⟩ hi
      · intro _; rfl
  | list r =>
    unfold checkLevel Requested
    dsimp only
    by_cases hr : ∀ i ∈ r, 1 ≤ i ∧ i ≤ (n : Int)
    · rw [if_neg (by rw [key2]; exact not_not_intro hr), key r hr]
      constructor
      · constructor
        · intro h
          exact ⟨(Except.ok.inj h).symm, hr⟩
        · rintro ⟨rfl, _⟩
          rfl
      · intro h
        exact absurd ⟨rfl, hr⟩ (h r)
    · rw [if_pos ((key2 r).2 hr)]
      constructor
      · constructor
        · intro h; cases h
        · rintro ⟨_, h⟩
          exact absurd h hr
      · intro _; rfl
  | other =>
    unfold checkLevel Requested
    constructor
    · constructor
      · intro h; cases h
      · intro h; exact h.elim
    · intro _; rfl

variable {A : Type _} [Inhabited A]

theorem set_length (d : WData A) (i o : Nat) (v : A) : (d.set i o v).details.length = d.details.length := by
  simp [WData.set]

theorem getD_modify (l : List (Nat → A)) (a b c : Nat) (g : (Nat → A) → Nat → A) (dflt : Nat → A) (h : a < l.length) :
    (l.modify a g).getD b dflt c = if b = a then g (l.getD b dflt) c else l.getD b dflt c := by
  rw [List.getD_eq_getElem?_getD, List.getD_eq_getElem?_getD, List.getElem?_modify]
  by_cases hb : b = a
  · subst hb
    simp [h]
  · have : ¬ a = b := fun e => hb e.symm
    simp [hb, this]

theorem get_set (d : WData A) (i i' o c : Nat) (v : A) (hi : 1 ≤ i) (hin : i ≤ d.details.length) (hi' : 1 ≤ i') :
    (d.set i o v).get i' c = if i' = i ∧ c = o then v else d.get i' c := by
  unfold WData.get WData.set
  dsimp only
  rw [getD_modify _ _ _ _ _ _ (by omega)]
  by_cases h : i' = i
  · subst h
    by_cases hc : c = o <;> simp [hc]
  · rw [if_neg (by omega), if_neg (fun hc => h hc.1)]

/-- Specification: the method applied `n` times, stopping at the first error. -/
def repeatM (f : A → Py A) : Nat → A → Py A
  | 0, x => .ok x
  | n + 1, x => (f x).bind (repeatM f n)

/-- C86: `apply_filter_to_wavelet_component` filters component `order` (clipped to 0…2) of the requested levels, once per occurrence
of the level in the request, and leaves the approximation, the other components and the other levels alone. It raises if and only if the
method raises on one of the requested components, with an error of the method. -/
theorem apply_filter_spec (data : WData A) (level : LevelArg) (levels : List Int) (order : Int) (f : A → Py A)
    (h : Requested data.details.length level levels) :
    (∃ out, applyFilter data level order (some f) = .ok out ∧ out.approx = data.approx ∧ out.details.length = data.details.length ∧
      ∀ i, 1 ≤ i → i ≤ data.details.length → ∀ c : Nat,
        if (c : Int) = max 0 (min order 2) then repeatM f (levels.count (i : Int)) (data.get i c) = .ok (out.get i c)
        else out.get i c = data.get i c) ∨
    (∃ e, applyFilter data level order (some f) = .error e ∧ ∃ i, 1 ≤ i ∧ i ≤ data.details.length ∧ (i : Int) ∈ levels ∧
      ∃ c : Nat, (c : Int) = max 0 (min order 2) ∧ repeatM f (levels.count (i : Int)) (data.get i c) = .error e) := by
  have hok := ((check_level_spec level data.details.length levels).1).2 h
  have hrange : ∀ i ∈ levels, 1 ≤ i ∧ i ≤ (data.details.length : Int) := by
    intro i hi
    cases level with
    | none =>
      obtain ⟨h1, h2⟩ := h
      obtain ⟨k, hk, rfl⟩ := List.getElem_of_mem hi
      have := h2 k (by omega)
      rw [List.getD_eq_getElem _ _ hk] at this
      omega
    | int j =>
      obtain ⟨rfl, h1, h2⟩ := h
      simp only [List.mem_singleton] at hi
      omega
    | list r =>
      obtain ⟨rfl, h2⟩ := h
      exact h2 i hi
    | other => exact h.elim
  have ho : ∀ c : Nat, (c : Int) = max 0 (min order 2) ↔ c = (npClip order 0 2).toNat := by
    intro c
    unfold npClip
    omega
  generalize hO : (npClip order 0 2).toNat = o at ho
  have main : ∀ (ls : List Int) (d : WData A), d.details.length = data.details.length → (∀ i ∈ ls, 1 ≤ i ∧ i ≤ (data.details.length : Int)) →
      (∃ out, (ls.foldlM (init := d) fun d i => (do
          let v ← f (d.get i.toNat o)
          .ok (d.set i.toNat o v) : Py (WData A))) = .ok out ∧
        out.approx = d.approx ∧ out.details.length = d.details.length ∧
        ∀ i, 1 ≤ i → i ≤ data.details.length → ∀ c : Nat, if c = o then repeatM f (ls.count (i : Int)) (d.get i c) = .ok (out.get i c)
          else out.get i c = d.get i c) ∨
      (∃ e, (ls.foldlM (init := d) fun d i => (do
          let v ← f (d.get i.toNat o)
          .ok (d.set i.toNat o v) : Py (WData A))) = .error e ∧
        ∃ i, 1 ≤ i ∧ i ≤ data.details.length ∧ (i : Int) ∈ ls ∧ repeatM f (ls.count (i : Int)) (d.get i o) = .error e) := by
    intro ls
    induction ls with
    | nil =>
      intro d _ _
      refine Or.inl ⟨d, rfl, rfl, rfl, fun i _ _ c => ?_⟩
      by_cases hc : c = o
      · rw [if_pos hc]; rfl
      · rw [if_neg hc]
    | cons a ls ih =>
      intro d hd hall
      have ha := hall a (by simp)
      have ha' : a = (a.toNat : Int) := by omega
      rw [List.foldlM_cons]
      cases hf : f (d.get a.toNat o) with
      | error e =>
        refine Or.inr ⟨e, rfl, a.toNat, by omega, by omega, by rw [← ha']; simp, ?_⟩
        rw [← ha', List.count_cons_self]
        unfold repeatM
        rw [hf]
        rfl
      | ok v =>
        have hget : ∀ i, 1 ≤ i → i ≤ data.details.length → ∀ c, (d.set a.toNat o v).get i c = if i = a.toNat ∧ c = o then v else d.get i c :=
          fun i hi1 hi2 c => get_set d a.toNat i o c v (by omega) (by omega) hi1
        have hrep : ∀ i, 1 ≤ i → i ≤ data.details.length →
            repeatM f ((a :: ls).count (i : Int)) (d.get i o) = repeatM f (ls.count (i : Int)) ((d.set a.toNat o v).get i o) := by
          intro i hi1 hi2
          rw [hget i hi1 hi2]
          by_cases hia : i = a.toNat
          · subst hia
            rw [if_pos ⟨rfl, rfl⟩, ← ha', List.count_cons_self]
            conv_lhs => unfold repeatM
            rw [hf]
            rfl
          · rw [if_neg (fun h => hia h.1), List.count_cons_of_ne (by omega)]
        rcases ih (d.set a.toNat o v) (by rw [set_length]; exact hd) (fun i hi => hall i (by simp [hi])) with
          ⟨out, h1, h2, h3, h4⟩ | ⟨e, h1, i, hi1, hi2, hi3, hi4⟩
        · refine Or.inl ⟨out, h1, h2, by rw [h3, set_length], fun i hi1 hi2 c => ?_⟩
          have h5 := h4 i hi1 hi2 c
          by_cases hc : c = o
          · subst hc
            rw [if_pos rfl] at h5 ⊢
            rw [hrep i hi1 hi2]
            exact h5
          · rw [if_neg hc] at h5 ⊢
            rw [h5, hget i hi1 hi2, if_neg (fun h => hc h.2)]
        · refine Or.inr ⟨e, h1, i, hi1, hi2, by simp [hi3], ?_⟩
          rw [hrep i hi1 hi2]
          exact hi4
  rcases main levels data rfl hrange with ⟨out, h1, h2, h3, h4⟩ | ⟨e, h1, i, hi1, hi2, hi3, hi4⟩
  · refine Or.inl ⟨out, ?_, h2, h3, ?_⟩
    · unfold applyFilter
      rw [hok]
      subst hO
      exact h1
    · intro i hi1 hi2 c
      have h5 := h4 i hi1 hi2 c
      simp only [ho]
      exact h5
  · refine Or.inr ⟨e, ?_, i, hi1, hi2, hi3, o, (ho o).2 rfl, hi4⟩
    unfold applyFilter
    rw [hok]
    subst hO
    exact h1

/-- C86: a level out of range raises `ValueError`, and so does an unknown method (unless the list of levels is empty, when nothing is
looked up and the data comes back as it was). -/
theorem apply_filter_errors (data : WData A) (level : LevelArg) (order : Int) (method : Option (A → Py A)) :
    ((∀ l, ¬ Requested data.details.length level l) → applyFilter data level order method = .error .valueError) ∧
    (∀ l, Requested data.details.length level l → l ≠ [] → applyFilter data level order none = .error .valueError) ∧
    applyFilter data (.list []) order none = .ok data := by
  refine ⟨?_, ?_, rfl⟩
  · intro h
    unfold applyFilter
    rw [(check_level_spec level data.details.length []).2 h]
    rfl
  · intro l h hne
    unfold applyFilter
    rw [((check_level_spec level data.details.length l).1).2 h]
    cases l with
    | nil => exact absurd rfl hne
    | cons a l => rfl

/-- Non-vacuity: two levels, horizontal details of the finest level doubled. -/
example : Requested 2 (.int 2) [2] ∧
    (∃ out, applyFilter (A := Nat) ⟨7, [fun c => c + 1, fun c => c + 10]⟩ (.int 2) 1 (some fun x => if x = 0 then .error .valueError else .ok (2 * x)) = .ok out ∧
      out.get 2 1 = 22 ∧ out.get 2 0 = 10 ∧ out.get 1 1 = 2) := by
  refine ⟨⟨rfl, by decide, by decide⟩, _, rfl, ?_, ?_, ?_⟩ <;> rfl

/-- The method raises on the second level. -/
example : applyFilter (A := Nat) ⟨7, [fun c => c + 1, fun c => c]⟩ .none 0 (some fun x => if x = 0 then .error .valueError else .ok (2 * x)) =
    .error .valueError := rfl

/-! ### C87 -/

theorem floor_log (n : Nat) (hn : 0 < n) (L : Int) : L ≤ ⌊Real.logb 2 ((n : ℝ) / 16)⌋ ↔ (2 : ℝ) ^ (L + 4) ≤ n := by
  have hpos : (0 : ℝ) < (n : ℝ) / 16 := div_pos (by exact_mod_cast hn) (by norm_num)
  rw [Int.le_floor, Real.le_logb_iff_rpow_le (by norm_num) hpos, Real.rpow_intCast, le_div_iff₀ (by norm_num), zpow_add₀ (by norm_num)]
  norm_num

theorem pow_cast (L : Nat) (n : Nat) : (2 : ℝ) ^ ((L : Int) + 4) ≤ n ↔ 16 * 2 ^ L ≤ n := by
  rw [zpow_add₀ (by norm_num), zpow_natCast]
  constructor
  · intro h
    have : ((16 * 2 ^ L : Nat) : ℝ) ≤ n := by
      push_cast
      have : (2 : ℝ) ^ (4 : Int) = 16 := by norm_num
      rw [this] at h
      linarith
    exact_mod_cast this
  · intro h
    have : ((16 * 2 ^ L : Nat) : ℝ) ≤ n := by exact_mod_cast h
    push_cast at this
    have e : (2 : ℝ) ^ (4 : Int) = 16 := by norm_num
    rw [e]
    linarith

theorem le_maxLevel (nrow ncol : Nat) (hr : 0 < nrow) (hc : 0 < ncol) (L : Nat) :
    (L : Int) ≤ maxLevel nrow ncol ↔ 16 * 2 ^ L ≤ min nrow ncol := by
  unfold maxLevel
  rw [le_min_iff, floor_log nrow hr, floor_log ncol hc, pow_cast, pow_cast, le_min_iff]

/-- C87: the level used by `apply_wavelet_decomposition` for images with both sides at least 16: the requested one if it leaves at least 16
pixels per side at that scale, otherwise the largest such level (0 for images below 32). -/
theorem level_used (nrow ncol : Nat) (h : 16 ≤ min nrow ncol) (level : Option Int) :
    ∃ L, levelUsed nrow ncol level = .ok L ∧ 16 * 2 ^ L ≤ min nrow ncol ∧
      (∀ l : Nat, level = some (l : Int) → 1 ≤ l → 16 * 2 ^ l ≤ min nrow ncol → L = l) ∧
      ((level = none ∨ ∃ l, level = some l ∧ (l < 1 ∨ min nrow ncol < 16 * 2 ^ l.toNat)) → min nrow ncol < 16 * 2 ^ (L + 1)) := by
  have hr : 0 < nrow := by omega
  have hc : 0 < ncol := by omega
  have h0 : 0 ≤ maxLevel nrow ncol := by
    have := (le_maxLevel nrow ncol hr hc 0).2 (by simpa using h)
    exact_mod_cast this
  obtain ⟨M, hM⟩ := Int.eq_ofNat_of_zero_le h0
  have hm1 : 16 * 2 ^ M ≤ min nrow ncol := (le_maxLevel nrow ncol hr hc M).1 (by omega)
  have hm2 : min nrow ncol < 16 * 2 ^ (M + 1) := by
    by_contra hcon
    have := (le_maxLevel nrow ncol hr hc (M + 1)).2 (by omega)
    push_cast at this
    omega
  have hle : ∀ l : Nat, (l : Int) ≤ M ↔ 16 * 2 ^ l ≤ min nrow ncol := by
    intro l
    rw [← le_maxLevel nrow ncol hr hc l, hM]
  unfold levelUsed
  dsimp only
  rw [hM]
  cases level with
  | none =>
    refine ⟨M, ?_, hm1, ?_, fun _ => hm2⟩
    · dsimp only
      rw [if_neg (by omega)]
      rfl
    · intro l hl; cases hl
  | some l =>
    dsimp only
    by_cases hl : l > (M : Int) ∨ l < 1
    · refine ⟨M, ?_, hm1, ?_, fun _ => hm2⟩
      · simp only [if_pos hl]
        rw [if_neg (by omega)]
        rfl
      · intro l' hl' h1 h2
        have hl' := Option.some.inj hl'
        have := (hle l').2 h2
        omega
    · refine ⟨l.toNat, ?_, ?_, ?_, ?_⟩
      · simp only [if_neg hl]
        rw [if_neg (by omega)]
      · exact (hle l.toNat).1 (by omega)
      · intro l' hl' _ _
        have hl' := Option.some.inj hl'
        omega
      · rintro (h | ⟨l', h1, h2⟩)
        · cases h
        · have h1 := Option.some.inj h1
          subst h1
          rcases h2 with h2 | h2
          · omega
          · have := (hle l.toNat).1 (by omega)
            omega

/-- C87: images with a side below 16 pixels are rejected, whatever the level. -/
theorem level_too_small (nrow ncol : Nat) (hr : 0 < nrow) (hc : 0 < ncol) (h : min nrow ncol < 16) (level : Option Int) :
    levelUsed nrow ncol level = .error .valueError := by
  have hneg : maxLevel nrow ncol < 0 := by
    by_contra hcon
    have := (le_maxLevel nrow ncol hr hc 0).1 (by push_cast; omega)
    omega
  unfold levelUsed
  dsimp only
  cases level with
  | none => dsimp only; rw [if_pos hneg]
  | some l =>
    dsimp only
    by_cases hl : l > maxLevel nrow ncol ∨ l < 1
    · simp only [if_pos hl]
      rw [if_pos hneg]
    · omega

/-! ### C88 -/

variable {B : Type _}

/-- Full claim: reconstruction leaves the caller's components alone. -/
def KeepsData (zero : A → A) (waverec : WData A → B) (data : WData A) (ignore : Option Int) : Prop :=
  (reconstruct zero waverec data ignore).2 = data

/-- C88, the result: the components of the level counted from the finest are replaced by zeros (1 = finest), all other components are
used as they are; a level out of range ignores nothing. -/
theorem reconstruct_ignores (zero : A → A) (waverec : WData A → B) (data : WData A) (ignore : Option Int) :
    ∃ d : WData A, (reconstruct zero waverec data ignore).1 = waverec d ∧ d.approx = data.approx ∧
      d.details.length = data.details.length ∧
      ∀ i, 1 ≤ i → i ≤ data.details.length → ∀ c,
        d.get i c = if ignore = some ((data.details.length - i + 1 : Nat) : Int) then zero (data.get i c) else data.get i c := by
  unfold reconstruct
  cases ignore with
  | none => exact ⟨data, rfl, rfl, rfl, fun i _ _ c => by simp⟩
  | some k =>
    dsimp only
    by_cases hk : 0 < k ∧ k ≤ data.details.length
    · rw [if_pos hk]
      refine ⟨_, rfl, rfl, by simp, ?_⟩
      intro i hi1 hi2 c
      unfold WData.get
      dsimp only
      rw [getD_modify _ _ _ _ _ _ (by omega)]
      by_cases hi : i - 1 = data.details.length - k.toNat
      · rw [if_pos hi, if_pos (by congr 1; omega)]
      · rw [if_neg hi, if_neg (by intro h; have := Option.some.inj h; omega)]
    · rw [if_neg hk]
      refine ⟨data, rfl, rfl, rfl, ?_⟩
      intro i hi1 hi2 c
      rw [if_neg]
      intro h
      have := Option.some.inj h
      omega

/-- C88 is false of the code: whenever a level is ignored and one of its components is not already zero, the caller's data has
changed after the call — so a second reconstruction from the same data lacks that level too. -/
theorem reconstruct_refuted (zero : A → A) (waverec : WData A → B) (data : WData A) (k : Nat) (h1 : 1 ≤ k) (hk : k ≤ data.details.length)
    (c : Nat) (hz : zero (data.get (data.details.length - k + 1) c) ≠ data.get (data.details.length - k + 1) c) :
    ¬ KeepsData zero waverec data (some (k : Int)) ∧
    (reconstruct zero waverec (reconstruct zero waverec data (some (k : Int))).2 none).1 =
      (reconstruct zero waverec data (some (k : Int))).1 := by
  have hpos : 0 < (k : Int) ∧ (k : Int) ≤ data.details.length := by omega
  constructor
  · unfold KeepsData reconstruct
    dsimp only
    rw [if_pos hpos]
    intro h
    apply hz
    have h2 := congrArg (fun d : WData A => d.get (data.details.length - k + 1) c) h
    dsimp only at h2
    rw [← h2]
    conv_rhs => unfold WData.get
    dsimp only
    rw [getD_modify _ _ _ _ _ _ (by omega), if_pos (by omega), h2]
    rfl
  · unfold reconstruct
    dsimp only
    rw [if_pos hpos]

/-- C88 (partial): without an ignored level the data is untouched. -/
theorem reconstruct_partial (zero : A → A) (waverec : WData A → B) (data : WData A) (ignore : Option Int)
    (h : ∀ k, ignore = some k → k < 1 ∨ (data.details.length : Int) < k) : KeepsData zero waverec data ignore := by
  unfold KeepsData reconstruct
  cases ignore with
  | none => rfl
  | some k =>
    have := h k rfl
    dsimp only
    rw [if_neg (by omega)]

/-- Non-vacuity: two levels of numbers. -/
example : ¬ KeepsData (A := Nat) (fun _ => 0) (fun d => d.approx) ⟨7, [fun c => c + 1, fun c => c + 10]⟩ (some ((1 : Nat) : Int)) :=
  (reconstruct_refuted (fun _ => 0) _ _ 1 (by decide) (by decide) 0 (by decide)).1

end Verif.Wavelet
