import Verif.Model.GridFix
import Mathlib.Tactic.Linarith
import Mathlib.Tactic.Push
import Mathlib.Tactic.ByContra
import Mathlib.Data.List.Nodup
import Mathlib.Data.List.Lex
import Mathlib.Data.Int.Notation

/-!
C58: `fix_non_sample_areas`.
-/

set_option linter.unusedSectionVars false
set_option linter.unusedSimpArgs false

namespace Verif.GridFix

variable {K : Type*} [Zero K] [DecidableEq K]

/-! ### Specification -/

/-- The entry belongs to a cell with sample. -/
def Sample (m : Mat (K × K)) (i j : ℕ) : Prop := i < m.h ∧ j < m.w ∧ (m.get i j).1 ≠ 0

/-- Number of steps between two cells of the grid. -/
def dist (a b : ℕ × ℕ) : ℕ := (a.1 - b.1) + (b.1 - a.1) + ((a.2 - b.2) + (b.2 - a.2))

/-- Documented order of preference of the neighbours: along the row first for "vertical", along the column first for
"horizontal". -/
def preference (vertical : Bool) (i j : ℤ) : List (ℤ × ℤ) :=
  if vertical then [(i, j - 1), (i, j + 1), (i - 1, j), (i + 1, j)]
  else [(i - 1, j), (i + 1, j), (i, j - 1), (i, j + 1)]

/-! ### Folding updates over a list -/

section fold
variable {C V : Type*} [DecidableEq C] (g : (C → V) → C → V)

/-- Sequential updates: a cell not in the list is unchanged. -/
theorem fold_not_mem (L : List C) (s : C → V) (n : C) (hn : n ∉ L) :
    L.foldl (fun s c => Function.update s c (g s c)) s n = s n := by
  induction L generalizing s with
  | nil => rfl
  | cons c L ih =>
    rw [List.foldl_cons, ih _ (fun h => hn (List.mem_cons_of_mem _ h)), Function.update_of_ne]
    rintro rfl
    exact hn (by simp)

/-- Sequential updates: the cell `c` is computed from the state at its turn, in which the cells before it have their final
value and the others their initial one. -/
theorem fold_at (L1 L2 : List C) (c : C) (hnd : (L1 ++ c :: L2).Nodup) (s : C → V) :
    ∃ t : C → V, (L1 ++ c :: L2).foldl (fun s c => Function.update s c (g s c)) s c = g t c ∧
      (∀ n, n ∈ L1 → t n = (L1 ++ c :: L2).foldl (fun s c => Function.update s c (g s c)) s n) ∧ ∀ n, n ∉ L1 → t n = s n := by
  refine ⟨L1.foldl (fun s c => Function.update s c (g s c)) s, ?_, ?_, fun n hn => fold_not_mem g L1 s n hn⟩
  · rw [List.foldl_append, List.foldl_cons]
    have : c ∉ L2 := by
      have := (List.nodup_append.1 hnd).2.1
      exact (List.nodup_cons.1 this).1
    rw [fold_not_mem g L2 _ c this, Function.update_self]
  · intro n hn
    rw [List.foldl_append]
    refine (fold_not_mem g (c :: L2) _ n ?_).symm
    intro h2
    exact (List.nodup_append.1 hnd).2.2 n hn n h2 rfl

end fold

/-! ### The order of the cells -/

theorem mem_cells (v : Bool) (nr nc : ℕ) (c : ℕ × ℕ) : c ∈ cells v nr nc ↔ c.1 < nr ∧ c.2 < nc := by
  obtain ⟨i, j⟩ := c
  unfold cells
  cases v <;> simp [List.mem_flatMap]
  · constructor <;> rintro ⟨a, b⟩ <;> exact ⟨b, a⟩

/-- `a` is visited before `b` in the first pass. -/
def Before (v : Bool) (a b : ℕ × ℕ) : Prop :=
  if v then a.1 < b.1 ∨ (a.1 = b.1 ∧ a.2 < b.2) else a.2 < b.2 ∨ (a.2 = b.2 ∧ a.1 < b.1)

theorem cells_sorted (v : Bool) (nr nc : ℕ) : (cells v nr nc).Pairwise (Before v) := by
  unfold cells
  cases v
  · rw [if_neg (by simp), List.pairwise_flatMap]
    constructor
    · intro i _
      rw [List.pairwise_map]
      exact List.pairwise_lt_range.imp fun h => by simp [Before, h]
    · refine List.pairwise_lt_range.imp fun h => ?_
      intro x hx y hy
      rw [List.mem_map] at hx hy
      obtain ⟨_, _, rfl⟩ := hx
      obtain ⟨_, _, rfl⟩ := hy
      simp [Before, h]
  · rw [if_pos rfl, List.pairwise_flatMap]
    constructor
    · intro i _
      rw [List.pairwise_map]
      exact List.pairwise_lt_range.imp fun h => by simp [Before, h]
    · refine List.pairwise_lt_range.imp fun h => ?_
      intro x hx y hy
      rw [List.mem_map] at hx hy
      obtain ⟨_, _, rfl⟩ := hx
      obtain ⟨_, _, rfl⟩ := hy
      simp [Before, h]

theorem before_irrefl (v : Bool) (a : ℕ × ℕ) : ¬ Before v a a := by
  unfold Before
  split <;> omega

theorem before_asymm {v : Bool} {a b : ℕ × ℕ} (h : Before v a b) : ¬ Before v b a := by
  unfold Before at *
  split at h <;> rename_i hv <;> simp only [hv, if_true, if_false, Bool.false_eq_true] <;> omega

theorem cells_nodup (v : Bool) (nr nc : ℕ) : (cells v nr nc).Nodup :=
  (cells_sorted v nr nc).imp fun h e => by subst e; exact before_irrefl _ _ h

theorem split_reverse (v : Bool) (nr nc : ℕ) (c : ℕ × ℕ) (hc : c.1 < nr ∧ c.2 < nc) :
    ∃ L1 L2, (cells v nr nc).reverse = L1 ++ c :: L2 ∧ ∀ n, n ∈ L1 ↔ (n.1 < nr ∧ n.2 < nc) ∧ Before v c n := by
  have hm : c ∈ (cells v nr nc).reverse := List.mem_reverse.2 ((mem_cells ..).2 hc)
  obtain ⟨L1, L2, h⟩ := List.append_of_mem hm
  refine ⟨L1, L2, h, ?_⟩
  have hp : (cells v nr nc).reverse.Pairwise (fun a b => Before v b a) := List.pairwise_reverse.2 (cells_sorted v nr nc)
  rw [h, List.pairwise_append] at hp
  intro n
  constructor
  · intro hn
    refine ⟨(mem_cells v nr nc n).1 (List.mem_reverse.1 (by rw [h]; simp [hn])), hp.2.2 n hn c (by simp)⟩
  · rintro ⟨h1, h2⟩
    have : n ∈ L1 ++ c :: L2 := by rw [← h]; exact List.mem_reverse.2 ((mem_cells ..).2 h1)
    rw [List.mem_append, List.mem_cons] at this
    rcases this with h3 | rfl | h3
    · exact h3
    · exact absurd h2 (before_irrefl _ _)
    · have := (List.pairwise_cons.1 hp.2.1).1 n h3
      exact absurd h2 (before_asymm this)

/-! ### One cell -/

/-- The value given to a cell. -/
def cellVal (v : Bool) (nr nc : ℕ) (src : ℕ × ℕ → K × K) (own : K × K) (c : ℕ × ℕ) : K × K :=
  if (src c).1 = 0 then (pick nr nc src (neighbours v c)).getD own else own

theorem fixCell_eq (v : Bool) (nr nc : ℕ) (src cur : ℕ × ℕ → K × K) (c : ℕ × ℕ) :
    fixCell v nr nc src cur c = Function.update cur c (cellVal v nr nc src (cur c) c) := by
  unfold fixCell cellVal
  by_cases h : (src c).1 = 0
  · rw [if_pos h, if_pos h]
    rcases pick nr nc src (neighbours v c) with _ | x
    · simp
    · simp
  · rw [if_neg h, if_neg h]
    simp

theorem pick_spec (nr nc : ℕ) (src : ℕ × ℕ → K × K) (l : List (ℤ × ℤ)) (x : K × K) (h : pick nr nc src l = some x) :
    x.1 ≠ 0 ∧ ∃ a b : ℕ, ((a : ℤ), (b : ℤ)) ∈ l ∧ a < nr ∧ b < nc ∧ x = src (a, b) := by
  induction l with
  | nil => simp [pick] at h
  | cons p l ih =>
    obtain ⟨a, b⟩ := p
    rw [pick] at h
    by_cases hc : 0 ≤ a ∧ a < nr ∧ 0 ≤ b ∧ b < nc ∧ (src (a.toNat, b.toNat)).1 ≠ 0
    · rw [if_pos hc] at h
      injection h with h
      subst h
      refine ⟨hc.2.2.2.2, a.toNat, b.toNat, ?_, by omega, by omega, rfl⟩
      rw [Int.toNat_of_nonneg hc.1, Int.toNat_of_nonneg hc.2.2.1]
      simp
    · rw [if_neg hc] at h
      obtain ⟨h1, a', b', h2, h3⟩ := ih h
      exact ⟨h1, a', b', List.mem_cons_of_mem _ h2, h3⟩

theorem pick_isSome (nr nc : ℕ) (src : ℕ × ℕ → K × K) (l : List (ℤ × ℤ)) (a b : ℕ) (hl : ((a : ℤ), (b : ℤ)) ∈ l) (ha : a < nr)
    (hb : b < nc) (h0 : (src (a, b)).1 ≠ 0) : (pick nr nc src l).isSome := by
  induction l with
  | nil => cases hl
  | cons p l ih =>
    obtain ⟨a', b'⟩ := p
    rw [pick]
    split
    · rfl
    · rename_i hc
      rcases List.mem_cons.1 hl with h | h
      · injection h with h1 h2
        subst h1 h2
        exfalso
        apply hc
        simp only [Int.toNat_natCast]
        exact ⟨by omega, by omega, by omega, by omega, h0⟩
      · exact ih h

theorem mem_neighbours (v : Bool) (i j a b : ℕ) :
    ((a : ℤ), (b : ℤ)) ∈ neighbours v (i, j) ↔
      (a = i ∧ b + 1 = j) ∨ (a = i ∧ b = j + 1) ∨ (a + 1 = i ∧ b = j) ∨ (a = i + 1 ∧ b = j) := by
  unfold neighbours
  cases v <;> simp <;> omega

theorem dist_one (i j a b : ℕ) : dist (a, b) (i, j) = 1 ↔
    (a = i ∧ b + 1 = j) ∨ (a = i ∧ b = j + 1) ∨ (a + 1 = i ∧ b = j) ∨ (a = i + 1 ∧ b = j) := by
  unfold dist
  simp only
  omega

/-- The value of a cell: its own if it has an area, otherwise a neighbour's if one of them has an area. -/
theorem cellVal_ne (v : Bool) (nr nc : ℕ) (src : ℕ × ℕ → K × K) (c : ℕ × ℕ) :
    (cellVal v nr nc src (src c) c).1 ≠ 0 ↔
      (src c).1 ≠ 0 ∨ ∃ a b : ℕ, a < nr ∧ b < nc ∧ dist (a, b) c = 1 ∧ (src (a, b)).1 ≠ 0 := by
  obtain ⟨i, j⟩ := c
  unfold cellVal
  by_cases h : (src (i, j)).1 = 0
  · rw [if_pos h]
    simp only [h, ne_eq, not_true_eq_false, false_or]
    constructor
    · intro h1
      rcases hp : pick nr nc src (neighbours v (i, j)) with _ | x
      · rw [hp] at h1
        exact absurd h h1
      · obtain ⟨h2, a, b, h3, h4, h5, h6⟩ := pick_spec _ _ _ _ _ hp
        exact ⟨a, b, h4, h5, (dist_one ..).2 ((mem_neighbours ..).1 h3), h6 ▸ h2⟩
    · rintro ⟨a, b, h1, h2, h3, h4⟩
      have := pick_isSome nr nc src (neighbours v (i, j)) a b ((mem_neighbours ..).2 ((dist_one ..).1 h3)) h1 h2 h4
      rcases hp : pick nr nc src (neighbours v (i, j)) with _ | x
      · rw [hp] at this; cases this
      · exact (pick_spec _ _ _ _ _ hp).1
  · rw [if_neg h]
    simp [h]

/-! ### The two passes -/

/-- Result of the first pass. -/
def fwd (v : Bool) (m : Mat (K × K)) : ℕ × ℕ → K × K :=
  (cells v m.h m.w).foldl (fun cur c => fixCell v m.h m.w (fun c => m.get c.1 c.2) cur c) fun c => m.get c.1 c.2

theorem fwd_eq (v : Bool) (m : Mat (K × K)) (c : ℕ × ℕ) (hc : c.1 < m.h ∧ c.2 < m.w) :
    fwd v m c = cellVal v m.h m.w (fun c => m.get c.1 c.2) (m.get c.1 c.2) c := by
  unfold fwd
  simp only [fixCell_eq]
  obtain ⟨L1, L2, h⟩ := List.append_of_mem ((mem_cells v m.h m.w c).2 hc)
  have hnd := cells_nodup v m.h m.w
  rw [h] at hnd ⊢
  obtain ⟨t, h1, _, h3⟩ := fold_at (fun s c => cellVal v m.h m.w (fun c => m.get c.1 c.2) (s c) c) L1 L2 c hnd
    (fun c => m.get c.1 c.2)
  rw [h1, h3]
  intro hn
  exact (List.nodup_append.1 hnd).2.2 c hn c (by simp) rfl

theorem fix_eq (v : Bool) (m : Mat (K × K)) (i j : ℕ) :
    (fixNonSampleAreas v m).get i j = (cells v m.h m.w).reverse.foldl
      (fun s c => Function.update s c (cellVal v m.h m.w s (s c) c)) (fwd v m) (i, j) := by
  have : (fun (s : ℕ × ℕ → K × K) c => Function.update s c (cellVal v m.h m.w s (s c) c)) =
      fun cur c => fixCell v m.h m.w cur cur c := by
    funext s c
    rw [fixCell_eq]
  rw [this]
  rfl

/-- The second pass at one cell: the cells after it (in the first pass) are final, the others as left by the first pass. -/
theorem fix_at (v : Bool) (m : Mat (K × K)) (c : ℕ × ℕ) (hc : c.1 < m.h ∧ c.2 < m.w) :
    ∃ t : ℕ × ℕ → K × K, (fixNonSampleAreas v m).get c.1 c.2 = cellVal v m.h m.w t (t c) c ∧ t c = fwd v m c ∧
      ∀ n : ℕ × ℕ, n.1 < m.h → n.2 < m.w →
        (Before v c n → t n = (fixNonSampleAreas v m).get n.1 n.2) ∧ (¬ Before v c n → t n = fwd v m n) := by
  obtain ⟨L1, L2, h, hL⟩ := split_reverse v m.h m.w c hc
  have hnd : (L1 ++ c :: L2).Nodup := by rw [← h]; exact List.nodup_reverse.2 (cells_nodup v m.h m.w)
  obtain ⟨t, h1, h2, h3⟩ := fold_at (fun s c => cellVal v m.h m.w s (s c) c) L1 L2 c hnd (fwd v m)
  refine ⟨t, ?_, ?_, ?_⟩
  · rw [fix_eq, h]
    exact h1
  · apply h3
    rw [hL]
    exact fun h => before_irrefl _ _ h.2
  · intro n hn1 hn2
    constructor
    · intro hb
      rw [h2 n ((hL n).2 ⟨⟨hn1, hn2⟩, hb⟩), fix_eq, h]
    · intro hb
      exact h3 n fun hn => hb ((hL n).1 hn).2

/-- C58: the shape is kept and an entry with a non-zero area is kept, in both directions. -/
theorem fix_keeps (v : Bool) (m : Mat (K × K)) :
    (fixNonSampleAreas v m).h = m.h ∧ (fixNonSampleAreas v m).w = m.w ∧
    ∀ i j, Sample m i j → (fixNonSampleAreas v m).get i j = m.get i j := by
  refine ⟨rfl, rfl, ?_⟩
  rintro i j ⟨hi, hj, h0⟩
  have hf := fwd_eq v m (i, j) ⟨hi, hj⟩
  unfold cellVal at hf
  rw [if_neg h0] at hf
  obtain ⟨t, h1, h2, _⟩ := fix_at v m (i, j) ⟨hi, hj⟩
  dsimp only at h1
  rw [h1]
  unfold cellVal
  rw [h2, hf, if_neg h0]

theorem fwd_origin (v : Bool) (m : Mat (K × K)) (c : ℕ × ℕ) (hc : c.1 < m.h ∧ c.2 < m.w) (h0 : (fwd v m c).1 ≠ 0) :
    ∃ a b, Sample m a b ∧ fwd v m c = m.get a b := by
  rw [fwd_eq v m c hc] at h0 ⊢
  unfold cellVal at h0 ⊢
  by_cases h : (m.get c.1 c.2).1 = 0
  · rw [if_pos h] at h0 ⊢
    rcases hp : pick m.h m.w (fun c => m.get c.1 c.2) (neighbours v c) with _ | x
    · rw [hp] at h0; exact absurd h h0
    · obtain ⟨h2, a, b, _, h4, h5, h6⟩ := pick_spec _ _ _ _ _ hp
      exact ⟨a, b, ⟨h4, h5, by simpa [← h6] using h2⟩, by simpa using h6⟩
  · rw [if_neg h]
    exact ⟨c.1, c.2, ⟨hc.1, hc.2, h⟩, rfl⟩

/-- Rank of a cell in the second pass, for induction. -/
theorem before_induct (v : Bool) (nr nc : ℕ) (P : ℕ × ℕ → Prop)
    (step : ∀ c : ℕ × ℕ, c.1 < nr → c.2 < nc → (∀ n : ℕ × ℕ, n.1 < nr → n.2 < nc → Before v c n → P n) → P c) :
    ∀ c : ℕ × ℕ, c.1 < nr → c.2 < nc → P c := by
  have key : ∀ k, ∀ c : ℕ × ℕ, c.1 < nr → c.2 < nc →
      (if v then (nr - c.1) * (nc + 1) + (nc - c.2) else (nc - c.2) * (nr + 1) + (nr - c.1)) = k → P c := by
    intro k
    induction k using Nat.strong_induction_on with
    | _ k ih =>
      intro c h1 h2 hk
      refine step c h1 h2 fun n hn1 hn2 hb => ih _ ?_ n hn1 hn2 rfl
      rw [← hk]
      unfold Before at hb
      cases v
      · simp only [Bool.false_eq_true, if_false] at hb ⊢
        rcases hb with hb | ⟨hb, hb'⟩
        · have : (nc - n.2 + 1) * (nr + 1) ≤ (nc - c.2) * (nr + 1) := Nat.mul_le_mul_right _ (by omega)
          rw [Nat.succ_mul] at this
          omega
        · rw [← hb]; omega
      · simp only [if_true] at hb ⊢
        rcases hb with hb | ⟨hb, hb'⟩
        · have : (nr - n.1 + 1) * (nc + 1) ≤ (nr - c.1) * (nc + 1) := Nat.mul_le_mul_right _ (by omega)
          rw [Nat.succ_mul] at this
          omega
        · rw [← hb]; omega
  intro c h1 h2
  exact key _ c h1 h2 rfl

/-- C58: every entry of the result is the entry of the argument or the `(area, side)` pair of a sample entry of the
argument; nothing is invented. -/
theorem fix_origin (v : Bool) (m : Mat (K × K)) (i j : ℕ) (hi : i < m.h) (hj : j < m.w) :
    (fixNonSampleAreas v m).get i j = m.get i j ∨
      ∃ a b, Sample m a b ∧ (fixNonSampleAreas v m).get i j = m.get a b := by
  have key : ∀ c : ℕ × ℕ, c.1 < m.h → c.2 < m.w → ((fixNonSampleAreas v m).get c.1 c.2).1 ≠ 0 →
      ∃ a b, Sample m a b ∧ (fixNonSampleAreas v m).get c.1 c.2 = m.get a b := by
    apply before_induct v
    intro c h1 h2 ih h0
    obtain ⟨t, e1, e2, e3⟩ := fix_at v m c ⟨h1, h2⟩
    rw [e1] at h0 ⊢
    unfold cellVal at h0 ⊢
    by_cases h : (t c).1 = 0
    · rw [if_pos h] at h0 ⊢
      rcases hp : pick m.h m.w t (neighbours v c) with _ | x
      · rw [hp] at h0; exact absurd h h0
      · obtain ⟨h3, a, b, _, h4, h5, h6⟩ := pick_spec _ _ _ _ _ hp
        rw [Option.getD_some, h6]
        rw [h6] at h3
        by_cases hb : Before v c (a, b)
        · have := (e3 (a, b) h4 h5).1 hb
          rw [this] at h3 ⊢
          exact ih (a, b) h4 h5 hb h3
        · have := (e3 (a, b) h4 h5).2 hb
          rw [this] at h3 ⊢
          exact fwd_origin v m (a, b) ⟨h4, h5⟩ h3
    · rw [if_neg h] at h0 ⊢
      rw [e2] at h0 ⊢
      exact fwd_origin v m c ⟨h1, h2⟩ h0
  by_cases h0 : ((fixNonSampleAreas v m).get i j).1 = 0
  · left
    obtain ⟨t, e1, e2, e3⟩ := fix_at v m (i, j) ⟨hi, hj⟩
    have hf := fwd_eq v m (i, j) ⟨hi, hj⟩
    dsimp only at e1 hf
    rw [e1] at h0 ⊢
    unfold cellVal at h0 ⊢
    have ht : (t (i, j)).1 = 0 := by
      by_contra hc
      rw [if_neg hc] at h0
      exact hc h0
    rw [if_pos ht] at h0 ⊢
    have hn : pick m.h m.w t (neighbours v (i, j)) = none := by
      rcases hp : pick m.h m.w t (neighbours v (i, j)) with _ | x
      · rfl
      · rw [hp] at h0
        exact absurd h0 (pick_spec _ _ _ _ _ hp).1
    rw [hn, Option.getD_none, e2, hf]
    rw [e2, hf] at ht
    unfold cellVal at ht ⊢
    by_cases hm : (m.get i j).1 = 0
    · rw [if_pos hm] at ht ⊢
      rcases hp : pick m.h m.w (fun c => m.get c.1 c.2) (neighbours v (i, j)) with _ | x
      · rfl
      · rw [hp] at ht
        exact absurd ht (pick_spec _ _ _ _ _ hp).1
    · rw [if_neg hm]
  · exact .inr (key (i, j) hi hj h0)

theorem fwd_ne (v : Bool) (m : Mat (K × K)) (i j : ℕ) (hi : i < m.h) (hj : j < m.w) :
    (fwd v m (i, j)).1 ≠ 0 ↔ ∃ a b, Sample m a b ∧ dist (a, b) (i, j) ≤ 1 := by
  rw [fwd_eq v m (i, j) ⟨hi, hj⟩]
  have := cellVal_ne v m.h m.w (fun c => m.get c.1 c.2) (i, j)
  dsimp only at this ⊢
  rw [this]
  constructor
  · rintro (h | ⟨a, b, h1, h2, h3, h4⟩)
    · exact ⟨i, j, ⟨hi, hj, h⟩, by simp [dist]⟩
    · exact ⟨a, b, ⟨h1, h2, h4⟩, h3.le⟩
  · rintro ⟨a, b, ⟨h1, h2, h3⟩, h4⟩
    by_cases h5 : dist (a, b) (i, j) = 1
    · exact .inr ⟨a, b, h1, h2, h5, h3⟩
    · left
      have : a = i ∧ b = j := by
        unfold dist at h4 h5
        simp only at h4 h5
        omega
      rw [← this.1, ← this.2]
      exact h3

/-- Recursion for the second pass: a cell gets an area from the first pass' neighbours to the left and above and from the
final neighbours to the right and below. -/
theorem fix_ne_rec (v : Bool) (m : Mat (K × K)) (i j : ℕ) (hi : i < m.h) (hj : j < m.w) :
    ((fixNonSampleAreas v m).get i j).1 ≠ 0 ↔ (fwd v m (i, j)).1 ≠ 0 ∨ (1 ≤ j ∧ (fwd v m (i, j - 1)).1 ≠ 0) ∨
      (1 ≤ i ∧ (fwd v m (i - 1, j)).1 ≠ 0) ∨ (j + 1 < m.w ∧ ((fixNonSampleAreas v m).get i (j + 1)).1 ≠ 0) ∨
      (i + 1 < m.h ∧ ((fixNonSampleAreas v m).get (i + 1) j).1 ≠ 0) := by
  obtain ⟨t, e1, e2, e3⟩ := fix_at v m (i, j) ⟨hi, hj⟩
  dsimp only at e1
  rw [e1, cellVal_ne, e2]
  have right : ∀ h : j + 1 < m.w, t (i, j + 1) = (fixNonSampleAreas v m).get i (j + 1) := fun h =>
    (e3 (i, j + 1) hi h).1 (by unfold Before; split <;> simp)
  have down : ∀ h : i + 1 < m.h, t (i + 1, j) = (fixNonSampleAreas v m).get (i + 1) j := fun h =>
    (e3 (i + 1, j) h hj).1 (by unfold Before; split <;> simp)
  have left : ∀ h : 1 ≤ j, t (i, j - 1) = fwd v m (i, j - 1) := fun h =>
    (e3 (i, j - 1) hi (by simp only; omega)).2 (by unfold Before; split <;> simp only <;> omega)
  have up : ∀ h : 1 ≤ i, t (i - 1, j) = fwd v m (i - 1, j) := fun h =>
    (e3 (i - 1, j) (by simp only; omega) hj).2 (by unfold Before; split <;> simp only <;> omega)
  apply or_congr Iff.rfl
  constructor
  · rintro ⟨a, b, h1, h2, h3, h4⟩
    rw [dist_one] at h3
    rcases h3 with ⟨rfl, rfl⟩ | ⟨rfl, rfl⟩ | ⟨rfl, rfl⟩ | ⟨rfl, rfl⟩
    · left; refine ⟨by omega, ?_⟩; rw [← left (by omega)]; exact h4
    · right; right; left; refine ⟨h2, ?_⟩; rw [← right h2]; exact h4
    · right; left; refine ⟨by omega, ?_⟩; rw [← up (by omega)]; exact h4
    · right; right; right; refine ⟨h1, ?_⟩; rw [← down h1]; exact h4
  · rintro (⟨h1, h2⟩ | ⟨h1, h2⟩ | ⟨h1, h2⟩ | ⟨h1, h2⟩)
    · refine ⟨i, j - 1, hi, by omega, (dist_one ..).2 (by omega), ?_⟩; rw [left h1]; exact h2
    · refine ⟨i - 1, j, by omega, hj, (dist_one ..).2 (by omega), ?_⟩; rw [up h1]; exact h2
    · refine ⟨i, j + 1, hi, h1, (dist_one ..).2 (by omega), ?_⟩; rw [right h1]; exact h2
    · refine ⟨i + 1, j, h1, hj, (dist_one ..).2 (by omega), ?_⟩; rw [down h1]; exact h2

theorem fix_ne_iff (v : Bool) (m : Mat (K × K)) : ∀ c : ℕ × ℕ, c.1 < m.h → c.2 < m.w →
    (((fixNonSampleAreas v m).get c.1 c.2).1 ≠ 0 ↔
      ∃ a b, a < m.h ∧ b < m.w ∧ (fwd v m (a, b)).1 ≠ 0 ∧ c.1 ≤ a + 1 ∧ c.2 ≤ b + 1 ∧ (c.1 ≤ a ∨ c.2 ≤ b)) := by
  apply before_induct v
  rintro ⟨i, j⟩ hi hj ih
  dsimp only at hi hj ⊢
  rw [fix_ne_rec v m i j hi hj]
  have right : ∀ h : j + 1 < m.w, _ := fun h =>
    ih (i, j + 1) hi h (by unfold Before; split <;> simp)
  have down : ∀ h : i + 1 < m.h, _ := fun h =>
    ih (i + 1, j) h hj (by unfold Before; split <;> simp)
  dsimp only at right down
  constructor
  · rintro (h | ⟨h1, h⟩ | ⟨h1, h⟩ | ⟨h1, h⟩ | ⟨h1, h⟩)
    · exact ⟨i, j, hi, hj, h, by omega, by omega, by omega⟩
    · exact ⟨i, j - 1, hi, by omega, h, by omega, by omega, by omega⟩
    · exact ⟨i - 1, j, by omega, hj, h, by omega, by omega, by omega⟩
    · rw [right h1] at h
      obtain ⟨a, b, h2, h3, h4, h5, h6, h7⟩ := h
      exact ⟨a, b, h2, h3, h4, by omega, by omega, by omega⟩
    · rw [down h1] at h
      obtain ⟨a, b, h2, h3, h4, h5, h6, h7⟩ := h
      exact ⟨a, b, h2, h3, h4, by omega, by omega, by omega⟩
  · rintro ⟨a, b, h2, h3, h4, h5, h6, h7⟩
    by_cases c1 : a = i ∧ b = j
    · rw [c1.1, c1.2] at h4; exact .inl h4
    by_cases c2 : a = i ∧ b + 1 = j
    · refine .inr (.inl ⟨by omega, ?_⟩)
      rw [← c2.1, ← c2.2]
      simpa using h4
    by_cases c3 : a + 1 = i ∧ b = j
    · refine .inr (.inr (.inl ⟨by omega, ?_⟩))
      rw [← c3.1, ← c3.2]
      simpa using h4
    by_cases c4 : j + 1 ≤ b
    · refine .inr (.inr (.inr (.inl ⟨by omega, ?_⟩)))
      rw [right (by omega)]
      exact ⟨a, b, h2, h3, h4, by omega, by omega, by omega⟩
    · refine .inr (.inr (.inr (.inr ⟨by omega, ?_⟩)))
      rw [down (by omega)]
      exact ⟨a, b, h2, h3, h4, by omega, by omega, by omega⟩

/-- C58: the exact set of filled cells: a cell ends up with an area iff a sample cell lies at most one step from some cell
`(a, b)` that is the cell itself, one of the cells to the right of or below (or both) of it, or such a cell's left or upper
neighbour. -/
theorem fix_filled_iff (v : Bool) (m : Mat (K × K)) (i j : ℕ) (hi : i < m.h) (hj : j < m.w) :
    ((fixNonSampleAreas v m).get i j).1 ≠ 0 ↔
      ∃ a b, a < m.h ∧ b < m.w ∧ i ≤ a + 1 ∧ j ≤ b + 1 ∧ (i ≤ a ∨ j ≤ b) ∧
        ∃ a' b', Sample m a' b' ∧ dist (a', b') (a, b) ≤ 1 := by
  rw [fix_ne_iff v m (i, j) hi hj]
  dsimp only
  constructor
  · rintro ⟨a, b, h1, h2, h3, h4, h5, h6⟩
    exact ⟨a, b, h1, h2, h4, h5, h6, (fwd_ne v m a b h1 h2).1 h3⟩
  · rintro ⟨a, b, h1, h2, h4, h5, h6, h7⟩
    exact ⟨a, b, h1, h2, (fwd_ne v m a b h1 h2).2 h7, h4, h5, h6⟩

/-- C58: every cell next to a sample cell is filled, with the entry of the first such neighbour in the documented order of
preference (left, right, upper, lower for "vertical"; upper, lower, left, right otherwise). -/
theorem fix_adjacent (v : Bool) (m : Mat (K × K)) (i j : ℕ) (hi : i < m.h) (hj : j < m.w) (h0 : (m.get i j).1 = 0)
    (k : ℕ) (a b : ℕ) (hk : (preference v i j)[k]? = some ((a : ℤ), (b : ℤ))) (hs : Sample m a b)
    (hfirst : ∀ k' < k, ∀ a' b' : ℕ, (preference v i j)[k']? = some ((a' : ℤ), (b' : ℤ)) → ¬ Sample m a' b') :
    (fixNonSampleAreas v m).get i j = m.get a b := by
  have hpick : ∀ (l : List (ℤ × ℤ)) (k : ℕ), l[k]? = some ((a : ℤ), (b : ℤ)) →
      (∀ k' < k, ∀ a' b' : ℕ, l[k']? = some ((a' : ℤ), (b' : ℤ)) → ¬ Sample m a' b') →
      pick m.h m.w (fun c => m.get c.1 c.2) l = some (m.get a b) := by
    intro l
    induction l with
    | nil => intro k h; simp at h
    | cons p l ih =>
      intro k h hf
      obtain ⟨a', b'⟩ := p
      rw [pick]
      rcases k with _ | k
      · simp only [List.getElem?_cons_zero, Option.some.injEq, Prod.mk.injEq] at h
        obtain ⟨rfl, rfl⟩ := h
        obtain ⟨s1, s2, s3⟩ := hs
        rw [if_pos]
        · simp
        · simp only [Int.toNat_natCast]
          exact ⟨by omega, by omega, by omega, by omega, s3⟩
      · rw [if_neg]
        · refine ih k (by simpa using h) ?_
          intro k' hk' a'' b'' e
          exact hf (k' + 1) (by omega) a'' b'' (by simpa using e)
        · rintro ⟨q1, q2, q3, q4, q5⟩
          refine hf 0 (by omega) a'.toNat b'.toNat ?_ ⟨by omega, by omega, q5⟩
          rw [Int.toNat_of_nonneg q1, Int.toNat_of_nonneg q3]
          rfl
  have hf : fwd v m (i, j) = m.get a b := by
    rw [fwd_eq v m (i, j) ⟨hi, hj⟩]
    unfold cellVal
    have hp : pick m.h m.w (fun c => m.get c.1 c.2) (neighbours v (i, j)) = some (m.get a b) := hpick _ k hk hfirst
    rw [if_pos h0, hp]
    rfl
  obtain ⟨t, e1, e2, _⟩ := fix_at v m (i, j) ⟨hi, hj⟩
  dsimp only at e1
  rw [e1]
  unfold cellVal
  rw [e2, hf, if_neg hs.2.2]

/-- C58 is false of the code: the table is filled completely iff a sample cell lies at most two steps from the last cell
(last row, last column); all other tables keep cells without area. -/
theorem fix_complete_iff (v : Bool) (m : Mat (K × K)) (hh : 0 < m.h) (hw : 0 < m.w) :
    (∀ i < m.h, ∀ j < m.w, ((fixNonSampleAreas v m).get i j).1 ≠ 0) ↔
      ∃ a b, Sample m a b ∧ dist (a, b) (m.h - 1, m.w - 1) ≤ 2 := by
  constructor
  · intro h
    have := (fix_filled_iff v m (m.h - 1) (m.w - 1) (by omega) (by omega)).1 (h _ (by omega) _ (by omega))
    obtain ⟨a, b, h1, h2, h3, h4, h5, a', b', h6, h7⟩ := this
    refine ⟨a', b', h6, ?_⟩
    unfold dist at *
    simp only at *
    omega
  · rintro ⟨a', b', hs, hd⟩ i hi j hj
    have := hs.1
    have := hs.2.1
    -- a cell within one step of the sample and at most one step from the corner
    have : ∃ a b, a < m.h ∧ b < m.w ∧ dist (a', b') (a, b) ≤ 1 ∧ dist (a, b) (m.h - 1, m.w - 1) ≤ 1 := by
      unfold dist at *
      simp only at *
      by_cases c1 : a' + 1 < m.h
      · exact ⟨a' + 1, b', by omega, by omega, by omega, by omega⟩
      · by_cases c2 : b' + 1 < m.w
        · exact ⟨a', b' + 1, by omega, by omega, by omega, by omega⟩
        · exact ⟨a', b', by omega, by omega, by omega, by omega⟩
    obtain ⟨a, b, h1, h2, h3, h4⟩ := this
    refine (fix_filled_iff v m i j hi hj).2 ⟨a, b, h1, h2, ?_, ?_, ?_, a', b', hs, h3⟩ <;> unfold dist at * <;> simp only at * <;> omega

/-! ### Concrete tables -/

/-- One sample cell in the upper left corner of a 3 x 3 table. -/
def exCorner : Mat (ℤ × ℤ) := ⟨3, 3, fun i j => if i = 0 ∧ j = 0 then (7, 1) else (0, 0)⟩

example : Sample exCorner 0 0 := by refine ⟨by decide, by decide, by decide⟩

example : (fixNonSampleAreas true exCorner).get 0 2 = (7, 1) := by decide +kernel

example : (fixNonSampleAreas true exCorner).get 2 2 = (0, 0) := by decide +kernel

example : ¬ ∃ a b, Sample exCorner a b ∧ dist (a, b) (2, 2) ≤ 2 := by
  rintro ⟨a, b, ⟨h1, h2, h3⟩, h4⟩
  have : a = 0 ∧ b = 0 := by
    by_contra hc
    apply h3
    simp only [exCorner]
    rw [if_neg hc]
  simp [this.1, this.2, dist] at h4

end Verif.GridFix
