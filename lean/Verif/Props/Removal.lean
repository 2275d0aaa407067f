import Verif.Model.Removal
import Verif.Lemmas.Chunks
import Verif.Lemmas.Num
import Verif.Props.Sorting
import Mathlib.Tactic.FieldSimp
import Mathlib.Tactic.Linarith
import Mathlib.Tactic.NormNum
import Mathlib.Algebra.BigOperators.Ring.Finset
import Mathlib.Algebra.BigOperators.Field
import Mathlib.Tactic.IntervalCases
import Mathlib.Algebra.Order.BigOperators.Group.Finset

/-! C26–C29 — stripe, zinger and blob removal. -/

set_option linter.unusedSectionVars false
set_option linter.unusedSimpArgs false

namespace Verif.Removal
open Verif.Sorting

variable {K : Type _} [Field K] [LinearOrder K] [IsStrictOrderedRing K] [Inhabited K]

/-! ### lemmas -/

theorem mapM_all_ok {α β : Type _} (f : α → Py β) (g : α → β) :
    ∀ l : List α, (∀ x ∈ l, f x = .ok (g x)) → l.mapM f = .ok (l.map g) := by
  intro l
  induction l with
  | nil => intro _; rfl
  | cons a l ih =>
    intro h
    rw [List.mapM_cons, h a (by simp), ih (fun x hx => h x (by simp [hx]))]
    rfl

theorem rowMean_congr (s s' : Nat → Nat → K) (b e : Nat) (h : ∀ j, b ≤ j → j < e → s j = s' j) :
    rowMean s b e = rowMean s' b e := by
  funext c
  unfold rowMean
  congr 1
  apply Finset.sum_congr rfl
  intro i hi
  rw [Finset.mem_Ico] at hi
  rw [h i hi.1 hi.2]

/-! ### C26 -/

/-- What normalisation must do to one block of rows `[b, e)`: it adds to each column one constant, and afterwards the
column means of the block are the smoothed column means. -/
def BlockNormalised (filt : (Nat → K) → Nat → K) (sino out : Mat K) (b e : Nat) : Prop :=
  (∀ i, b ≤ i → i < e → ∀ i', b ≤ i' → i' < e → ∀ c < sino.w,
    out.get i c - sino.get i c = out.get i' c - sino.get i' c) ∧
  ∀ c < sino.w, rowMean out.get b e c = filt (rowMean sino.get b e) c

theorem normalizeRows_spec (filt : (Nat → K) → Nat → K) (k : Nat) (sino : Mat K) (hk : 0 < k) (hkn : k ≤ sino.h) :
    ∃ out bs, normalizeRows filt k sino = .ok out ∧ out.h = sino.h ∧ out.w = sino.w ∧
      Consec 0 bs sino.h ∧ bs.length = k ∧
      (∀ p ∈ bs, p.2 - p.1 = sino.h / k ∨ p.2 - p.1 = sino.h / k + 1) ∧
      (∀ p ∈ bs, ∀ i, p.1 ≤ i → i < p.2 → ∀ c, out.get i c =
        sino.get i c + (filt (rowMean sino.get p.1 p.2) c - rowMean sino.get p.1 p.2 c)) := by
  obtain ⟨bs, hb, hc, hl, hbal⟩ := chunkBounds_ok 0 sino.h k hk hkn
  rw [Nat.zero_add] at hc
  have hf := foldl_consec (fun b e (s : Nat → Nat → K) i c => s i c + (filt (rowMean s b e) c - rowMean s b e c))
    (by
      intro b e s s' i hss h1 h2
      funext c
      rw [rowMean_congr s s' b e hss, hss i h1 h2]) bs 0 sino.h sino.get hc
  refine ⟨⟨sino.h, sino.w, bs.foldl (fun s p i =>
    if p.1 ≤ i ∧ i < p.2 then
      (fun c => s i c + (filt (rowMean s p.1 p.2) c - rowMean s p.1 p.2 c))
    else s i) sino.get⟩, bs, by unfold normalizeRows; rw [hb]; rfl, rfl, rfl, hc, hl, hbal, ?_⟩
  intro p hp i h1 h2 c
  exact congrFun (hf.1 p hp i h1 h2) c

theorem rowMean_add_const (m : Nat → Nat → K) (m' : Nat → Nat → K) (b e c : Nat) (d : K) (hbe : b < e)
    (h : ∀ i, b ≤ i → i < e → m' i c = m i c + d) : rowMean m' b e c = rowMean m b e c + d := by
  unfold rowMean
  have hne : ((e - b : Nat) : K) ≠ 0 := by
    have : 0 < e - b := by omega
    exact_mod_cast this.ne'
  rw [Finset.sum_congr rfl (fun i hi => h i (Finset.mem_Ico.mp hi).1 (Finset.mem_Ico.mp hi).2),
    Finset.sum_add_distrib, Finset.sum_const, Nat.card_Ico, nsmul_eq_mul]
  field_simp

/-- C26.  For every sinogram, smoothing filter and `1 ≤ num_chunk ≤ rows`, without sorting the rows are
cut into `num_chunk` consecutive non-empty blocks of (almost) equal size and each is normalised. -/
theorem normalization_blocks (as1 : Argsort K) (as2 : Argsort Nat) (filt : (Nat → K) → Nat → K) (k : Nat)
    (sino : Mat K) (hk : 0 < k) (hkn : k ≤ sino.h) :
    ∃ out bs, removeNormalization as1 as2 filt k false sino = .ok out ∧ out.h = sino.h ∧ out.w = sino.w ∧
      Consec 0 bs sino.h ∧ bs.length = k ∧
      (∀ p ∈ bs, p.2 - p.1 = sino.h / k ∨ p.2 - p.1 = sino.h / k + 1) ∧
      ∀ p ∈ bs, BlockNormalised filt sino out p.1 p.2 := by
  obtain ⟨out, bs, h1, h2, h3, h4, h5, h6, h7⟩ := normalizeRows_spec filt k sino hk hkn
  refine ⟨out, bs, h1, h2, h3, h4, h5, h6, ?_⟩
  intro p hp
  have hb := consec_bounds _ _ _ h4 p hp
  constructor
  · intro i hi1 hi2 i' hi1' hi2' c _
    rw [h7 p hp i hi1 hi2 c, h7 p hp i' hi1' hi2' c]; ring
  · intro c _
    rw [rowMean_add_const sino.get out.get p.1 p.2 c _ hb.2.1 (fun i a b => h7 p hp i a b c)]
    ring

/-- C26.  With sorting, the same happens to the rank-sorted columns, and each pixel receives the normalised value of
its own rank. -/
theorem normalization_sorted (as1 : Argsort K) (as2 : Argsort Nat) (filt : (Nat → K) → Nat → K) (k : Nat)
    (sino : Mat K) (hk : 0 < k) (hkn : k ≤ sino.h) :
    ∃ out sorted norm bs, removeNormalization as1 as2 filt k true sino = .ok out ∧
      out.h = sino.h ∧ out.w = sino.w ∧ sorted.h = sino.h ∧ sorted.w = sino.w ∧
      Consec 0 bs sino.h ∧ bs.length = k ∧ (∀ p ∈ bs, BlockNormalised filt sorted norm p.1 p.2) ∧
      ∀ c, (line sorted.T c).Pairwise (· ≤ ·) ∧ ∃ ρ : Nat → Nat, (∀ i < sino.h, ρ i < sino.h) ∧
        (∀ i < sino.h, ∀ i' < sino.h, ρ i = ρ i' → i = i') ∧
        (∀ i < sino.h, sorted.get (ρ i) c = sino.get i c) ∧ (∀ i < sino.h, out.get i c = norm.get (ρ i) c) := by
  obtain ⟨r, bs, h1, h2, h3, h4, h5, h6, h7⟩ := normalization_blocks as1 as2 filt k (sortForward as1 0 sino).1 hk hkn
  refine ⟨sortBackward as2 0 r (sortForward as1 0 sino).2, (sortForward as1 0 sino).1, r, bs, ?_, ?_, ?_, rfl, rfl, h4, h5, h7, ?_⟩
  · have h1' : normalizeRows filt k (sortForward as1 0 sino).1 = .ok r := h1
    unfold removeNormalization
    rw [if_pos rfl]
    simp only [h1']
    rfl
  · exact h2
  · exact h3
  · intro c
    refine ⟨((sort_forward_sorted as1 sino).1.2.2 c).1, ?_⟩
    obtain ⟨ρ, a, b, c', d⟩ := mat_core0 as1 as2 sino r h2 c
    exact ⟨ρ, a, b, c', d⟩

/-- C26.  If the smoothing filter leaves vectors unchanged, nothing changes, sorted or not. -/
theorem normalization_identity (as1 : Argsort K) (as2 : Argsort Nat) (k : Nat) (sort : Bool)
    (sino : Mat K) (hk : 0 < k) (hkn : k ≤ sino.h) :
    ∃ out, removeNormalization as1 as2 (fun v => v) k sort sino = .ok out ∧ out.Eqv sino := by
  have key : ∀ m : Mat K, m.h = sino.h → ∃ out, normalizeRows (fun v => v) k m = .ok out ∧ out.Eqv m := by
    intro m hm
    obtain ⟨out, bs, h1, h2, h3, h4, _, _, h7⟩ := normalizeRows_spec (fun v => v) k m hk (by omega)
    refine ⟨out, h1, h2, h3, ?_⟩
    intro i hi c _
    obtain ⟨p, hp, hpi⟩ := consec_cover _ _ _ h4 i (by omega) (by omega)
    rw [h7 p hp i hpi.1 hpi.2 c]; ring
  cases sort with
  | false => exact key sino rfl
  | true =>
    obtain ⟨r, hr, he⟩ := key (sortForward as1 0 sino).1 rfl
    refine ⟨sortBackward as2 0 r (sortForward as1 0 sino).2, ?_, ?_⟩
    · unfold removeNormalization
      rw [if_pos rfl]
      simp only [hr]
      rfl
    · refine ⟨he.1, he.2.1, ?_⟩
      intro i hi c hc
      obtain ⟨ρ, a, _, c', d⟩ := mat_core0 as1 as2 sino r he.1 c
      have hi' : i < sino.h := lt_of_lt_of_eq hi he.1
      rw [d i hi', he.2.2 (ρ i) (lt_of_lt_of_eq (a i hi') he.1.symm) c hc, c' i hi']

/-- More chunks than rows: the call raises `IndexError`. -/
theorem normalization_too_many_chunks (as1 : Argsort K) (as2 : Argsort Nat) (filt : (Nat → K) → Nat → K) (k : Nat)
    (sort : Bool) (sino : Mat K) (hkn : sino.h < k) :
    removeNormalization as1 as2 filt k sort sino = .error .indexError := by
  cases sort with
  | false =>
    show normalizeRows filt k sino = _
    unfold normalizeRows; rw [chunkBounds_error 0 sino.h k hkn]; rfl
  | true =>
    have : normalizeRows filt k (sortForward as1 0 sino).1 = .error .indexError := by
      unfold normalizeRows
      rw [show (sortForward as1 0 sino).1.h = sino.h from rfl, chunkBounds_error 0 sino.h k hkn]; rfl
    unfold removeNormalization
    rw [if_pos rfl]
    simp only [this]
    rfl

/-- Non-vacuity: 5 rows in 2 chunks. -/
example : (0 < 2 ∧ 2 ≤ (⟨5, 3, fun i j => (i * j : ℚ)⟩ : Mat ℚ).h) ∧
    chunkBounds 0 5 2 = .ok [(0, 3), (3, 5)] := by decide

/-! ### C27 -/

theorem pyRange_sym (s : Nat) (hs : 1 ≤ s) : pyRange (-(s : Int)) ((s : Int) + 1) s = [-(s : Int), 0, (s : Int)] := by
  unfold pyRange
  obtain ⟨f, hf⟩ : ∃ f, ((s : Int) + 1 - -(s : Int)).toNat = f + 3 := ⟨2 * s - 2, by omega⟩
  rw [hf]
  have h4 : pyRangeAux ((s : Int) + 1) s f (-(s : Int) + s + s + s) = [] := by
    cases f with
    | zero => rfl
    | succ f => rw [pyRangeAux, if_neg (by omega)]
  rw [pyRangeAux, if_pos (by omega), pyRangeAux, if_pos (by omega), pyRangeAux, if_pos (by omega), h4]
  simp

theorem zingerOffsets_eq (s : Nat) (hs : 1 ≤ s) : zingerOffsets s =
    [(-(s : Int), -(s : Int)), (-(s : Int), 0), (-(s : Int), (s : Int)), (0, -(s : Int)), (0, (s : Int)),
     ((s : Int), -(s : Int)), ((s : Int), 0), ((s : Int), (s : Int))] := by
  unfold zingerOffsets
  rw [show max s 1 = s by omega, pyRange_sym s hs]
  have h : (s : Int) ≠ 0 := by omega
  have h' : s ≠ 0 := by omega
  simp [List.filter_cons, h, h']

/-- Spec: pixel at signed distance `(dy, dx)`, wrapping around the image borders. -/
def neigh (m : Mat K) (y x : Nat) (dy dx : Int) : K :=
  m.get (((y : Int) + dy) % m.h).toNat (((x : Int) + dx) % m.w).toNat

/-- Spec: mean of the 8 neighbours at distance `s` (cyclically). -/
def mean8 (m : Mat K) (s : Nat) (y x : Nat) : K :=
  (neigh m y x (-s) (-s) + neigh m y x (-s) 0 + neigh m y x (-s) s + neigh m y x 0 (-s) + neigh m y x 0 s
    + neigh m y x s (-s) + neigh m y x s 0 + neigh m y x s s) / 8

theorem zingerAve_eq (s : Nat) (hs : 1 ≤ s) (m : Mat K) (y x : Nat) :
    zingerAve s m y x = if mean8 m s y x = 0 then 1 else mean8 m s y x := by
  have : ((zingerOffsets s).map fun p => rolled m p.1 p.2 y x).sum / ((zingerOffsets s).length : K) = mean8 m s y x := by
    rw [zingerOffsets_eq s hs]
    simp only [List.map_cons, List.map_nil, List.sum_cons, List.sum_nil, List.length_cons, List.length_nil]
    unfold mean8 rolled neigh
    simp only [sub_neg_eq_add, sub_zero, add_zero]
    norm_num
    simp only [sub_eq_add_neg]
    ring
  unfold zingerAve
  dsimp only
  rw [this]

/-- C27.  For every image with non-negative values, non-negative threshold, `size ≥ 1` (and any size selection that
keeps a subset of the mask), with `A` the mean of the 8 neighbours at distance `size` (1 if that mean is 0): every pixel is
either unchanged, or it exceeded `(1+threshold)·A` and is replaced by `A`, which is smaller. -/
theorem remove_zinger_only_outliers (sel : (Nat → Nat → Bool) → Nat → Nat → Bool)
    (hsel : ∀ m y x, sel m y x = true → m y x = true) (mat : Mat K) (thr : K) (size : Nat) (check : Bool)
    (hs : 1 ≤ size) (hthr : 0 ≤ thr) (hpos : ∀ y x, 0 ≤ mat.get y x) :
    ∃ out, removeZinger sel mat thr size check = .ok out ∧ out.h = mat.h ∧ out.w = mat.w ∧
      ∀ y x, let A := if mean8 mat size y x = 0 then 1 else mean8 mat size y x
        (out.get y x = mat.get y x ∨ ((1 + thr) * A < mat.get y x ∧ out.get y x = A)) ∧
        (mat.get y x ≤ (1 + thr) * A → out.get y x = mat.get y x) ∧
        (check = false → (1 + thr) * A < mat.get y x → out.get y x = A) ∧
        0 ≤ out.get y x ∧ out.get y x ≤ mat.get y x := by
  have hoff : zingerOffsets size ≠ [] := by rw [zingerOffsets_eq size hs]; simp
  unfold removeZinger
  rw [if_neg hoff]
  refine ⟨_, rfl, rfl, rfl, ?_⟩
  intro y x
  rw [← zingerAve_eq size hs mat y x]
  intro A
  have hA : 0 < A := by
    show 0 < zingerAve size mat y x
    rw [zingerAve_eq size hs]
    have h8 : 0 ≤ mean8 mat size y x := by
      unfold mean8 neigh
      have := hpos
      apply div_nonneg _ (by norm_num)
      repeat (first | apply add_nonneg | exact hpos _ _)
    split
    · norm_num
    · exact lt_of_le_of_ne h8 (Ne.symm ‹_›)
  have hiff : (mat.get y x / zingerAve size mat y x - 1 > thr) ↔ (1 + thr) * A < mat.get y x := by
    show mat.get y x / A - 1 > thr ↔ _
    rw [gt_iff_lt, lt_sub_iff_add_lt, lt_div_iff₀ hA, add_comm thr 1]
  have hA1 : A ≤ (1 + thr) * A := by nlinarith
  dsimp only
  cases check with
  | false =>
    have e : ∀ M : Nat → Nat → Bool, (if false = true then sel M else M) = M := fun M => if_neg (by decide)
    rw [e]
    by_cases h : (1 + thr) * A < mat.get y x
    · rw [if_pos (by rw [decide_eq_true_eq]; exact hiff.mpr h)]
      exact ⟨Or.inr ⟨h, rfl⟩, fun h' => absurd h' (not_le.mpr h), fun _ _ => rfl, hA.le, (hA1.trans h.le)⟩
    · rw [if_neg (by rw [decide_eq_true_eq]; exact fun h' => h (hiff.mp h'))]
      exact ⟨Or.inl rfl, fun _ => rfl, fun _ h' => absurd h' h, hpos _ _, le_rfl⟩
  | true =>
    have e : ∀ M : Nat → Nat → Bool, (if true = true then sel M else M) = sel M := fun M => if_pos rfl
    rw [e]
    by_cases h : sel (fun y x => decide (mat.get y x / zingerAve size mat y x - 1 > thr)) y x = true
    · have h' := hsel _ _ _ h
      rw [decide_eq_true_eq, hiff] at h'
      rw [if_pos h]
      exact ⟨Or.inr ⟨h', rfl⟩, fun h'' => absurd h'' (not_le.mpr h'), fun hc => Bool.noConfusion hc, hA.le, hA1.trans h'.le⟩
    · rw [if_neg h]
      exact ⟨Or.inl rfl, fun _ => rfl, fun hc => Bool.noConfusion hc, hpos _ _, le_rfl⟩

/-- Non-vacuity: a 3×3 image with a bright centre pixel is changed there. -/
example : ∃ out, removeZinger (fun m => m) (⟨3, 3, fun i j => if i = 1 ∧ j = 1 then 9 else 1⟩ : Mat ℚ) (1/2) 1 false = .ok out ∧
    out.get 1 1 = 1 ∧ out.get 0 0 = 1 := by
  obtain ⟨out, h1, _, _, h2⟩ := remove_zinger_only_outliers (K := ℚ) (fun m => m) (fun _ _ _ h => h)
    ⟨3, 3, fun i j => if i = 1 ∧ j = 1 then 9 else 1⟩ (1/2) 1 false le_rfl (by norm_num) (by intro y x; dsimp only; split <;> norm_num)
  have e0 : ((-1 : Int) % 3).toNat = 2 := rfl
  have e1 : ((0 : Int) % 3).toNat = 0 := rfl
  have e2 : ((1 : Int) % 3).toNat = 1 := rfl
  have e3 : ((2 : Int) % 3).toNat = 2 := rfl
  have m11 : mean8 (⟨3, 3, fun i j => if i = 1 ∧ j = 1 then 9 else 1⟩ : Mat ℚ) 1 1 1 = 1 := by
    simp only [mean8, neigh]; norm_num [e0, e1, e2, e3, show Int.toNat 2 = 2 from rfl]
  have m00 : mean8 (⟨3, 3, fun i j => if i = 1 ∧ j = 1 then 9 else 1⟩ : Mat ℚ) 1 0 0 = 2 := by
    simp only [mean8, neigh]; norm_num [e0, e1, e2, e3, show Int.toNat 2 = 2 from rfl]
  refine ⟨out, h1, ?_, ?_⟩
  · have := h2 1 1
    rw [m11] at this
    simpa using this.2.2.1 rfl (by norm_num)
  · have := h2 0 0
    rw [m00] at this
    simpa using this.2.1 (by norm_num)

/-! ### C28 -/

/-- Spec: `v` is the linear interpolation at column `j` of line `f` between the nearest columns left and right that satisfy
`good`; it lies between their values. -/
def Interpolated (good : Nat → Prop) (n : Nat) (f : Nat → K) (j : Nat) (v : K) : Prop :=
  ∃ a b, a < j ∧ j < b ∧ b < n ∧ good a ∧ good b ∧ (∀ k, a < k → k < j → ¬ good k) ∧ (∀ k, j < k → k < b → ¬ good k) ∧
    v * ((b : K) - a) = f a * ((b : K) - j) + f b * ((j : K) - a) ∧ min (f a) (f b) ≤ v ∧ v ≤ max (f a) (f b)

theorem fillLine_ok (good miss : Nat → Bool) (n : Nat) (f : Nat → K)
    (h : ∀ j < n, miss j = true → (∃ a < j, good a = true) ∧ ∃ b, j < b ∧ b < n ∧ good b = true) :
    ∃ g, fillLine good miss n f = .ok g ∧ (∀ j < n, miss j = false → g j = f j) ∧
      (∀ j < n, miss j = true → Interpolated (fun k => good k = true) n f j (g j)) := by
  have hall : (List.range n).all (fun j => !miss j || (linInterp good n f j).isOk) = true := by
    rw [List.all_eq_true]
    intro j hj
    have hj := List.mem_range.mp hj
    cases hm : miss j with
    | false => simp
    | true =>
      obtain ⟨hl, hr⟩ := h j hj hm
      obtain ⟨a, b, v, hv, _⟩ := linInterp_spec good n f j hl hr
      rw [hv]; rfl
  unfold fillLine
  rw [if_pos hall]
  refine ⟨_, rfl, ?_, ?_⟩
  · intro j _ hm; simp [hm]
  · intro j hj hm
    obtain ⟨hl, hr⟩ := h j hj hm
    obtain ⟨a, b, v, hv, h1, h2, h3, h4, h5, h6, h7, h8, h9, h10⟩ := linInterp_spec good n f j hl hr
    simp only [hm, if_true, hv]
    refine ⟨a, b, h1, h2, h3, h4, h5, ?_, ?_, h8, h9, h10⟩
    · intro k hk1 hk2; simp [h6 k hk1 hk2]
    · intro k hk1 hk2; simp [h7 k hk1 hk2]

theorem fillLine_error (good miss : Nat → Bool) (n : Nat) (f : Nat → K) (j : Nat) (hj : j < n) (hm : miss j = true)
    (h : (∀ a < j, good a = false) ∨ (∀ b, j < b → b < n → good b = false)) :
    fillLine good miss n f = .error .valueError := by
  unfold fillLine
  rw [if_neg]
  rw [List.all_eq_true]
  intro hall
  have := hall j (List.mem_range.mpr hj)
  rw [hm, linInterp_error good n f j h] at this
  simp [Except.isOk, Except.toBool] at this

theorem zeroEdges_neighbours (n : Nat) (mask : Nat → Bool) (j : Nat) (_ : j < n) (h : zeroEdges n mask j = true) :
    (∃ a < j, (!zeroEdges n mask a) = true) ∧ ∃ b, j < b ∧ b < n ∧ (!zeroEdges n mask b) = true := by
  unfold zeroEdges at h
  split at h
  · cases h
  · rename_i hc
    refine ⟨⟨0, by omega, ?_⟩, n - 1, by omega, by omega, ?_⟩
    · simp [zeroEdges]
    · unfold zeroEdges; rw [if_pos (by omega)]; rfl

theorem getD_map_range' {β : Type _} (h i : Nat) (hi : i < h) (g : Nat → β) (d : β) :
    ((List.range h).map g).getD i d = g i := by
  simp [List.getD, hi]

theorem fillMat_ok (mk : Nat → Bool) (m : Mat K) (hh : 2 ≤ m.h) (hg : 2 ≤ ((List.range m.w).filter fun j => !mk j).length)
    (h : ∀ j < m.w, mk j = true → (∃ a < j, (!mk a) = true) ∧ ∃ b, j < b ∧ b < m.w ∧ (!mk b) = true) :
    ∃ out, fillMat (fun j => !mk j) mk m = .ok out ∧ out.h = m.h ∧ out.w = m.w ∧
      ∀ i < m.h, (∀ j < m.w, mk j = false → out.get i j = m.get i j) ∧
        (∀ j < m.w, mk j = true → Interpolated (fun k => mk k = false) m.w (m.get i) j (out.get i j)) := by
  choose g hg1 hg2 hg3 using fun i => fillLine_ok (fun j => !mk j) mk m.w (m.get i) h
  have hm := mapM_all_ok (fun i => fillLine (fun j => !mk j) mk m.w (m.get i)) g (List.range m.h) (fun i _ => hg1 i)
  refine ⟨⟨m.h, m.w, fun i j => ((List.range m.h).map g).getD i (m.get i) j⟩, by unfold fillMat; rw [if_neg (by omega), hm]; rfl, rfl, rfl, ?_⟩
  intro i hi
  constructor
  · intro j hj hmk
    show ((List.range m.h).map g).getD i (m.get i) j = _
    rw [getD_map_range' _ _ hi]
    exact hg2 i j hj hmk
  · intro j hj hmk
    show Interpolated _ _ _ _ (((List.range m.h).map g).getD i (m.get i) j)
    rw [getD_map_range' _ _ hi]
    have := hg3 i j hj hmk
    simpa only [Bool.not_eq_true'] using this

/-- The columns `interpolate_inside_stripe` treats as missing: masked and not among the first/last two. -/
def InnerMasked (n : Nat) (mask : Nat → Bool) (j : Nat) : Prop := mask j = true ∧ 2 ≤ j ∧ j + 2 < n

instance (n : Nat) (mask : Nat → Bool) (j : Nat) : Decidable (InnerMasked n mask j) := by unfold InnerMasked; infer_instance

theorem zeroEdges_iff (n : Nat) (mask : Nat → Bool) (j : Nat) : zeroEdges n mask j = true ↔ InnerMasked n mask j := by
  unfold zeroEdges InnerMasked
  split
  · constructor
    · intro h; cases h
    · rintro ⟨_, h1, h2⟩; omega
  · constructor
    · intro h; exact ⟨h, by omega, by omega⟩
    · exact fun h => h.1

/-- Spec of filling: columns outside `missing` are unchanged, those inside are interpolated from the nearest columns
outside. -/
def FilledOnly (missing : Nat → Prop) (m out : Mat K) : Prop :=
  out.h = m.h ∧ out.w = m.w ∧ ∀ i < m.h, ∀ j < m.w,
    (¬ missing j → out.get i j = m.get i j) ∧
    (missing j → Interpolated (fun k => ¬ missing k) m.w (m.get i) j (out.get i j))

theorem zeroEdges_good (n : Nat) (mask : Nat → Bool) (hn : 2 ≤ n) : 2 ≤ ((List.range n).filter fun j => !zeroEdges n mask j).length := by
  have h : [0, 1].Sublist ((List.range n).filter fun j => !zeroEdges n mask j) := by
    have h1 : ((List.range 2).filter fun j => !zeroEdges n mask j) = [0, 1] := by
      simp [List.range_succ, List.range_zero, zeroEdges]
    rw [← h1]
    apply List.Sublist.filter
    have : List.range 2 = (List.range n).take 2 := by rw [List.take_range, min_eq_left hn]
    rw [this]
    exact List.take_sublist _ _
  simpa using h.length_le

theorem fillMat_zeroEdges (m : Mat K) (mask : Nat → Bool) (hh : 2 ≤ m.h) (hw : 2 ≤ m.w) :
    ∃ out, fillMat (fun j => !zeroEdges m.w mask j) (zeroEdges m.w mask) m = .ok out ∧
      FilledOnly (InnerMasked m.w mask) m out := by
  obtain ⟨out, h1, h2, h3, h4⟩ := fillMat_ok (zeroEdges m.w mask) m hh (zeroEdges_good m.w mask hw) (zeroEdges_neighbours m.w mask)
  refine ⟨out, h1, h2, h3, ?_⟩
  intro i hi j hj
  have hff : ∀ k, zeroEdges m.w mask k = false ↔ ¬ InnerMasked m.w mask k := by
    intro k; rw [← zeroEdges_iff, Bool.not_eq_true]
  constructor
  · intro hn; exact (h4 i hi).1 j hj ((hff j).mpr hn)
  · intro hm
    have := (h4 i hi).2 j hj ((zeroEdges_iff _ _ _).mpr hm)
    simpa only [hff] using this

/-- C28.  `interpolate_inside_stripe`: for every image with at least two rows and columns and every binary mask of the right
length it succeeds, changes only masked columns (never the first/last two), and fills them by linear interpolation between
the nearest good columns; a mask of another length, or a single row, is rejected. -/
theorem interpolate_inside_stripe_fills (m : Mat K) (mask : Nat → Bool) :
    (2 ≤ m.h → 2 ≤ m.w → ∃ out, interpolateInside m m.w mask = .ok out ∧ FilledOnly (InnerMasked m.w mask) m out) ∧
    (∀ l, l ≠ m.w → interpolateInside m l mask = .error .valueError) ∧
    (m.h < 2 → interpolateInside m m.w mask = .error .valueError) := by
  refine ⟨?_, ?_, ?_⟩
  · intro hh hw
    obtain ⟨out, h1, h2⟩ := fillMat_zeroEdges m mask hh hw
    exact ⟨out, by unfold interpolateInside; rw [if_neg (by simp)]; exact h1, h2⟩
  · intro l hl
    unfold interpolateInside
    rw [if_pos hl]
  · intro hh
    unfold interpolateInside
    rw [if_neg (by simp)]
    unfold fillMat
    rw [if_pos (Or.inl hh)]

/-- C28.  `remove_dead_stripe(residual=False)`, whatever columns `d` the detector reports: the call succeeds (two rows and
columns at least); either nothing changes or exactly the detected columns and their direct neighbours, except the first and
last two, are interpolated.  With `residual=True` the same image is handed to `remove_large_stripe`. -/
theorem remove_dead_stripe_good_columns (detect : Mat K → Py (Nat → Bool)) (d : Nat → Bool) (large : Mat K → Py (Mat K))
    (sino : Mat K) (hd : detect sino = .ok d) (hh : 2 ≤ sino.h) (hw : 2 ≤ sino.w) :
    ∃ out, removeDead detect large false sino = .ok out ∧ removeDead detect large true sino = large out ∧
      (out = sino ∨ FilledOnly (InnerMasked sino.w (dilate sino.w d)) sino out) ∧
      (let k := ((List.range sino.w).filter fun j => decide (InnerMasked sino.w (dilate sino.w d) j)).length
       0 < k → k < sino.w / 3 → FilledOnly (InnerMasked sino.w (dilate sino.w d)) sino out) ∧
      ∀ i < sino.h, ∀ j < sino.w, ¬ (InnerMasked sino.w (dilate sino.w d) j) → out.get i j = sino.get i j := by
  obtain ⟨f, h1, h2⟩ := fillMat_zeroEdges sino (dilate sino.w d) hh hw
  have hk : ((List.range sino.w).filter fun j => decide (InnerMasked sino.w (dilate sino.w d) j)) =
      (List.range sino.w).filter (zeroEdges sino.w (dilate sino.w d)) := by
    apply List.filter_congr
    intro j _
    rw [Bool.eq_iff_iff, decide_eq_true_eq, zeroEdges_iff]
  rw [hk]
  unfold removeDead deadMask
  rw [hd]
  simp only [bind, Except.bind, h1]
  by_cases hc : ((List.range sino.w).filter (zeroEdges sino.w (dilate sino.w d))).length < sino.w / 3 ∧
      0 < ((List.range sino.w).filter (zeroEdges sino.w (dilate sino.w d))).length
  · rw [if_pos hc]
    exact ⟨f, rfl, rfl, Or.inr h2, fun _ _ => h2, fun i hi j hj hn => (h2.2.2 i hi j hj).1 hn⟩
  · rw [if_neg hc]
    exact ⟨sino, rfl, rfl, Or.inl rfl, fun a b => absurd ⟨b, a⟩ hc, fun _ _ _ _ _ => rfl⟩

/-- C28.  The dead-stripe mask that is repaired contains each detected column and its direct neighbours. -/
theorem dilate_spec (n : Nat) (mask : Nat → Bool) (j : Nat) :
    dilate n mask j = true ↔ mask j = true ∨ (∃ k, k + 1 = j ∧ mask k = true) ∨ (j + 1 < n ∧ mask (j + 1) = true) := by
  unfold dilate
  simp only [Bool.or_eq_true, Bool.and_eq_true, decide_eq_true_eq, or_assoc]
  constructor
  · rintro (h | ⟨h1, h2⟩ | h)
    · exact Or.inl h
    · exact Or.inr (Or.inl ⟨j - 1, by omega, h2⟩)
    · exact Or.inr (Or.inr h)
  · rintro (h | ⟨k, rfl, h2⟩ | h)
    · exact Or.inl h
    · exact Or.inr (Or.inl ⟨by omega, h2⟩)
    · exact Or.inr (Or.inr h)

/-- C28.  `remove_large_stripe`: columns outside the mask are returned unchanged (`norm=False`) or divided by the column's
factor (`norm=True`), which makes the trimmed mean equal to the smoothed one; masked columns get, at each pixel, the
smoothed sorted value of the pixel's rank. -/
theorem remove_large_stripe_columns (as1 : Argsort K) (as2 : Argsort Nat) (smooth : Mat K → Mat K)
    (hshape : ∀ m, (smooth m).h = m.h) (detect : (Nat → K) → Py (Nat → Bool)) (d : Nat → Bool) (ndrop : Nat) (norm : Bool)
    (sino : Mat K) (hd : detect (largeFact as1 smooth ndrop sino) = .ok d) : ∃ out, removeLarge as1 as2 smooth detect ndrop norm sino = .ok out ∧
    out.h = sino.h ∧ out.w = sino.w ∧ ∀ c, let masked := dilate sino.w d c = true
    (¬ masked → norm = false → ∀ i, out.get i c = sino.get i c) ∧
    (¬ masked → norm = true → ∀ i, out.get i c = sino.get i c / largeFact as1 smooth ndrop sino c) ∧
    (masked → ∃ ρ : Nat → Nat, (∀ i < sino.h, ρ i < sino.h) ∧ (∀ i < sino.h, ∀ i' < sino.h, ρ i = ρ i' → i = i') ∧
      (∀ i < sino.h, (sortForward as1 0 sino).1.get (ρ i) c = sino.get i c) ∧
      (∀ i < sino.h, out.get i c = (smooth (sortForward as1 0 sino).1).get (ρ i) c)) := by
  unfold removeLarge largeMask
  rw [hd]
  refine ⟨_, rfl, rfl, rfl, ?_⟩
  intro c masked
  refine ⟨?_, ?_, ?_⟩
  · intro hm hn i
    show (if dilate sino.w d c then _ else _) = _
    rw [if_neg hm, hn]; rfl
  · intro hm hn i
    show (if dilate sino.w d c then _ else _) = _
    rw [if_neg hm, hn]; rfl
  · intro hm
    obtain ⟨ρ, a, b, c', d'⟩ := mat_core0 as1 as2 sino (smooth (sortForward as1 0 sino).1) (by rw [hshape]; rfl) c
    refine ⟨ρ, a, b, c', ?_⟩
    intro i hi
    show (if dilate sino.w d c then _ else _) = _
    rw [if_pos hm]
    exact d' i hi

/-- C28.  Dividing by the factor brings the trimmed mean of the sorted column to the smoothed one (both non-zero). -/
theorem large_stripe_factor_mean (as1 : Argsort K) (smooth : Mat K → Mat K) (ndrop : Nat) (sino : Mat K) (c : Nat)
    (h1 : rowMean (sortForward as1 0 sino).1.get ndrop (sino.h - ndrop) c ≠ 0)
    (h2 : rowMean (smooth (sortForward as1 0 sino).1).get ndrop (sino.h - ndrop) c ≠ 0) :
    rowMean (fun i c => (sortForward as1 0 sino).1.get i c / largeFact as1 smooth ndrop sino c) ndrop (sino.h - ndrop) c =
      rowMean (smooth (sortForward as1 0 sino).1).get ndrop (sino.h - ndrop) c := by
  have hs : rowMean (fun i c => (sortForward as1 0 sino).1.get i c / largeFact as1 smooth ndrop sino c) ndrop (sino.h - ndrop) c
      = rowMean (sortForward as1 0 sino).1.get ndrop (sino.h - ndrop) c / largeFact as1 smooth ndrop sino c := by
    unfold rowMean
    rw [← Finset.sum_div]; ring
  rw [hs]
  unfold largeFact
  dsimp only
  rw [if_pos h2, div_div_cancel₀ h1]

/-- Non-vacuity for C28: column 3 of 8 is masked and interior. -/
example : InnerMasked 8 (fun j => j == 3) 3 ∧ ¬ InnerMasked 8 (fun j => j == 1) 1 ∧
    dilate 8 (fun j => j == 3) 4 = true ∧ dilate 8 (fun j => j == 3) 5 = false := by
  unfold InnerMasked; decide

/-! ### C29 -/

/-- Full claim: for every mask, masked inner pixels are interpolated from the nearest unmasked ones, all others
are unchanged, and the caller's mask is not modified. -/
def BlobFilled (n : Nat) (line : Nat → K) (mask : Nat → Bool) : Prop :=
  ∃ out mk, removeBlob1d n line mask = .ok (out, mk) ∧
    (∀ j < n, ¬ InnerMasked n mask j → out j = line j) ∧
    (∀ j < n, InnerMasked n mask j → Interpolated (fun k => mask k = false) n line j (out j)) ∧
    (∀ j < n, mk j = mask j)

/-- C29 is false of the code: (a) a mask covering the first three pixels raises `ValueError`, for every line of
any length ≥ 5; (b) the caller's mask loses its edge entries even when the call succeeds. -/
theorem remove_blob_1d_refuted :
    (∀ (n : Nat) (line : Nat → K) (mask : Nat → Bool), 5 ≤ n → mask 0 = true → mask 1 = true → mask 2 = true →
      removeBlob1d n line mask = .error .valueError) ∧
    ¬ BlobFilled 6 (fun _ => (0 : K)) (fun j => j == 0) := by
  constructor
  · intro n line mask hn h0 h1 h2
    have : fillLine (fun j => !mask j) (zeroEdges n mask) n line = .error .valueError := by
      apply fillLine_error _ _ _ _ 2 (by omega)
      · rw [zeroEdges_iff]; exact ⟨h2, by omega, by omega⟩
      · left
        intro a ha
        interval_cases a <;> simp [h0, h1]
    unfold removeBlob1d
    simp only [this]; rfl
  · rintro ⟨out, mk, h1, _, _, h4⟩
    have h5 := h4 0 (by omega)
    unfold removeBlob1d at h1
    dsimp only at h1
    cases hf : fillLine (fun j => !(j == 0)) (zeroEdges 6 (fun j => j == 0)) 6 (fun _ => (0 : K)) with
    | error e => rw [hf] at h1; cases h1
    | ok r =>
      rw [hf] at h1
      have h6 := Except.ok.inj h1
      have h7 := congrFun (congrArg Prod.snd h6) 0
      have h8 : zeroEdges 6 (fun j => j == 0) 0 = (0 == 0) := h7.trans h5
      revert h8; decide

/-- C29 (partial): if one of the first three and one of the last three pixels is unmasked, every masked inner pixel is
interpolated and all others are unchanged (the caller's mask still loses its edges). -/
theorem remove_blob_1d_partial (n : Nat) (line : Nat → K) (mask : Nat → Bool) (a b : Nat) (ha : a ≤ 2) (han : a < n)
    (ha' : mask a = false) (hb : n ≤ b + 3) (hbn : b < n) (hb' : mask b = false) :
    ∃ out, removeBlob1d n line mask = .ok (out, zeroEdges n mask) ∧
      (∀ j < n, ¬ InnerMasked n mask j → out j = line j) ∧
      (∀ j < n, InnerMasked n mask j → Interpolated (fun k => mask k = false) n line j (out j)) := by
  obtain ⟨g, h1, h2, h3⟩ := fillLine_ok (fun j => !mask j) (zeroEdges n mask) n line (by
    intro j hj hm
    have hi := (zeroEdges_iff _ _ _).mp hm
    refine ⟨⟨a, ?_, by simp [ha']⟩, b, ?_, hbn, by simp [hb']⟩
    · rcases Nat.lt_or_ge a j with h | h
      · exact h
      · have : a = j := by have := hi.2.1; omega
        rw [this, hi.1] at ha'; cases ha'
    · rcases Nat.lt_or_ge j b with h | h
      · exact h
      · have : b = j := by have := hi.2.2; omega
        rw [this, hi.1] at hb'; cases hb')
  refine ⟨g, by unfold removeBlob1d; simp only [h1]; rfl, ?_, ?_⟩
  · intro j hj hn
    exact h2 j hj (by rw [← Bool.not_eq_true, zeroEdges_iff]; exact hn)
  · intro j hj hi
    have := h3 j hj ((zeroEdges_iff _ _ _).mpr hi)
    simpa only [Bool.not_eq_true'] using this

/-- C29 (partial), 2D version: `remove_blob` succeeds for *every* mask of the right shape, filling exactly the masked
inner pixels of each row; what fails is only that the caller's mask is modified. -/
theorem remove_blob_partial (m : Mat K) (mask : Nat → Nat → Bool) :
    ∃ out mk, removeBlob m m.h m.w mask = .ok (out, mk) ∧ out.h = m.h ∧ out.w = m.w ∧
      ∀ i < m.h, ∀ j < m.w,
        (¬ InnerMasked m.w (mask i) j → out.get i j = m.get i j) ∧
        (InnerMasked m.w (mask i) j →
          Interpolated (fun k => ¬ InnerMasked m.w (mask i) k) m.w (m.get i) j (out.get i j)) := by
  choose g hg1 hg2 hg3 using fun i => fillLine_ok (fun j => !zeroEdges m.w (mask i) j) (zeroEdges m.w (mask i)) m.w (m.get i)
    (zeroEdges_neighbours m.w (mask i))
  have hm := mapM_all_ok (fun i => fillLine (fun j => !zeroEdges m.w (mask i) j) (zeroEdges m.w (mask i)) m.w (m.get i)) g
    (List.range m.h) (fun i _ => hg1 i)
  refine ⟨⟨m.h, m.w, fun i j => ((List.range m.h).map g).getD i (m.get i) j⟩, _, by unfold removeBlob; rw [if_neg (by simp)]; simp only [hm]; rfl, rfl, rfl, ?_⟩
  intro i hi j hj
  have hff : ∀ k, zeroEdges m.w (mask i) k = false ↔ ¬ InnerMasked m.w (mask i) k := by
    intro k; rw [← zeroEdges_iff, Bool.not_eq_true]
  show (_ → ((List.range m.h).map g).getD i (m.get i) j = _) ∧ (_ → Interpolated _ _ _ _ (((List.range m.h).map g).getD i (m.get i) j))
  rw [getD_map_range' _ _ hi]
  constructor
  · intro hn; exact hg2 i j hj ((hff j).mpr hn)
  · intro hm
    have := hg3 i j hj ((zeroEdges_iff _ _ _).mpr hm)
    simpa only [Bool.not_eq_true', hff] using this

/-- Non-vacuity of C29 (partial). -/
example : (fun j : Nat => j == 3) 0 = false ∧ (fun j : Nat => j == 3) 7 = false ∧ InnerMasked 8 (fun j => j == 3) 3 := by
  unfold InnerMasked; decide

end Verif.Removal
