import Verif.Model.Chunks
import Mathlib.Tactic.Ring
import Mathlib.Data.List.Basic

/-! Facts about `np.array_split` chunks: they are consecutive, cover the range and differ by at most one in size. -/

namespace Verif

/-- `bs` is a list of non-empty intervals `[b, e)` laid end to end from `a` to `z`. -/
def Consec : Nat → List (Nat × Nat) → Nat → Prop
  | a, [], z => a = z
  | a, (b, e) :: r, z => b = a ∧ b < e ∧ Consec e r z

theorem splitSizes_length (n k : Nat) (hk : 0 < k) : (splitSizes n k).length = k := by
  have : n % k < k := Nat.mod_lt _ hk
  simp [splitSizes]; omega

theorem splitSizes_sum (n k : Nat) (hk : 0 < k) : (splitSizes n k).sum = n := by
  have h : n % k ≤ k := (Nat.mod_lt _ hk).le
  have h2 := Nat.div_add_mod n k
  simp only [splitSizes, List.sum_append, List.sum_replicate_nat]
  have h3 : (k - n % k) * (n / k) + (n % k) * (n / k) = k * (n / k) := by
    rw [← Nat.add_mul, Nat.sub_add_cancel h]
  have h4 : n % k * (n / k + 1) = n % k * (n / k) + n % k := by ring
  omega

theorem splitSizes_pos (n k : Nat) (hk : 0 < k) (hkn : k ≤ n) : ∀ s ∈ splitSizes n k, 0 < s := by
  intro s hs
  have : 0 < n / k := Nat.div_pos hkn hk
  simp only [splitSizes, List.mem_append, List.mem_replicate] at hs
  rcases hs with ⟨_, rfl⟩ | ⟨_, rfl⟩ <;> omega

/-- Sizes of the chunks: each is `⌊n/k⌋` or `⌊n/k⌋ + 1`. -/
theorem splitSizes_balanced (n k : Nat) : ∀ s ∈ splitSizes n k, s = n / k ∨ s = n / k + 1 := by
  intro s hs
  simp only [splitSizes, List.mem_append, List.mem_replicate] at hs
  rcases hs with ⟨_, rfl⟩ | ⟨_, rfl⟩ <;> simp

theorem splitSizes_zero (n k : Nat) (hkn : n < k) : 0 ∈ splitSizes n k := by
  simp only [splitSizes, List.mem_append, List.mem_replicate]
  right
  rw [Nat.div_eq_of_lt hkn, Nat.mod_eq_of_lt hkn]
  omega

theorem cutSizes_flatten {α : Type _} (ss : List Nat) : ∀ l : List α, ss.sum = l.length → (cutSizes l ss).flatten = l := by
  induction ss with
  | nil => intro l h; simp only [List.sum_nil] at h; simp [cutSizes, List.eq_nil_of_length_eq_zero h.symm]
  | cons s ss ih =>
    intro l h
    simp only [List.sum_cons] at h
    rw [cutSizes, List.flatten_cons, ih _ (by rw [List.length_drop]; omega), List.take_append_drop]

theorem chunkEnds_range' (a s : Nat) (hs : 0 < s) : chunkEnds (List.range' a s) = .ok (a, a + s) := by
  cases s with
  | zero => omega
  | succ s =>
    have h1 : (List.range' a (s + 1)).head? = some a := by rw [List.range'_succ]; rfl
    have h2 : (List.range' a (s + 1)).getLast? = some (a + s) := by
      rw [List.range'_concat]; simp
    simp only [chunkEnds, h1, h2]; rfl

theorem cutSizes_range' (ss : List Nat) : ∀ a n, ss.sum = n →
    ∃ f : List (Nat × Nat), cutSizes (List.range' a n) ss = f.map (fun p => List.range' p.1 (p.2 - p.1)) ∧
      f.length = ss.length ∧ ((∀ s ∈ ss, 0 < s) → Consec a f (a + n)) ∧ f.map (fun p => p.2 - p.1) = ss := by
  induction ss with
  | nil => intro a n h; simp at h; exact ⟨[], by simp [cutSizes], rfl, by simp [Consec, ← h], rfl⟩
  | cons s ss ih =>
    intro a n h
    simp only [List.sum_cons] at h
    obtain ⟨f, h1, h2, h3, h4⟩ := ih (a + s) (n - s) (by omega)
    refine ⟨(a, a + s) :: f, ?_, by simp [h2], ?_, by simp [h4]⟩
    · rw [cutSizes, List.map_cons, ← h1]
      have ht : (List.range' a n).take s = List.range' a s := by
        rw [List.take_range'_of_length_ge (by omega)]
      have hd : (List.range' a n).drop s = List.range' (a + s) (n - s) := by
        rw [List.drop_range']; congr 1; omega
      rw [ht, hd]; simp
    · intro hp
      refine ⟨rfl, ?_, ?_⟩
      · have := hp s (by simp); omega
      · have := h3 (fun x hx => hp x (by simp [hx]))
        rwa [show a + s + (n - s) = a + n by omega] at this

theorem mapM_chunkEnds_ok (a : Nat) : ∀ (f : List (Nat × Nat)) z, Consec a f z →
    (f.map (fun p => List.range' p.1 (p.2 - p.1))).mapM chunkEnds = .ok f := by
  intro f
  induction f generalizing a with
  | nil => intro z _; rfl
  | cons p f ih =>
    intro z h
    obtain ⟨b, e⟩ := p
    obtain ⟨rfl, hlt, hc⟩ := h
    rw [List.map_cons, List.mapM_cons, chunkEnds_range' _ _ (by omega), ih _ _ hc]
    simp only [show b + (e - b) = e by omega]
    rfl

theorem mapM_chunkEnds_error : ∀ (cs : List (List Nat)), [] ∈ cs → cs.mapM chunkEnds = .error .indexError := by
  intro cs
  induction cs with
  | nil => intro h; cases h
  | cons c cs ih =>
    intro h
    rw [List.mapM_cons]
    cases c with
    | nil => rfl
    | cons x c =>
      have h' : [] ∈ cs := by simpa using h
      have : ∃ p, chunkEnds (x :: c) = .ok p := by
        unfold chunkEnds
        cases hl : (x :: c).getLast? with
        | none => simp at hl
        | some b => exact ⟨_, rfl⟩
      obtain ⟨p, hp⟩ := this
      rw [hp, ih h']; rfl

/-- For `1 ≤ k ≤ n` the chunks are `k` non-empty consecutive intervals covering `[a, a+n)`, of sizes `⌊n/k⌋` or
`⌊n/k⌋+1`. -/
theorem chunkBounds_ok (a n k : Nat) (hk : 0 < k) (hkn : k ≤ n) :
    ∃ bs, chunkBounds a n k = .ok bs ∧ Consec a bs (a + n) ∧ bs.length = k ∧
      ∀ p ∈ bs, p.2 - p.1 = n / k ∨ p.2 - p.1 = n / k + 1 := by
  obtain ⟨f, h1, h2, h3, h4⟩ := cutSizes_range' (splitSizes n k) a n (splitSizes_sum n k hk)
  have hc := h3 (splitSizes_pos n k hk hkn)
  refine ⟨f, ?_, hc, by rw [h2, splitSizes_length n k hk], ?_⟩
  · unfold chunkBounds arraySplit
    rw [if_neg (by omega), List.length_range', h1]
    exact mapM_chunkEnds_ok a f _ hc
  · intro p hp
    apply splitSizes_balanced
    rw [← h4]
    exact List.mem_map_of_mem hp

/-- With more chunks than elements the loop raises `IndexError`. -/
theorem chunkBounds_error (a n k : Nat) (hkn : n < k) : chunkBounds a n k = .error .indexError := by
  obtain ⟨f, h1, h2, _, h4⟩ := cutSizes_range' (splitSizes n k) a n (splitSizes_sum n k (by omega))
  unfold chunkBounds arraySplit
  rw [if_neg (by omega), List.length_range', h1]
  apply mapM_chunkEnds_error
  have h0 := splitSizes_zero n k hkn
  rw [← h4, List.mem_map] at h0
  obtain ⟨p, hp, hp0⟩ := h0
  rw [List.mem_map]
  exact ⟨p, hp, by rw [hp0]; rfl⟩

/-- Zero chunks: `ValueError`. -/
theorem chunkBounds_zero (a n : Nat) : chunkBounds a n 0 = .error .valueError := rfl

theorem consec_le : ∀ (bs : List (Nat × Nat)) a z, Consec a bs z → a ≤ z := by
  intro bs
  induction bs with
  | nil => intro a z h; exact le_of_eq h
  | cons p bs ih =>
    intro a z h
    obtain ⟨rfl, h1, h2⟩ := h
    have := ih _ _ h2; omega

theorem consec_bounds : ∀ (bs : List (Nat × Nat)) a z, Consec a bs z → ∀ p ∈ bs, a ≤ p.1 ∧ p.1 < p.2 ∧ p.2 ≤ z := by
  intro bs
  induction bs with
  | nil => intro a z _ p hp; cases hp
  | cons q bs ih =>
    intro a z h p hp
    obtain ⟨h0, h1, h2⟩ := h
    have hz := consec_le _ _ _ h2
    rcases List.mem_cons.mp hp with rfl | hp
    · omega
    · have := ih _ _ h2 p hp; omega

/-- Every position of the range is in exactly one chunk. -/
theorem consec_cover : ∀ (bs : List (Nat × Nat)) a z, Consec a bs z → ∀ i, a ≤ i → i < z → ∃ p ∈ bs, p.1 ≤ i ∧ i < p.2 := by
  intro bs
  induction bs with
  | nil => intro a z h i h1 h2; have : a = z := h; omega
  | cons q bs ih =>
    intro a z h i h1 h2
    obtain ⟨h3, h4, h5⟩ := h
    by_cases hi : i < q.2
    · exact ⟨q, by simp, by omega, hi⟩
    · obtain ⟨p, hp, h6⟩ := ih _ _ h5 i (by omega) h2
      exact ⟨p, by simp [hp], h6⟩

/-- Folding updates that read and write only rows of their own chunk: each row gets its chunk's update of the
*original* rows; rows outside are untouched. -/
theorem foldl_consec {α : Type _} (g : Nat → Nat → (Nat → α) → Nat → α)
    (hloc : ∀ b e s s' i, (∀ j, b ≤ j → j < e → s j = s' j) → b ≤ i → i < e → g b e s i = g b e s' i) :
    ∀ (bs : List (Nat × Nat)) a z (s : Nat → α), Consec a bs z →
      (∀ p ∈ bs, ∀ i, p.1 ≤ i → i < p.2 →
        bs.foldl (fun s p i => if p.1 ≤ i ∧ i < p.2 then g p.1 p.2 s i else s i) s i = g p.1 p.2 s i) ∧
      (∀ i, (i < a ∨ z ≤ i) → bs.foldl (fun s p i => if p.1 ≤ i ∧ i < p.2 then g p.1 p.2 s i else s i) s i = s i) := by
  intro bs
  induction bs with
  | nil => intro a z s _; exact ⟨fun p hp => (List.not_mem_nil hp).elim, fun i _ => rfl⟩
  | cons q bs ih =>
    intro a z s h
    obtain ⟨h0, h1, h2⟩ := h
    have hz := consec_le _ _ _ h2
    obtain ⟨ih1, ih2⟩ := ih _ _ (fun i => if q.1 ≤ i ∧ i < q.2 then g q.1 q.2 s i else s i) h2
    constructor
    · intro p hp i hi1 hi2
      rw [List.foldl_cons]
      rcases List.mem_cons.mp hp with rfl | hp
      · rw [ih2 i (Or.inl hi2), if_pos ⟨hi1, hi2⟩]
      · rw [ih1 p hp i hi1 hi2]
        apply hloc _ _ _ _ _ _ hi1 hi2
        intro j hj1 hj2
        have := consec_bounds _ _ _ h2 p hp
        have hn : ¬ (q.1 ≤ j ∧ j < q.2) := by omega
        exact if_neg hn
    · intro i hi
      rw [List.foldl_cons, ih2 i (by omega)]
      exact if_neg (by omega)

end Verif
