import Verif.Props.GpuShifts

/-!
C113: the GPU and hybrid local-shift searches against the CPU search, whole images.
-/

set_option linter.unusedSectionVars false
set_option linter.unusedSimpArgs false

namespace Verif.GpuShifts
open Finset Verif.Correlation Verif.LocalShifts

/-! ### One direction -/

theorem launched_of {h w y x : ℕ} {block : ℕ × ℕ} (hb : 0 < block.1 ∧ 0 < block.2) (hy : y < h) (hx : x < w) : launched h w block y x = true := by
  unfold launched
  rw [decide_eq_true_iff]
  exact ⟨grid_covers hb.1 hx, grid_covers hb.2 hy, hy, hx⟩

/-- **C113.** The x-shifts of the GPU equal those of the CPU (method "diff"), for every chunk size and block shape; errors included. -/
theorem gpu_1d_x {ref mat : Arr3 ℝ} {radi margin : ℕ} {chunkSize : Option ℤ} {block : ℕ × ℕ} {norm : Bool} {size : Int} (hm : 1 ≤ margin)
    (hb : 0 < block.1 ∧ 0 < block.2) :
    shiftsXGpu ref mat radi margin chunkSize block norm = shiftsX ref mat radi margin chunkSize norm .diff size := by
  unfold shiftsXGpu shiftsX
  dsimp only
  by_cases hs : ref.d ≠ mat.d ∨ ref.h ≠ mat.h ∨ ref.w ≠ mat.w
  · rw [if_pos hs, if_pos hs]
  · rw [if_neg hs, if_neg hs]
    refine chunkLoop_congr fun b e _ hbe _ => ?_
    by_cases hw : ref.w < 2 * (margin + radi) + 1
    · left
      exact ⟨.valueError, by rw [if_pos hw], by rw [if_pos (by omega)]⟩
    · right
      refine ⟨_, _, by rw [if_neg hw], by rw [if_neg (by omega)], fun t ht => ?_⟩
      funext j
      unfold lineShifts
      split_ifs with hj
      · dsimp only
        rw [launched_of hb (by omega) (by omega), if_pos rfl, pixel_1d hm]
      · rfl

/-- **C113.** The same for the y-shifts. -/
theorem gpu_1d_y {ref mat : Arr3 ℝ} {c radi margin : ℕ} {chunkSize : Option ℤ} {block : ℕ × ℕ} {norm : Bool} {size : Int} (hm : 1 ≤ margin)
    (hb : 0 < block.1 ∧ 0 < block.2) (hc : c < ref.w) :
    shiftsYGpu ref mat c radi margin chunkSize block norm = findLocalShiftsY ref mat c radi margin chunkSize norm .diff size := by
  unfold shiftsYGpu findLocalShiftsY
  dsimp only
  refine chunkLoop_congr fun b e hb1 hbe hz => ?_
  right
  refine ⟨_, _, by rw [if_neg (by omega)], by rw [if_neg (by omega)], fun t ht => ?_⟩
  rw [launched_of hb hc (by omega), if_pos rfl, pixel_1d hm]

theorem numChunk_le {height : ℕ} (h : 0 < height) (cs : Option ℤ) : numChunk height cs ≤ height := by
  unfold numChunk npClip
  dsimp only
  omega

/-- **C53/C113.** The x-shifts do not depend on the chunk size, with and without normalisation: row `i` is computed from row `i` of the two stacks
alone. -/
theorem shifts_x {ref mat : Arr3 ℝ} {radi margin : ℕ} {chunkSize : Option ℤ} {norm : Bool} {method : Method ℝ} {size : Int}
    (hs : mat.d = ref.d ∧ mat.h = ref.h ∧ mat.w = ref.w) (hh : 0 < ref.h) (hw : 2 * (margin + radi) + 1 ≤ ref.w) :
    ∃ out, shiftsX ref mat radi margin chunkSize norm method size = .ok out ∧
      ∀ i < ref.h, ∀ j < ref.w,
        (margin + radi ≤ j → j + (margin + radi) < ref.w → out i j = pixCol ref.d radi margin method size fun q =>
          colNorm ref.d norm ref.w (fun j => (fun k => ref.get k i j, fun k => mat.get k i j)) (j - (margin + radi) + q)) ∧
        (j < margin + radi ∨ ref.w ≤ j + (margin + radi) → out i j = .ok 0) := by
  obtain ⟨out, h1, h2, -⟩ := chunkLoop_ok (a := 0) (n := ref.h) (k := numChunk ref.h chunkSize) (edge := 0)
    (F := fun _ rows => if ref.w < 2 * radi + 1 + 2 * margin then .error .valueError
      else .ok fun i => lineShifts ref.w (margin + radi) (.ok 0) (fun win _ => pixCol ref.d radi margin method size win) (colNorm ref.d norm ref.w (rows i)))
    (rows := linesOf ref mat) (zero := fun _ => (.ok 0 : Py ℝ)) (numChunk_pos hh _) (numChunk_le hh _)
    (fun b _ i => lineShifts ref.w (margin + radi) (.ok 0) (fun win _ => pixCol ref.d radi margin method size win)
      (colNorm ref.d norm ref.w (linesOf ref mat (b - 0 + i))))
    (fun b e _ _ _ => by rw [if_neg (by omega)])
  refine ⟨out, by unfold shiftsX; rw [if_neg (by omega)]; exact h1, fun i hi j hj => ?_⟩
  obtain ⟨b, e, -, hbi, -, -, ho⟩ := h2 i (Nat.zero_le _) (by omega)
  rw [ho, show b - 0 + (i - b) = i by omega]
  unfold lineShifts
  refine ⟨fun a1 a2 => ?_, fun ha => ?_⟩
  · rw [if_pos ⟨a1, a2⟩]; rfl
  · rw [if_neg (by omega)]

/-! ### Refinement in two directions -/

/-- The kernel refines an interior maximum exactly as `locate_peak` does. -/
theorem peak2_interior {m : Mat ℝ} {y x : ℕ} (hp : FirstMax2 m y x) (hy : 0 < y ∧ y + 1 < m.h) (hx : 0 < x ∧ x + 1 < m.w) (size : Int) :
    locatePeak m true .diff 2 size true = .ok (peak2 m y x) := by
  have hws : winSize (Method.diff : Method ℝ) size = 3 := rfl
  have hsx : winStart x (3 / 2) m.w 3 = x - 1 := by unfold winStart npClip; omega
  have hsy : winStart y (3 / 2) m.h 3 = y - 1 := by unfold winStart npClip; omega
  have hblk : FirstMax2 (⟨3, 3, fun i j => m.get (y - 1 + i) (x - 1 + j)⟩ : Mat ℝ) 1 1 := by
    have := firstMax_block hp (row := y - 1) (col := x - 1) (n := 3) (by omega) (by omega) (by omega) (by omega) (by omega) (by omega)
    rwa [show y - (y - 1) = 1 by omega, show x - (x - 1) = 1 by omega] at this
  obtain ⟨r, hr, hr1, hr2, -⟩ := locate2d_range _ (.diff : Method ℝ) hblk
  have ex : ((x - 1 : ℕ) : ℝ) = (x : ℝ) - 1 := by rw [Nat.cast_sub (by omega)]; norm_num
  have ey : ((y - 1 : ℕ) : ℝ) = (y : ℝ) - 1 := by rw [Nat.cast_sub (by omega)]; norm_num
  have hval : (((x - 1 : ℕ) : ℝ) + r.1, ((y - 1 : ℕ) : ℝ) + r.2) = peak2 m y x := by
    have hr' := hr
    unfold locate2d at hr'
    rw [argmax2_eq hblk] at hr'
    simp only [bind, Except.bind] at hr'
    have hr' := Except.ok.inj hr'
    have c1 : ¬ ((1 : ℕ) = 0 ∨ (1 : ℕ) = 3 - 1) := by omega
    simp only [c1, not_false_eq_true, if_true, and_self] at hr'
    have e1 : ∀ z, 0 < z → z - 1 + (1 + 1) = z + 1 := fun z hz => by omega
    have e2 : ∀ z, z - 1 + (1 - 1) = z - 1 := fun z => by omega
    have e3 : ∀ z, 0 < z → z - 1 + 1 = z := fun z hz => by omega
    rw [e1 x hx.1, e1 y hy.1, e2 x, e2 y, e3 x hx.1, e3 y hy.1] at hr'
    rw [← hr']
    unfold peak2
    have q1 : y < m.h - 1 ∧ 0 < y := ⟨by omega, hy.1⟩
    have q2 : x < m.w - 1 ∧ 0 < x := ⟨by omega, hx.1⟩
    simp only [q1, q2, and_self, or_true, if_true, true_and]
    rw [ex, ey]
    split_ifs <;> (refine Prod.ext ?_ ?_ <;> (dsimp only; push_cast; ring))
  have hint : peakInterior m 3 .diff 2 y x = .ok (.flt (((x - 1 : ℕ) : ℝ) + r.1), .flt (((y - 1 : ℕ) : ℝ) + r.2)) := by
    unfold peakInterior
    rw [if_pos ⟨by omega, hy.1, by omega, hx.1, by omega, by omega⟩]
    dsimp only
    rw [hsx, hsy, if_neg (by norm_num), hr]
    rfl
  unfold locatePeak flipPeak
  simp only [bind, Except.bind, if_true, argmax2_eq hp, Bool.true_eq_false, if_false, hws, hint]
  have bx := add_range (K := ℝ) (c := x - 1) (n := 3) (L := m.w) (x := x) (v := r.1) hx.1 hx.2 (by omega) (by omega)
    (by rw [show x - (x - 1) = 1 by omega]; exact hr1)
  have by' := add_range (K := ℝ) (c := y - 1) (n := 3) (L := m.h) (x := y) (v := r.2) hy.1 hy.2 (by omega) (by omega)
    (by rw [show y - (y - 1) = 1 by omega]; exact hr2)
  rw [peakRow_inside 3 _ by']
  simp only
  rw [peakCol_inside 3 _ bx]
  simp only
  rw [← hval]
  rfl

/-- At the edge of the map the kernel does not refine at all. -/
theorem peak2_edge {m : Mat ℝ} {y x : ℕ} (hn : ¬ ((0 < y ∧ y + 1 < m.h) ∧ 0 < x ∧ x + 1 < m.w)) :
    peak2 m y x = ((x : ℝ), (y : ℝ)) := by
  unfold peak2
  dsimp only
  have q : ¬ ((y < m.h - 1 ∧ 0 < y) ∧ x < m.w - 1 ∧ 0 < x) := by omega
  rw [if_neg (c := (y < m.h - 1 ∧ 0 < y) ∧ x < m.w - 1 ∧ 0 < x) q, if_neg]
  rw [not_not]
  by_cases q1 : y < m.h - 1 ∧ 0 < y
  · have q2 : ¬ (x < m.w - 1 ∧ 0 < x) := fun h => q ⟨q1, h⟩
    simp [q2]
  · simp [q1]

/-- At the edge the CPU refines by at most half a pixel. -/
theorem peak_edge_half {m : Mat ℝ} {y x : ℕ} (hp : FirstMax2 m y x) (hn : ¬ ((0 < y ∧ y + 1 < m.h) ∧ 0 < x ∧ x + 1 < m.w)) (size : Int) :
    ∃ r, locatePeak m true .diff 2 size true = .ok r ∧ |r.1 - x| ≤ 1 / 2 ∧ |r.2 - y| ≤ 1 / 2 := by
  have hws : winSize (Method.diff : Method ℝ) size = 3 := rfl
  have hint : peakInterior m 3 (.diff : Method ℝ) 2 y x = .ok (.int x, .int y) := by
    unfold peakInterior
    rw [if_neg (by omega)]
  unfold locatePeak flipPeak
  simp only [bind, Except.bind, if_true, argmax2_eq hp, Bool.true_eq_false, if_false, hws, hint]
  rcases peakRow_int hp (le_refl 3) (.diff : Method ℝ) with h2 | ⟨r, h2, br, dr⟩
  · simp only [h2]
    obtain ⟨q, h3, -, dq⟩ := peakCol_int hp (le_refl 3) (.diff : Method ℝ)
    simp only [h3]
    exact ⟨_, rfl, by simp [Pos.val], dq rfl⟩
  · simp only [h2, peakCol_inside 3 _ br]
    exact ⟨_, rfl, dr rfl, by simp [Pos.val]⟩

/-! ### Normalisation -/

theorem chunkNorm_affine {d w n : ℕ} {norm : Bool} {rows : ℕ → Row × Row}
    (h1 : norm = true → NonConstant d n w fun k i j => (rows i).1 k j) (h2 : norm = true → NonConstant d n w fun k i j => (rows i).2 k j) :
    ∃ a b a' b' : ℝ, 0 < a ∧ 0 < a' ∧ ∀ i k j, (chunkNorm d w norm n rows i).1 k j = a * (rows i).1 k j + b ∧
      (chunkNorm d w norm n rows i).2 k j = a' * (rows i).2 k j + b' := by
  cases norm with
  | false => exact ⟨1, 0, 1, 0, one_pos, one_pos, fun i k j => by unfold chunkNorm; simp⟩
  | true =>
    obtain ⟨a, b, ha, hab⟩ := normalize3_affine (h1 rfl)
    obtain ⟨a', b', ha', hab'⟩ := normalize3_affine (h2 rfl)
    refine ⟨a, b, a', b', ha, ha', fun i k j => ⟨?_, ?_⟩⟩
    · unfold chunkNorm; simp only [if_true]; exact hab i k j
    · unfold chunkNorm; simp only [if_true]; exact hab' i k j

theorem cellMap_affine {ref ref' mat mat' : Arr3 ℝ} {a b a' b' : ℝ} (hh : mat.h ≤ ref.h) (hw : mat.w ≤ ref.w) (hd : ref.d = mat.d)
    (ha : 0 < a) (ha' : 0 < a') (s1 : ref'.d = ref.d ∧ ref'.h = ref.h ∧ ref'.w = ref.w) (s2 : mat'.d = mat.d ∧ mat'.h = mat.h ∧ mat'.w = mat.w)
    (hr : ∀ i j k, ref'.get i j k = a * ref.get i j k + b) (hm : ∀ i j k, mat'.get i j k = a' * mat.get i j k + b') :
    cellMap ref' mat' = cellMap ref mat := by
  have e1 := cellMap_eq hh hw hd
  have e2 := cellMap_eq (ref := ref') (mat := mat') (by omega) (by omega) (by omega)
  rw [correlationMap_affine ha ha' s1.1 s1.2.1 s1.2.2 s2.1 s2.2.1 s2.2.2 hr hm, e1] at e2
  exact (Except.ok.inj e2).symm

/-! ### Whole images -/

/-- The block of the reference searched for the pixel `(i, j)`. -/
def refWin (ref : Arr3 ℝ) (radi margin i j : ℕ) : Arr3 ℝ :=
  ⟨ref.d, 2 * (margin + radi) + 1, 2 * (margin + radi) + 1, fun k p q => ref.get k (i - (margin + radi) + p) (j - (margin + radi) + q)⟩

/-- The block of the sample around the pixel `(i, j)`. -/
def matWin (mat : Arr3 ℝ) (radi i j : ℕ) : Arr3 ℝ := ⟨mat.d, 2 * radi + 1, 2 * radi + 1, fun k p q => mat.get k (i - radi + p) (j - radi + q)⟩

/-- Both stacks vary in every block of `2*(margin+radi)+1` rows. -/
def Varied (ref mat : Arr3 ℝ) (radi margin : ℕ) : Prop :=
  ∀ i, i + 2 * (margin + radi) < ref.h → VariedRows ref i (i + 2 * (margin + radi) + 1) ∧ VariedRows mat i (i + 2 * (margin + radi) + 1)

theorem nonConstant_rows {a : Arr3 ℝ} {b n i0 i1 : ℕ} (h : VariedRows a i0 i1) (hb : b ≤ i0) (hi : i1 ≤ b + n) :
    NonConstant a.d n a.w fun k t j => a.get k (b + t) j := by
  obtain ⟨k, hk, k', hk', j, hj, j', hj', p, p', hp, hp', hne⟩ := h
  refine ⟨k, hk, p - b, by omega, j, hj, k', hk', p' - b, by omega, j', hj', ?_⟩
  show a.get k (b + (p - b)) j ≠ a.get k' (b + (p' - b)) j'
  rw [show b + (p - b) = p by omega, show b + (p' - b) = p' by omega]
  exact hne

/-- What the GPU and the hybrid search compute for every pixel. -/
theorem shifts2d_spec {fin : Finish} {ref mat : Arr3 ℝ} {radi margin : ℕ} {chunkSize : Option ℤ} {block : ℕ × ℕ} {norm normGlobal : Bool}
    (hd : mat.d = ref.d) (hmh : mat.h = ref.h) (hw : mat.w = ref.w) (he : 1 ≤ margin + radi) (hh : 2 * (margin + radi) + 1 ≤ ref.h)
    (hww : 2 * (margin + radi) + 1 ≤ ref.w) (hb : 0 < block.1 ∧ 0 < block.2) (hn : numChunk ref.h chunkSize ≤ ref.h - 2 * (margin + radi))
    (hv : norm = true ∨ normGlobal = true → Varied ref mat radi margin) :
    ∃ out, shifts2d fin ref mat radi margin chunkSize block norm normGlobal = .ok out ∧
      (∀ i j, margin + radi ≤ i → i + (margin + radi) < ref.h → margin + radi ≤ j → j + (margin + radi) < ref.w →
        out i j = fin true (cellMap (refWin ref radi margin i j) (matWin mat radi i j))) ∧
      ∀ i j, (i < margin + radi ∨ ref.h ≤ i + (margin + radi) ∨ j < margin + radi ∨ ref.w ≤ j + (margin + radi)) → out i j = .ok (0, 0) := by
  have ecomm : radi + margin = margin + radi := Nat.add_comm _ _
  have h1 : normGlobal = true → NonConstant ref.d ref.h ref.w fun k i j => ref.get k i j := by
    intro hg
    have := nonConstant_rows (b := 0) (n := ref.h) (hv (Or.inr hg) 0 (by omega)).1 (Nat.le_refl _) (by omega)
    simpa using this
  have h2 : normGlobal = true → NonConstant ref.d ref.h ref.w fun k i j => mat.get k i j := by
    intro hg
    have := nonConstant_rows (b := 0) (n := ref.h) (hv (Or.inr hg) 0 (by omega)).2 (Nat.le_refl _) (by omega)
    rw [← hd, ← hw]
    simpa using this
  obtain ⟨a0, b0, a0', b0', ha0, ha0', hg0⟩ := chunkNorm_affine (rows := fun i => (rowsOf ref i, rowsOf mat i)) h1 h2
  set grows := chunkNorm ref.d ref.w normGlobal ref.h fun i => (rowsOf ref i, rowsOf mat i) with hgrows
  obtain ⟨out, g1, g2, g3⟩ := chunkLoop_ok (a := margin + radi) (n := ref.h - 2 * (margin + radi)) (k := numChunk ref.h chunkSize)
    (edge := margin + radi) (F := multi2d fin ref.d ref.w radi margin block (norm && !normGlobal)) (rows := grows)
    (zero := fun _ => (.ok (0, 0) : Py (ℝ × ℝ))) (numChunk_pos (by omega) _) hn
    (fun b e y j => if margin + radi ≤ j ∧ j < ref.w - (margin + radi) ∧ margin + radi ≠ 0 then
        fin (launched (e + (margin + radi) - (b - (margin + radi)) - 2 * (margin + radi)) (ref.w - 2 * (margin + radi)) block y (j - (margin + radi)))
          (cellMap
          ⟨ref.d, 2 * (margin + radi) + 1, 2 * (margin + radi) + 1, fun k p q =>
            (chunkNorm ref.d ref.w (norm && !normGlobal) (e + (margin + radi) - (b - (margin + radi))) (fun t => grows (b - (margin + radi) + t)) (y + p)).1 k
              (j - (margin + radi) + q)⟩
          ⟨ref.d, 2 * radi + 1, 2 * radi + 1, fun k p q =>
            (chunkNorm ref.d ref.w (norm && !normGlobal) (e + (margin + radi) - (b - (margin + radi))) (fun t => grows (b - (margin + radi) + t))
              (y + (margin + radi) - radi + p)).2 k (j - (margin + radi) + (margin + radi) - radi + q)⟩)
      else .ok (0, 0))
    (fun b e hb1 hbe hz => by
      unfold multi2d
      dsimp only
      rw [ecomm, if_neg (by omega), if_neg (by omega)])
  refine ⟨out, ?_, ?_, ?_⟩
  · unfold shifts2d
    dsimp only
    rw [if_neg (by omega), if_neg (by omega)]
    exact g1
  · intro i j hi hi1 hj hj1
    obtain ⟨b, e, k1, k2, k3, k4, ho⟩ := g2 i hi (by omega)
    rw [ho]
    dsimp only
    rw [if_pos ⟨hj, by omega, by omega⟩, launched_of hb (by omega) (by omega)]
    congr 1
    -- the chunk normalisation
    have c1 : (norm && !normGlobal) = true → NonConstant ref.d (e + (margin + radi) - (b - (margin + radi))) ref.w
        fun k t j => (grows (b - (margin + radi) + t)).1 k j := by
      intro hc
      obtain ⟨q1, q2⟩ : norm = true ∧ normGlobal = false := by simpa using hc
      have := nonConstant_rows (b := b - (margin + radi)) (n := e + (margin + radi) - (b - (margin + radi)))
        (hv (Or.inl q1) (b - (margin + radi)) (by omega)).1 (Nat.le_refl _) (by omega)
      rw [hgrows, q2]
      exact this
    have c2 : (norm && !normGlobal) = true → NonConstant ref.d (e + (margin + radi) - (b - (margin + radi))) ref.w
        fun k t j => (grows (b - (margin + radi) + t)).2 k j := by
      intro hc
      obtain ⟨q1, q2⟩ : norm = true ∧ normGlobal = false := by simpa using hc
      have := nonConstant_rows (b := b - (margin + radi)) (n := e + (margin + radi) - (b - (margin + radi)))
        (hv (Or.inl q1) (b - (margin + radi)) (by omega)).2 (Nat.le_refl _) (by omega)
      rw [hgrows, q2, ← hd, ← hw]
      exact this
    obtain ⟨a1, b1, a1', b1', ha1, ha1', hg1⟩ := chunkNorm_affine c1 c2
    refine cellMap_affine (a := a1 * a0) (b := a1 * b0 + b1) (a' := a1' * a0') (b' := a1' * b0' + b1') ?_ ?_ ?_ (mul_pos ha1 ha0) (mul_pos ha1' ha0')
      ⟨rfl, rfl, rfl⟩ ⟨hd.symm, rfl, rfl⟩ ?_ ?_
    · show 2 * radi + 1 ≤ 2 * (margin + radi) + 1; omega
    · show 2 * radi + 1 ≤ 2 * (margin + radi) + 1; omega
    · exact hd.symm
    · intro k p q
      show (chunkNorm _ _ _ _ _ _).1 _ _ = _
      rw [(hg1 _ _ _).1, (hg0 _ _ _).1, show b - (margin + radi) + (i - b + p) = i - (margin + radi) + p by omega]
      show _ = a1 * a0 * ref.get k (i - (margin + radi) + p) (j - (margin + radi) + q) + _
      show a1 * (a0 * ref.get k (i - (margin + radi) + p) (j - (margin + radi) + q) + b0) + b1 = _
      ring
    · intro k p q
      show (chunkNorm _ _ _ _ _ _).2 _ _ = _
      rw [(hg1 _ _ _).2, (hg0 _ _ _).2, show b - (margin + radi) + (i - b + (margin + radi) - radi + p) = i - radi + p by omega,
        show j - (margin + radi) + (margin + radi) - radi + q = j - radi + q by omega]
      show a1' * (a0' * mat.get k (i - radi + p) (j - radi + q) + b0') + b1' = a1' * a0' * mat.get k (i - radi + p) (j - radi + q) + _
      ring
  · intro i j hij
    by_cases hi : margin + radi ≤ i ∧ i + (margin + radi) < ref.h
    · obtain ⟨b, e, -, -, -, -, ho⟩ := g2 i hi.1 (by omega)
      rw [ho]
      dsimp only
      rw [if_neg (by omega)]
    · rw [g3 i (by omega)]

end Verif.GpuShifts
