import Verif.Model.LocalShifts
import Verif.Props.ShiftFind
import Verif.Lemmas.Chunks

/-!
C53: chunked local-shift search.
-/

set_option linter.unusedSectionVars false
set_option linter.unusedSimpArgs false

namespace Verif.LocalShifts
open Finset Verif.Correlation

theorem numChunk_none {height : ℕ} (h : 0 < height) : numChunk height none = 1 := by
  unfold numChunk npClip
  have : (height : ℤ) / ((height : ℤ) + 1) = 0 := Int.ediv_eq_zero_of_lt (by omega) (by omega)
  dsimp only
  rw [this]; omega

/-- `num_chunk` for an explicit chunk size of at least one. -/
theorem numChunk_some {height c : ℕ} (h : 0 < height) (hc : 1 ≤ c) :
    numChunk height (some c) = min (height / min c height + 1) height := by
  unfold numChunk npClip
  dsimp only
  have e : min (max (c : ℤ) 1) (height : ℤ) = ((min c height : ℕ) : ℤ) := by omega
  rw [e, ← Int.natCast_ediv]
  have : 0 ≤ height / min c height := Nat.zero_le _
  generalize height / min c height = q at *
  omega

theorem numChunk_pos {height : ℕ} (h : 0 < height) (cs : Option ℤ) : 1 ≤ numChunk height cs := by
  unfold numChunk npClip
  dsimp only
  generalize (height : ℤ) / _ = q
  omega

/-- **C53.** When the number of chunks does not exceed the number of rows with a full window, the chunked search
succeeds and every row equals the row computed from its own window of the unchunked data; outer rows are zero. -/
theorem local_shifts_partial {α β : Type _} {height edge : ℕ} {chunkSize : Option ℤ}
    {norm : ℕ → (ℕ → α) → ℕ → α} {pix : (ℕ → α) → β} {zero : β} {rows : ℕ → α} (he : 1 ≤ edge)
    (hh : 2 * edge + 1 ≤ height) (hn : numChunk height chunkSize ≤ height - 2 * edge)
    (hnorm : ∀ b e i, edge ≤ b → e + edge ≤ height → b ≤ i → i < e →
      chunkRow edge norm pix rows b e (i - b) = pix fun t => rows (i - edge + t)) :
    ∃ out, localShifts height edge chunkSize norm pix zero rows = .ok out ∧
      (∀ i, edge ≤ i → i + edge < height → out i = pix fun t => rows (i - edge + t)) ∧
      ∀ i, (i < edge ∨ height ≤ i + edge) → out i = zero := by
  obtain ⟨bs, hbs, hc, -, -⟩ := chunkBounds_ok edge (height - 2 * edge) (numChunk height chunkSize)
    (numChunk_pos (by omega) _) hn
  have hz : edge + (height - 2 * edge) = height - edge := by omega
  rw [hz] at hc
  obtain ⟨f1, f2⟩ := foldl_consec (fun b e (_ : ℕ → β) i => chunkRow edge norm pix rows b e (i - b))
    (fun b e s s' i _ _ _ => rfl) bs edge (height - edge) (fun _ => zero) hc
  refine ⟨bs.foldl (fun out p i => if p.1 ≤ i ∧ i < p.2 then chunkRow edge norm pix rows p.1 p.2 (i - p.1) else out i)
    (fun _ => zero), ?_, ?_, ?_⟩
  · unfold localShifts
    rw [if_neg (by omega), hbs]
    simp only [bind, Except.bind]
    rw [if_neg (by omega)]
  · intro i h1 h2
    obtain ⟨p, hp, hp1, hp2⟩ := consec_cover bs _ _ hc i h1 (by omega)
    have hb := consec_bounds bs _ _ hc p hp
    rw [f1 p hp i hp1 hp2]
    exact hnorm p.1 p.2 i hb.1 (by omega) hp1 hp2
  · intro i hi
    exact f2 i (by omega)

/-- **C53.** With no per-chunk normalisation the result is the same for every chunk size that succeeds, and equals the
one-chunk result. -/
theorem local_shifts_chunk_independent_partial {α β : Type _} {height edge : ℕ} {chunkSize : Option ℤ}
    {pix : (ℕ → α) → β} {zero : β} {rows : ℕ → α} (he : 1 ≤ edge) (hh : 2 * edge + 1 ≤ height)
    (hn : numChunk height chunkSize ≤ height - 2 * edge) :
    ∃ out one, localShifts height edge chunkSize (fun _ r => r) pix zero rows = .ok out ∧
      localShifts height edge none (fun _ r => r) pix zero rows = .ok one ∧ ∀ i < height, out i = one i := by
  have hnorm : ∀ b e i, edge ≤ b → e + edge ≤ height → b ≤ i → i < e →
      chunkRow edge (fun _ r => r) pix rows b e (i - b) = pix fun t => rows (i - edge + t) := by
    intro b e i h1 h2 h3 h4
    unfold chunkRow
    dsimp only
    congr 1
    funext t
    congr 1
    omega
  obtain ⟨out, h1, h2, h3⟩ := local_shifts_partial (zero := zero) he hh hn hnorm
  obtain ⟨one, g1, g2, g3⟩ := local_shifts_partial (zero := zero) (chunkSize := none) he hh
    (by rw [numChunk_none (by omega)]; omega) hnorm
  refine ⟨out, one, h1, g1, fun i hi => ?_⟩
  by_cases hc : edge ≤ i ∧ i + edge < height
  · rw [h2 i hc.1 hc.2, g2 i hc.1 hc.2]
  · rw [h3 i (by omega), g3 i (by omega)]

/-- Inputs below the documented minimum height `2*edge + 1` are rejected with `ValueError`. -/
theorem local_shifts_too_small {α β : Type _} {height edge : ℕ} {chunkSize : Option ℤ}
    {norm : ℕ → (ℕ → α) → ℕ → α} {pix : (ℕ → α) → β} {zero : β} {rows : ℕ → α} (hh : height < 2 * edge + 1) :
    localShifts height edge chunkSize norm pix zero rows = .error .valueError := by
  unfold localShifts
  rw [if_pos hh]

/-- The exact failure condition: more chunks than rows with a full window raise `IndexError` (from `pos[0]`). -/
theorem local_shifts_index_error {α β : Type _} {height edge : ℕ} {chunkSize : Option ℤ}
    {norm : ℕ → (ℕ → α) → ℕ → α} {pix : (ℕ → α) → β} {zero : β} {rows : ℕ → α} (hh : 2 * edge + 1 ≤ height)
    (hn : height - 2 * edge < numChunk height chunkSize) :
    localShifts height edge chunkSize norm pix zero rows = .error .indexError := by
  unfold localShifts
  rw [if_neg (by omega), chunkBounds_error _ _ _ hn]
  rfl

/-- **C53 refuted.** On inputs of exactly the documented minimum height `2*(margin + win_size//2) + 1` every explicit chunk
size (in particular the default 100) raises `IndexError`; only `chunk_size=None` works there. -/
theorem local_shifts_minimum_height_refuted {α β : Type _} {edge c : ℕ} (he : 1 ≤ edge) (hc : 1 ≤ c)
    {norm : ℕ → (ℕ → α) → ℕ → α} {pix : (ℕ → α) → β} {zero : β} {rows : ℕ → α} :
    localShifts (2 * edge + 1) edge (some c) norm pix zero rows = .error .indexError := by
  apply local_shifts_index_error (le_refl _)
  rw [numChunk_some (by omega) hc]
  have : 1 ≤ (2 * edge + 1) / min c (2 * edge + 1) :=
    (Nat.one_le_div_iff (by omega)).2 (min_le_right _ _)
  omega

/-- **C53 refuted.** `chunk_size=1` raises `IndexError` for every height. -/
theorem local_shifts_chunk_one_refuted {α β : Type _} {height edge : ℕ} (he : 1 ≤ edge) (hh : 2 * edge + 1 ≤ height)
    {norm : ℕ → (ℕ → α) → ℕ → α} {pix : (ℕ → α) → β} {zero : β} {rows : ℕ → α} :
    localShifts height edge (some 1) norm pix zero rows = .error .indexError := by
  apply local_shifts_index_error hh
  have := numChunk_some (height := height) (c := 1) (by omega) (le_refl _)
  simp only [Nat.cast_one] at this
  rw [this, show min 1 height = 1 by omega, Nat.div_one]
  omega

/-! ### The two-direction search with per-chunk normalisation -/

/-- Changing brightness and contrast of the two images does not change the shift found. -/
theorem correlationMap_affine {ref ref' mat mat' : Arr3 ℝ} {a b a' b' : ℝ} (ha : 0 < a) (ha' : 0 < a')
    (hd : ref'.d = ref.d) (hh : ref'.h = ref.h) (hw : ref'.w = ref.w) (hd' : mat'.d = mat.d) (hh' : mat'.h = mat.h)
    (hw' : mat'.w = mat.w) (hr : ∀ i j k, ref'.get i j k = a * ref.get i j k + b)
    (hm : ∀ i j k, mat'.get i j k = a' * mat.get i j k + b') :
    correlationMap ref' mat' = correlationMap ref mat := by
  unfold correlationMap
  rw [hd, hh, hw, hd', hh', hw']
  congr 2
  congr 2
  funext y x
  rw [coef_gain_invariant ha' (f := mat.get) (f' := mat'.get) (b := b') (fun i _ j _ k _ => hm i j k),
    coef_comm, coef_gain_invariant ha (f := patch ref y x) (f' := patch ref' y x) (b := b)
      (fun i _ j _ k _ => hr i _ _), coef_comm]

theorem findShift_affine {ref ref' mat mat' : Arr3 ℝ} {a b a' b' : ℝ} (ha : 0 < a) (ha' : 0 < a')
    (hd : ref'.d = ref.d) (hh : ref'.h = ref.h) (hw : ref'.w = ref.w) (hd' : mat'.d = mat.d) (hh' : mat'.h = mat.h)
    (hw' : mat'.w = mat.w) (hr : ∀ i j k, ref'.get i j k = a * ref.get i j k + b)
    (hm : ∀ i j k, mat'.get i j k = a' * mat.get i j k + b') (margin : ℕ) (axis : Option Int) (subPixel : Bool)
    (method : Method ℝ) (dim size : Int) :
    findShift ref' mat' margin axis subPixel method dim size = findShift ref mat margin axis subPixel method dim size := by
  have ht : (template ref' mat' margin axis).2 = (template ref mat margin axis).2 ∧
      (template ref' mat' margin axis).1.d = (template ref mat margin axis).1.d ∧
      (template ref' mat' margin axis).1.h = (template ref mat margin axis).1.h ∧
      (template ref' mat' margin axis).1.w = (template ref mat margin axis).1.w ∧
      ∀ i j k, (template ref' mat' margin axis).1.get i j k = a' * (template ref mat margin axis).1.get i j k + b' := by
    unfold template
    rw [hh, hw, hh', hw']
    split_ifs <;> (refine ⟨?_, ?_, ?_, ?_, ?_⟩ <;> first | rfl | assumption | (intro i j k; exact hm _ _ _))
  obtain ⟨t1, t2, t3, t4, t5⟩ := ht
  have hmap := correlationMap_affine ha ha' hd hh hw t2 t3 t4 hr t5
  unfold findShift
  dsimp only
  rw [hmap, t1, t3, t4, hh, hw]

/-- A stack is not constant on rows `i0 .. i1-1`. -/
def VariedRows (a : Arr3 ℝ) (i0 i1 : ℕ) : Prop :=
  ∃ k < a.d, ∃ k' < a.d, ∃ j < a.w, ∃ j' < a.w, ∃ i i', (i0 ≤ i ∧ i < i1) ∧ (i0 ≤ i' ∧ i' < i1) ∧
    a.get k i j ≠ a.get k' i' j'

theorem std_pos {d w n : ℕ} {rows : ℕ → Row} (h : NonConstant d n w fun k i j => rows i k j) :
    0 < stdRows d w n rows := by
  unfold stdRows
  dsimp only
  apply Real.sqrt_pos.2
  have hv := nonConstant_pos h
  obtain ⟨i, hi, j, hj, k, hk, -⟩ := h
  have hcard : (0 : ℝ) < ((d * n * w : ℕ) : ℝ) := by
    have : 0 < d * n * w := Nat.mul_pos (Nat.mul_pos (by omega) (by omega)) (by omega)
    exact_mod_cast this
  refine div_pos ?_ hcard
  rw [sum3_eq]
  refine lt_of_lt_of_eq hv ?_
  unfold var
  refine Finset.sum_congr rfl fun c _ => ?_
  unfold dev mean unc mean3
  rw [sum3_eq, card_cells]
  exact (sq _).symm

/-- `normalize_image` of a stack is an increasing affine map. -/
theorem normalize3_affine {d w n : ℕ} {rows : ℕ → Row} (h : NonConstant d n w fun k i j => rows i k j) :
    ∃ a b : ℝ, 0 < a ∧ ∀ i k j, normalize3 d w n rows i k j = a * rows i k j + b := by
  refine ⟨1 / stdRows d w n rows,
    -(mean3 d n w fun k i j => rows i k j) / stdRows d w n rows
      - minRows d w n (fun k i j => (rows i k j - mean3 d n w fun k i j => rows i k j) / stdRows d w n rows),
    one_div_pos.2 (std_pos h), fun i k j => ?_⟩
  unfold normalize3
  ring

/-- **C53.** `find_local_shifts(dim=2)` on stacks, with or without per-chunk normalisation: if both stacks vary in every
block of `2*edge+1` rows and the number of chunks does not exceed the number of result rows, the result does not depend on
the chunk size: entry `(i, j)` is the shift between the sample window around `(i, j)` and the reference window around it,
and zero within `edge` of the border rows. -/
theorem find_local_shifts_2d_partial {ref mat : Arr3 ℝ} {radi margin : ℕ} {chunkSize : Option ℤ} {norm subPixel : Bool}
    {method : Method ℝ} {size : Int} (hd : mat.d = ref.d) (hmh : mat.h = ref.h) (hw : mat.w = ref.w) (he : 1 ≤ margin + radi)
    (hh : 2 * (margin + radi) + 1 ≤ ref.h) (hww : 2 * (margin + radi) + 1 ≤ ref.w)
    (hn : numChunk ref.h chunkSize ≤ ref.h - 2 * (margin + radi))
    (hr : ∀ i, i + 2 * (margin + radi) < ref.h → VariedRows ref i (i + 2 * (margin + radi) + 1))
    (hm : ∀ i, i + 2 * (margin + radi) < ref.h → VariedRows mat i (i + 2 * (margin + radi) + 1)) :
    ∃ out, findLocalShifts2d ref mat radi margin chunkSize norm subPixel method size = .ok out ∧
      (∀ i j, margin + radi ≤ i → i + (margin + radi) < ref.h → margin + radi ≤ j → j + (margin + radi) < ref.w →
        out i j = findShift
          ⟨ref.d, 2 * (margin + radi) + 1, 2 * (margin + radi) + 1,
            fun k p q => ref.get k (i - (margin + radi) + p) (j - (margin + radi) + q)⟩
          ⟨ref.d, 2 * radi + 1, 2 * radi + 1, fun k p q => mat.get k (i - radi + p) (j - radi + q)⟩
          margin none subPixel method 2 size) ∧
      ∀ i j, (i < margin + radi ∨ ref.h ≤ i + (margin + radi) ∨ j < margin + radi ∨ ref.w ≤ j + (margin + radi)) →
        out i j = .ok (0, 0) := by
  set edge := margin + radi with hedge
  have hnorm : ∀ b e i, edge ≤ b → e + edge ≤ ref.h → b ≤ i → i < e →
      chunkRow edge (chunkNorm ref.d ref.w norm) (calcRow ref.d ref.w radi margin subPixel method size)
        (fun i => (rowsOf ref i, rowsOf mat i)) b e (i - b)
        = calcRow ref.d ref.w radi margin subPixel method size
            (fun t => (rowsOf ref (i - edge + t), rowsOf mat (i - edge + t))) := by
    intro b e i h1 h2 h3 h4
    unfold chunkRow
    dsimp only
    cases norm with
    | false =>
      unfold chunkNorm
      simp only [Bool.false_eq_true, if_false]
      congr 1
      funext t
      rw [show b - edge + (i - b + t) = i - edge + t by omega]
    | true =>
      unfold chunkNorm
      simp only [if_true]
      have nc : ∀ a : Arr3 ℝ, a.d = ref.d → a.w = ref.w →
          VariedRows a (b - edge) (b - edge + 2 * edge + 1) →
          NonConstant ref.d (e + edge - (b - edge)) ref.w (fun k t j => rowsOf a (b - edge + t) k j) := by
        rintro a ed ew ⟨k, hk, k', hk', j, hj, j', hj', p, p', hp, hp', hne⟩
        rw [ed] at hk hk'
        rw [ew] at hj hj'
        refine ⟨k, hk, p - (b - edge), by omega, j, hj, k', hk', p' - (b - edge), by omega, j', hj', ?_⟩
        show a.get k (b - edge + (p - (b - edge))) j ≠ a.get k' (b - edge + (p' - (b - edge))) j'
        rw [show b - edge + (p - (b - edge)) = p by omega, show b - edge + (p' - (b - edge)) = p' by omega]
        exact hne
      obtain ⟨a1, b1, ha1, hf1⟩ := normalize3_affine (nc ref rfl rfl (hr (b - edge) (by omega)))
      obtain ⟨a2, b2, ha2, hf2⟩ := normalize3_affine (nc mat hd hw (hm (b - edge) (by omega)))
      unfold calcRow
      funext j
      dsimp only
      split_ifs with hj
      · refine findShift_affine (b := b1) (b' := b2) ha1 ha2 ?_ ?_ ?_ ?_ ?_ ?_ ?_ ?_ _ _ _ _ _ _
        iterate 6 rfl
        · intro k p q
          dsimp only
          rw [hf1, show b - edge + (i - b + p) = i - edge + p by omega]
        · intro k p q
          dsimp only
          rw [hf2, show b - edge + (i - b + (margin + p)) = i - edge + (margin + p) by omega]
      · rfl
  obtain ⟨out, h1, h2, h3⟩ := local_shifts_partial (zero := fun _ : ℕ => (.ok (0, 0) : Py (ℝ × ℝ))) he hh hn hnorm
  refine ⟨out, by unfold findLocalShifts2d; rw [if_neg (by omega), if_neg (by omega)]; exact h1, ?_, ?_⟩
  · intro i j hi hi1 hj hj1
    rw [h2 i hi hi1]
    unfold calcRow
    dsimp only
    rw [if_pos (by omega)]
    unfold rowsOf
    simp only [hedge]
    congr 1
    · rw [show radi + margin = margin + radi by omega]
    · congr 1
      funext k p q
      rw [show i - (margin + radi) + (margin + p) = i - radi + p by omega]
  · intro i j hij
    by_cases hi : edge ≤ i ∧ i + edge < ref.h
    · rw [h2 i hi.1 hi.2]
      unfold calcRow
      dsimp only
      rw [if_neg (by omega)]
    · rw [h3 i (by omega)]

/-! ### Non-vacuity: height 9, edge 2, chunk size 3 gives four chunks for five rows -/

example : numChunk 9 (some 3) = 4 ∧ numChunk 9 (some 3) ≤ 9 - 2 * 2 := by
  rw [show (3 : ℤ) = ((3 : ℕ) : ℤ) by rfl, numChunk_some (by norm_num) (by norm_num)]
  constructor <;> norm_num

def exLs : Arr3 ℝ := ⟨1, 9, 9, fun _ i j => if (i + j) % 2 = 0 then 1 else 0⟩

example (i : ℕ) (_h : i + 4 < exLs.h) : VariedRows exLs i (i + 5) := by
  refine ⟨0, by norm_num [exLs], 0, by norm_num [exLs], 0, by norm_num [exLs], 1, by norm_num [exLs], i, i, by omega,
    by omega, ?_⟩
  show (if (i + 0) % 2 = 0 then (1 : ℝ) else 0) ≠ if (i + 1) % 2 = 0 then (1 : ℝ) else 0
  by_cases h : i % 2 = 0
  · rw [if_pos (by omega), if_neg (by omega)]; norm_num
  · rw [if_neg (by omega), if_pos (by omega)]; norm_num

end Verif.LocalShifts
