import Verif.Props.VerticalBp
import Verif.Lemmas.Chunks

/-! C48 — the loop over chunks of projections in `vertical_reconstruction(_multiple)`. -/

set_option linter.unusedSectionVars false
set_option linter.unusedSimpArgs false

namespace Verif.Vertical
open Verif.Sched Verif.BackProj

variable {K : Type _} [Field K] [LinearOrder K] [IsStrictOrderedRing K] [FloorRing K]

/-! ### Specification -/

/-- Preprocessing of one projection value: flat-dark correction, then `-log` of the value, non-positive
values counting as one. -/
def corrected (o : Opts K) (p : Arr3 K) (n i j : Nat) : K :=
  let raw := p.get n (o.top + i) (o.left + j)
  let v := match o.flatDark with
    | none => raw
    | some (flat, dark) =>
      let d := flat.get (o.top + i) (o.left + j) - dark.get (o.top + i) (o.left + j)
      (raw - dark.get (o.top + i) (o.left + j)) / (if d = 0 then 1 else d)
  if o.applyLog then o.lg (if v ≤ 0 then 1 else v) else v

/-- The preprocessed projection image number `n`, computed from that image alone. -/
def prepared (o : Opts K) (p : Arr3 K) (n : Nat) : Mat K :=
  o.filt ⟨o.bot - o.top, o.right - o.left, corrected o p n⟩

/-- What the user relies on: the slice value is the sum over all projections `proj_start ..
proj_start + num_proj - 1` of the preprocessed image interpolated at the point, with the angle of that
projection.  No chunk appears. -/
def verticalSum (o : Opts K) (p : Arr3 K) (projStart numProj : Nat) (cs : Nat → K × K)
    (xl yl : Nat → K) (center : K) (edgePad : Bool) (i j : Nat) : K :=
  ∑ n ∈ Finset.range numProj, contribution ((prepared o p (projStart + n)).get i) (o.right - o.left)
    edgePad (xl j * (cs n).1 + yl j * (cs n).2 + center)

/-- The image filter looks only at the entries inside the image and keeps the shape. -/
def FilterOk (f : Mat K → Mat K) : Prop := ∀ a b, a.Eqv b → (f a).Eqv (f b) ∧ (f a).h = a.h ∧ (f a).w = a.w

/-! ### Lemmas -/

theorem contribution_congr (r r' : Nat → K) (w : Nat) (e : Bool) (f : K) (hw : 0 < w)
    (h : ∀ j < w, r j = r' j) : contribution r w e f = contribution r' w e f := by
  unfold contribution
  rw [h 0 hw, h (w - 1) (by omega)]
  by_cases h0 : f < 0
  · rw [if_pos h0, if_pos h0]
  · rw [if_neg h0, if_neg h0]
    by_cases h1 : (w : K) - 1 < f
    · rw [if_pos h1, if_pos h1]
    · rw [if_neg h1, if_neg h1]
      push Not at h0 h1
      have hfl : (0 : Int) ≤ ⌊f⌋ := Int.floor_nonneg.mpr h0
      have hk : ((⌊f⌋.toNat : Nat) : Int) = ⌊f⌋ := Int.toNat_of_nonneg hfl
      have hkK : ((⌊f⌋.toNat : Nat) : K) = ((⌊f⌋ : Int) : K) := by
        rw [← Int.cast_natCast, hk]
      have hle : ((⌊f⌋ : Int) : K) ≤ (w : K) - 1 := (Int.floor_le f).trans h1
      have hkw : ⌊f⌋.toNat ≤ w - 1 := by
        have : ((⌊f⌋.toNat : Nat) : K) ≤ ((w - 1 : Nat) : K) := by
          rw [hkK, Nat.cast_sub (by omega), Nat.cast_one]; exact hle
        exact_mod_cast this
      rw [h _ (by omega)]
      by_cases hlast : ⌊f⌋.toNat + 1 < w
      · rw [h _ hlast]
      · have heq : ⌊f⌋.toNat = w - 1 := by omega
        have hff : f - ((⌊f⌋.toNat : Nat) : K) = 0 := by
          apply le_antisymm
          · rw [heq, Nat.cast_sub (by omega), Nat.cast_one]; linarith
          · rw [hkK]; linarith [Int.floor_le f]
        rw [hff]; ring

theorem chunkLen_spec (numProj : Nat) (cz : Option Int) (h : 0 < numProj) :
    0 < chunkLen numProj cz ∧ chunkLen numProj cz ≤ numProj := by
  unfold chunkLen
  dsimp only
  generalize cz.getD _ = c
  split
  · omega
  · rename_i h1; push Not at h1; omega

theorem consec_append : ∀ (l m : List (Nat × Nat)) (a b z : Nat), Consec a l b → Consec b m z →
    Consec a (l ++ m) z := by
  intro l
  induction l with
  | nil => intro m a b z h1 h2; have : a = b := h1; subst this; exact h2
  | cons p l ih =>
    intro m a b z h1 h2
    obtain ⟨x, y⟩ := p
    exact ⟨h1.1, h1.2.1, ih m _ _ _ h1.2.2 h2⟩

theorem chunkList_consec (N c : Nat) (hc : 0 < c) : Consec 0 (chunkList N c) N := by
  unfold chunkList
  dsimp only
  have h1 : ∀ k, Consec 0 ((List.range k).map fun i => (i * c, i * c + c)) (k * c) := by
    intro k
    induction k with
    | zero => simp [Consec]
    | succ k ih =>
      rw [List.range_succ, List.map_append]
      refine consec_append _ _ _ _ _ ih ?_
      refine ⟨rfl, by omega, ?_⟩
      show k * c + c = (k + 1) * c
      ring
  refine consec_append _ _ _ _ _ (h1 _) ?_
  have hle : N / c * c ≤ N := Nat.div_mul_le_self N c
  split
  · refine ⟨rfl, by omega, ?_⟩
    show N / c * c + (N - N / c * c) = N
    omega
  · show N / c * c = N
    omega

theorem sum_consec (F : Nat → K) : ∀ (l : List (Nat × Nat)) a z, Consec a l z →
    (l.map fun e => ∑ n ∈ Finset.range (e.2 - e.1), F (e.1 + n)).sum
      = ∑ n ∈ Finset.range (z - a), F (a + n) := by
  intro l
  induction l with
  | nil => intro a z h; have : a = z := h; subst this; simp
  | cons p l ih =>
    intro a z h
    obtain ⟨x, y⟩ := p
    obtain ⟨h1, h2, h3⟩ := h
    subst h1
    have hz := consec_le _ _ _ h3
    rw [List.map_cons, List.sum_cons, ih _ _ h3]
    have e1 : z - x = (y - x) + (z - y) := by omega
    rw [e1, Finset.sum_range_add]
    congr 1
    apply Finset.sum_congr rfl
    intro n _
    congr 1; omega

theorem foldlM_add {ι : Type _} (f : ((Nat × Nat) × Nat) → Py (ι → K)) (good : ι → Prop)
    (G : Nat × Nat → ι → K) : ∀ (l : List (Nat × Nat)) (k0 : Nat)
    (_ : ∀ e ∈ l, ∀ k, ∃ im, f (e, k) = .ok im ∧ ∀ q, good q → im q = G e q) (acc : ι → K),
    ∃ r, (l.zipIdx k0).foldlM (fun acc e => do
        let im ← f e
        pure (fun q => acc q + im q)) acc = .ok r ∧
      ∀ q, good q → r q = acc q + (l.map fun e => G e q).sum := by
  intro l
  induction l with
  | nil => intro k0 _ acc; exact ⟨acc, rfl, by simp⟩
  | cons e l ih =>
    intro k0 h acc
    obtain ⟨im, h1, h2⟩ := h e (by simp) k0
    obtain ⟨r, h3, h4⟩ := ih (k0 + 1) (fun e' he' => h e' (by simp [he'])) (fun q => acc q + im q)
    refine ⟨r, ?_, ?_⟩
    · rw [List.zipIdx_cons, List.foldlM_cons, h1]
      exact h3
    · intro q hq
      rw [h4 q hq, h2 q hq, List.map_cons, List.sum_cons]; ring

theorem flatChunk_shape (o : Opts K) (c : Arr3 K) :
    (flatChunk o c).d = c.d ∧ (flatChunk o c).h = c.h ∧ (flatChunk o c).w = c.w := by
  unfold flatChunk; split <;> exact ⟨rfl, rfl, rfl⟩

theorem logChunk_shape (o : Opts K) (c : Arr3 K) :
    (logChunk o c).d = c.d ∧ (logChunk o c).h = c.h ∧ (logChunk o c).w = c.w := by
  unfold logChunk; split
  · split <;> exact ⟨rfl, rfl, rfl⟩
  · exact ⟨rfl, rfl, rfl⟩

theorem logChunk_get (o : Opts K) (c : Arr3 K) (n i j : Nat) (hn : n < c.d) (hi : i < c.h)
    (hj : j < c.w) : (logChunk o c).get n i j
      = if o.applyLog then o.lg (if c.get n i j ≤ 0 then 1 else c.get n i j) else c.get n i j := by
  unfold logChunk
  cases o.applyLog with
  | false => rfl
  | true =>
    simp only [if_true]
    split
    · rfl
    · rename_i h
      have : ¬ c.get n i j ≤ 0 := fun hc => h ⟨n, hn, i, hi, j, hj, hc⟩
      simp only [this, if_false]

theorem corrected_get (o : Opts K) (p : Arr3 K) (a b n i j : Nat) (hn : n < b - a)
    (hi : i < o.bot - o.top) (hj : j < o.right - o.left) :
    (logChunk o (flatChunk o (cropChunk o p a b))).get n i j = corrected o p (a + n) i j := by
  have hs := flatChunk_shape o (cropChunk o p a b)
  rw [logChunk_get _ _ _ _ _ (by rw [hs.1]; exact hn) (by rw [hs.2.1]; exact hi)
    (by rw [hs.2.2]; exact hj)]
  unfold corrected flatChunk
  cases o.flatDark with
  | none => rfl
  | some fd => rfl

theorem prepChunk_shape (o : Opts K) (p : Arr3 K) (a b : Nat) :
    (prepChunk o p a b).d = b - a ∧ (prepChunk o p a b).h = o.bot - o.top ∧
      (prepChunk o p a b).w = o.right - o.left := by
  unfold prepChunk
  have h1 := flatChunk_shape o (cropChunk o p a b)
  have h2 := logChunk_shape o (flatChunk o (cropChunk o p a b))
  refine ⟨?_, ?_, ?_⟩
  · exact h2.1.trans h1.1
  · exact h2.2.1.trans h1.2.1
  · exact h2.2.2.trans h1.2.2

theorem prepChunk_get (o : Opts K) (hfo : FilterOk o.filt) (p : Arr3 K) (a b n i j : Nat)
    (hn : n < b - a) (hi : i < o.bot - o.top) (hj : j < o.right - o.left) :
    (prepChunk o p a b).get n i j = (prepared o p (a + n)).get i j := by
  unfold prepChunk prepared filtChunk
  have h1 := flatChunk_shape o (cropChunk o p a b)
  have h2 := logChunk_shape o (flatChunk o (cropChunk o p a b))
  have hE : (image (logChunk o (flatChunk o (cropChunk o p a b))) n).Eqv
      ⟨o.bot - o.top, o.right - o.left, corrected o p (a + n)⟩ := by
    refine ⟨h2.2.1.trans h1.2.1, h2.2.2.trans h1.2.2, ?_⟩
    intro i' hi' j' hj'
    have hi' : i' < o.bot - o.top := lt_of_lt_of_eq hi' (h2.2.1.trans h1.2.1)
    have hj' : j' < o.right - o.left := lt_of_lt_of_eq hj' (h2.2.2.trans h1.2.2)
    exact corrected_get o p a b n i' j' hn hi' hj'
  obtain ⟨⟨_, _, h3⟩, h4, h5⟩ := hfo _ _ hE
  apply h3
  · rw [h4]; exact lt_of_lt_of_eq hi (h2.2.1.trans h1.2.1).symm
  · rw [h5]; exact lt_of_lt_of_eq hj (h2.2.2.trans h1.2.2).symm

/-- Behaviour of a back-projection routine on the cells `good`: cell `q` is the vertical
back-projection along the line `(xs q, ys q)` at row `ri q`, column `ci q`. -/
def IsVerticalBp {ι : Type _} (H W : Nat) (good : ι → Prop) (xs ys : ι → Nat → K) (ri ci : ι → Nat)
    (center : K) (edgePad : Bool) (bp : Arr3 K → (Nat → K × K) → Py (ι → K)) : Prop :=
  ∀ c cs, c.h = H → c.w = W → ∃ im, bp c cs = .ok im ∧ ∀ q, good q →
    im q = verticalBp c cs (xs q) (ys q) center edgePad (ri q) (ci q)

theorem accumulate_eq {ι : Type _} (o : Opts K) (hfo : FilterOk o.filt) (p : Arr3 K) (projStart numProj : Nat)
    (hN : 0 < numProj) (cs : Nat → K × K) (good : ι → Prop) (xs ys : ι → Nat → K) (ri ci : ι → Nat)
    (center : K) (edgePad : Bool)
    (hri : ∀ q, good q → ri q < o.bot - o.top) (hci : ∀ q, good q → ci q < o.right - o.left)
    (bp : Nat → Arr3 K → (Nat → K × K) → Py (ι → K))
    (hbp : ∀ k, IsVerticalBp (o.bot - o.top) (o.right - o.left) good xs ys ri ci center edgePad (bp k))
    (chunkSize : Option Int) :
    ∃ r, accumulate o p projStart cs bp numProj chunkSize = .ok r ∧ ∀ q, good q →
      r q = verticalSum o p projStart numProj cs (xs q) (ys q) center edgePad (ri q) (ci q) := by
  have hcl := chunkLen_spec numProj chunkSize hN
  have hcon := chunkList_consec numProj (chunkLen numProj chunkSize) hcl.1
  unfold accumulate
  obtain ⟨r, h1, h2⟩ := foldlM_add
    (fun e => bp e.2 (prepChunk o p (e.1.1 + projStart) (e.1.2 + projStart)) (fun k => cs (e.1.1 + k)))
    good (fun e q => ∑ n ∈ Finset.range (e.2 - e.1),
      contribution ((prepared o p (projStart + (e.1 + n))).get (ri q)) (o.right - o.left) edgePad
        (xs q (ci q) * (cs (e.1 + n)).1 + ys q (ci q) * (cs (e.1 + n)).2 + center))
    (chunkList numProj (chunkLen numProj chunkSize)) 0 (by
      intro e he k
      have hsh := prepChunk_shape o p (e.1 + projStart) (e.2 + projStart)
      obtain ⟨im, g1, g2⟩ := hbp k (prepChunk o p (e.1 + projStart) (e.2 + projStart))
        (fun k => cs (e.1 + k)) hsh.2.1 hsh.2.2
      refine ⟨im, g1, ?_⟩
      intro q hq
      rw [g2 q hq]
      unfold verticalBp
      rw [hsh.1, show e.2 + projStart - (e.1 + projStart) = e.2 - e.1 by omega]
      apply Finset.sum_congr rfl
      intro n hn
      have hn := Finset.mem_range.mp hn
      rw [hsh.2.2]
      apply contribution_congr
      · have := hci q hq; omega
      · intro j hj
        rw [prepChunk_get o hfo p _ _ n (ri q) j (by omega) (hri q hq) hj]
        congr 2; omega) (fun _ => 0)
  refine ⟨r, h1, ?_⟩
  intro q hq
  rw [h2 q hq, zero_add, sum_consec (fun m => contribution ((prepared o p (projStart + m)).get (ri q)) (o.right - o.left) edgePad
        (xs q (ci q) * (cs m).1 + ys q (ci q) * (cs m).2 + center)) _ _ _ hcon]
  unfold verticalSum
  simp only [Nat.sub_zero, Nat.zero_add]

/-! ### C48 -/

/-- A complete CPU run of the single-slice kernel, as an image (the parallel region ends only when all
threads have finished; an incomplete schedule is not an execution of the call). -/
def CpuRun (T : Nat) (assign : Nat → List Nat) (sched : List Nat) (xl yl : Nat → K) (center : K)
    (edgePad : Bool) (c : Arr3 K) (cs : Nat → K × K) (im : Nat × Nat → K) : Prop :=
  ∃ fin, verticalBpCpu c cs xl yl center edgePad T assign sched = .ok fin ∧ fin.Finished ∧ im = fin.mem

/-- C48.  `vertical_reconstruction` (accumulated slice): for every chunk size (`None`, zero, negative, too
large included) and whatever thread counts, row distributions and interleavings the kernel calls of
the individual chunks use, the slice is the sum over the projections; it does not depend on any of these. -/
theorem vertical_reconstruction_chunk_independent (o : Opts K) (hfo : FilterOk o.filt) (p : Arr3 K)
    (projStart numProj : Nat) (hN : 0 < numProj) (cs : Nat → K × K) (xl yl : Nat → K) (center : K)
    (edgePad : Bool) (chunkSize : Option Int)
    (bp : Nat → Arr3 K → (Nat → K × K) → Py (Nat × Nat → K))
    (hbp : ∀ k c a, c.h = o.bot - o.top → c.w = o.right - o.left →
      ∃ T assign sched im, IsAssignment c.h T assign ∧
        CpuRun T assign sched xl yl center edgePad c a im ∧ bp k c a = .ok im) :
    ∃ r, accumulate o p projStart cs bp numProj chunkSize = .ok r ∧
      ∀ i < o.bot - o.top, ∀ j < o.right - o.left,
        r (i, j) = verticalSum o p projStart numProj cs xl yl center edgePad i j := by
  obtain ⟨r, h1, h2⟩ := accumulate_eq o hfo p projStart numProj hN cs
    (fun q : Nat × Nat => q.1 < o.bot - o.top ∧ q.2 < o.right - o.left) (fun _ => xl) (fun _ => yl)
    (fun q => q.1) (fun q => q.2) center edgePad (fun _ h => h.1) (fun _ h => h.2) bp (by
      intro k c a hh hw
      obtain ⟨T, assign, sched, im, ha, ⟨fin, hr, hf, rfl⟩, hok⟩ := hbp k c a hh hw
      refine ⟨_, hok, ?_⟩
      intro q hq
      obtain ⟨fin', h3, h4⟩ := vertical_bp_cpu_correct c a xl yl center edgePad T assign ha sched
      rw [hr] at h3; cases h3
      exact h4 hf q.1 (by rw [hh]; exact hq.1) q.2 (by rw [hw]; exact hq.2)) chunkSize
  exact ⟨r, h1, fun i hi j hj => h2 (i, j) ⟨hi, hj⟩⟩

/-- C48, multi-slice on the CPU: slice `s` of `vertical_reconstruction_multiple` (and of the
different-angles variant) is what `vertical_reconstruction` accumulates along line `s`. -/
theorem vertical_reconstruction_multiple_eq_single (o : Opts K) (hfo : FilterOk o.filt) (p : Arr3 K)
    (projStart numProj : Nat) (hN : 0 < numProj) (cs : Nat → K × K) (S : Nat) (xm ym : Nat → Nat → K)
    (center : K) (edgePad : Bool) (chunkSize : Option Int)
    (bp : Nat → Arr3 K → (Nat → K × K) → Py (Nat × Nat × Nat → K))
    (hbp : ∀ k c a, c.h = o.bot - o.top → c.w = o.right - o.left →
      ∃ T assign sched fin, IsAssignment S T assign ∧
        verticalBpCpuChunk c a xm ym center edgePad T assign sched = .ok fin ∧ fin.Finished ∧
        bp k c a = .ok fin.mem) :
    ∃ r, accumulate o p projStart cs bp numProj chunkSize = .ok r ∧
      ∀ s < S, ∀ i < o.bot - o.top, ∀ j < o.right - o.left,
        r (s, i, j) = verticalSum o p projStart numProj cs (xm s) (ym s) center edgePad i j := by
  obtain ⟨r, h1, h2⟩ := accumulate_eq o hfo p projStart numProj hN cs
    (fun q : Nat × Nat × Nat => q.1 < S ∧ q.2.1 < o.bot - o.top ∧ q.2.2 < o.right - o.left)
    (fun q => xm q.1) (fun q => ym q.1)
    (fun q => q.2.1) (fun q => q.2.2) center edgePad (fun _ h => h.2.1) (fun _ h => h.2.2) bp (by
      intro k c a hh hw
      obtain ⟨T, assign, sched, fin, ha, hr, hf, hok⟩ := hbp k c a hh hw
      refine ⟨_, hok, ?_⟩
      intro q hq
      obtain ⟨fin', h3, h4⟩ := vertical_bp_cpu_chunk_correct c a xm ym center edgePad S T assign ha sched
      rw [hr] at h3; cases h3
      exact h4 hf q.1 hq.1 q.2.1 (by rw [hh]; exact hq.2.1) q.2.2 (by rw [hw]; exact hq.2.2)) chunkSize
  exact ⟨r, h1, fun s hs i hi j hj => h2 (s, i, j) ⟨hs, hi, hj⟩⟩

/-- C48, GPU (one or several slices): the same sum, for every order of the stores of every kernel launch and every
chunk size. -/
theorem vertical_reconstruction_gpu_eq (o : Opts K) (hfo : FilterOk o.filt) (p : Arr3 K)
    (projStart numProj : Nat) (hN : 0 < numProj) (cs : Nat → K × K) (S : Nat) (xm ym : Nat → Nat → K)
    (center : K) (edgePad : Bool) (b0 b1 : Nat) (hb0 : 0 < b0) (hb1 : 0 < b1) (chunkSize : Option Int)
    (order : Nat → List (Nat × Nat))
    (hall : ∀ k, ∀ t < (gridDim (o.bot - o.top) b0 * b0) * (gridDim (o.right - o.left) b1 * b1),
      ∀ s < S, (t, s) ∈ order k) :
    ∃ r, accumulate o p projStart cs
        (fun k c a => verticalBpGpu c a xm ym center edgePad b0 (order k)) numProj chunkSize = .ok r ∧
      ∀ s < S, ∀ i < o.bot - o.top, ∀ j < o.right - o.left,
        r (s, i, j) = verticalSum o p projStart numProj cs (xm s) (ym s) center edgePad i j := by
  obtain ⟨r, h1, h2⟩ := accumulate_eq o hfo p projStart numProj hN cs
    (fun q : Nat × Nat × Nat => q.1 < S ∧ q.2.1 < o.bot - o.top ∧ q.2.2 < o.right - o.left)
    (fun q => xm q.1) (fun q => ym q.1)
    (fun q => q.2.1) (fun q => q.2.2) center edgePad (fun _ h => h.2.1) (fun _ h => h.2.2)
    (fun k c a => verticalBpGpu c a xm ym center edgePad b0 (order k)) (by
      intro k c a hh hw
      obtain ⟨img, h3, h4, _⟩ := vertical_bp_gpu_correct c a xm ym center edgePad b0 b1 hb0 hb1 S (order k)
        (by rw [hh, hw]; exact hall k)
      refine ⟨_, h3, ?_⟩
      intro q hq
      exact h4 q.1 hq.1 q.2.1 (by rw [hh]; exact hq.2.1) q.2.2 (by rw [hw]; exact hq.2.2)) chunkSize
  exact ⟨r, h1, fun s hs i hi j hj => h2 (s, i, j) ⟨hs, hi, hj⟩⟩

/-- C48, entry point: with valid arguments `vertical_reconstruction` runs the chunk loop over the chosen
projections; with an empty projection range, a wrong number of angles, an empty crop, or a centre or
slice index outside `[0, width-1]` it raises `ValueError`. -/
theorem vertical_reconstruction_checks {ι : Type _} (p : Arr3 K) (sliceIndex center : K)
    (ct cb cl cr : Nat) (projStart : Nat) (projStop : Int) (numAngles : Option Nat)
    (fd : Option (Mat K × Mat K)) (lgOn : Bool) (lg : K → K) (filt : Mat K → Mat K) (cs : Nat → K × K)
    (bp : Nat → Arr3 K → (Nat → K × K) → Py (ι → K)) (cz : Option Int) :
    let N : Int := (if projStop = -1 then (p.d : Int) else projStop) - projStart
    let W : Int := (p.w : Int) - cr - cl
    let H : Int := (p.h : Int) - cb - ct
    let valid := 1 ≤ N ∧ (numAngles = none ∨ numAngles = some N.toNat) ∧ 1 ≤ H ∧ 1 ≤ W ∧
      (0 ≤ center ∧ center ≤ ((W - 1 : Int) : K)) ∧ (0 ≤ sliceIndex ∧ sliceIndex ≤ ((W - 1 : Int) : K))
    (valid → verticalReconstruction p sliceIndex center (ct, cb, cl, cr) projStart projStop numAngles fd lgOn
        lg filt cs bp cz
      = accumulate ⟨ct, p.h - cb, cl, p.w - cr, fd, lgOn, lg, filt⟩ p projStart cs bp N.toNat cz) ∧
    (¬ valid → verticalReconstruction p sliceIndex center (ct, cb, cl, cr) projStart projStop numAngles fd
        lgOn lg filt cs bp cz = .error .valueError) := by
  dsimp only
  unfold verticalReconstruction
  dsimp only
  generalize (if projStop = -1 then (p.d : Int) else projStop) - (projStart : Int) = N
  have hW : (p.w : Int) - (cr : Int) - (cl : Int) - 1 = (p.w : Int) - cr - cl - 1 := rfl
  constructor
  · rintro ⟨h1, h2, h3, h4, h5, h6⟩
    rw [if_neg (by omega), if_neg (by rintro ⟨a, b⟩; rcases h2 with h | h; exacts [a h, b h]),
      if_neg (by omega), if_neg (by push Not; exact h5), if_neg (by push Not; exact h6)]
    congr 1
    congr 1
    · simp
    · simp
  · intro hv
    by_cases h1 : N < 1
    · rw [if_pos h1]
    rw [if_neg h1]
    by_cases h2 : numAngles ≠ none ∧ numAngles ≠ some N.toNat
    · rw [if_pos h2]
    rw [if_neg h2]
    by_cases h3 : (p.h : Int) - cb - ct < 1 ∨ (p.w : Int) - cr - cl < 1
    · rw [if_pos h3]
    rw [if_neg h3]
    by_cases h4 : center < 0 ∨ center > (((p.w : Int) - cr - cl - 1 : Int) : K)
    · rw [if_pos h4]
    rw [if_neg h4]
    by_cases h5 : sliceIndex < 0 ∨ sliceIndex > (((p.w : Int) - cr - cl - 1 : Int) : K)
    · rw [if_pos h5]
    exfalso
    apply hv
    push Not at h4 h5
    refine ⟨by omega, ?_, by omega, by omega, h4, h5⟩
    by_contra hc
    push Not at hc
    exact h2 hc

/-- The line used for slice number `k` of a multi-slice call is the single-slice line at index
`start + k * step`. -/
theorem multiple_lines_get (a b : Int) (alpha : ℝ) (w step : Nat) (ls : List ((Nat → ℝ) × (Nat → ℝ)))
    (h : getPointsMultipleLines a b alpha w step = .ok ls) :
    ls.length = (pyRange a (b + 1) step).length ∧
    ∀ k (hk : k < ls.length) (hk' : k < (pyRange a (b + 1) step).length),
      getPointsSingleLine (((pyRange a (b + 1) step)[k] : Int) : ℝ) alpha w = .ok ls[k] := by
  unfold getPointsMultipleLines at h
  generalize pyRange a (b + 1) step = l at *
  induction l generalizing ls with
  | nil => cases h; simp
  | cons x l ih =>
    rw [List.mapM_cons] at h
    cases hx : getPointsSingleLine (x : ℝ) alpha w with
    | error e => rw [hx] at h; cases h
    | ok y =>
      rw [hx] at h
      cases hl : l.mapM (fun idx : Int => getPointsSingleLine (idx : ℝ) alpha w) with
      | error e => rw [hl] at h; cases h
      | ok ys =>
        rw [hl] at h
        cases h
        obtain ⟨h1, h2⟩ := ih ys hl
        refine ⟨by simp [h1], ?_⟩
        intro k hk hk'
        cases k with
        | zero => exact hx
        | succ k => exact h2 k (by simpa using hk) (by simpa using hk')

/-! ### Non-vacuity -/

theorem run_append {ι : Type _} [DecidableEq ι] (s : Shared ι K) (a b : List Nat) :
    s.run (a ++ b) = (s.run a).run b := by
  induction a generalizing s with
  | nil => rfl
  | cons t a ih => exact ih _

theorem drain {ι : Type _} [DecidableEq ι] (t : Nat) : ∀ (l : List (ι × K)) (s : Shared ι K),
    s.thr t = ⟨l, none⟩ → ∃ sch, (s.run sch).thr t = ⟨[], none⟩ ∧
      ∀ k, k ≠ t → (s.run sch).thr k = s.thr k := by
  intro l
  induction l with
  | nil => intro s h; exact ⟨[], h, fun _ _ => rfl⟩
  | cons u l ih =>
    intro s h
    obtain ⟨q, v⟩ := u
    have h1 : (s.step t).thr t = ⟨(q, v) :: l, some (s.mem q)⟩ := by
      unfold Shared.step; rw [h]; simp
    have h1' : ∀ k, k ≠ t → (s.step t).thr k = s.thr k := by
      intro k hk; unfold Shared.step; rw [h]; simp [hk]
    have h2 : ((s.step t).step t).thr t = ⟨l, none⟩ := by
      generalize s.step t = s1 at h1
      unfold Shared.step
      rw [h1]; simp
    have h2' : ∀ k, k ≠ t → ((s.step t).step t).thr k = s.thr k := by
      intro k hk
      rw [← h1' k hk]
      generalize s.step t = s1 at h1
      unfold Shared.step
      rw [h1]; simp [hk]
    obtain ⟨sch, h3, h4⟩ := ih _ h2
    exact ⟨t :: t :: sch, h3, fun k hk => (h4 k hk).trans (h2' k hk)⟩

/-- Every thread program has a complete execution. -/
theorem complete_schedule_exists {ι : Type _} [DecidableEq ι] (mem : ι → K) (T : Nat)
    (prog : Nat → List (ι × K)) : ∃ sched, ((Shared.init mem T prog).run sched).Finished := by
  have key : ∀ n ≤ T, ∃ sched, (∀ t < n, ((Shared.init mem T prog).run sched).thr t = ⟨[], none⟩) ∧
      ∀ t, n ≤ t → ((Shared.init mem T prog).run sched).thr t = (Shared.init mem T prog).thr t := by
    intro n
    induction n with
    | zero => intro _; exact ⟨[], by omega, fun _ _ => rfl⟩
    | succ n ih =>
      intro hn
      obtain ⟨sch, h1, h2⟩ := ih (by omega)
      obtain ⟨sch', h3, h4⟩ := drain n (prog n) ((Shared.init mem T prog).run sch) (by
        rw [h2 n le_rfl]; simp [Shared.init, show n < T by omega])
      refine ⟨sch ++ sch', ?_, ?_⟩
      · intro t ht
        rw [run_append]
        by_cases htn : t = n
        · rw [htn]; exact h3
        · rw [h4 t htn]; exact h1 t (by omega)
      · intro t ht
        rw [run_append, h4 t (by omega)]; exact h2 t (by omega)
  obtain ⟨sch, h1, h2⟩ := key T le_rfl
  refine ⟨sch, ?_⟩
  intro t
  by_cases ht : t < T
  · rw [h1 t ht]
  · rw [h2 t (by omega)]; simp [Shared.init, ht]

/-- Non-vacuity of the CPU theorems: for every stack, line and number of threads (here two threads, rows dealt
out even/odd or any other assignment) a complete kernel execution exists. -/
theorem cpu_run_exists (T : Nat) (assign : Nat → List Nat) (xl yl : Nat → K) (center : K)
    (edgePad : Bool) (c : Arr3 K) (ha : IsAssignment c.h T assign) (cs : Nat → K × K) :
    ∃ sched im, CpuRun T assign sched xl yl center edgePad c cs im := by
  obtain ⟨f0, h0, _⟩ := vertical_bp_cpu_correct c cs xl yl center edgePad T assign ha []
  unfold verticalBpCpu at h0
  cases hp : (List.range T).mapM (fun t => do
      let l ← (assign t).mapM (rowUpdates c cs xl yl center edgePad)
      (pure l.flatten : Py _)) with
  | error e => rw [hp] at h0; cases h0
  | ok progs =>
    obtain ⟨sched, hs⟩ := complete_schedule_exists (fun _ => (0 : K)) T (fun t => progs.getD t [])
    refine ⟨sched, _, _, ?_, hs, rfl⟩
    unfold verticalBpCpu
    rw [hp]; rfl

example : ∃ bp : Nat → Arr3 ℚ → (Nat → ℚ × ℚ) → Py (Nat × Nat → ℚ),
    ∀ k c a, c.h = 2 → c.w = 2 → ∃ T assign sched im, IsAssignment c.h T assign ∧
      CpuRun T assign sched (fun j => (j : ℚ)) (fun _ => 1) 0 true c a im ∧ bp k c a = .ok im := by
  have h : ∀ c : Arr3 ℚ, ∀ a, c.h = 2 → ∃ im sched, IsAssignment c.h 2 (fun t => [t]) ∧
      CpuRun 2 (fun t => [t]) sched (fun j => (j : ℚ)) (fun _ => 1) 0 true c a im := by
    intro c a hc
    have ha : IsAssignment c.h 2 (fun t => [t]) := by rw [hc]; decide
    obtain ⟨sched, im, h⟩ := cpu_run_exists 2 (fun t => [t]) (fun j => (j : ℚ)) (fun _ => 1) 0 true c ha a
    exact ⟨im, sched, ha, h⟩
  classical
  refine ⟨fun _ c a => if hc : c.h = 2 then .ok (h c a hc).choose else .error .valueError, ?_⟩
  intro k c a hc _
  obtain ⟨sched, h1, h2⟩ := (h c a hc).choose_spec
  exact ⟨2, _, sched, _, h1, h2, by simp [hc]⟩

/-- Non-vacuity (GPU): 3 projections of 1×2 images, chunk size 2 (two chunks, the last of length one),
identity filter; value at `(0, 0)` is `0 + 1 + 2`. -/
example : ∃ r, accumulate (K := ℚ) ⟨0, 1, 0, 2, none, false, id, id⟩ ⟨3, 1, 2, fun n _ j => n + j⟩ 0
    (fun _ => (1, 0)) (fun _ c a => verticalBpGpu c a (fun _ _ => 0) (fun _ _ => 0) 0 true 1
      [(0, 0), (1, 0)]) 3 (some 2) = .ok r ∧ r (0, 0, 0) = 3 := by
  obtain ⟨r, h1, h2⟩ := vertical_reconstruction_gpu_eq (K := ℚ) ⟨0, 1, 0, 2, none, false, id, id⟩
    (fun a b h => ⟨h, rfl, rfl⟩) ⟨3, 1, 2, fun n _ j => n + j⟩ 0 3 (by norm_num) (fun _ => (1, 0)) 1
    (fun _ _ => 0) (fun _ _ => 0) 0 true 1 1 (by norm_num) (by norm_num) (some 2)
    (fun _ => [(0, 0), (1, 0)]) (by intro _; decide)
  refine ⟨r, h1, ?_⟩
  rw [h2 0 (by norm_num) 0 (by norm_num) 0 (by norm_num)]
  simp [verticalSum, Finset.sum_range_succ, contribution, prepared, corrected]
  norm_num

end Verif.Vertical
