import Verif.Props.OffsetStripe2

/-! C174, continued: the method for 2D filtering and sorting, and factors with the logarithm and sorting. -/

set_option linter.unusedSectionVars false
set_option linter.unusedSimpArgs false

namespace Verif.StripeFilters
open Verif.Sorting Verif.Removal Verif.Fourier Verif.Regularization Complex

/-! ### filtering in two dimensions -/

theorem gaussianCore_add (h w : ℕ) (p q r : ℕ → ℕ → ℝ) (hr : ∀ i j, r i j = p i j + q i j) (sx sy : ℝ) (pad i j : ℕ) :
    (gaussianCore h w r sx sy pad).get i j = (gaussianCore h w p sx sy pad).get i j + (gaussianCore h w q sx sy pad).get i j := by
  unfold gaussianCore
  dsimp only
  rw [← add_re, ← add_mul, ← idft2_add]
  simp only [← add_mul, ← dft2_add, ← ofReal_add, hr]

/-- The Gaussian filter of the sum of two images. -/
theorem gaussianFilter_add (m n p : Mat ℝ) (s : IsSum m n p) (sx sy : ℝ) (pad i j : ℕ) :
    (gaussianFilter p sx sy pad).get i j = (gaussianFilter m sx sy pad).get i j + (gaussianFilter n sx sy pad).get i j := by
  unfold gaussianFilter
  dsimp only
  rw [s.h2, s.w2, s.h1, s.w1]
  refine gaussianCore_add _ _ _ _ _ (fun i j => ?_) sx sy pad i j
  by_cases hc : pad ≤ i ∧ i < pad + m.h
  · rw [if_pos hc, if_pos hc, if_pos hc, s.get]
  · rw [if_neg hc, if_neg hc, if_neg hc, ← add_div, ← Finset.sum_add_distrib]
    simp only [s.get]

/-- **C174.** `remove_stripe_based_2d_filtering_sorting` and offsets, for even numbers of projections and columns. -/
theorem twod_offset_partial (as1 : Argsort ℝ) (ho : OffsetOnly as1) (as2 : Argsort ℕ) (filt : Mat ℝ → Mat ℝ) (hf : RowFilter filt) (sigma b : ℝ) (m : Mat ℝ)
    (hh : m.h % 2 = 0) (hw : m.w % 2 = 0) : PassesThrough (fun m => .ok (remove2dFilteringSorting as1 as2 filt sigma m)) (fun _ => b) m := by
  set g : ℝ := Real.exp (-(1 / (8 * sigma ^ 2) + 1 / (8 * sigma ^ 2)))
  have hs : ∀ i < m.h, ∀ j < m.w, (gaussianFilter (addRows (fun _ => b) m) sigma sigma (pad10 (min m.h m.w))).get i j =
      (gaussianFilter m sigma sigma (pad10 (min m.h m.w))).get i j + g * b := by
    intro i hi j hj
    rw [gaussianFilter_add m ⟨m.h, m.w, fun _ _ => b⟩ (addRows (fun _ => b) m) ⟨rfl, rfl, rfl, rfl, fun _ _ => rfl⟩]
    rw [gaussian_filter_gain ⟨m.h, m.w, fun _ _ => b⟩ b sigma sigma _ (fun _ _ _ _ => rfl) hh hw i j hi hj]
  refine .inl ⟨_, _, rfl, rfl, rfl, rfl, rfl, rfl, fun i hi j hj => ?_⟩
  have hi : i < m.h := hi
  have hj : j < m.w := hj
  show (gaussianFilter (addRows (fun _ => b) m) sigma sigma (pad10 (min m.h m.w))).get i j + (removeStripeSorting as1 as2 filt ⟨m.h, m.w, fun i j =>
      m.get i j + b - (gaussianFilter (addRows (fun _ => b) m) sigma sigma (pad10 (min m.h m.w))).get i j⟩).get i j =
    (gaussianFilter m sigma sigma (pad10 (min m.h m.w))).get i j + (removeStripeSorting as1 as2 filt ⟨m.h, m.w, fun i j =>
      m.get i j - (gaussianFilter m sigma sigma (pad10 (min m.h m.w))).get i j⟩).get i j + b
  set p : Mat ℝ := ⟨m.h, m.w, fun i j => m.get i j - (gaussianFilter m sigma sigma (pad10 (min m.h m.w))).get i j⟩ with hp
  set p' : Mat ℝ := ⟨m.h, m.w, fun i j => m.get i j + b - (gaussianFilter (addRows (fun _ => b) m) sigma sigma (pad10 (min m.h m.w))).get i j⟩ with hp'
  have s : Shifted (fun _ => b - g * b) p p' := ⟨rfl, rfl, fun i hi j hj => by
    show m.get i j + b - _ = m.get i j - _ + (b - g * b)
    rw [hs i hi j hj]; ring⟩
  have h1 := (forward_add as1 ho _ p p' s).1
  have k := sorted_step as1 ho as2 _ p p' (filt (sortForward as1 0 p).1) (filt (sortForward as1 0 p').1) s (hf.1 _).1 (hf.1 _).2 (hf.2 _ _ _ h1)
  have e : (removeStripeSorting as1 as2 filt p').get i j = (removeStripeSorting as1 as2 filt p).get i j + (b - g * b) :=
    k.get i (by rw [show (sortBackward as2 0 (filt (sortForward as1 0 p).1) (sortForward as1 0 p).2).h = (filt (sortForward as1 0 p).1).h from rfl, (hf.1 _).1]; exact hi)
      j (by rw [show (sortBackward as2 0 (filt (sortForward as1 0 p).1) (sortForward as1 0 p).2).w = (filt (sortForward as1 0 p).1).w from rfl, (hf.1 _).2]; exact hj)
  rw [hs i hi j hj, e]
  ring

/-! ### factors with sorting -/

/-- **C174.** `remove_stripe_based_regularization` with the logarithm and sorting: for positive transmissions one positive factor passes through. -/
theorem regularization_factor_sorted (as1 : Argsort ℝ) (ho : OrderOnly as1) (as2 : Argsort ℕ) (alpha : ℝ) (numChunk : ℕ) (k : ℝ) (hk : 0 < k) (m : Mat ℝ)
    (hm : ∀ i < m.h, ∀ j < m.w, 0 < m.get i j) :
    (∃ r r', removeRegularization as1 as2 alpha numChunk true true m = .ok r ∧ removeRegularization as1 as2 alpha numChunk true true (mulRows (fun _ => k) m) = .ok r' ∧
      r'.h = r.h ∧ r'.w = r.w ∧ r.h = m.h ∧ r.w = m.w ∧ ∀ i < m.h, ∀ j < m.w, r'.get i j = k * r.get i j) ∨
    ∃ e, removeRegularization as1 as2 alpha numChunk true true m = .error e ∧
      removeRegularization as1 as2 alpha numChunk true true (mulRows (fun _ => k) m) = .error e := by
  have hsm : sortForward as1 0 (mulRows (fun _ => k) m) = (smulMat k (sortForward as1 0 m).1, (sortForward as1 0 m).2) := sortForward_smul as1 ho k hk m
  have hpos : ∀ i < m.h, ∀ j < m.w, 0 < (sortForward as1 0 m).1.get i j := by
    intro i hi j hj
    have hp := ((sort_forward_sorted as1 m).1.2.2 j).2
    have hl : (sortedCol as1 m j).length = m.h := sortedCol_length as1 m j
    have : (sortForward as1 0 m).1.get i j ∈ sortedCol as1 m j := by
      rw [← sortedCol_get as1 m j i hi, List.getD_eq_getElem _ _ (by omega)]
      exact List.getElem_mem _
    have := hp.mem_iff.1 this
    obtain ⟨r, hr, e⟩ := List.mem_map.1 this
    rw [← e]
    exact hm r (List.mem_range.1 hr) j hj
  have hsw : (sortForward as1 0 m).1.w = m.w := rfl
  have hsh : (sortForward as1 0 m).1.h = m.h := rfl
  have hlen := fun f hf c => backward_len as1 as2 m f hf c
  unfold removeRegularization
  rw [hsm]
  simp only [if_true]
  generalize (sortForward as1 0 m).1 = s at hpos hsw hsh ⊢
  generalize (sortForward as1 0 m).2 = x at hlen ⊢
  rcases regRows_shift alpha numChunk _ _ _ (regLog_shift (fun _ => k) (fun _ => hk) s (fun i hi j hj => hpos i (by omega) j (by omega))) with
    ⟨r, r', e1, e2, h1, h2, h3⟩ | ⟨e, e1, e2⟩
  · have e2 : regRows alpha numChunk (regLog (smulMat k s)) = .ok r' := e2
    rw [e1, e2]
    have h1 : r.h = s.h := h1
    have h2 : r.w = s.w := h2
    have b := backward_add as2 (-Real.log k) r r' x x h3 rfl (fun _ _ _ => rfl) fun c _ => hlen r (by omega) c
    refine .inl ⟨_, _, rfl, rfl, h3.h, h3.w, h1.trans hsh, h2.trans hsw, fun i hi j hj => ?_⟩
    show Real.exp (-(sortBackward as2 0 r' x).get i j) = k * Real.exp (-(sortBackward as2 0 r x).get i j)
    rw [b.get i (by show i < r.h; omega) j (by show j < r.w; omega), neg_add, neg_neg, Real.exp_add, Real.exp_log hk, mul_comm]
  · have e2 : regRows alpha numChunk (regLog (smulMat k s)) = .error e := e2
    rw [e1, e2]
    exact .inr ⟨e, rfl, rfl⟩

end Verif.StripeFilters
