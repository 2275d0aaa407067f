import Verif.Model.DetectSample
import Verif.Props.Peak
import Verif.Props.CenterMetric
import Mathlib.Data.Rat.Floor

/-! C133 — `detect_sample` does not depend on unit, offset and orientation of the sinogram. -/

set_option linter.unusedSectionVars false
set_option linter.unusedSimpArgs false

namespace Verif.Detect
open Verif.Fourier Verif.Correlation Verif.CenterMetric

/-! ### specification -/

/-- What is assumed of `scipy.ndimage.gaussian_filter`: it keeps the size and commutes with a positive factor. -/
structure IsGauss (G : ℕ → Mat ℝ → Mat ℝ) : Prop where
  shape : ∀ n m, (G n m).h = m.h ∧ (G n m).w = m.w
  scale : ∀ (n : ℕ) (m m' : Mat ℝ) (k : ℝ), 0 < k → m'.h = m.h → m'.w = m.w → (∀ i < m.h, ∀ j < m.w, m'.get i j = k * m.get i j) →
    ∀ i < m.h, ∀ j < m.w, (G n m').get i j = k * (G n m).get i j

/-- The sinogram with the order of the projections changed cyclically: row 0 is row `s`. -/
def rollRows (s : ℕ) (m : Mat ℝ) : Mat ℝ := ⟨m.h, m.w, fun i j => m.get ((i + s) % m.h) j⟩

/-! ### the decision -/

theorem mapM_congr' {α β : Type} (l : List α) (f g : α → Py β) (h : ∀ x ∈ l, f x = g x) : l.mapM f = l.mapM g := by
  induction l with
  | nil => rfl
  | cons a l ih => rw [List.mapM_cons, List.mapM_cons, h a (by simp), ih fun x hx => h x (by simp [hx])]

theorem mapM_all_ok {α β : Type} (l : List α) (f : α → Py β) (g : α → β) (h : ∀ x ∈ l, f x = .ok (g x)) : l.mapM f = .ok (l.map g) := by
  induction l with
  | nil => rfl
  | cons a l ih =>
    rw [List.mapM_cons, h a (by simp), ih fun x hx => h x (by simp [hx])]
    rfl

theorem argmax_scale (n : ℕ) (f f' : ℕ → ℝ) (k : ℝ) (hk : 0 < k) (h : ∀ j < n, f' j = k * f j) : npArgmax n f' = npArgmax n f := by
  rcases Nat.eq_zero_or_pos n with rfl | hn
  · rfl
  · obtain ⟨p, hp, h1, h2, h3⟩ := npArgmax_spec hn f
    rw [hp]
    refine npArgmax_eq ⟨h1, fun j hj => ?_, fun j hj => ?_⟩
    · rw [h j hj, h p h1]
      exact mul_le_mul_of_nonneg_left (h2 j hj) hk.le
    · rw [h j (by omega), h p h1]
      exact mul_lt_mul_of_pos_left (h3 j hj) hk

theorem decideOn_scale (q q' : Mat ℝ) (k : ℝ) (hk : 0 < k) (h1 : q'.h = q.h) (h2 : q'.w = q.w)
    (h3 : ∀ i < q.h, ∀ j < q.w, q'.get i j = k * q.get i j) : decideOn q' = decideOn q := by
  unfold decideOn
  dsimp only
  rw [h1, h2]
  by_cases hr : q.h ≤ 4 * q.h / 5
  · rw [if_pos hr, if_pos hr]
  · rw [if_neg hr, if_neg hr, argmax_scale q.w _ _ k hk (h3 _ (by omega))]
    congr 1
    funext pos
    congr 1
    refine mapM_congr' _ _ _ fun i hi => ?_
    rw [argmax_scale q.w _ _ k hk (h3 _ (by have := List.mem_range.1 hi; omega))]

/-- **C133.** What is decided: a sample is reported when in at least 40 % of the rows of the last fifth of the smoothed quadrant the largest value
stands to the right of that of the first of these rows. -/
theorem decide_spec (q : Mat ℝ) (hh : 0 < q.h) (hw : 0 < q.w) :
    ∃ (b : Bool) (p : ℕ → ℕ), decideOn q = .ok b ∧ (∀ i, FirstMax q.w (q.get i) (p i)) ∧
      (b = true ↔ 2 * (q.h - 4 * q.h / 5) ≤ 5 * ((Finset.Ico (4 * q.h / 5) q.h).filter fun i => p (4 * q.h / 5) < p i).card) := by
  choose p hp hm using fun i => npArgmax_spec hw (q.get i)
  have hr : ¬ q.h ≤ 4 * q.h / 5 := by omega
  refine ⟨decide (¬ ((((List.range (q.h - 4 * q.h / 5)).map fun i => decide (p (4 * q.h / 5) < p (4 * q.h / 5 + i))).count true : ℚ) /
      ((q.h - 4 * q.h / 5 : ℕ) : ℚ) < 2 / 5)), p, ?_, hm, ?_⟩
  · unfold decideOn
    dsimp only
    rw [if_neg hr, hp]
    show Except.bind (List.mapM _ _) _ = _
    rw [mapM_all_ok _ _ (fun i => decide (p (4 * q.h / 5) < p (4 * q.h / 5 + i))) fun i _ => by rw [hp]; rfl]
    show Except.ok _ = _
    rw [List.length_map, List.length_range]
  · generalize hn : 4 * q.h / 5 = r at *
    have hcard : ((List.range (q.h - r)).map fun i => decide (p r < p (r + i))).count true = ((Finset.Ico r q.h).filter fun i => p r < p i).card := by
      rw [List.count_eq_countP, List.countP_map, List.countP_eq_length_filter]
      have e : (Finset.Ico r q.h).filter (fun i => p r < p i) = ((Finset.range (q.h - r)).filter fun i => p r < p (r + i)).map (addLeftEmbedding r) := by
        ext x
        simp only [Finset.mem_filter, Finset.mem_Ico, Finset.mem_map, Finset.mem_range, addLeftEmbedding_apply]
        constructor
        · rintro ⟨⟨a, b⟩, c⟩
          exact ⟨x - r, ⟨by omega, by rw [Nat.add_sub_cancel' a]; exact c⟩, by omega⟩
        · rintro ⟨y, ⟨a, b⟩, rfl⟩
          exact ⟨⟨by omega, by omega⟩, b⟩
      rw [e, Finset.card_map]
      rw [← List.toFinset_card_of_nodup (List.nodup_range.filter _)]
      congr 1
      ext x
      simp
    have hpos : (0 : ℚ) < ((q.h - r : ℕ) : ℚ) := by exact_mod_cast (show 0 < q.h - r by omega)
    rw [decide_eq_true_iff, hcard, not_lt, le_div_iff₀ hpos]
    generalize ((Finset.Ico r q.h).filter fun i => p r < p i).card = c
    generalize q.h - r = n
    constructor
    · intro h
      have : (2 : ℚ) * n ≤ 5 * c := by linarith
      exact_mod_cast this
    · intro h
      have : (2 : ℚ) * n ≤ 5 * c := by exact_mod_cast h
      linarith

/-! ### the spectrum -/

theorem quadrant_idx (n i : ℕ) (hi : i < n / 2) : fftshiftIdx n i < n ∧ fftshiftIdx n i ≠ 0 := by
  unfold fftshiftIdx
  rw [Nat.mod_eq_of_lt (by omega)]
  omega

theorem full_shape (ty : String) (m : Mat ℝ) : (full ty m).h = (if ty = "180" then 2 * m.h else m.h) ∧ (full ty m).w = m.w := by
  unfold full vstack
  split
  · exact ⟨by show m.h + m.h = _; ring, rfl⟩
  · exact ⟨rfl, rfl⟩

/-- The answer depends on the magnitudes of the spectrum in the quadrant up to a positive factor. -/
theorem detect_scale (G : ℕ → Mat ℝ → Mat ℝ) (hG : IsGauss G) (ty : String) (m m' : Mat ℝ) (k : ℝ) (hk : 0 < k)
    (h1 : (full ty m').h = (full ty m).h) (h2 : (full ty m').w = (full ty m).w)
    (h3 : ∀ a < (full ty m).h, ∀ b < (full ty m).w, a ≠ 0 → b ≠ 0 →
      ‖dft2 (full ty m).h (full ty m).w (fun i j => ((full ty m').get i j : ℂ)) a b‖ =
      k * ‖dft2 (full ty m).h (full ty m).w (fun i j => ((full ty m).get i j : ℂ)) a b‖) :
    detect G ty m' = detect G ty m := by
  unfold detect
  by_cases ht : ty = "180" ∨ ty = "360"
  · rw [if_neg (not_not.2 ht), if_neg (not_not.2 ht)]
    have hs : smoothSize (full ty m') = smoothSize (full ty m) := by
      unfold smoothSize
      rw [h1, h2]
    rw [hs]
    have e1 : (quadrant (full ty m')).h = (quadrant (full ty m)).h := by
      unfold quadrant
      dsimp only
      rw [h1, h2]
    have e2 : (quadrant (full ty m')).w = (quadrant (full ty m)).w := by
      unfold quadrant
      dsimp only
      rw [h1, h2]
    have g := hG.shape (smoothSize (full ty m)) (quadrant (full ty m))
    have g' := hG.shape (smoothSize (full ty m)) (quadrant (full ty m'))
    refine decideOn_scale _ _ k hk (by rw [g.1, g'.1, e1]) (by rw [g.2, g'.2, e2]) ?_
    rw [g.1, g.2]
    refine hG.scale _ _ _ k hk e1 e2 fun i hi j hj => ?_
    have hi' : i < (full ty m).h / 2 := lt_of_lt_of_le hi (Nat.sub_le _ _)
    have hj' : j < (full ty m).w / 2 := lt_of_lt_of_le hj (Nat.sub_le _ _)
    have a1 := quadrant_idx _ _ hi'
    have a2 := quadrant_idx _ _ hj'
    unfold quadrant
    dsimp only
    rw [h1, h2]
    exact h3 _ a1.1 _ a2.1 a1.2 a2.2
  · rw [if_pos ht, if_pos ht]

theorem full_180 (m : Mat ℝ) : full "180" m = vstack m m.fliplr := by unfold full; rw [if_pos rfl]

theorem full_360 (m : Mat ℝ) : full "360" m = m := by unfold full; rw [if_neg (by decide)]

/-- Magnitudes are unchanged by a cyclic shift of the rows. -/
theorem dft2_roll (h w s : ℕ) (x : ℕ → ℕ → ℂ) (k l : ℕ) (hk : k < h) :
    ‖dft2 h w (fun i j => x ((i + s) % h) j) k l‖ = ‖dft2 h w x k l‖ := by
  have hh : 0 < h := by omega
  have e := dft2_row_refl h w 0 (fun i j => x (Fourier.refl h s i) j) k l hk
  rw [dft2_row_refl h w s x ((h - k) % h) l (Nat.mod_lt _ hh)] at e
  have hkk : (h - (h - k) % h) % h = k := by
    rcases Nat.eq_zero_or_pos k with rfl | h0
    · simp
    · rw [Nat.mod_eq_of_lt (show h - k < h by omega), show h - (h - k) = k by omega, Nat.mod_eq_of_lt hk]
  rw [hkk] at e
  rw [← e]
  congr 1
  refine dft2_congr h w _ _ _ _ fun i hi j hj => ?_
  have : Fourier.refl h s (Fourier.refl h 0 i) = (i + s) % h := by
    unfold Fourier.refl
    rcases Nat.eq_zero_or_pos i with rfl | h0
    · simp
    · rw [Nat.zero_add, Nat.mod_eq_of_lt (show h - i < h by omega), show s + (h - (h - i)) = i + s by omega]
  rw [this]

/-- **C133.** Unit and offset: `a * sinogram + b` with `a ≠ 0` gives the same answer. -/
theorem detect_affine (G : ℕ → Mat ℝ → Mat ℝ) (hG : IsGauss G) (ty : String) (m : Mat ℝ) (a b : ℝ) (ha : a ≠ 0) :
    detect G ty (aff a b m) = detect G ty m := by
  have hf : full ty (aff a b m) = aff a b (full ty m) := by
    unfold full
    split
    · unfold vstack aff Mat.fliplr
      dsimp only
      congr 1
      funext i j
      split <;> rfl
    · rfl
  refine detect_scale G hG ty m _ |a| (abs_pos.2 ha) (by rw [hf]; rfl) (by rw [hf]; rfl) fun p hp q hq h0 _ => ?_
  rw [hf]
  have e : (fun i j => ((aff a b (full ty m)).get i j : ℂ)) = fun i j => (a : ℂ) * ((full ty m).get i j : ℂ) + (b : ℂ) := by
    funext i j
    unfold aff
    push_cast
    rfl
  rw [e, dft2_affine _ _ _ _ _ p q hp hq (.inl h0), norm_mul, Complex.norm_real, Real.norm_eq_abs]

theorem neg_neg_idx (n k : ℕ) (hk : k < n) : (n - (n - k) % n) % n = k := by
  rcases Nat.eq_zero_or_pos k with rfl | h0
  · simp
  · rw [Nat.mod_eq_of_lt (show n - k < n by omega), show n - (n - k) = k by omega, Nat.mod_eq_of_lt hk]

/-- **C133.** The sinogram turned by 180 degrees (projections in the opposite order and detector mirrored) gives the same answer. -/
theorem detect_turn (G : ℕ → Mat ℝ → Mat ℝ) (hG : IsGauss G) (m : Mat ℝ) : detect G "360" (flipud m.fliplr) = detect G "360" m := by
  refine detect_scale G hG _ m _ 1 one_pos (by rw [full_360, full_360]; rfl) (by rw [full_360, full_360]; rfl) ?_
  rw [full_360, full_360]
  intro p hp q hq _ _
  rw [one_mul]
  have e := dft2_row_refl m.h m.w (m.h - 1) (fun i j => (m.get i (Fourier.refl m.w (m.w - 1) j) : ℂ)) p q hp
  rw [dft2_col_refl m.h m.w (m.w - 1) (fun i j => (m.get i j : ℂ)) _ q hq,
    dft2_real m.h m.w m.get p ((m.w - q) % m.w) hp (Nat.mod_lt _ (by omega)), neg_neg_idx _ _ hq] at e
  rw [← e]
  congr 1
  refine dft2_congr _ _ _ _ _ _ fun i hi j hj => ?_
  have e1 : Fourier.refl m.h (m.h - 1) i = m.h - 1 - i := by
    unfold Fourier.refl
    rw [show m.h - 1 + (m.h - i) = (m.h - 1 - i) + m.h by omega, Nat.add_mod_right, Nat.mod_eq_of_lt (by omega)]
  have e2 : Fourier.refl m.w (m.w - 1) j = m.w - 1 - j := by
    unfold Fourier.refl
    rw [show m.w - 1 + (m.w - j) = (m.w - 1 - j) + m.w by omega, Nat.add_mod_right, Nat.mod_eq_of_lt (by omega)]
  rw [e1, e2]
  rfl

/-- **C133.** A 360-degree sinogram gives the same answer whatever the angle at which the scan started. -/
theorem detect_start (G : ℕ → Mat ℝ → Mat ℝ) (hG : IsGauss G) (m : Mat ℝ) (s : ℕ) : detect G "360" (rollRows s m) = detect G "360" m := by
  refine detect_scale G hG _ m _ 1 one_pos (by rw [full_360, full_360]; rfl) (by rw [full_360, full_360]; rfl) ?_
  rw [full_360, full_360]
  intro p hp q hq _ _
  rw [one_mul]
  exact dft2_roll m.h m.w s (fun i j => (m.get i j : ℂ)) p q hp

/-- The spectrum of a completed 180-degree sinogram is the same on both sides. -/
theorem full_sym (m : Mat ℝ) (p q : ℕ) (hp : p < 2 * m.h) (hq : q < m.w) :
    ‖dft2 (2 * m.h) m.w (fun i j => ((vstack m m.fliplr).get i j : ℂ)) p ((m.w - q) % m.w)‖ =
      ‖dft2 (2 * m.h) m.w (fun i j => ((vstack m m.fliplr).get i j : ℂ)) p q‖ := by
  rw [← dft2_col_refl (2 * m.h) m.w (m.w - 1) (fun i j => ((vstack m m.fliplr).get i j : ℂ)) p q hq]
  rw [← dft2_roll (2 * m.h) m.w m.h (fun i j => ((vstack m m.fliplr).get i j : ℂ)) p q hp]
  congr 1
  refine dft2_congr _ _ _ _ _ _ fun i hi j hj => ?_
  have e2 : Fourier.refl m.w (m.w - 1) j = m.w - 1 - j := by
    unfold Fourier.refl
    rw [show m.w - 1 + (m.w - j) = (m.w - 1 - j) + m.w by omega, Nat.add_mod_right, Nat.mod_eq_of_lt (by omega)]
  rw [e2]
  congr 1
  unfold vstack Mat.fliplr
  dsimp only
  rcases Nat.lt_or_ge i m.h with h | h
  · rw [Nat.mod_eq_of_lt (by omega), if_pos h, if_neg (by omega), Nat.add_sub_cancel]
  · rw [show (i + m.h) % (2 * m.h) = i - m.h by rw [Nat.mod_eq_sub_mod (by omega), Nat.mod_eq_of_lt (by omega)]; omega, if_neg (by omega),
      if_pos (by omega)]
    congr 1
    omega

/-- **C133.** A 180-degree sinogram and its left-right mirror image give the same answer. -/
theorem detect_mirror (G : ℕ → Mat ℝ → Mat ℝ) (hG : IsGauss G) (m : Mat ℝ) : detect G "180" m.fliplr = detect G "180" m := by
  refine detect_scale G hG _ m _ 1 one_pos (by rw [(full_shape _ _).1, (full_shape _ _).1]; rfl) (by rw [(full_shape _ _).2, (full_shape _ _).2]; rfl) ?_
  have s := full_shape "180" m
  rw [if_pos rfl] at s
  rw [s.1, s.2, full_180, full_180]
  intro p hp q hq _ _
  rw [one_mul, ← full_sym m p q hp hq, ← dft2_col_refl (2 * m.h) m.w (m.w - 1) (fun i j => ((vstack m m.fliplr).get i j : ℂ)) p q hq]
  congr 1
  refine dft2_congr _ _ _ _ _ _ fun i hi j hj => ?_
  have e2 : Fourier.refl m.w (m.w - 1) j = m.w - 1 - j := by
    unfold Fourier.refl
    rw [show m.w - 1 + (m.w - j) = (m.w - 1 - j) + m.w by omega, Nat.add_mod_right, Nat.mod_eq_of_lt (by omega)]
  rw [e2]
  congr 1

/-- **C133.** A 180-degree sinogram and its projections in the opposite order give the same answer. -/
theorem detect_reverse (G : ℕ → Mat ℝ → Mat ℝ) (hG : IsGauss G) (m : Mat ℝ) : detect G "180" (flipud m) = detect G "180" m := by
  refine detect_scale G hG _ m _ 1 one_pos (by rw [(full_shape _ _).1, (full_shape _ _).1]; rfl) (by rw [(full_shape _ _).2, (full_shape _ _).2]; rfl) ?_
  have s := full_shape "180" m
  rw [if_pos rfl] at s
  rw [s.1, s.2, full_180, full_180]
  intro p hp q hq _ _
  rw [one_mul, ← full_sym m p q hp hq, ← dft2_real (2 * m.h) m.w (vstack m m.fliplr).get p q hp hq,
    ← dft2_row_refl (2 * m.h) m.w (m.h - 1) (fun i j => ((vstack m m.fliplr).get i j : ℂ)) p q hp]
  congr 1
  refine dft2_congr _ _ _ _ _ _ fun i hi j hj => ?_
  congr 1
  unfold vstack Mat.fliplr flipud Fourier.refl
  dsimp only
  rcases Nat.lt_or_ge i m.h with h | h
  · rw [show m.h - 1 + (2 * m.h - i) = (m.h - 1 - i) + 2 * m.h by omega, Nat.add_mod_right, Nat.mod_eq_of_lt (by omega), if_pos h, if_pos (by omega)]
  · rw [Nat.mod_eq_of_lt (by omega), if_neg (by omega), if_neg (by omega)]
    congr 1
    omega

/-- **C133.** Which calls are accepted: the types "180" and "360", and sinograms of at least 2 (4 for "360") projections and 4 columns. -/
theorem detect_accepted (G : ℕ → Mat ℝ → Mat ℝ) (hG : IsGauss G) (ty : String) (m : Mat ℝ) :
    (∃ b, detect G ty m = .ok b) ↔ 4 ≤ m.w ∧ (ty = "180" ∧ 2 ≤ m.h ∨ ty = "360" ∧ 4 ≤ m.h) := by
  unfold detect
  by_cases ht : ty = "180" ∨ ty = "360"
  · rw [if_neg (not_not.2 ht)]
    have hs := full_shape ty m
    have g := hG.shape (smoothSize (full ty m)) (quadrant (full ty m))
    have q1 : (quadrant (full ty m)).h = (full ty m).h / 2 - min 20 ((min ((full ty m).h / 2) ((full ty m).w / 2) + 19) / 20) := rfl
    have q2 : (quadrant (full ty m)).w = (full ty m).w / 2 - min 20 ((min ((full ty m).h / 2) ((full ty m).w / 2) + 19) / 20) := rfl
    generalize G (smoothSize (full ty m)) (quadrant (full ty m)) = q at *
    have key : (∃ b, decideOn q = .ok b) ↔ 0 < q.h ∧ 0 < q.w := by
      constructor
      · rintro ⟨b, hb⟩
        unfold decideOn at hb
        dsimp only at hb
        by_cases hr : q.h ≤ 4 * q.h / 5
        · rw [if_pos hr] at hb
          cases hb
        · rw [if_neg hr] at hb
          refine ⟨by omega, ?_⟩
          by_contra hw
          have : npArgmax q.w (q.get (4 * q.h / 5)) = .error .valueError := by
            unfold npArgmax
            rw [if_pos (by omega)]
          rw [this] at hb
          cases hb
      · rintro ⟨h1, h2⟩
        obtain ⟨b, _, hb, _⟩ := decide_spec q h1 h2
        exact ⟨b, hb⟩
    rw [key, g.1, g.2, q1, q2, hs.1, hs.2]
    rcases ht with rfl | rfl
    · rw [if_pos rfl]
      constructor
      · intro h
        exact ⟨by omega, .inl ⟨rfl, by omega⟩⟩
      · rintro ⟨h1, ⟨_, h2⟩ | ⟨h2, _⟩⟩
        · omega
        · exact absurd h2 (by decide)
    · rw [if_neg (by decide)]
      constructor
      · intro h
        exact ⟨by omega, .inr ⟨rfl, by omega⟩⟩
      · rintro ⟨h1, ⟨h2, _⟩ | ⟨_, h2⟩⟩
        · exact absurd h2 (by decide)
        · omega
  · rw [if_pos ht]
    constructor
    · rintro ⟨b, hb⟩
      cases hb
    · rintro ⟨_, ⟨h, _⟩ | ⟨h, _⟩⟩
      · exact absurd (.inl h) ht
      · exact absurd (.inr h) ht

/-- Non-vacuity: no smoothing, and averaging neighbouring columns, meet the assumptions; a 2 × 4 sinogram is accepted. -/
example : IsGauss (fun _ m => m) ∧ IsGauss (fun _ => CenterMetric.mean3) ∧ ∃ b, detect (fun _ => CenterMetric.mean3) "180" ⟨2, 4, fun i j => i + j⟩ = .ok b := by
  have hm : IsGauss (fun _ => CenterMetric.mean3) := by
    refine ⟨fun _ _ => ⟨rfl, rfl⟩, fun _ m m' k _ h1 h2 h i hi j hj => ?_⟩
    unfold CenterMetric.mean3
    dsimp only
    rw [h2, h i hi _ (by omega), h i hi _ hj, h i hi _ (by omega)]
    ring
  exact ⟨⟨fun _ _ => ⟨rfl, rfl⟩, fun _ _ _ _ _ _ _ h => h⟩, hm, (detect_accepted _ hm _ _).2 ⟨le_refl _, .inl ⟨rfl, le_refl _⟩⟩⟩

/-! ### what is looked at -/

/-- The sinogram over a full turn: a 180-degree sinogram is followed by its mirror image. -/
def fullTurn (ty : String) (m : Mat ℝ) : Mat ℝ :=
  if ty = "180" then ⟨2 * m.h, m.w, fun i j => if i < m.h then m.get i j else m.get (i - m.h) (m.w - 1 - j)⟩ else m

/-- Magnitude of the Fourier coefficient of the `h × w` image `x` at the frequencies `u`, `v`. -/
noncomputable def spectrum (h w : ℕ) (x : ℕ → ℕ → ℝ) (u v : ℤ) : ℝ :=
  ‖∑ a ∈ Finset.range h, ∑ b ∈ Finset.range w, (x a b : ℂ) * ph w (-(v * b)) * ph h (-(u * a))‖

/-- `⌈n / k⌉`. -/
theorem ceil_div (n k : ℕ) (hk : 0 < k) : ⌈(n : ℚ) / k⌉₊ = (n + (k - 1)) / k := by
  have hq : (0 : ℚ) < k := by exact_mod_cast hk
  apply le_antisymm
  · rw [Nat.ceil_le, div_le_iff₀ hq]
    have := Nat.lt_div_mul_add (a := n + (k - 1)) hk
    have h2 : n ≤ (n + (k - 1)) / k * k := by omega
    exact_mod_cast h2
  · rw [Nat.div_le_iff_le_mul_add_pred hk]
    have h1 := Nat.le_ceil ((n : ℚ) / k)
    rw [div_le_iff₀ hq] at h1
    have h2 : n ≤ ⌈(n : ℚ) / k⌉₊ * k := by exact_mod_cast h1
    rw [mul_comm k]
    omega

theorem ph_fftshift (n i a : ℕ) (hn : 0 < n) : ph n (-((fftshiftIdx n i : ℕ) * a)) = ph n (-(((i : ℤ) - (n / 2 : ℕ)) * a)) := by
  apply ph_congr n hn
  have e : (n : ℤ) ∣ ((i : ℤ) - (n / 2 : ℕ)) - (fftshiftIdx n i : ℕ) := by
    unfold fftshiftIdx
    rw [Int.natCast_mod]
    have h1 : (n : ℤ) ∣ ((i + (n - n / 2) : ℕ) : ℤ) - ((i + (n - n / 2) : ℕ) : ℤ) % n := Int.dvd_self_sub_emod
    have h2 : ((i + (n - n / 2) : ℕ) : ℤ) = (i : ℤ) - (n / 2 : ℕ) + n := by
      have : n / 2 ≤ n := Nat.div_le_self _ _
      generalize n / 2 = q at *
      omega
    have h3 := Int.dvd_sub h1 (Int.dvd_refl (n : ℤ))
    rw [h2] at h3 ⊢
    convert h3 using 1
    ring
  rw [show -((fftshiftIdx n i : ℕ) * (a : ℤ)) - -(((i : ℤ) - (n / 2 : ℕ)) * a) = (((i : ℤ) - (n / 2 : ℕ)) - (fftshiftIdx n i : ℕ)) * a by ring]
  exact Dvd.dvd.mul_right e _

theorem full_eq (ty : String) (m : Mat ℝ) : full ty m = fullTurn ty m := by
  unfold full fullTurn
  split
  · unfold vstack Mat.fliplr
    dsimp only
    rw [two_mul]
  · rfl

/-- **C133.** What is looked at: of the sinogram over a full turn (`H × W`) the magnitudes of the negative frequencies below `-r`,
`r = min(20, ⌈min(H//2, W//2) / 20⌉)`, smoothed with `sigma = min(30, ⌈min(H, W) / 50⌉)`; there is a sample when in at least 40 % of the
rows of the last fifth the (first) largest value lies strictly right of that of the first of these rows. -/
theorem detect_spec (G : ℕ → Mat ℝ → Mat ℝ) (hG : IsGauss G) (ty : String) (m : Mat ℝ) (hw : 4 ≤ m.w) (ht : ty = "180" ∧ 2 ≤ m.h ∨ ty = "360" ∧ 4 ≤ m.h) :
    let H := (fullTurn ty m).h
    let W := (fullTurn ty m).w
    let r := min 20 ⌈((min (H / 2) (W / 2) : ℕ) : ℚ) / (20 : ℕ)⌉₊
    let q : Mat ℝ := ⟨H / 2 - r, W / 2 - r, fun i j => spectrum H W (fullTurn ty m).get ((i : ℤ) - (H / 2 : ℕ)) ((j : ℤ) - (W / 2 : ℕ))⟩
    let s := G (min 30 ⌈((min H W : ℕ) : ℚ) / (50 : ℕ)⌉₊) q
    ∃ (b : Bool) (p : ℕ → ℕ), detect G ty m = .ok b ∧ (∀ i, FirstMax s.w (s.get i) (p i)) ∧
      (b = true ↔ 2 * (s.h - 4 * s.h / 5) ≤ 5 * ((Finset.Ico (4 * s.h / 5) s.h).filter fun i => p (4 * s.h / 5) < p i).card) := by
  intro H W r q s
  have hs := full_shape ty m
  have hH : 4 ≤ H ∧ 4 ≤ W := by
    show 4 ≤ (fullTurn ty m).h ∧ 4 ≤ (fullTurn ty m).w
    rw [← full_eq, hs.1, hs.2]
    rcases ht with ⟨rfl, h⟩ | ⟨rfl, h⟩
    · rw [if_pos rfl]; omega
    · rw [if_neg (by decide)]; omega
  have hq : quadrant (full ty m) = q := by
    rw [full_eq]
    unfold quadrant
    dsimp only
    have hr : min 20 ((min ((fullTurn ty m).h / 2) ((fullTurn ty m).w / 2) + 19) / 20) = r := by
      show _ = min 20 _
      rw [ceil_div _ 20 (by norm_num)]
    rw [hr]
    show Mat.mk _ _ _ = Mat.mk _ _ _
    congr 1
    funext i j
    unfold spectrum dft2
    congr 1
    rw [dft_ph]
    refine Finset.sum_congr rfl fun a _ => ?_
    rw [dft_ph, Finset.sum_mul]
    refine Finset.sum_congr rfl fun b _ => ?_
    rw [ph_fftshift _ _ _ (by omega), ph_fftshift _ _ _ (by omega)]
  have hsm : smoothSize (full ty m) = min 30 ⌈((min H W : ℕ) : ℚ) / (50 : ℕ)⌉₊ := by
    rw [full_eq, ceil_div _ 50 (by norm_num)]
    rfl
  have hd : detect G ty m = decideOn s := by
    unfold detect
    rw [if_neg (not_not.2 (ht.imp And.left And.left)), hsm, hq]
  have hr : r ≤ 1 + min (H / 2) (W / 2) / 2 - 1 := by
    show min 20 _ ≤ _
    rw [ceil_div _ 20 (by norm_num)]
    omega
  have g := hG.shape (min 30 ⌈((min H W : ℕ) : ℚ) / (50 : ℕ)⌉₊) q
  rw [hd]
  exact decide_spec s (by show 0 < (G _ q).h; rw [g.1]; show 0 < H / 2 - r; omega) (by show 0 < (G _ q).w; rw [g.2]; show 0 < W / 2 - r; omega)

end Verif.Detect
