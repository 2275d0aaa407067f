import Verif.Model.Stitch
import Verif.Lemmas.Num
import Mathlib.Data.Rat.Floor
import Mathlib.Algebra.BigOperators.Intervals
import Mathlib.Algebra.BigOperators.Ring.Finset

/-! C15–C19, C63 — stitching, joining, 360° conversion, extension. -/

set_option linter.unusedSectionVars false
set_option linter.unusedSimpArgs false

namespace Verif.Stitch

variable {K : Type _} [Field K] [LinearOrder K] [IsStrictOrderedRing K] [FloorRing K]

/-! ### C15: specification -/

/-- The left image of a pair: `side = 1` means that image 2 continues image 1 on the right. -/
def leftImg {α : Type _} (side : Int) (m1 m2 : Mat α) : Mat α := if side = 1 then m1 else m2
/-- The right image of a pair. -/
def rightImg {α : Type _} (side : Int) (m1 m2 : Mat α) : Mat α := if side = 1 then m2 else m1

/-- `out` is `L` and `R` glued with `v` columns in common: own columns outside the overlap; inside, one and the same
ramp of weights from 1 down (to 0) for every row, the right image getting the complement. -/
def GluedBy (L R out : Mat K) (v : Nat) : Prop :=
  out.h = L.h ∧ out.w = L.w + R.w - v ∧
  (∀ i < L.h, ∀ j < L.w - v, out.get i j = L.get i j) ∧
  (∀ i < L.h, ∀ j, v ≤ j → j < R.w → out.get i (L.w - v + j) = R.get i j) ∧
  ∃ a : Nat → K, (∀ k < v, 0 ≤ a k ∧ a k ≤ 1) ∧ a 0 = 1 ∧ (2 ≤ v → a (v - 1) = 0) ∧
    (∀ k l, k ≤ l → l < v → a l ≤ a k) ∧
    ∀ i < L.h, ∀ k < v, out.get i (L.w - v + k) = a k * L.get i (L.w - v + k) + (1 - a k) * R.get i k

theorem stitchImage_int (shift : Mat K → K → Mat K) (m1 m2 : Mat K) (b1 b2 : Bool) (v : Nat) (side : Int)
    (norm : Bool) (t : Option Nat) (hh : m1.h = m2.h) (hv : 1 ≤ v) (h1 : v ≤ m1.w) (h2 : v ≤ m2.w) :
    ∃ W, makeWeightMatrix m1 m2 b1 b2 (v : Int) side = .ok W ∧
      stitchImage shift m1 m2 b1 b2 (v : K) side none none norm t
        = .ok (stitchCore m1 m2 W.1 W.2 v side norm t) := by
  have hr : npRound ((v : K) + 1 / 1000) = (v : Int) := by
    have := npRound_int_eps (K := K) (v : Int)
    rwa [Int.cast_natCast] at this
  have hw : ¬ ((v : Int) < 1 ∨ (v : Int) > m1.w ∨ (v : Int) > m2.w) := by omega
  have hex : ∃ W, makeWeightMatrix m1 m2 b1 b2 (v : Int) side = .ok W := by
    unfold makeWeightMatrix
    rw [if_neg hw]
    by_cases hs : side = 1 <;> simp only [hs, if_true, if_false] <;> exact ⟨_, rfl⟩
  obtain ⟨W, hW⟩ := hex
  refine ⟨W, hW, ?_⟩
  unfold stitchImage
  simp only [hr, Int.cast_natCast, sub_self, ne_eq, not_true_eq_false, if_false, hh, hW, Int.toNat_natCast]

/-- The computed weights for floating images. -/
theorem makeWeight_float (m1 m2 : Mat K) (v : Nat) (side : Int)
    (hv : 1 ≤ v) (h1 : v ≤ m1.w) (h2 : v ≤ m2.w) (W : Mat K × Mat K)
    (hW : makeWeightMatrix m1 m2 false false (v : Int) side = .ok W) :
    (∀ i j, (leftImg side W.1 W.2).get i j = if (leftImg side m1 m2).w - v ≤ j
      then linspace 1 0 v (j - ((leftImg side m1 m2).w - v)) else 1) ∧
    (∀ i j, (rightImg side W.1 W.2).get i j = if j < v then 1 - linspace 1 0 v j else 1) := by
  have hw : ¬ ((v : Int) < 1 ∨ (v : Int) > m1.w ∨ (v : Int) > m2.w) := by omega
  unfold makeWeightMatrix at hW
  rw [if_neg hw] at hW
  by_cases hs : side = 1
  · simp only [hs, if_true, Int.toNat_natCast, storeAs, Bool.false_eq_true, if_false] at hW
    cases hW
    simp [leftImg, rightImg, hs]
  · simp only [hs, if_false, Int.toNat_natCast, storeAs, Bool.false_eq_true] at hW
    cases hW
    simp [leftImg, rightImg, hs]

/-- The canvas sum, read off by the position of the column. -/
theorem stitchCore_get (m1 m2 w1 w2 : Mat K) (v : Nat) (side : Int)
    (i j : Nat) :
    (stitchCore m1 m2 w1 w2 v side false none).get i j =
      (if j < (leftImg side m1 m2).w then
        (leftImg side m1 m2).get i j * (leftImg side w1 w2).get i j else 0) +
      (if (leftImg side m1 m2).w - v ≤ j then
        (rightImg side m1 m2).get i (j - ((leftImg side m1 m2).w - v)) *
          (rightImg side w1 w2).get i (j - ((leftImg side m1 m2).w - v)) else 0) := by
  by_cases hs : side = 1
  · simp [stitchCore, leftImg, rightImg, hs]
  · simp [stitchCore, leftImg, rightImg, hs]

theorem stitchCore_shape (m1 m2 w1 w2 : Mat K) (v : Nat) (side : Int) (norm : Bool) :
    (stitchCore m1 m2 w1 w2 v side norm none).h = m1.h ∧
    (stitchCore m1 m2 w1 w2 v side norm none).w = m1.w + m2.w - v := by
  by_cases hs : side = 1 <;> simp [stitchCore, hs]

/-- C15.  Floating images, `norm=False`: for every overlap from 1 to both widths and either side the result
is the two images glued with a convex ramp over the overlap. -/
theorem stitch_image_glues (shift : Mat K → K → Mat K) (m1 m2 : Mat K) (v : Nat) (side : Int)
    (hh : m1.h = m2.h) (hv : 1 ≤ v) (h1 : v ≤ m1.w) (h2 : v ≤ m2.w) :
    ∃ out, stitchImage shift m1 m2 false false (v : K) side none none false none = .ok out ∧
      GluedBy (leftImg side m1 m2) (rightImg side m1 m2) out v := by
  obtain ⟨W, hW, hst⟩ := stitchImage_int shift m1 m2 false false v side false none hh hv h1 h2
  refine ⟨_, hst, ?_⟩
  obtain ⟨hwl, hwr⟩ := makeWeight_float m1 m2 v side hv h1 h2 W hW
  obtain ⟨hs1, hs2⟩ := stitchCore_shape m1 m2 W.1 W.2 v side false
  have hLh : (leftImg side m1 m2).h = m1.h := by unfold leftImg; split <;> simp [hh]
  have hLR : (leftImg side m1 m2).w + (rightImg side m1 m2).w = m1.w + m2.w := by
    unfold leftImg rightImg; split <;> omega
  have hLw : v ≤ (leftImg side m1 m2).w := by unfold leftImg; split <;> assumption
  have hRw : v ≤ (rightImg side m1 m2).w := by unfold rightImg; split <;> assumption
  have hget := stitchCore_get m1 m2 W.1 W.2 v side
  set L := leftImg side m1 m2
  set R := rightImg side m1 m2
  refine ⟨by rw [hs1, hLh], by rw [hs2, hLR], ?_, ?_, fun k => linspace 1 0 v k, ?_, linspace_zero _ _ _, ?_, ?_, ?_⟩
  · intro i _ j hj
    rw [hget, hwl, if_pos (by omega), if_neg (by omega), if_neg (by omega)]
    ring
  · intro i _ j hj hjR
    rw [hget, if_neg (by omega), if_pos (by omega),
      show L.w - v + j - (L.w - v) = j by omega, hwr, if_neg (by omega)]
    ring
  · intro k hk; exact linspace10_mem v k hk
  · intro h; exact linspace10_last v h
  · intro k l hkl hl; exact linspace10_anti v k l hkl hl
  · intro i _ k hk
    rw [hget, if_pos (by omega), if_pos (by omega), hwl, if_pos (by omega),
      show L.w - v + k - (L.w - v) = k by omega, hwr, if_pos hk]
    ring

/-- Two images are views of one panorama `P` that overlap in `v` columns. -/
def ViewsOf (P : Nat → Nat → K) (L R : Mat K) (v : Nat) : Prop :=
  (∀ i < L.h, ∀ j < L.w, L.get i j = P i j) ∧ (∀ i < L.h, ∀ j < R.w, R.get i j = P i (L.w - v + j))

/-- C15.  Views of one panorama are stitched back to the panorama, exactly, whether the intensity normalisation
is off or on (then the mean over the overlap must not be zero); a larger `total_width` repeats the last column. -/
theorem stitch_image_panorama (shift : Mat K → K → Mat K) (m1 m2 : Mat K) (v : Nat) (side : Int)
    (norm : Bool) (P : Nat → Nat → K) (t : Option Nat)
    (hh : m1.h = m2.h) (hv : 1 ≤ v) (h1 : v ≤ m1.w) (h2 : v ≤ m2.w)
    (hP : ViewsOf P (leftImg side m1 m2) (rightImg side m1 m2) v)
    (hn : norm = true → meanCols (rightImg side m1 m2) 0 v ≠ 0) :
    ∃ out, stitchImage shift m1 m2 false false (v : K) side none none norm t = .ok out ∧
      out.h = m1.h ∧ out.w = max (m1.w + m2.w - v) (t.getD 0) ∧
      ∀ i < m1.h, ∀ j < out.w, out.get i j = P i (min j (m1.w + m2.w - v - 1)) := by
  obtain ⟨W, hW, hst⟩ := stitchImage_int shift m1 m2 false false v side norm t hh hv h1 h2
  refine ⟨_, hst, ?_⟩
  obtain ⟨hwl, hwr⟩ := makeWeight_float m1 m2 v side hv h1 h2 W hW
  have hLh : (leftImg side m1 m2).h = m1.h := by unfold leftImg; split <;> simp [hh]
  have hRh : (rightImg side m1 m2).h = m1.h := by unfold rightImg; split <;> simp [hh]
  have hLR : (leftImg side m1 m2).w + (rightImg side m1 m2).w = m1.w + m2.w := by
    unfold leftImg rightImg; split <;> omega
  have hLw : v ≤ (leftImg side m1 m2).w := by unfold leftImg; split <;> assumption
  have hRw : v ≤ (rightImg side m1 m2).w := by unfold rightImg; split <;> assumption
  obtain ⟨hPL, hPR⟩ := hP
  -- both means over the overlap are the same number
  have hmean : meanCols (leftImg side m1 m2) (lastFrom (leftImg side m1 m2).w v) (leftImg side m1 m2).w
      = meanCols (rightImg side m1 m2) 0 v := by
    unfold meanCols
    have hc : (leftImg side m1 m2).w - lastFrom (leftImg side m1 m2).w v = v := by
      unfold lastFrom; rw [if_neg (by omega)]; omega
    rw [hc, hLh, hRh, Nat.sub_zero]
    congr 1
    apply Finset.sum_congr rfl
    intro i hi
    rw [Finset.mem_range] at hi
    have : lastFrom (leftImg side m1 m2).w v = (leftImg side m1 m2).w - v := by
      unfold lastFrom; rw [if_neg (by omega)]
    rw [this]
    rw [Finset.sum_Ico_eq_sum_range, Finset.sum_Ico_eq_sum_range]
    have : (leftImg side m1 m2).w - ((leftImg side m1 m2).w - v) = v - 0 := by omega
    rw [this]
    apply Finset.sum_congr rfl
    intro k hk
    rw [Finset.mem_range] at hk
    rw [hPL i (by omega) _ (by omega), hPR i (by omega) _ (by omega)]
    congr 1; omega
  -- hence the normalisation is the identity
  have hcore : ∀ i j, (stitchCore m1 m2 W.1 W.2 v side norm none).get i j
      = (stitchCore m1 m2 W.1 W.2 v side false none).get i j := by
    intro i j
    cases norm with
    | false => rfl
    | true =>
      have hne := hn rfl
      by_cases hs : side = 1
      · simp only [leftImg, rightImg, hs, if_true] at hmean hne
        simp only [stitchCore, hs, if_true, Mat.map, hmean, mul_div_assoc, div_self hne, mul_one]
        simp
      · simp only [leftImg, rightImg, hs, if_false] at hmean hne
        have hne' : meanCols m2 (lastFrom m2.w v) m2.w ≠ 0 := by rw [hmean]; exact hne
        simp only [stitchCore, hs, if_false, Mat.map, ← hmean, mul_div_assoc, div_self hne', mul_one]
        simp
  have hbase : ∀ i < m1.h, ∀ j < m1.w + m2.w - v,
      (stitchCore m1 m2 W.1 W.2 v side norm none).get i j = P i j := by
    intro i hi j hj
    rw [hcore, stitchCore_get]
    set L := leftImg side m1 m2
    set R := rightImg side m1 m2
    rcases Nat.lt_or_ge j (L.w - v) with hj1 | hj1
    · rw [if_pos (by omega), if_neg (by omega), hwl, if_neg (by omega), hPL i (by omega) j (by omega)]
      ring
    · have hR := hPR i (by omega) (j - (L.w - v)) (by omega)
      rw [show L.w - v + (j - (L.w - v)) = j by omega] at hR
      rcases Nat.lt_or_ge j L.w with hj2 | hj2
      · rw [if_pos hj2, if_pos hj1, hwl, if_pos hj1, hwr, if_pos (by omega), hR,
          hPL i (by omega) j hj2]
        ring
      · rw [if_neg (by omega), if_pos hj1, hwr, if_neg (by omega), hR]
        ring
  obtain ⟨hs1, hs2⟩ := stitchCore_shape m1 m2 W.1 W.2 v side norm
  -- effect of total_width
  have htw : stitchCore m1 m2 W.1 W.2 v side norm t =
      if m1.w + m2.w - v < t.getD 0 then
        (stitchCore m1 m2 W.1 W.2 v side norm none).padRightEdge (t.getD 0 - (m1.w + m2.w - v))
      else stitchCore m1 m2 W.1 W.2 v side norm none := by
    cases t with
    | none => simp
    | some t =>
      simp only [Option.getD_some]
      unfold stitchCore
      by_cases hlt : m1.w + m2.w - v < t
      · have : ¬ t < m1.w + m2.w - v := by omega
        simp [this, hlt]
      · by_cases he : t < m1.w + m2.w - v
        · simp [he, hlt]
        · have : t = m1.w + m2.w - v := by omega
          simp [this]
  rw [htw]
  split
  · rename_i hlt
    refine ⟨hs1, ?_, ?_⟩
    · simp only [Mat.padRightEdge, hs2]; omega
    · intro i hi j _
      simp only [Mat.padRightEdge, hs2]
      exact hbase i hi _ (by omega)
  · rename_i hlt
    refine ⟨hs1, by rw [hs2]; omega, ?_⟩
    intro i hi j hj
    rw [hs2] at hj
    rw [hbase i hi j hj, Nat.min_eq_left (by omega)]

/-- Non-vacuity of the panorama hypotheses (with normalisation): two views of `P i j = j + 1`, overlap 2. -/
example : ∃ m1 m2 : Mat ℚ, m1.h = m2.h ∧ 2 ≤ m1.w ∧ 2 ≤ m2.w ∧ m1.h = 2 ∧
    ViewsOf (fun _ j => (j : ℚ) + 1) (leftImg 1 m1 m2) (rightImg 1 m1 m2) 2 ∧
    meanCols (rightImg 1 m1 m2) 0 2 ≠ 0 := by
  refine ⟨⟨2, 3, fun _ j => (j : ℚ) + 1⟩, ⟨2, 4, fun _ j => (j : ℚ) + 2⟩, rfl, by decide, by decide, rfl, ⟨?_, ?_⟩, ?_⟩
  · intro i _ j _; simp [leftImg]
  · intro i _ j _; simp [leftImg, rightImg]; ring
  · simp [rightImg, meanCols, Finset.sum_range_succ, Finset.sum_Ico_eq_sum_range]
    norm_num

/-! ### C63: integer images -/

/-- Full claim: integer images (e.g. raw `uint16` data) are glued like floating ones. -/
def IntStitchOk (m1 m2 : Mat ℚ) (v : Nat) : Prop :=
  ∃ out, stitchImage (fun m _ => m) m1 m2 true true (v : ℚ) 1 none none false none = .ok out ∧
    GluedBy m1 m2 out v

/-- C63 is false of the code: the ramp is stored into an array of the image's dtype, so for integer images all
weights strictly between 0 and 1 become 0 and the interior of the overlap is black. -/
theorem stitch_image_int_refuted :
    ¬ IntStitchOk ⟨1, 3, fun _ _ => 10⟩ ⟨1, 3, fun _ _ => 10⟩ 3 := by
  rintro ⟨out, ho, _, _, _, _, a, _, _, _, _, hg⟩
  have h := hg 0 (by decide) 1 (by decide)
  obtain ⟨W, hW, hst⟩ := stitchImage_int (K := ℚ) (fun m _ => m) ⟨1, 3, fun _ _ => 10⟩ ⟨1, 3, fun _ _ => 10⟩ true true 3 1
    false none rfl (by decide) (by decide) (by decide)
  rw [hst] at ho
  have hl : (linspace (1 : ℚ) 0 3 1) = 1 / 2 := by unfold linspace; norm_num
  have ht : pyTrunc (1 / 2 : ℚ) = 0 := by
    unfold pyTrunc; rw [if_pos (by norm_num)]; rw [Int.floor_eq_iff]; norm_num
  unfold makeWeightMatrix at hW
  rw [if_neg (by decide)] at hW
  simp only [if_true] at hW
  cases hW
  have := (Except.ok.inj ho).symm
  subst this
  rw [stitchCore_get] at h
  norm_num [leftImg, rightImg, storeAs] at h
  have h2 : pyTrunc (1 - 1 / 2 : ℚ) = 0 := by rw [show (1 - 1 / 2 : ℚ) = 1 / 2 by norm_num]; exact ht
  rw [show Int.toNat 3 = 3 from rfl, hl, ht, h2] at h
  norm_num at h
  linarith

/-- C63 (partial): with an overlap of one or two columns integer images are glued correctly
(the ramp then only has the values 1 and 0). -/
theorem stitch_image_int_partial (shift : Mat K → K → Mat K) (m1 m2 : Mat K) (v : Nat) (side : Int)
    (norm : Bool) (t : Option Nat)
    (hh : m1.h = m2.h) (hv : 1 ≤ v) (hv2 : v ≤ 2) (h1 : v ≤ m1.w) (h2 : v ≤ m2.w) :
    stitchImage shift m1 m2 true true (v : K) side none none norm t
      = stitchImage shift m1 m2 false false (v : K) side none none norm t := by
  obtain ⟨W, hW, hst⟩ := stitchImage_int shift m1 m2 true true v side norm t hh hv h1 h2
  obtain ⟨W', hW', hst'⟩ := stitchImage_int shift m1 m2 false false v side norm t hh hv h1 h2
  have hval : ∀ k < v, storeAs true (linspace (1 : K) 0 v k) = linspace 1 0 v k ∧
      storeAs true (1 - linspace (1 : K) 0 v k) = 1 - linspace 1 0 v k := by
    intro k hk
    have hcases : linspace (1 : K) 0 v k = 1 ∨ linspace (1 : K) 0 v k = 0 := by
      rcases Nat.eq_zero_or_pos k with rfl | hk0
      · exact Or.inl (linspace_zero _ _ _)
      · have hv' : v = 2 := by omega
        have hk' : k = 1 := by omega
        subst hv' hk'
        exact Or.inr (linspace10_last 2 (by decide))
    rcases hcases with h | h <;> rw [h] <;> simp [storeAs, pyTrunc]
  have hw : ¬ ((v : Int) < 1 ∨ (v : Int) > m1.w ∨ (v : Int) > m2.w) := by omega
  rw [hst, hst']
  -- equal weights inside the shape are enough, entries are only read there
  unfold makeWeightMatrix at hW hW'
  rw [if_neg hw] at hW hW'
  by_cases hs : side = 1
  · simp only [hs, if_true, Int.toNat_natCast] at hW hW'
    cases hW; cases hW'
    simp only [stitchCore, hs, if_true]
    have key : ∀ j i, (if j < m1.w then m1.get i j * (if m1.w - v ≤ j then storeAs true (linspace (1:K) 0 v (j - (m1.w - v))) else 1) else 0)
        = (if j < m1.w then m1.get i j * (if m1.w - v ≤ j then storeAs false (linspace (1:K) 0 v (j - (m1.w - v))) else 1) else 0) := by
      intro j i
      by_cases hj : j < m1.w
      · simp only [hj, if_true]
        by_cases hj2 : m1.w - v ≤ j
        · simp only [hj2, if_true]
          rw [(hval _ (by omega)).1]; rfl
        · simp [hj2]
      · simp [hj]
    have key2 : ∀ j, (if j < v then storeAs true (1 - linspace (1:K) 0 v j) else (1 : K))
        = if j < v then storeAs false (1 - linspace (1:K) 0 v j) else 1 := by
      intro j
      by_cases hj : j < v
      · simp only [hj, if_true]; rw [(hval _ hj).2]; rfl
      · simp [hj]
    simp only [key, key2]
  · simp only [hs, if_false, Int.toNat_natCast] at hW hW'
    cases hW; cases hW'
    simp only [stitchCore, hs, if_false]
    have key : ∀ (m : Mat K) (j i : Nat), (if j < m2.w then m.get i j * (if m2.w - v ≤ j then storeAs true (linspace (1:K) 0 v (j - (m2.w - v))) else 1) else 0)
        = (if j < m2.w then m.get i j * (if m2.w - v ≤ j then storeAs false (linspace (1:K) 0 v (j - (m2.w - v))) else 1) else 0) := by
      intro m j i
      by_cases hj : j < m2.w
      · simp only [hj, if_true]
        by_cases hj2 : m2.w - v ≤ j
        · simp only [hj2, if_true]
          rw [(hval _ (by omega)).1]; rfl
        · simp [hj2]
      · simp [hj]
    have key2 : ∀ j, (if j < v then storeAs true (1 - linspace (1:K) 0 v j) else (1 : K))
        = if j < v then storeAs false (1 - linspace (1:K) 0 v j) else 1 := by
      intro j
      by_cases hj : j < v
      · simp only [hj, if_true]; rw [(hval _ hj).2]; rfl
      · simp [hj]
    simp only [key, key2]

/-! ### C16: several images -/

/-- Specification: stitch from left to right, every step with the given `norm`. -/
def stitchAll (shift : Mat K → K → Mat K) (norm : Bool) : Mat K → Bool → List ((Mat K × Bool) × (K × Int)) → Py (Mat K)
  | acc, _, [] => .ok acc
  | acc, accInt, e :: rest =>
    match stitchImage shift acc e.1.1 accInt e.1.2 e.2.1 e.2.2 none none norm none with
    | .error x => .error x
    | .ok m => stitchAll shift norm m false rest

/-- Full claim: `stitch_image_multiple` is the left-to-right stitching with the requested `norm`. -/
def MultipleHonoursNorm (norm : Bool) : Prop :=
  ∀ (shift : Mat ℚ → ℚ → Mat ℚ) (m0 : Mat ℚ × Bool) (rest : List (Mat ℚ × Bool)) (ovs : List (ℚ × Int)),
    rest ≠ [] → ovs.length = rest.length →
    stitchMultiple shift (m0 :: rest) ovs norm none = stitchAll shift norm m0.1 m0.2 (rest.zip ovs)

theorem stitchMultiple_eq (shift : Mat K → K → Mat K) (m0 : Mat K × Bool) (rest : List (Mat K × Bool))
    (ovs : List (K × Int)) (norm : Bool) (hr : rest ≠ []) (hl : rest.length ≤ ovs.length) :
    stitchMultiple shift (m0 :: rest) ovs norm none = stitchAll shift true m0.1 m0.2 (rest.zip ovs) := by
  obtain ⟨m0, int0⟩ := m0
  unfold stitchMultiple
  simp only [hr, if_false]
  rw [if_neg (by omega)]
  have key : ∀ (l : List ((Mat K × Bool) × (K × Int))) (acc : Mat K × Bool),
      (do
        let r ← l.foldlM (fun (acc : Mat K × Bool) (e : (Mat K × Bool) × (K × Int)) => do
          let m ← stitchImage shift acc.1 e.1.1 acc.2 e.1.2 e.2.1 e.2.2 none none true none
          pure (m, false)) acc
        pure r.1 : Py (Mat K)) = stitchAll shift true acc.1 acc.2 l := by
    intro l
    induction l with
    | nil => intro acc; rfl
    | cons e l ih =>
      intro acc
      rw [List.foldlM_cons]
      simp only [stitchAll]
      cases h : stitchImage shift acc.1 e.1.1 acc.2 e.1.2 e.2.1 e.2.2 none none true none with
      | error x => rfl
      | ok m => exact ih (m, false)
  exact key _ (m0, int0)

/-- C16 is false of the code for `norm=False`: the option is passed in the wrong position and ignored. -/
theorem stitch_image_multiple_norm_refuted : ¬ MultipleHonoursNorm false := by
  intro h
  have h := h (fun m _ => m) (⟨1, 2, fun _ _ => 1⟩, false) [(⟨1, 2, fun _ _ => 2⟩, false)] [((1 : ℕ), 1)] (by simp) rfl
  rw [stitchMultiple_eq _ _ _ _ _ (by simp) (by simp)] at h
  simp only [List.zip_cons_cons, List.zip_nil_right, stitchAll] at h
  obtain ⟨W, hW, hst⟩ := stitchImage_int (K := ℚ) (fun m _ => m) ⟨1, 2, fun _ _ => 1⟩ ⟨1, 2, fun _ _ => 2⟩ false false 1 1
    true none rfl (by decide) (by decide) (by decide)
  obtain ⟨W', hW', hst'⟩ := stitchImage_int (K := ℚ) (fun m _ => m) ⟨1, 2, fun _ _ => 1⟩ ⟨1, 2, fun _ _ => 2⟩ false false 1 1
    false none rfl (by decide) (by decide) (by decide)
  rw [hst, hst'] at h
  obtain ⟨_, hw⟩ := makeWeight_float _ _ _ _ (by decide) (by decide) (by decide) _ hW
  obtain ⟨_, hw'⟩ := makeWeight_float _ _ _ _ (by decide) (by decide) (by decide) _ hW'
  have h2 := congrArg (fun m => m.get 0 2) (Except.ok.inj h)
  simp only [rightImg, if_true] at hw hw'
  simp [stitchCore, hw, hw', Mat.map, meanCols, lastFrom] at h2

/-- C16 (partial): with `norm=True` it is the left-to-right stitching with normalisation. -/
theorem stitch_image_multiple_norm_partial : MultipleHonoursNorm true := by
  intro shift m0 rest ovs hr hl
  exact stitchMultiple_eq shift m0 rest ovs true hr (by omega)

/-- C16: `total_width` pads the result of the call without `total_width` on the right with copies of its last column up to
that width; a smaller value changes nothing. -/
theorem stitch_image_multiple_total_width (shift : Mat K → K → Mat K) (mats : List (Mat K × Bool)) (ovs : List (K × Int))
    (norm : Bool) (t : Nat) (out : Mat K) (ho : stitchMultiple shift mats ovs norm none = .ok out) :
    ∃ r, stitchMultiple shift mats ovs norm (some t) = .ok r ∧ r.h = out.h ∧ r.w = max out.w t ∧
      ∀ i < r.h, ∀ j < r.w, r.get i j = out.get i (min j (out.w - 1)) := by
  have key : stitchMultiple shift mats ovs norm (some t) =
      .ok (if t > out.w then out.padRightEdge (t - out.w) else out) := by
    unfold stitchMultiple at ho ⊢
    match mats, ho with
    | [], ho => simp at ho
    | (m0, int0) :: rest, ho =>
      simp only at ho ⊢
      by_cases h1 : rest = []
      · simp [h1] at ho
      · rw [if_neg h1] at ho ⊢
        by_cases h2 : ovs.length < rest.length
        · simp [h2] at ho
        · rw [if_neg h2] at ho ⊢
          simp only [bind, Except.bind] at ho ⊢
          split at ho
          · simp at ho
          · rename_i v hv
            injection ho with ho
            rw [ho]
            by_cases ht : t > out.w
            · rw [if_pos ht, if_pos ht]; rfl
            · rw [if_neg ht, if_neg ht]; rfl
  rw [key]
  refine ⟨_, rfl, ?_⟩
  by_cases ht : t > out.w
  · rw [if_pos ht]
    refine ⟨rfl, ?_, fun i _ j _ => rfl⟩
    show out.w + (t - out.w) = max out.w t
    omega
  · rw [if_neg ht]
    refine ⟨rfl, by omega, fun i _ j hj => ?_⟩
    rw [min_eq_left (by omega)]

/-- A row of floating images that are consecutive views of the panorama `P`, the next one sharing `v` columns with
the `wacc` columns already covered. -/
def Chain (P : Nat → Nat → K) (h : Nat) : Nat → List (Mat K × Nat) → Prop
  | _, [] => True
  | wacc, (m, v) :: rest => m.h = h ∧ 1 ≤ v ∧ v ≤ wacc ∧ v ≤ m.w ∧
      (∀ i < h, ∀ j < m.w, m.get i j = P i (wacc - v + j)) ∧ meanCols m 0 v ≠ 0 ∧
      Chain P h (wacc + m.w - v) rest

/-- Total width of a chain. -/
def chainWidth : Nat → List (Mat K × Nat) → Nat
  | w, [] => w
  | w, (m, v) :: rest => chainWidth (w + m.w - v) rest

/-- C16 (partial): for consecutive views of one panorama the result is the whole panorama, for any number of
images and both values of `norm`. -/
theorem stitch_image_multiple_panorama_partial (shift : Mat K → K → Mat K) (P : Nat → Nat → K) (m0 : Mat K)
    (rest : List (Mat K × Nat)) (norm : Bool) (hr : rest ≠ [])
    (h0 : ∀ i < m0.h, ∀ j < m0.w, m0.get i j = P i j) (hc : Chain P m0.h m0.w rest) :
    ∃ out, stitchMultiple shift ((m0, false) :: rest.map fun e => (e.1, false))
        (rest.map fun e => ((e.2 : K), (1 : Int))) norm none = .ok out ∧
      out.h = m0.h ∧ out.w = chainWidth m0.w rest ∧ ∀ i < m0.h, ∀ j < out.w, out.get i j = P i j := by
  rw [stitchMultiple_eq _ _ _ _ _ (by simpa using hr) (by simp)]
  have hz : (rest.map fun e => (e.1, false)).zip (rest.map fun e => ((e.2 : K), (1 : Int)))
      = rest.map fun e => ((e.1, false), ((e.2 : K), (1 : Int))) := by
    rw [List.zip_map']
  rw [hz]
  dsimp only
  clear hz hr
  induction rest generalizing m0 with
  | nil => exact ⟨m0, rfl, rfl, rfl, h0⟩
  | cons e rest ih =>
    obtain ⟨m, v⟩ := e
    obtain ⟨hh, hv1, hv2, hv3, hP, hm, hc'⟩ := hc
    obtain ⟨out, ho, hoh, how, hog⟩ := stitch_image_panorama shift m0 m v 1 true P none hh.symm hv1 hv2 hv3
      ⟨by simpa [leftImg] using h0, by simpa [leftImg, rightImg] using hP⟩ (by intro _; simpa [rightImg] using hm)
    have how' : out.w = m0.w + m.w - v := by rw [how]; simp
    simp only [List.map_cons, stitchAll, ho]
    obtain ⟨r, hr1, hr2, hr3, hr4⟩ := ih out (by
      intro i hi j hj
      rw [hog i (by omega) j hj, Nat.min_eq_left (by omega)]) (by rw [hoh, how']; exact hc')
    refine ⟨r, hr1, by rw [hr2, hoh], by rw [hr3, how', chainWidth], ?_⟩
    intro i hi j hj
    exact hr4 i (by omega) j hj

/-- Non-vacuity: three views of `P i j = j + 1`. -/
example : Chain (fun _ j => (j : ℚ) + 1) 1 3
    [(⟨1, 3, fun _ j => (j : ℚ) + 2⟩, 2), (⟨1, 2, fun _ j => (j : ℚ) + 4⟩, 1)] := by
  refine ⟨rfl, by decide, by decide, by decide, ?_, ?_, rfl, by decide, by decide, by decide, ?_, ?_, trivial⟩
  · intro i _ j _; push_cast; ring
  · simp [meanCols, Finset.sum_range_succ, Finset.sum_Ico_eq_sum_range]; norm_num
  · intro i _ j _; push_cast; ring
  · simp [meanCols, Finset.sum_range_succ, Finset.sum_Ico_eq_sum_range]

/-! ### C17: joining with a gap -/

/-- `out` is `L`, a gap of `g` columns and `R`: own columns away from the seam; the seam (the last two columns of `L`, the
gap, the first three columns of `R`) is the straight line between its two neighbours. -/
def JoinedBy (L R out : Mat K) (g : Nat) : Prop :=
  out.h = L.h ∧ out.w = L.w + R.w + g ∧
  ∀ i < L.h, (∀ j < L.w - 2, out.get i j = L.get i j) ∧
    (∀ j, 3 ≤ j → j < R.w → out.get i (L.w + g + j) = R.get i j) ∧
    (∀ k, 0 < k → k < g + 6 → out.get i (L.w - 3 + k) * ((g : K) + 6)
      = L.get i (L.w - 3) * ((g : K) + 6 - k) + R.get i 3 * (k : K))

/-- The second image after the intensity normalisation. -/
def normalised (m1 m2 : Mat K) (side : Int) (norm : Bool) : Mat K :=
  if norm then
    (if side = 1 then m2.map (fun x => x * meanCols m1 (m1.w - 3) m1.w / meanCols m2 0 3)
     else m2.map (fun x => x * meanCols m1 0 3 / meanCols m2 (m2.w - 3) m2.w))
  else m2

/-- C17.  For every gap and both sides, `join_image` joins the first image and the (normalised) second one. -/
theorem join_image_joins (m1 m2 : Mat K) (g : Nat) (side : Int) (norm : Bool) (hh : m1.h = m2.h)
    (hL : 3 ≤ (leftImg side m1 m2).w) (hR : 4 ≤ (rightImg side m1 m2).w) :
    ∃ out, joinImage m1 m2 g side norm none = .ok out ∧
      JoinedBy (leftImg side m1 (normalised m1 m2 side norm)) (rightImg side m1 (normalised m1 m2 side norm)) out g := by
  unfold joinImage
  simp only [hh, ne_eq, not_true_eq_false, if_false]
  refine ⟨_, rfl, ?_⟩
  have hn : (if norm = true then
        if side = 1 then m2.map (fun x => x * meanCols m1 (m1.w - 3) m1.w / meanCols m2 0 3)
        else m2.map (fun x => x * meanCols m1 0 3 / meanCols m2 (m2.w - 3) m2.w)
      else m2) = normalised m1 m2 side norm := rfl
  rw [hn]
  have hnw : (normalised m1 m2 side norm).w = m2.w := by
    unfold normalised; split
    · split <;> rfl
    · rfl
  have hnh : (normalised m1 m2 side norm).h = m2.h := by
    unfold normalised; split
    · split <;> rfl
    · rfl
  have e1 : (if side = 1 then m1 else normalised m1 m2 side norm) = leftImg side m1 (normalised m1 m2 side norm) := rfl
  have e2 : (if side = 1 then normalised m1 m2 side norm else m1) = rightImg side m1 (normalised m1 m2 side norm) := rfl
  rw [e1, e2]
  have hLw : 3 ≤ (leftImg side m1 (normalised m1 m2 side norm)).w := by
    unfold leftImg at hL ⊢
    by_cases hs : side = 1
    · rw [if_pos hs] at hL ⊢; exact hL
    · rw [if_neg hs] at hL ⊢; omega
  have hRw : 4 ≤ (rightImg side m1 (normalised m1 m2 side norm)).w := by
    unfold rightImg at hR ⊢
    by_cases hs : side = 1
    · rw [if_pos hs] at hR ⊢; omega
    · rw [if_neg hs] at hR ⊢; exact hR
  have hLR : (leftImg side m1 (normalised m1 m2 side norm)).w + (rightImg side m1 (normalised m1 m2 side norm)).w = m1.w + m2.w := by
    unfold leftImg rightImg; split <;> omega
  have hLh : (leftImg side m1 (normalised m1 m2 side norm)).h = m2.h := by
    unfold leftImg; split <;> omega
  generalize leftImg side m1 (normalised m1 m2 side norm) = L at *
  generalize rightImg side m1 (normalised m1 m2 side norm) = R at *
  refine ⟨hLh.symm, by simp only; omega, ?_⟩
  intro i _
  set raw : Nat → K := fun j => if j < L.w then L.get i j else if L.w + g ≤ j then R.get i (j - (L.w + g)) else 0
    with hraw
  set good : Nat → Bool := fun j => decide (j < L.w - 2 ∨ L.w + g + 3 ≤ j) with hgood
  refine ⟨?_, ?_, ?_⟩
  · intro j hj
    have hg : (j < L.w - 2 ∨ L.w + g + 3 ≤ j) := by omega
    simp [hg, show j < L.w by omega]
  · intro j hj hjR
    have hg : (L.w + g + j < L.w - 2 ∨ L.w + g + 3 ≤ L.w + g + j) := by omega
    simp only [hg, decide_true, if_true]
    simp only [hraw, show ¬ (L.w + g + j < L.w) by omega, if_false, show L.w + g ≤ L.w + g + j by omega, if_true]
    congr 1; omega
  · intro k hk hk6
    have hng : ¬ (L.w - 3 + k < L.w - 2 ∨ L.w + g + 3 ≤ L.w - 3 + k) := by omega
    obtain ⟨a, b, v, hv, ha, hb, hbn, hga, hgb, hja, hjb, hval, _⟩ := linInterp_spec good (m1.w + m2.w + g) raw
      (L.w - 3 + k) ⟨L.w - 3, by omega, by simp only [hgood, decide_eq_true_eq]; omega⟩
      ⟨L.w + g + 3, by omega, by omega, by simp [hgood]⟩
    have haeq : a = L.w - 3 := by
      simp only [hgood, decide_eq_true_eq] at hga
      by_contra hne
      have := hja (L.w - 3) (by omega) (by omega)
      simp only [hgood, decide_eq_false_iff_not] at this
      omega
    have hbeq : b = L.w + g + 3 := by
      simp only [hgood, decide_eq_true_eq] at hgb
      by_contra hne
      have := hjb (L.w + g + 3) (by omega) (by omega)
      simp only [hgood, decide_eq_false_iff_not] at this
      omega
    have hout : (if (decide (L.w - 3 + k < L.w - 2 ∨ L.w + g + 3 ≤ L.w - 3 + k)) = true then raw (L.w - 3 + k)
        else match linInterp good (m1.w + m2.w + g) raw (L.w - 3 + k) with
          | .ok v => v
          | .error _ => raw (L.w - 3 + k)) = v := by
      rw [if_neg (by simpa using hng), hv]
    show (if (decide (L.w - 3 + k < L.w - 2 ∨ L.w + g + 3 ≤ L.w - 3 + k)) = true then raw (L.w - 3 + k)
        else match linInterp good (m1.w + m2.w + g) raw (L.w - 3 + k) with
          | .ok v => v
          | .error _ => raw (L.w - 3 + k)) * ((g : K) + 6) = _
    rw [hout]
    have hra : raw a = L.get i (L.w - 3) := by rw [haeq]; simp only [hraw]; rw [if_pos (by omega)]
    have hrb : raw b = R.get i 3 := by
      rw [hbeq]; simp only [hraw]; rw [if_neg (by omega), if_pos (by omega)]; congr 1; omega
    rw [hra, hrb, haeq, hbeq] at hval
    have c1 : ((L.w - 3 : Nat) : K) = (L.w : K) - 3 := by rw [Nat.cast_sub hLw]; simp
    push_cast [c1] at hval
    have e1 : (L.w : K) + g + 3 - (L.w - 3) = g + 6 := by ring
    have e2 : (L.w : K) + g + 3 - (L.w - 3 + k) = g + 6 - k := by ring
    have e3 : (L.w : K) - 3 + k - (L.w - 3) = k := by ring
    rw [e1, e2, e3] at hval
    exact hval

/-- C17.  The normalisation brings the three columns of image 2 next to the seam to the mean of the three columns of
image 1 next to the seam. -/
theorem join_image_norm_mean (m1 m2 : Mat K) (hw : 3 ≤ m2.w)
    (h1 : meanCols m2 0 3 ≠ 0) (h0 : meanCols m2 (m2.w - 3) m2.w ≠ 0) :
    meanCols (normalised m1 m2 1 true) 0 3 = meanCols m1 (m1.w - 3) m1.w ∧
    meanCols (normalised m1 m2 0 true) (m2.w - 3) m2.w = meanCols m1 0 3 := by
  have key : ∀ (c : K) (a b : Nat), meanCols (m2.map fun x => x * c) a b = meanCols m2 a b * c := by
    intro c a b
    unfold meanCols
    simp only [Mat.map]
    simp_rw [← Finset.sum_mul]
    ring
  constructor
  · have : normalised m1 m2 1 true = m2.map fun x => x * (meanCols m1 (m1.w - 3) m1.w / meanCols m2 0 3) := by
      simp only [normalised, if_true, mul_div_assoc]
    rw [this, key]; field_simp
  · have : normalised m1 m2 0 true = m2.map fun x => x * (meanCols m1 0 3 / meanCols m2 (m2.w - 3) m2.w) := by
      simp only [normalised, if_true, mul_div_assoc]; simp
    rw [this, key]; field_simp

/-! ### C18: 360° → 180° -/

/-- An ideal 360° scan: row `i`, column `x` measures `f i (2x - c2)`, where `c2` is twice the centre of rotation (so
`2x - c2` is twice the offset from the axis); row `i + s` is the opposite view of row `i`. -/
def Scan360 (f : Nat → Int → K) (sino : Mat K) (c2 : Int) (s : Nat) : Prop :=
  (∀ i < sino.h, ∀ x < sino.w, sino.get i x = f i (2 * (x : Int) - c2)) ∧
  (∀ i, i + s < sino.h → ∀ t, f (i + s) (-t) = f i t)

/-- C18.  For every width, number of rows and integer or half-integer centre on the detector: the result has
`h/2+1` rows, width `W`, the returned centre is the middle `(W-1)/2`, and row `i`, column `x` holds the ideal
measurement at offset `x - centre`, on both sides of the axis.  The opposite row of `i` is `i + h - h/2 - 1`,
which is `i + m` for `h = 2m+1` rows (0° and 360° both included).  `norm` may be on or off. -/
theorem convert_360_to_180_geometry (shift : Mat K → K → Mat K) (f : Nat → Int → K) (sino : Mat K) (c2 : Int)
    (norm : Bool) (hh : 1 ≤ sino.h) (hc0 : 0 ≤ c2) (hc1 : c2 ≤ 2 * (sino.w : Int) - 2)
    (hf : Scan360 f sino c2 (sino.h - (sino.h / 2 + 1)))
    (hn : norm = true → ∀ a b, a < b → b ≤ sino.w →
      meanCols (sino.rows 0 (sino.h / 2 + 1)) a b ≠ 0 ∧
      meanCols (sino.rows (sino.h - (sino.h / 2 + 1)) sino.h).fliplr a b ≠ 0) :
    ∃ out, ∃ c2' : Int, convert360to180 shift sino false ((c2 : K) / 2) none none norm none = .ok (out, (c2' : K) / 2) ∧
      out.h = sino.h / 2 + 1 ∧ c2' = (out.w : Int) - 1 ∧
      ∀ i < out.h, ∀ x < out.w, out.get i x = f i (2 * (x : Int) - c2') := by
  have hrows : sino.h / 2 + 1 ≤ sino.h := by omega
  set s := sino.h - (sino.h / 2 + 1) with hs
  set top := sino.rows 0 (sino.h / 2 + 1) with htop
  set bot := (sino.rows s sino.h).fliplr with hbot
  have htoph : top.h = sino.h / 2 + 1 := by simp [htop, Mat.rows]
  have hboth : bot.h = sino.h / 2 + 1 := by simp only [hbot, Mat.rows, Mat.fliplr]; omega
  have htopw : top.w = sino.w := rfl
  have hbotw : bot.w = sino.w := rfl
  have htopg : ∀ i < top.h, ∀ x < sino.w, top.get i x = f i (2 * (x : Int) - c2) := by
    intro i hi x hx
    simp only [htop, Mat.rows, Nat.zero_add]
    exact hf.1 i (by omega) x hx
  have hbotg : ∀ i < top.h, ∀ x < sino.w, bot.get i x = f i (2 * (x : Int) - 2 * sino.w + 2 + c2) := by
    intro i hi x hx
    simp only [hbot, Mat.rows, Mat.fliplr]
    rw [hf.1 (s + i) (by omega) _ (by omega)]
    have := hf.2 i (by omega) (2 * (x : Int) - 2 * sino.w + 2 + c2)
    rw [← this, Nat.add_comm]
    congr 1
    omega
  unfold convert360to180
  dsimp only
  rw [Nat.min_eq_left hrows]
  by_cases hside : (c2 : K) / 2 ≤ ((sino.w : K) - 1) * (1 / 2)
  · -- axis in the left half: side 0
    have hc : c2 ≤ (sino.w : Int) - 1 := by
      have : (c2 : K) ≤ (sino.w : K) - 1 := by linarith
      have : (c2 : K) ≤ (((sino.w : Int) - 1 : Int) : K) := by push_cast; exact this
      exact_mod_cast this
    obtain ⟨v, hv⟩ : ∃ v : Nat, (v : Int) = c2 + 1 := ⟨(c2 + 1).toNat, by omega⟩
    have hos : overlapOfCor sino.w ((c2 : K) / 2) = ((v : K), 0) := by
      unfold overlapOfCor
      rw [if_pos hside]
      have : (v : K) = (c2 : K) + 1 := by exact_mod_cast congrArg (Int.cast : Int → K) hv
      rw [this]; congr 1; ring
    have hr : npRound ((v : K) + 1 / 1000) = (v : Int) := by
      have := npRound_int_eps (K := K) (v : Int)
      rwa [Int.cast_natCast] at this
    rw [hos]
    obtain ⟨out, ho, hoh, how, hog⟩ := stitch_image_panorama shift top bot v 0 norm
      (fun i x => f i (2 * (x : Int) - (2 * sino.w - 2 - c2))) none (by omega) (by omega) (by omega) (by omega)
      ⟨by
        intro i hi x hx
        simp only [leftImg] at hi hx ⊢
        simp at hi hx ⊢
        rw [hbotg i (by omega) x (by omega)]
        congr 1; ring, by
        intro i hi x hx
        simp only [leftImg, rightImg] at hi hx ⊢
        simp at hi hx ⊢
        rw [htopg i (by omega) x (by omega)]
        congr 1; omega⟩
      (by
        intro hnt
        simp only [rightImg]
        simp
        exact (hn hnt 0 v (by omega) (by omega)).1)
    have how' : out.w = top.w + bot.w - v := by rw [how]; simp
    refine ⟨out, 2 * sino.w - 2 - c2, ?_, by omega, by omega, ?_⟩
    · change (match stitchImage shift top bot false false (v : K) 0 none none norm none with
        | .error e => Except.error e
        | .ok m => Except.ok (m, (sino.w : K) - (npRound ((v : K) + 1 / 1000) : K) / 2 - 1 / 2)) = _
      rw [ho, hr]
      simp only [Except.ok.injEq, Prod.mk.injEq, true_and]
      have : (v : K) = (c2 : K) + 1 := by exact_mod_cast congrArg (Int.cast : Int → K) hv
      push_cast
      rw [this]; ring
    · intro i hi x hx
      rw [hog i (by omega) x hx, Nat.min_eq_left (by omega)]
  · -- axis in the right half: side 1
    have hc : (sino.w : Int) - 1 < c2 := by
      have : (sino.w : K) - 1 < (c2 : K) := by
        have := not_le.mp hside; linarith
      have : (((sino.w : Int) - 1 : Int) : K) < (c2 : K) := by push_cast; exact this
      exact_mod_cast this
    obtain ⟨v, hv⟩ : ∃ v : Nat, (v : Int) = 2 * sino.w - c2 - 1 := ⟨(2 * (sino.w : Int) - c2 - 1).toNat, by omega⟩
    have hvK : (v : K) = 2 * (sino.w : K) - (c2 : K) - 1 := by
      have := congrArg (Int.cast : Int → K) hv
      push_cast at this; exact this
    have hos : overlapOfCor sino.w ((c2 : K) / 2) = ((v : K), 1) := by
      unfold overlapOfCor
      rw [if_neg hside, hvK]; congr 1; ring
    have hr : npRound ((v : K) + 1 / 1000) = (v : Int) := by
      have := npRound_int_eps (K := K) (v : Int)
      rwa [Int.cast_natCast] at this
    rw [hos]
    obtain ⟨out, ho, hoh, how, hog⟩ := stitch_image_panorama shift top bot v 1 norm
      (fun i x => f i (2 * (x : Int) - c2)) none (by omega) (by omega) (by omega) (by omega)
      ⟨by
        intro i hi x hx
        simp only [leftImg] at hi hx ⊢
        simp at hi hx ⊢
        exact htopg i (by omega) x (by omega), by
        intro i hi x hx
        simp only [leftImg, rightImg] at hi hx ⊢
        simp at hi hx ⊢
        rw [hbotg i (by omega) x (by omega)]
        congr 1; omega⟩
      (by
        intro hnt
        simp only [rightImg]
        simp
        exact (hn hnt 0 v (by omega) (by omega)).2)
    have how' : out.w = top.w + bot.w - v := by rw [how]; simp
    refine ⟨out, c2, ?_, by omega, by omega, ?_⟩
    · change (match stitchImage shift top bot false false (v : K) 1 none none norm none with
        | .error e => Except.error e
        | .ok m => Except.ok (m, (sino.w : K) - (npRound ((v : K) + 1 / 1000) : K) / 2 - 1 / 2)) = _
      rw [ho, hr]
      simp only [Except.ok.injEq, Prod.mk.injEq, true_and]
      push_cast
      rw [hvK]; ring
    · intro i hi x hx
      rw [hog i (by omega) x hx, Nat.min_eq_left (by omega)]

/-- Non-vacuity: a scan with three rows, opposite rows mirrored about `c2 = 3` (centre 1.5). -/
example : Scan360 (fun i t => if i % 2 = 0 then (t : ℚ) else (-t : Int)) ⟨3, 4, fun i x =>
    if i % 2 = 0 then 2 * (x : ℚ) - 3 else -(2 * (x : ℚ) - 3)⟩ 3 1 := by
  constructor
  · intro i _ x _; by_cases h : i % 2 = 0 <;> simp [h]
  · intro i _ t
    by_cases h : i % 2 = 0
    · have : ¬ (i + 1) % 2 = 0 := by omega
      simp [h, this]
    · have : (i + 1) % 2 = 0 := by omega
      simp [h, this]

/-! ### C19: extension of a 360° sinogram -/

/-- `out` is a correct extension about `c2/2` (twice-centre `c2`): width `2w - v`-like canvas whose middle is the axis; the
original column `x` sits at `x + off` with a weight `2·wt x`; a ray seen twice (columns `x + x' = c2`) has weights adding
to one, a ray seen once has weight one; everything outside the original columns is zero. -/
def ExtendSpec (sino out : Mat K) (c2 : Int) (cor' : K) : Prop :=
  ∃ (off : Nat) (wt : Nat → K), out.h = sino.h ∧ cor' = ((out.w : K) - 1) / 2 ∧ cor' = (c2 : K) / 2 + off ∧
    sino.w + off ≤ out.w ∧
    (∀ x < sino.w, 0 ≤ wt x ∧ wt x ≤ 1) ∧
    (∀ i < sino.h, ∀ x < sino.w, out.get i (x + off) = 2 * (wt x * sino.get i x)) ∧
    (∀ i < sino.h, ∀ j < out.w, (j < off ∨ sino.w + off ≤ j) → out.get i j = 0) ∧
    (∀ x < sino.w, ∀ x' < sino.w, (x : Int) + x' = c2 → wt x + wt x' = 1) ∧
    (∀ x < sino.w, (∀ x' < sino.w, (x : Int) + x' ≠ c2) → wt x = 1)

/-- C19 is false of the code when the overlap is a single column: `linspace(1, 0, 1)` is `[1]`, so the shared
column is counted twice (and the padding is not zero). -/
theorem extend_sinogram_refuted :
    ∃ out cor', extendSinogram (fun m _ => m) (⟨1, 2, fun _ _ => 1⟩ : Mat ℚ) 1 = .ok (out, cor') ∧
      ¬ ExtendSpec (⟨1, 2, fun _ _ => 1⟩ : Mat ℚ) out 2 cor' := by
  have hos : overlapOfCor 2 (1 : ℚ) = (1, 1) := by unfold overlapOfCor; norm_num
  have hr : npRound ((1 : ℚ) + 1 / 1000) = 1 := by
    have := npRound_int_eps (K := ℚ) 1
    simpa using this
  refine ⟨_, _, by simp only [extendSinogram, hos, hr]; norm_num; exact ⟨rfl, rfl⟩, ?_⟩
  rintro ⟨off, wt, _, h1, h2, _, _, h3, _, h4, _⟩
  have h5 := h4 1 (by decide) 1 (by decide) (by norm_num)
  simp only [Mat.map, Mat.padRightEdge] at h1 h2
  have hoff : off = 0 := by
    norm_num at h2
    exact h2
  subst hoff
  have h6 := h3 0 (by decide) 1 (by decide)
  simp [Mat.map, Mat.padRightEdge, linspace] at h6
  linarith

/-- C19 (partial): for every sinogram and every integer or half-integer centre whose overlap has at least two columns. -/
theorem extend_sinogram_partial (shift : Mat K → K → Mat K) (sino : Mat K) (c2 : Int)
    (hc0 : 1 ≤ c2) (hc1 : c2 ≤ 2 * (sino.w : Int) - 3) :
    ∃ out cor', extendSinogram shift sino ((c2 : K) / 2) = .ok (out, cor') ∧ ExtendSpec sino out c2 cor' := by
  by_cases hside : (c2 : K) / 2 ≤ ((sino.w : K) - 1) * (1 / 2)
  · have hc : c2 ≤ (sino.w : Int) - 1 := by
      have : (c2 : K) ≤ (sino.w : K) - 1 := by linarith
      have : (c2 : K) ≤ (((sino.w : Int) - 1 : Int) : K) := by push_cast; exact this
      exact_mod_cast this
    obtain ⟨v, hv⟩ : ∃ v : Nat, (v : Int) = c2 + 1 := ⟨(c2 + 1).toNat, by omega⟩
    have hvK : (v : K) = (c2 : K) + 1 := by exact_mod_cast congrArg (Int.cast : Int → K) hv
    have hos : overlapOfCor sino.w ((c2 : K) / 2) = ((v : K), 0) := by
      unfold overlapOfCor
      rw [if_pos hside, hvK]; congr 1; ring
    have hr : npRound ((v : K) + 1 / 1000) = (v : Int) := by
      have := npRound_int_eps (K := K) (v : Int)
      rwa [Int.cast_natCast] at this
    have hwv : ((sino.w - v : Nat) : K) = (sino.w : K) - v := Nat.cast_sub (by omega)
    refine ⟨_, _, by
      simp only [extendSinogram, hos, hr]
      rw [if_neg (by omega), if_neg (by decide)], ?_⟩
    simp only [Int.cast_natCast, sub_self, ne_eq, not_true_eq_false, if_false, Int.toNat_natCast]
    refine ⟨sino.w - v, fun x => if x < v then linspace 0 1 v x else 1, rfl, ?_, ?_, ?_, ?_, ?_, ?_, ?_, ?_⟩
    · simp only [Mat.map, Mat.padLeftEdge]; push_cast [hwv]; rw [hvK]; ring
    · rw [hwv, hvK]; ring
    · simp only [Mat.map, Mat.padLeftEdge]; omega
    · intro x hx
      dsimp only
      split
      · rename_i hxv
        have hm := (linspace_mirror (K := K) v x (by omega) hxv).2
        have : linspace (0 : K) 1 v x = 1 - linspace (1 : K) 0 v x := by unfold linspace; ring
        have := linspace10_mem (K := K) v x hxv
        constructor <;> linarith
      · constructor <;> norm_num
    · intro i _ x hx
      simp only [Mat.map, Mat.padLeftEdge]
      rw [show x + (sino.w - v) - (sino.w - v) = x by omega]
      split <;> ring
    · intro i _ j hj hjo
      simp only [Mat.map, Mat.padLeftEdge] at hj ⊢
      have hj0 : j - (sino.w - v) = 0 := by omega
      rw [hj0, if_pos (by omega), linspace_zero]; ring
    · intro x hx x' hx' he
      dsimp only
      rw [if_pos (by omega), if_pos (by omega)]
      have := (linspace_mirror (K := K) v x (by omega) (by omega)).2
      rwa [show v - 1 - x = x' by omega] at this
    · intro x hx hno
      dsimp only
      rw [if_neg]
      intro hxv
      exact hno (c2.toNat - x) (by omega) (by omega)
  · have hc : (sino.w : Int) - 1 < c2 := by
      have : (sino.w : K) - 1 < (c2 : K) := by
        have := not_le.mp hside; linarith
      have : (((sino.w : Int) - 1 : Int) : K) < (c2 : K) := by push_cast; exact this
      exact_mod_cast this
    obtain ⟨v, hv⟩ : ∃ v : Nat, (v : Int) = 2 * sino.w - c2 - 1 := ⟨(2 * (sino.w : Int) - c2 - 1).toNat, by omega⟩
    have hvK : (v : K) = 2 * (sino.w : K) - (c2 : K) - 1 := by
      have := congrArg (Int.cast : Int → K) hv
      push_cast at this; exact this
    have hos : overlapOfCor sino.w ((c2 : K) / 2) = ((v : K), 1) := by
      unfold overlapOfCor
      rw [if_neg hside, hvK]; congr 1; ring
    have hr : npRound ((v : K) + 1 / 1000) = (v : Int) := by
      have := npRound_int_eps (K := K) (v : Int)
      rwa [Int.cast_natCast] at this
    have hwv : ((sino.w - v : Nat) : K) = (sino.w : K) - v := Nat.cast_sub (by omega)
    refine ⟨_, _, by
      simp only [extendSinogram, hos, hr]
      rw [if_neg (by omega), if_pos trivial], ?_⟩
    simp only [Int.cast_natCast, sub_self, ne_eq, not_true_eq_false, if_false, Int.toNat_natCast]
    refine ⟨0, fun x => if sino.w - v ≤ x then linspace 1 0 v (x - (sino.w - v)) else 1, rfl, ?_, ?_, ?_, ?_, ?_, ?_, ?_, ?_⟩
    · simp only [Mat.map, Mat.padRightEdge]; push_cast [hwv]; rw [hvK]; ring
    · rw [hvK]; push_cast; ring
    · simp only [Mat.map, Mat.padRightEdge]; omega
    · intro x hx
      dsimp only
      split
      · exact linspace10_mem (K := K) v _ (by omega)
      · constructor <;> norm_num
    · intro i _ x hx
      simp only [Mat.map, Mat.padRightEdge]
      rw [show min (x + 0) (sino.w - 1) = x by omega]
      split <;> ring
    · intro i _ j hj hjo
      simp only [Mat.map, Mat.padRightEdge] at hj ⊢
      have hj0 : min j (sino.w - 1) = sino.w - 1 := by omega
      rw [hj0, if_pos (by omega), show sino.w - 1 - (sino.w - v) = v - 1 by omega, linspace10_last v (by omega)]; ring
    · intro x hx x' hx' he
      dsimp only
      rw [if_pos (by omega), if_pos (by omega)]
      have := (linspace_mirror (K := K) v (x - (sino.w - v)) (by omega) (by omega)).1
      rwa [show v - 1 - (x - (sino.w - v)) = x' - (sino.w - v) by omega] at this
    · intro x hx hno
      dsimp only
      rw [if_neg]
      intro hxv
      exact hno (c2.toNat - x) (by omega) (by omega)

/-- Non-vacuity: width 5, centre 2.5 (`c2 = 5`). -/
example : (1 : Int) ≤ 5 ∧ (5 : Int) ≤ 2 * (5 : Nat) - 3 := by decide

end Verif.Stitch
