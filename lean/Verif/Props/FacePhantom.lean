import Verif.Model.Phantom
import Verif.Props.Masks
import Mathlib.Analysis.Real.Pi.Bounds
import Mathlib.Analysis.SpecialFunctions.Trigonometric.Bounds

/-!
C142: the face phantom.
-/

set_option linter.unusedSectionVars false
set_option linter.unusedSimpArgs false

namespace Verif.Phantom
open Verif.Simulation Real

/-! ### Specification -/

/-- Column of the pixel relative to the centre, to the right. -/
noncomputable def px (size j : ℕ) : ℝ := (j : ℝ) - (size / 2 : ℕ)
/-- Row of the pixel relative to the centre, upwards. -/
noncomputable def py (size i : ℕ) : ℝ := ((size / 2 : ℕ) : ℝ) - i

/-- The outer boundary of the head. -/
def InHead (size i j : ℕ) : Prop :=
  (px size j / (size / 1.3)) ^ 2 + (py size i / ((if size > 64 then 0.95 else 0.9) * size)) ^ 2 ≤ 0.505 ^ 2

/-- The inside of the head, without the ring. -/
def InFace (size i j : ℕ) : Prop :=
  (px size j / ((if size > 64 then 0.91 else 0.86) * size / 1.3)) ^ 2
    + ((py size i + 0.01 * size) / ((if size > 64 then 0.91 else 0.86) * size)) ^ 2 ≤ 0.505 ^ 2

/-! ### Mirror symmetry -/

theorem coords_mirror (size : ℕ) (a b : ℝ) (len : ℝ × ℝ) (th : ℝ) (i : ℕ) {j j' : ℕ} (hj : j + j' = 2 * (size / 2)) :
    (maskCoords size (-a, b) len (-th) i j').1 = -(maskCoords size (a, b) len th i j).1 ∧
    (maskCoords size (-a, b) len (-th) i j').2 = (maskCoords size (a, b) len th i j).2 := by
  rw [maskCoords_eq, maskCoords_eq]
  unfold along across
  dsimp only
  rw [show -th * π / 180 = -(th * π / 180) by ring, cos_neg, sin_neg]
  have e : (j' : ℝ) = 2 * ((size / 2 : ℕ) : ℝ) - j := by
    have : ((j + j' : ℕ) : ℝ) = ((2 * (size / 2) : ℕ) : ℝ) := by rw [hj]
    rw [Nat.cast_add, Nat.cast_mul] at this
    push_cast [-Nat.cast_div] at this
    linarith
  rw [e]
  constructor <;> ring

theorem elliptic_mirror (size : ℕ) (a b : ℝ) (len : ℝ × ℝ) (th : ℝ) (i : ℕ) {j j' : ℕ} (hj : j + j' = 2 * (size / 2)) :
    (ellipticMask size (-a, b) len (-th)).get i j' = (ellipticMask size (a, b) len th).get i j := by
  obtain ⟨h1, h2⟩ := coords_mirror size a b len th i hj
  unfold ellipticMask
  dsimp only
  rw [h1, h2, neg_sq]

theorem rectangular_mirror (size : ℕ) (a b : ℝ) (len : ℝ × ℝ) (th : ℝ) (i : ℕ) {j j' : ℕ} (hj : j + j' = 2 * (size / 2)) :
    (rectangularMask size (-a, b) len (-th)).get i j' = (rectangularMask size (a, b) len th).get i j := by
  obtain ⟨h1, h2⟩ := coords_mirror size a b len th i hj
  unfold rectangularMask
  dsimp only
  rw [h1, h2, abs_neg]

theorem eye_mirror (size : ℕ) (sg : ℝ) (i : ℕ) {j j' : ℕ} (hj : j + j' = 2 * (size / 2)) : eye size (-sg) i j' = eye size sg i j := by
  unfold eye
  dsimp only
  simp only [neg_mul]
  have z := fun a b len => elliptic_mirror size a b len 0 i hj
  simp only [neg_zero] at z
  rw [z, z, z, rectangular_mirror size _ _ _ _ i hj, rectangular_mirror size _ _ _ _ i hj]

/-- **C142.** The phantom is symmetric with respect to its central column. -/
theorem face_mirror (size i : ℕ) {j j' : ℕ} (hj : j + j' = 2 * (size / 2)) : (facePhantom size).get i j' = (facePhantom size).get i j := by
  have z := fun b len => elliptic_mirror size 0 b len 0 i hj
  have zr := fun b len => rectangular_mirror size 0 b len 0 i hj
  simp only [neg_zero] at z zr
  unfold facePhantom
  dsimp only
  have h1 : head size i j' = head size i j := by unfold head; dsimp only; rw [z, z]
  have h2 : eye size (-1) i j' = eye size 1 i j := eye_mirror size 1 i hj
  have h3 : eye size 1 i j' = eye size (-1) i j := by have := eye_mirror size (-1) i hj; rwa [neg_neg] at this
  have h4 : nose size i j' = nose size i j := by
    unfold nose
    dsimp only
    rw [zr]
    have a := rectangular_mirror size (0 + 0.015 * size) 0 (0.04 * size, 0.25 * size) 9 i hj
    have b := rectangular_mirror size (0 - 0.015 * size) 0 (0.04 * size, 0.25 * size) (-9) i hj
    rw [show -(0 + 0.015 * (size : ℝ)) = 0 - 0.015 * size by ring] at a
    rw [show -(0 - 0.015 * (size : ℝ)) = 0 + 0.015 * size by ring, neg_neg] at b
    rw [a, b]
    congr 2
    ring
  have h5 : mouth size i j' = mouth size i j := by unfold mouth; dsimp only; rw [z, zr]
  have h6 : beard size i j' = beard size i j := by
    unfold beard
    dsimp only
    rw [zr]
    have a := rectangular_mirror size (-0.02 * size) (-0.32 * size) (0.005 * size, 0.1 * size) (-10) i hj
    have b := rectangular_mirror size (0.02 * size) (-0.32 * size) (0.005 * size, 0.1 * size) 10 i hj
    rw [show -(-0.02 * (size : ℝ)) = 0.02 * size by ring, neg_neg] at a
    rw [show -(0.02 * (size : ℝ)) = -0.02 * size by ring] at b
    rw [a, b]
    ring
  rw [h1, h2, h3, h4, h5, h6]
  ring

/-! ### Masks as regions -/

theorem ell_zero {size : ℕ} (hs : 0 < size) (cx cy l1 l2 : ℝ) (h1 : 0 < l1) (h2 : 0 < l2) (i j : ℕ) :
    ((ellipticMask size (cx, cy) (l1 * size, l2 * size) 0).get i j = 0 ∨ (ellipticMask size (cx, cy) (l1 * size, l2 * size) 0).get i j = 1) ∧
    ((ellipticMask size (cx, cy) (l1 * size, l2 * size) 0).get i j = 1 ↔
      ((px size j - cx) / (l1 * size)) ^ 2 + ((py size i - cy) / (l2 * size)) ^ 2 ≤ 0.505 ^ 2) := by
  have hs' : (0 : ℝ) < size := by exact_mod_cast hs
  obtain ⟨-, -, h, hiff⟩ := elliptic_spec size (cx, cy) (l1 * size, l2 * size) (by positivity) (by positivity) 0 i j
  refine ⟨h, ?_⟩
  have hal : along size (cx, cy) 0 i j = px size j - cx := by unfold along px; simp
  have hac : across size (cx, cy) 0 i j = py size i - cy := by unfold across py; simp
  rw [hal, hac] at hiff
  exact hiff

/-- A pixel of a rotated rectangle is in the bounding box. -/
theorem rect_box {size : ℕ} (hs : 0 < size) (cx cy l1 l2 sg : ℝ) (h1 : 0 < l1) (h2 : 0 < l2) (th : ℝ) (hsg : |th| * 3.1416 ≤ 180 * sg) (i j : ℕ) :
    (rectangularMask size (cx, cy) (l1 * size, l2 * size) th).get i j = 0 ∨
    ((rectangularMask size (cx, cy) (l1 * size, l2 * size) th).get i j = 1 ∧ |px size j - cx| ≤ 0.505 * (l1 + l2 * sg) * size ∧
      |py size i - cy| ≤ 0.505 * (l1 * sg + l2) * size) := by
  have hs' : (0 : ℝ) < size := by exact_mod_cast hs
  obtain ⟨-, -, h, hiff⟩ := rectangular_spec size (cx, cy) (l1 * size, l2 * size) (by positivity) (by positivity) th i j
  rcases h with h | h
  · exact Or.inl h
  · refine Or.inr ⟨h, ?_⟩
    obtain ⟨ha, hb⟩ := hiff.1 h
    dsimp only at ha hb
    generalize hal : along size (cx, cy) th i j = A at ha
    generalize hac : across size (cx, cy) th i j = B at hb
    have hsin : |sin (th * π / 180)| ≤ sg := by
      refine le_trans abs_sin_le_abs ?_
      rw [abs_div, abs_mul, abs_of_pos pi_pos, abs_of_pos (by norm_num : (0 : ℝ) < 180)]
      rw [div_le_iff₀ (by norm_num)]
      have := pi_lt_d4
      nlinarith [abs_nonneg th]
    have hcos : |cos (th * π / 180)| ≤ 1 := abs_cos_le_one _
    have e1 : px size j - cx = A * cos (th * π / 180) - B * sin (th * π / 180) := by
      rw [← hal, ← hac]
      unfold along across px
      dsimp only
      have := sin_sq_add_cos_sq (th * π / 180)
      linear_combination (-((j : ℝ) - (size / 2 : ℕ) - cx)) * this
    have e2 : py size i - cy = A * sin (th * π / 180) + B * cos (th * π / 180) := by
      rw [← hal, ← hac]
      unfold along across py
      dsimp only
      have := sin_sq_add_cos_sq (th * π / 180)
      linear_combination (-(((size / 2 : ℕ) : ℝ) - i - cy)) * this
    have b1 : ∀ t : ℝ, |t| ≤ 1 → |A * t| ≤ 0.505 * l1 * size := by
      intro t ht
      rw [abs_mul]
      nlinarith [abs_nonneg A, abs_nonneg t]
    have b2 : ∀ t : ℝ, |t| ≤ 1 → |B * t| ≤ 0.505 * l2 * size := by
      intro t ht
      rw [abs_mul]
      nlinarith [abs_nonneg B, abs_nonneg t]
    have b3 : |A * sin (th * π / 180)| ≤ 0.505 * l1 * size * sg := by
      rw [abs_mul]
      exact mul_le_mul (by linarith) hsin (abs_nonneg _) (by positivity)
    have b4 : |B * sin (th * π / 180)| ≤ 0.505 * l2 * size * sg := by
      rw [abs_mul]
      exact mul_le_mul (by linarith) hsin (abs_nonneg _) (by positivity)
    rw [e1, e2]
    constructor
    · refine le_trans (abs_sub _ _) ?_
      have := b1 _ hcos
      linarith
    · refine le_trans (abs_add_le _ _) ?_
      have := b2 _ hcos
      linarith

/-! ### The parts of the face -/

/-- Boxes inside the inner ellipse. -/
theorem box_in_face {size i j : ℕ} (hs : 0 < size) {a b : ℝ} (ha : |px size j| ≤ a * size) (hb : |py size i + 0.01 * size| ≤ b * size)
    (hab : 1.69 * a ^ 2 + b ^ 2 ≤ 0.1886) : InFace size i j := by
  have hs' : (0 : ℝ) < size := by exact_mod_cast hs
  have h1 : (px size j) ^ 2 ≤ (a * size) ^ 2 := by rw [← sq_abs]; exact pow_le_pow_left₀ (abs_nonneg _) ha 2
  have h2 : (py size i + 0.01 * size) ^ 2 ≤ (b * size) ^ 2 := by rw [← sq_abs]; exact pow_le_pow_left₀ (abs_nonneg _) hb 2
  have key : ∀ ρ : ℝ, 0.86 ≤ ρ → (px size j / (ρ * size / 1.3)) ^ 2 + ((py size i + 0.01 * size) / (ρ * size)) ^ 2 ≤ 0.505 ^ 2 := by
    intro ρ hρ
    have hρ0 : 0 < ρ := by linarith
    have e : (px size j / (ρ * size / 1.3)) ^ 2 + ((py size i + 0.01 * size) / (ρ * size)) ^ 2 =
        (1.69 * (px size j) ^ 2 + (py size i + 0.01 * size) ^ 2) / (ρ * size) ^ 2 := by
      field_simp
      ring
    rw [e, div_le_iff₀ (by positivity)]
    have h3 : (0.86 : ℝ) ^ 2 ≤ ρ ^ 2 := pow_le_pow_left₀ (by norm_num) hρ 2
    have h4 : (0 : ℝ) < (size : ℝ) ^ 2 := by positivity
    have h5 : 0.86 ^ 2 * (size : ℝ) ^ 2 ≤ ρ ^ 2 * (size : ℝ) ^ 2 := mul_le_mul_of_nonneg_right h3 h4.le
    have h6 := mul_le_mul_of_nonneg_right hab h4.le
    nlinarith
  unfold InFace
  split_ifs
  · exact key _ (by norm_num)
  · exact key _ (by norm_num)

/-- The inner ellipse lies in the outer one. -/
theorem face_in_head {size i j : ℕ} (hs : 0 < size) (h : InFace size i j) : InHead size i j := by
  have hs' : (0 : ℝ) < size := by exact_mod_cast hs
  have key : ∀ ρ r : ℝ, 0 < ρ → 0 < r → r ≤ 1 → (ρ, r) ∈ ({(0.86, 0.9), (0.91, 0.95)} : Set (ℝ × ℝ)) →
      (px size j / (ρ * size / 1.3)) ^ 2 + ((py size i + 0.01 * size) / (ρ * size)) ^ 2 ≤ 0.505 ^ 2 →
      (px size j / (size / 1.3)) ^ 2 + (py size i / (r * size)) ^ 2 ≤ 0.505 ^ 2 := by
    intro ρ r hρ hr hr1 hmem h
    obtain ⟨x, hx⟩ : ∃ x, px size j = x * size := ⟨px size j / size, by field_simp⟩
    obtain ⟨y, hy⟩ : ∃ y, py size i = y * size := ⟨py size i / size, by field_simp⟩
    rw [hx, hy] at h ⊢
    have e1 : (x * size / (ρ * size / 1.3)) ^ 2 + ((y * size + 0.01 * size) / (ρ * size)) ^ 2 = (1.69 * x ^ 2 + (y + 0.01) ^ 2) / ρ ^ 2 := by
      field_simp
      ring
    have e2 : (x * size / (size / 1.3)) ^ 2 + (y * size / (r * size)) ^ 2 = 1.69 * x ^ 2 + y ^ 2 / r ^ 2 := by
      field_simp
      ring
    rw [e1, div_le_iff₀ (by positivity)] at h
    rw [e2]
    have hy2 : (y + 0.01) ^ 2 ≤ (0.505 * ρ) ^ 2 := by nlinarith [sq_nonneg x]
    have hya := abs_le_of_sq_le_sq' hy2 (by positivity)
    have hprod : 0 ≤ (y + 0.01 + 0.505 * ρ) * (0.505 * ρ - (y + 0.01)) := mul_nonneg (by linarith [hya.1]) (by linarith [hya.2])
    rcases hmem with hm | hm
    · rw [Prod.mk.injEq] at hm
      obtain ⟨rfl, rfl⟩ := hm
      norm_num at *
      nlinarith
    · rw [Set.mem_singleton_iff, Prod.mk.injEq] at hm
      obtain ⟨rfl, rfl⟩ := hm
      norm_num at *
      nlinarith
  unfold InFace at h
  unfold InHead
  by_cases hc : size > 64
  · rw [if_pos hc] at h ⊢
    exact key 0.91 0.95 (by norm_num) (by norm_num) (by norm_num) (by simp) h
  · rw [if_neg hc] at h ⊢
    exact key 0.86 0.9 (by norm_num) (by norm_num) (by norm_num) (by simp) h

theorem head_spec {size : ℕ} (hs : 0 < size) (i j : ℕ) :
    (InFace size i j → head size i j = 0.4) ∧ (InHead size i j → ¬ InFace size i j → head size i j = 1) ∧ (¬ InHead size i j → head size i j = 0) := by
  have ho := ell_zero hs 0 0 (1 / 1.3) (if size > 64 then 0.95 else 0.9) (by norm_num) (by split_ifs <;> norm_num) i j
  have hi := ell_zero hs 0 (-0.01 * size) ((if size > 64 then 0.91 else 0.86) / 1.3) (if size > 64 then 0.91 else 0.86)
    (by split_ifs <;> norm_num) (by split_ifs <;> norm_num) i j
  rw [show 1 / 1.3 * (size : ℝ) = size / 1.3 by ring, sub_zero, sub_zero] at ho
  rw [show (if size > 64 then (0.91 : ℝ) else 0.86) / 1.3 * size = (if size > 64 then (0.91 : ℝ) else 0.86) * size / 1.3 by ring, sub_zero,
    show py size i - -0.01 * (size : ℝ) = py size i + 0.01 * size by ring] at hi
  have ho2 : _ ↔ InHead size i j := ho.2
  have hi2 : _ ↔ InFace size i j := hi.2
  unfold head
  dsimp only
  refine ⟨fun h => ?_, fun h h' => ?_, fun h => ?_⟩
  · rw [ho2.2 (face_in_head hs h), hi2.2 h]; norm_num
  · rw [ho2.2 h, hi.1.resolve_right fun hh => h' (hi2.1 hh)]; norm_num
  · rw [ho.1.resolve_right fun hh => h (ho2.1 hh), hi.1.resolve_right fun hh => h (face_in_head hs (hi2.1 hh))]; norm_num

/-- Half of the size, which places eyes and eyebrows. -/
theorem half_bounds (size : ℕ) : ((size / 2 : ℕ) : ℝ) ≤ 0.5 * size ∧ 0.5 * (size : ℝ) - 0.5 ≤ ((size / 2 : ℕ) : ℝ) ∧ (0 : ℝ) ≤ ((size / 2 : ℕ) : ℝ) := by
  have h1 : 2 * (size / 2) ≤ size := by omega
  have h2 : size ≤ 2 * (size / 2) + 1 := by omega
  generalize size / 2 = c at *
  have q1 : (2 : ℝ) * c ≤ size := by exact_mod_cast h1
  have q2 : (size : ℝ) ≤ 2 * c + 1 := by exact_mod_cast h2
  exact ⟨by linarith, by linarith, by positivity⟩

/-- A pixel of an ellipse is in the bounding box. -/
theorem ell_box {size : ℕ} (hs : 0 < size) (cx cy l1 l2 : ℝ) (h1 : 0 < l1) (h2 : 0 < l2) (i j : ℕ) :
    (ellipticMask size (cx, cy) (l1 * size, l2 * size) 0).get i j = 0 ∨
    ((ellipticMask size (cx, cy) (l1 * size, l2 * size) 0).get i j = 1 ∧ |px size j - cx| ≤ 0.505 * l1 * size ∧
      |py size i - cy| ≤ 0.505 * l2 * size) := by
  have hs' : (0 : ℝ) < size := by exact_mod_cast hs
  obtain ⟨h, hiff⟩ := ell_zero hs cx cy l1 l2 h1 h2 i j
  rcases h with h | h
  · exact Or.inl h
  · refine Or.inr ⟨h, ?_⟩
    have hc := hiff.1 h
    have key : ∀ t l : ℝ, 0 < l → (t / l) ^ 2 ≤ 0.505 ^ 2 → |t| ≤ 0.505 * l := by
      intro t l hl ht
      have := abs_le_of_sq_le_sq' ht (by norm_num)
      rw [abs_le]
      rw [le_div_iff₀ hl, div_le_iff₀ hl] at this
      constructor <;> linarith [this.1, this.2]
    constructor
    · have := key (px size j - cx) (l1 * size) (by positivity) (by nlinarith [sq_nonneg ((py size i - cy) / (l2 * size))])
      linarith
    · have := key (py size i - cy) (l2 * size) (by positivity) (by nlinarith [sq_nonneg ((px size j - cx) / (l1 * size))])
      linarith

theorem disc_sub {size : ℕ} (hs : 0 < size) (cx cy l m1 m2 : ℝ) (hl : 0 < l) (h1 : l ≤ m1) (h2 : l ≤ m2) (i j : ℕ)
    (h : (ellipticMask size (cx, cy) (l * size, l * size) 0).get i j = 1) : (ellipticMask size (cx, cy) (m1 * size, m2 * size) 0).get i j = 1 := by
  have hs' : (0 : ℝ) < size := by exact_mod_cast hs
  have a := (ell_zero hs cx cy l l hl hl i j).2.1 h
  refine (ell_zero hs cx cy m1 m2 (by linarith) (by linarith) i j).2.2 (le_trans ?_ a)
  have key : ∀ t m : ℝ, l ≤ m → (t / (m * size)) ^ 2 ≤ (t / (l * size)) ^ 2 := by
    intro t m hm
    rw [div_pow, div_pow]
    apply div_le_div_of_nonneg_left (sq_nonneg _) (by positivity)
    exact pow_le_pow_left₀ (by positivity) (mul_le_mul_of_nonneg_right hm hs'.le) 2
  exact add_le_add (key _ _ h1) (key _ _ h2)

theorem clip_brow {a b : ℝ} (ha : a = 0 ∨ a = 1) (hb : b = 0 ∨ b = 1) :
    -0.3 ≤ min (max (-0.3 * a + -0.3 * b) (-0.3)) 0 ∧ min (max (-0.3 * a + -0.3 * b) (-0.3)) 0 ≤ 0 :=
  ⟨le_min (le_max_right _ _) (by norm_num), min_le_right _ _⟩

set_option maxHeartbeats 1000000 in
/-- An eye with its eyebrow: nothing, or a value between -0.4 and 0.6 inside the face, above the nose, on its side. -/
theorem eye_spec {size : ℕ} (hs : 2 ≤ size) {sg : ℝ} (hsg : sg = 1 ∨ sg = -1) (i j : ℕ) :
    eye size sg i j = 0 ∨ (InFace size i j ∧ -0.4 ≤ eye size sg i j ∧ eye size sg i j ≤ 0.6 ∧ 0 < sg * px size j ∧ 0.13 * size < py size i) := by
  have hs0 : 0 < size := by omega
  have hs' : (0 : ℝ) < size := by exact_mod_cast hs0
  have hsa : |sg| = 1 := by rcases hsg with rfl | rfl <;> norm_num
  have hE := ell_box hs0 (sg * 0.3 * ((size / 2 : ℕ) : ℝ)) (0.4 * ((size / 2 : ℕ) : ℝ)) 0.15 0.05 (by norm_num) (by norm_num) i j
  have hA := ell_box hs0 (sg * 0.3 * ((size / 2 : ℕ) : ℝ)) (0.4 * ((size / 2 : ℕ) : ℝ)) 0.048 0.048 (by norm_num) (by norm_num) i j
  have hB := ell_box hs0 (sg * 0.3 * ((size / 2 : ℕ) : ℝ)) (0.4 * ((size / 2 : ℕ) : ℝ)) 0.015 0.015 (by norm_num) (by norm_num) i j
  have sAE := disc_sub hs0 (sg * 0.3 * ((size / 2 : ℕ) : ℝ)) (0.4 * ((size / 2 : ℕ) : ℝ)) 0.048 0.15 0.05 (by norm_num) (by norm_num) (by norm_num) i j
  have sBA := disc_sub hs0 (sg * 0.3 * ((size / 2 : ℕ) : ℝ)) (0.4 * ((size / 2 : ℕ) : ℝ)) 0.015 0.048 0.048 (by norm_num) (by norm_num) (by norm_num) i j
  have hP := rect_box hs0 (sg * 0.3 * ((size / 2 : ℕ) : ℝ)) (0.54 * ((size / 2 : ℕ) : ℝ)) 0.18 0.02 0.0873 (by norm_num) (by norm_num) (sg * 5)
    (by rw [abs_mul, hsa]; norm_num) i j
  have hQ := rect_box hs0 (sg * 0.3 * ((size / 2 : ℕ) : ℝ)) (0.54 * ((size / 2 : ℕ) : ℝ) - 0.01 * ((size / 2 : ℕ) : ℝ)) 0.18 0.015 0.1746
    (by norm_num) (by norm_num) (sg * 10) (by rw [abs_mul, hsa]; norm_num) i j
  unfold eye
  dsimp only
  generalize (ellipticMask size (sg * 0.3 * ((size / 2 : ℕ) : ℝ), 0.4 * ((size / 2 : ℕ) : ℝ)) (0.15 * (size : ℝ), 0.05 * (size : ℝ)) 0).get i j = e at *
  generalize (ellipticMask size (sg * 0.3 * ((size / 2 : ℕ) : ℝ), 0.4 * ((size / 2 : ℕ) : ℝ)) (0.048 * (size : ℝ), 0.048 * (size : ℝ)) 0).get i j = a at *
  generalize (ellipticMask size (sg * 0.3 * ((size / 2 : ℕ) : ℝ), 0.4 * ((size / 2 : ℕ) : ℝ)) (0.015 * (size : ℝ), 0.015 * (size : ℝ)) 0).get i j = b at *
  generalize (rectangularMask size (sg * 0.3 * ((size / 2 : ℕ) : ℝ), 0.54 * ((size / 2 : ℕ) : ℝ)) (0.18 * (size : ℝ), 0.02 * (size : ℝ)) (sg * 5)).get i j = p at *
  generalize (rectangularMask size (sg * 0.3 * ((size / 2 : ℕ) : ℝ), 0.54 * ((size / 2 : ℕ) : ℝ) - 0.01 * ((size / 2 : ℕ) : ℝ))
    (0.18 * (size : ℝ), 0.015 * (size : ℝ)) (sg * 10)).get i j = q at *
  -- sizes
  obtain ⟨u1, u2, u3⟩ := half_bounds size
  have hsz : ((size / 2 : ℕ) : ℝ) = 0.5 * size ∧ (2 : ℝ) ≤ size ∨ ((size / 2 : ℕ) : ℝ) = 0.5 * size - 0.5 ∧ (5 : ℝ) ≤ size ∨ size = 3 := by
    rcases Nat.even_or_odd' size with ⟨m, rfl | rfl⟩
    · left
      rw [Nat.mul_div_cancel_left m (by norm_num)]
      refine ⟨by push_cast; ring, by exact_mod_cast hs⟩
    · right
      by_cases h3 : 2 * m + 1 = 3
      · exact Or.inr h3
      · left
        rw [show (2 * m + 1) / 2 = m by omega]
        refine ⟨by push_cast; ring, by exact_mod_cast (by omega)⟩
  have habs : ∀ k : ℝ, |px size j - sg * 0.3 * ((size / 2 : ℕ) : ℝ)| ≤ k → |sg * px size j - 0.3 * ((size / 2 : ℕ) : ℝ)| ≤ k ∧ |px size j| = |sg * px size j| := by
    intro k hk
    refine ⟨?_, by rw [abs_mul, hsa, one_mul]⟩
    rcases hsg with rfl | rfl
    · rw [one_mul] at *; exact hk
    · rw [← abs_neg]
      refine le_trans (le_of_eq ?_) hk
      congr 1
      ring
  rcases hsz with hsz | hsz | hsz
  case inr.inr =>
    left
    subst hsz
    have hint : py 3 i = 1 ∨ py 3 i ≤ 0 := by
      unfold py
      rcases Nat.eq_zero_or_pos i with h | h
      · left; rw [h]; norm_num
      · right
        have : (1 : ℝ) ≤ i := by exact_mod_cast h
        norm_num
        exact_mod_cast this
    have no : ∀ t k : ℝ, k < t → t + k < 1 → ¬ |py 3 i - t| ≤ k := by
      intro t k h1 h2 h
      rw [abs_le] at h
      rcases hint with h' | h' <;> linarith [h.1, h.2]
    have z1 : e = 0 := by
      rcases hE with h | h
      · exact h
      · exact absurd h.2.2 (no _ _ (by norm_num) (by norm_num))
    have z2 : a = 0 := by
      rcases hA with h | h
      · exact h
      · exact absurd h.2.2 (no _ _ (by norm_num) (by norm_num))
    have z3 : b = 0 := by
      rcases hB with h | h
      · exact h
      · exact absurd h.2.2 (no _ _ (by norm_num) (by norm_num))
    have z4 : p = 0 := by
      rcases hP with h | h
      · exact h
      · exact absurd h.2.2 (no _ _ (by norm_num) (by norm_num))
    have z5 : q = 0 := by
      rcases hQ with h | h
      · exact h
      · exact absurd h.2.2 (no _ _ (by norm_num) (by norm_num))
    rw [z1, z2, z3, z4, z5]
    norm_num
  all_goals
    generalize ((size / 2 : ℕ) : ℝ) = c at *
    rcases hE with he | ⟨he, hex, hey⟩
    · have ha0 : a = 0 := by
        rcases hA with h | h
        · exact h
        · have := sAE h.1; rw [he] at this; norm_num at this
      have hb0 : b = 0 := by
        rcases hB with h | h
        · exact h
        · have := sBA h.1; rw [ha0] at this; norm_num at this
      by_cases hpq : p = 0 ∧ q = 0
      · left
        rw [he, ha0, hb0, hpq.1, hpq.2]
        norm_num
      · right
        have hbox : |sg * px size j - 0.3 * c| ≤ 0.0923 * size ∧ |px size j| = |sg * px size j| ∧ 0.53 * c - 0.0235 * size ≤ py size i ∧
            (py size i ≤ 0.54 * c + 0.0182 * size ∨ py size i ≤ 0.53 * c + 0.0235 * size) := by
          rcases hP with hp | h
          · rcases hQ with hq | h
            · exact absurd ⟨hp, hq⟩ hpq
            · have hx := habs _ h.2.1
              have hy := abs_le.1 h.2.2
              refine ⟨le_trans hx.1 (by linarith), hx.2, by linarith [hy.1], Or.inr (by linarith [hy.2])⟩
          · have hx := habs _ h.2.1
            have hy := abs_le.1 h.2.2
            refine ⟨le_trans hx.1 (by linarith), hx.2, by linarith [hy.1], Or.inl (by linarith [hy.2])⟩
        obtain ⟨bx, bx', by1, by3⟩ := hbox
        have bx2 := abs_le.1 bx
        have hb01 : (p = 0 ∨ p = 1) ∧ (q = 0 ∨ q = 1) :=
          ⟨hP.imp id fun h => h.1, hQ.imp id fun h => h.1⟩
        have hclip := clip_brow hb01.1 hb01.2
        have hpos : 0 < sg * px size j := by rcases hsz with ⟨h1, h2⟩; linarith [bx2.1]
        have hyy : 0.13 * size < py size i := by rcases hsz with ⟨h1, h2⟩; linarith
        refine ⟨box_in_face (a := 0.2423) (b := 0.2986) hs0 ?_ ?_ (by norm_num), ?_, ?_, hpos, hyy⟩
        · rw [bx', abs_of_pos hpos]; linarith [bx2.2]
        · rw [abs_of_pos (by linarith)]
          rcases by3 with h | h <;> linarith
        · rw [he, ha0, hb0]; linarith [hclip.1]
        · rw [he, ha0, hb0]; linarith [hclip.2]
    · right
      have hx := habs _ hex
      have hx2 := abs_le.1 hx.1
      have hy := abs_le.1 hey
      have hp0 : p = 0 := by
        rcases hP with h | h
        · exact h
        · exfalso
          have := (abs_le.1 h.2.2).1
          linarith [hy.2, hsz.1, hsz.2]
      have hq0 : q = 0 := by
        rcases hQ with h | h
        · exact h
        · exfalso
          have := (abs_le.1 h.2.2).1
          linarith [hy.2, hsz.1, hsz.2]
      have hpos : 0 < sg * px size j := by linarith [hx2.1, hsz.1, hsz.2]
      refine ⟨box_in_face (a := 0.2258) (b := 0.2354) hs0 ?_ ?_ (by norm_num), ?_, ?_, hpos, by linarith [hy.1, hsz.1, hsz.2]⟩
      · rw [hx.2, abs_of_pos hpos]; linarith [hx2.2]
      · rw [abs_of_pos (by linarith [hy.1, hsz.1, hsz.2])]; linarith [hy.2]
      · rw [he, hp0, hq0]
        rcases hA with h | h <;> rcases hB with h' | h' <;> first | rw [h] | rw [h.1]
        all_goals first | rw [h'] | rw [h'.1]
        all_goals norm_num
      · rw [he, hp0, hq0]
        rcases hA with h | h <;> rcases hB with h' | h' <;> first | rw [h] | rw [h.1]
        all_goals first | rw [h'] | rw [h'.1]
        all_goals norm_num

/-- The nose: nothing, or a value between 0 and 0.2 inside the face, below the eyes and above the mouth. -/
theorem nose_spec {size : ℕ} (hs : 2 ≤ size) (i j : ℕ) :
    nose size i j = 0 ∨ (InFace size i j ∧ 0 ≤ nose size i j ∧ nose size i j ≤ 0.2 ∧ |py size i| ≤ 0.13 * size) := by
  have hs0 : 0 < size := by omega
  have hs' : (0 : ℝ) < size := by exact_mod_cast hs0
  have h1 := rect_box hs0 0 0 0.05 0.25 0 (by norm_num) (by norm_num) 0 (by norm_num) i j
  have h2 := rect_box hs0 (0 + 0.015 * size) 0 0.04 0.25 0.1571 (by norm_num) (by norm_num) 9 (by norm_num) i j
  have h3 := rect_box hs0 (0 - 0.015 * size) 0 0.04 0.25 0.1571 (by norm_num) (by norm_num) (-9) (by norm_num) i j
  unfold nose
  dsimp only
  generalize (rectangularMask size (0, 0) (0.05 * (size : ℝ), 0.25 * (size : ℝ)) 0).get i j = a at *
  generalize (rectangularMask size (0 + 0.015 * (size : ℝ), 0) (0.04 * (size : ℝ), 0.25 * (size : ℝ)) 9).get i j = b at *
  generalize (rectangularMask size (0 - 0.015 * (size : ℝ), 0) (0.04 * (size : ℝ), 0.25 * (size : ℝ)) (-9)).get i j = c at *
  by_cases h0 : a = 0 ∧ b = 0 ∧ c = 0
  · left
    rw [h0.1, h0.2.1, h0.2.2]
    norm_num
  · right
    have hbox : |px size j| ≤ 0.06 * size ∧ |py size i| ≤ 0.13 * size := by
      have box : ∀ t k l : ℝ, |t| ≤ 0.015 * size → |px size j - t| ≤ k * size → |py size i - 0| ≤ l * size → k ≤ 0.045 → l ≤ 0.13 →
          |px size j| ≤ 0.06 * size ∧ |py size i| ≤ 0.13 * size := by
        intro t k l ht hx hy hk hl
        have e1 := mul_le_mul_of_nonneg_right hk hs'.le
        have e2 := mul_le_mul_of_nonneg_right hl hs'.le
        rw [sub_zero] at hy
        rw [abs_le] at ht hx ⊢
        exact ⟨⟨by linarith [hx.1, ht.1], by linarith [hx.2, ht.2]⟩, le_trans hy e2⟩
      rcases h1 with h1 | h1
      · rcases h2 with h2 | h2
        · rcases h3 with h3 | h3
          · exact absurd ⟨h1, h2, h3⟩ h0
          · exact box _ _ _ (by rw [abs_le]; constructor <;> linarith) h3.2.1 h3.2.2 (by norm_num) (by norm_num)
        · exact box _ _ _ (by rw [abs_le]; constructor <;> linarith) h2.2.1 h2.2.2 (by norm_num) (by norm_num)
      · exact box _ _ _ (by rw [abs_zero]; positivity) h1.2.1 h1.2.2 (by norm_num) (by norm_num)
    refine ⟨box_in_face (a := 0.06) (b := 0.14) hs0 hbox.1 ?_ (by norm_num), ?_, min_le_right _ _, hbox.2⟩
    · have := abs_le.1 hbox.2
      rw [abs_le]
      constructor <;> linarith [this.1, this.2]
    · exact le_min (le_max_right _ _) (by norm_num)

/-- The mouth: nothing, or 0.4 inside the face between nose and beard. -/
theorem mouth_spec {size : ℕ} (hs : 2 ≤ size) (i j : ℕ) :
    mouth size i j = 0 ∨ (InFace size i j ∧ mouth size i j = 0.4 ∧ py size i < -0.13 * size ∧ -0.25 * size < py size i) := by
  have hs0 : 0 < size := by omega
  have hs' : (0 : ℝ) < size := by exact_mod_cast hs0
  have h1 := rect_box hs0 0 (-0.22 * size) 0.24 0.055 0 (by norm_num) (by norm_num) 0 (by norm_num) i j
  have h2 := (ell_zero hs0 0 (-0.22 * size + 0.025 * size) 0.24 0.07 (by norm_num) (by norm_num) i j).1
  unfold mouth
  dsimp only
  generalize (rectangularMask size (0, -0.22 * (size : ℝ)) (0.24 * (size : ℝ), 0.055 * (size : ℝ)) 0).get i j = a at *
  generalize (ellipticMask size (0, -0.22 * (size : ℝ) + 0.025 * (size : ℝ)) (0.24 * (size : ℝ), 0.07 * (size : ℝ)) 0).get i j = b at *
  rcases h1 with h1 | ⟨h1, hx, hy⟩
  · left
    rw [h1]
    rcases h2 with h2 | h2 <;> rw [h2] <;> norm_num
  · rcases h2 with h2 | h2
    · left; rw [h1, h2]; norm_num
    · right
      rw [sub_zero] at hx
      have hy' := abs_le.1 hy
      refine ⟨box_in_face (a := 0.1213) (b := 0.24) hs0 (by linarith) ?_ (by norm_num), by rw [h1, h2]; norm_num, by linarith [hy'.2], by linarith [hy'.1]⟩
      rw [abs_le]
      constructor <;> linarith [hy'.1, hy'.2]

/-- The beard: nothing, or -0.4 inside the face below the mouth; the three hairs do not meet. -/
theorem beard_spec {size : ℕ} (hs : 2 ≤ size) (i j : ℕ) :
    beard size i j = 0 ∨ (InFace size i j ∧ beard size i j = -0.4 ∧ py size i < -0.25 * size) := by
  have hs0 : 0 < size := by omega
  have hs' : (0 : ℝ) < size := by exact_mod_cast hs0
  have h1 := rect_box hs0 0 (-0.32 * size) 0.005 0.1 0 (by norm_num) (by norm_num) 0 (by norm_num) i j
  have h2 := rect_box hs0 (-0.02 * size) (-0.32 * size) 0.005 0.1 0.1746 (by norm_num) (by norm_num) (-10) (by norm_num) i j
  have h3 := rect_box hs0 (0.02 * size) (-0.32 * size) 0.005 0.1 0.1746 (by norm_num) (by norm_num) 10 (by norm_num) i j
  unfold beard
  dsimp only
  generalize (rectangularMask size (0, -0.32 * (size : ℝ)) (0.005 * (size : ℝ), 0.1 * (size : ℝ)) 0).get i j = a at *
  generalize (rectangularMask size (-0.02 * (size : ℝ), -0.32 * (size : ℝ)) (0.005 * (size : ℝ), 0.1 * (size : ℝ)) (-10)).get i j = b at *
  generalize (rectangularMask size (0.02 * (size : ℝ), -0.32 * (size : ℝ)) (0.005 * (size : ℝ), 0.1 * (size : ℝ)) 10).get i j = c at *
  have fin : ∀ k l : ℝ, |px size j| ≤ 0.032 * size → |py size i - -0.32 * size| ≤ l * size → l ≤ 0.06 →
      InFace size i j ∧ py size i < -0.25 * size := by
    intro k l hx hy hl
    have e2 := mul_le_mul_of_nonneg_right hl hs'.le
    have hy' := abs_le.1 hy
    refine ⟨box_in_face (a := 0.032) (b := 0.37) hs0 hx ?_ (by norm_num), by linarith [hy'.2]⟩
    rw [abs_le]
    constructor <;> linarith [hy'.1, hy'.2]
  rcases h1 with h1 | ⟨h1, x1, y1⟩
  · rcases h2 with h2 | ⟨h2, x2, y2⟩
    · rcases h3 with h3 | ⟨h3, x3, y3⟩
      · left; rw [h1, h2, h3]; norm_num
      · right
        have x3' := abs_le.1 x3
        have := fin 0 _ (by rw [abs_le]; constructor <;> linarith [x3'.1, x3'.2]) y3 (by norm_num)
        exact ⟨this.1, by rw [h1, h2, h3]; norm_num, this.2⟩
    · right
      have x2' := abs_le.1 x2
      have := fin 0 _ (by rw [abs_le]; constructor <;> linarith [x2'.1, x2'.2]) y2 (by norm_num)
      have h3 : c = 0 := h3.resolve_right fun h => by have := abs_le.1 h.2.1; linarith [x2'.2, this.1]
      exact ⟨this.1, by rw [h1, h2, h3]; norm_num, this.2⟩
  · right
    have x1' := abs_le.1 x1
    have := fin 0 _ (by rw [abs_le]; constructor <;> linarith [x1'.1, x1'.2]) y1 (by norm_num)
    have h3 : c = 0 := h3.resolve_right fun h => by have := abs_le.1 h.2.1; linarith [x1'.2, this.1]
    have h2 : b = 0 := h2.resolve_right fun h => by have := abs_le.1 h.2.1; linarith [x1'.1, this.2]
    exact ⟨this.1, by rw [h1, h2, h3]; norm_num, this.2⟩

/-- **C142.** For every size from 2 on: 0 outside the head, 1 on the ring of the head, between 0 and 1 inside. -/
theorem face_spec {size : ℕ} (hs : 2 ≤ size) (i j : ℕ) :
    (facePhantom size).h = size ∧ (facePhantom size).w = size ∧
    (¬ InHead size i j → (facePhantom size).get i j = 0) ∧
    (InHead size i j → ¬ InFace size i j → (facePhantom size).get i j = 1) ∧
    0 ≤ (facePhantom size).get i j ∧ (facePhantom size).get i j ≤ 1 := by
  have hs0 : 0 < size := by omega
  obtain ⟨hf, hr, ho⟩ := head_spec hs0 i j
  have hL := eye_spec hs (Or.inr rfl : (-1 : ℝ) = 1 ∨ (-1 : ℝ) = -1) i j
  have hR := eye_spec hs (Or.inl rfl : (1 : ℝ) = 1 ∨ (1 : ℝ) = -1) i j
  have hN := nose_spec hs i j
  have hM := mouth_spec hs i j
  have hB := beard_spec hs i j
  have out : ¬ InFace size i j → (facePhantom size).get i j = head size i j := by
    intro h
    show head size i j + (eye size (-1) i j + eye size 1 i j) + nose size i j + mouth size i j + beard size i j = _
    rw [hL.resolve_right fun hh => h hh.1, hR.resolve_right fun hh => h hh.1, hN.resolve_right fun hh => h hh.1,
      hM.resolve_right fun hh => h hh.1, hB.resolve_right fun hh => h hh.1]
    ring
  refine ⟨rfl, rfl, fun h => ?_, fun h h' => ?_, ?_⟩
  · rw [out fun hh => h (face_in_head hs0 hh), ho h]
  · rw [out h', hr h h']
  · by_cases h : InFace size i j
    · show 0 ≤ head size i j + (eye size (-1) i j + eye size 1 i j) + nose size i j + mouth size i j + beard size i j ∧
        head size i j + (eye size (-1) i j + eye size 1 i j) + nose size i j + mouth size i j + beard size i j ≤ 1
      rw [hf h]
      have hs' : (0 : ℝ) < size := by exact_mod_cast hs0
      have n1 : ∀ {y : ℝ}, |y| ≤ 0.13 * size → -(0.13 * size) ≤ y ∧ y ≤ 0.13 * size := fun h => abs_le.1 h
      rcases hL with hL | ⟨-, l1, l2, l3, l4⟩
      · rcases hR with hR | ⟨-, r1, r2, r3, r4⟩
        · rcases hN with hN | ⟨-, a1, a2, a3⟩
          · rcases hM with hM | ⟨-, m1, m2, m3⟩
            · rcases hB with hB | ⟨-, b1, b2⟩
              · rw [hL, hR, hN, hM, hB]; norm_num
              · rw [hL, hR, hN, hM, b1]; norm_num
            · have hB := hB.resolve_right fun hh => by linarith [hh.2.2]
              rw [hL, hR, hN, m1, hB]; norm_num
          · have hM := hM.resolve_right fun hh => by linarith [hh.2.2.1, (n1 a3).1]
            have hB := hB.resolve_right fun hh => by linarith [hh.2.2, (n1 a3).1]
            rw [hL, hR, hM, hB]
            constructor <;> linarith
        · have hN := hN.resolve_right fun hh => by linarith [(n1 hh.2.2.2).2]
          have hM := hM.resolve_right fun hh => by linarith [hh.2.2.1]
          have hB := hB.resolve_right fun hh => by linarith [hh.2.2]
          rw [hL, hN, hM, hB]
          constructor <;> linarith
      · have hR := hR.resolve_right fun hh => by linarith [hh.2.2.2.1]
        have hN := hN.resolve_right fun hh => by linarith [(n1 hh.2.2.2).2]
        have hM := hM.resolve_right fun hh => by linarith [hh.2.2.1]
        have hB := hB.resolve_right fun hh => by linarith [hh.2.2]
        rw [hR, hN, hM, hB]
        constructor <;> linarith
    · rw [out h]
      by_cases h2 : InHead size i j
      · rw [hr h2 h]; norm_num
      · rw [ho h2]; norm_num

/-- **C142, refuted for a single pixel.** The phantom of size 1 has the value -0.8. -/
theorem face_one : (facePhantom 1).get 0 0 = -0.8 := by
  have hp : px 1 0 = 0 ∧ py 1 0 = 0 := by unfold px py; norm_num
  have hc : ((1 / 2 : ℕ) : ℝ) = 0 := by norm_num
  have hell : ∀ cy l1 l2 : ℝ, 0 < l1 → 0 < l2 → ∀ v : ℝ, v = (if (cy / l2) ^ 2 ≤ 0.505 ^ 2 then 1 else 0) →
      (ellipticMask 1 (0, cy) (l1, l2) 0).get 0 0 = v := by
    intro cy l1 l2 h1 h2 v hv
    have h := ell_zero (size := 1) (by norm_num) 0 cy l1 l2 h1 h2 0 0
    rw [hp.1, hp.2] at h
    norm_num at h
    rw [neg_div, neg_sq] at h
    rw [hv]
    split_ifs with hh
    · norm_num at hh; exact h.2.2 hh
    · norm_num at hh
      rcases h.1 with h' | h'
      · exact h'
      · exact absurd (h.2.1 h') (not_le.2 hh)
  have hrect : ∀ cx cy l1 l2 th : ℝ, 0 < l1 → 0 < l2 → |cx| + |cy| ≤ 0.505 * l1 → |cx| + |cy| ≤ 0.505 * l2 →
      (rectangularMask 1 (cx, cy) (l1, l2) th).get 0 0 = 1 := by
    intro cx cy l1 l2 th h1 h2 a1 a2
    refine (rectangular_spec 1 (cx, cy) (l1, l2) h1 h2 th 0 0).2.2.2.2 ?_
    have hco := abs_cos_le_one (th * π / 180)
    have hsi := abs_sin_le_one (th * π / 180)
    have m : ∀ x t : ℝ, |t| ≤ 1 → |x * t| ≤ |x| := by
      intro x t ht
      rw [abs_mul]
      nlinarith [abs_nonneg x, abs_nonneg t]
    constructor
    · refine le_trans ?_ a1
      unfold along
      dsimp only
      norm_num
      refine le_trans (abs_add_le _ _) (add_le_add ?_ ?_)
      · rw [abs_neg]; exact m _ _ hco
      · rw [abs_neg]; exact m _ _ hsi
    · refine le_trans ?_ a2
      unfold across
      dsimp only
      norm_num
      refine le_trans (abs_add_le _ _) (add_le_add ?_ ?_)
      · exact m _ _ hsi
      · rw [abs_neg]; exact m _ _ hco
  have hrect0 : ∀ cx cy l1 l2 th sg : ℝ, 0 < l1 → 0 < l2 → |th| * 3.1416 ≤ 180 * sg → 0.505 * (l1 * sg + l2) < |cy| →
      (rectangularMask 1 (cx, cy) (l1, l2) th).get 0 0 = 0 := by
    intro cx cy l1 l2 th sg h1 h2 h3 h4
    have h := rect_box (size := 1) (by norm_num) cx cy l1 l2 sg h1 h2 th h3 0 0
    rw [hp.1, hp.2] at h
    rw [Nat.cast_one, mul_one, mul_one] at h
    refine h.resolve_right fun hh => ?_
    have := hh.2.2
    rw [zero_sub, abs_neg, mul_one] at this
    linarith
  have e1 : head 1 0 0 = 0.4 := by
    refine (head_spec (by norm_num) 0 0).1 ?_
    unfold InFace
    rw [hp.1, hp.2]
    norm_num
  have e2 : ∀ sg : ℝ, eye 1 sg 0 0 = -0.7 := by
    intro sg
    unfold eye
    dsimp only
    rw [hc, Nat.cast_one]
    simp only [mul_zero, mul_one, sub_zero]
    rw [hell _ _ _ (by norm_num) (by norm_num) 1 (by norm_num), hell _ _ _ (by norm_num) (by norm_num) 1 (by norm_num),
      hell _ _ _ (by norm_num) (by norm_num) 1 (by norm_num),
      hrect _ _ _ _ _ (by norm_num) (by norm_num) (by norm_num) (by norm_num), hrect _ _ _ _ _ (by norm_num) (by norm_num) (by norm_num) (by norm_num)]
    norm_num
  have e3 : nose 1 0 0 = 0.2 := by
    unfold nose
    dsimp only
    rw [Nat.cast_one]
    simp only [mul_one]
    have hn : |(0 + 0.015 : ℝ)| = 0.015 ∧ |(0 - 0.015 : ℝ)| = 0.015 := by
      constructor
      · rw [abs_of_pos (by norm_num)]; norm_num
      · rw [abs_of_neg (by norm_num)]; norm_num
    rw [hrect _ _ _ _ _ (by norm_num) (by norm_num) (by norm_num) (by norm_num),
      hrect _ _ _ _ _ (by norm_num) (by norm_num) (by rw [hn.1, abs_zero]; norm_num) (by rw [hn.1, abs_zero]; norm_num),
      hrect _ _ _ _ _ (by norm_num) (by norm_num) (by rw [hn.2, abs_zero]; norm_num) (by rw [hn.2, abs_zero]; norm_num)]
    norm_num
  have e4 : mouth 1 0 0 = 0 := by
    unfold mouth
    dsimp only
    rw [Nat.cast_one]
    simp only [mul_one]
    rw [hrect0 _ _ _ _ _ 0 (by norm_num) (by norm_num) (by norm_num) (by rw [abs_of_neg (by norm_num)]; norm_num),
      hell _ _ _ (by norm_num) (by norm_num) 0 (by norm_num)]
    norm_num
  have e5 : beard 1 0 0 = 0 := by
    unfold beard
    dsimp only
    rw [Nat.cast_one]
    simp only [mul_one]
    have hn : |(-0.32 : ℝ)| = 0.32 := by rw [abs_of_neg (by norm_num)]; norm_num
    rw [hrect0 _ _ _ _ _ 1 (by norm_num) (by norm_num) (by norm_num) (by rw [hn]; norm_num),
      hrect0 _ _ _ _ _ 1 (by norm_num) (by norm_num) (by norm_num) (by rw [hn]; norm_num),
      hrect0 _ _ _ _ _ 1 (by norm_num) (by norm_num) (by norm_num) (by rw [hn]; norm_num)]
    norm_num
  show head 1 0 0 + (eye 1 (-1) 0 0 + eye 1 1 0 0) + nose 1 0 0 + mouth 1 0 0 + beard 1 0 0 = _
  rw [e1, e2, e2, e3, e4, e5]
  norm_num

end Verif.Phantom
