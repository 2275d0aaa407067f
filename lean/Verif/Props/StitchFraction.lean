import Verif.Props.Stitch
import Verif.Props.JoinMany
import Mathlib.Tactic.Linarith
import Mathlib.Tactic.LinearCombination

/-! C163 — overlaps and joint widths that are not whole numbers. -/

set_option linter.unusedSectionVars false
set_option linter.unusedSimpArgs false

namespace Verif.Stitch

variable {K : Type _} [Field K] [LinearOrder K] [IsStrictOrderedRing K] [FloorRing K]

/-! ### Specification -/

/-- `m` shows the scene `P` (a function of the row and of a position on the horizontal axis) from position `c` on. -/
def Shows (P : Nat → K → K) (m : Mat K) (c : K) : Prop := ∀ i < m.h, ∀ j < m.w, m.get i j = P i (c + j)

/-- The sub-pixel shift is exact for the scene: an image of it, shifted by `s`, shows at column `j` what it showed at `j - s`, wherever that lies
inside the image. -/
def ExactFor (shift : Mat K → K → Mat K) (P : Nat → K → K) : Prop :=
  ∀ m c s, Shows P m c → (shift m s).h = m.h ∧ (shift m s).w = m.w ∧
    ∀ i < m.h, ∀ j < m.w, 0 ≤ (j : K) - s → (j : K) - s ≤ (m.w : K) - 1 → (shift m s).get i j = P i (c + j - s)

/-- What the claim asks for: apart from a common offset `e` the result shows the scene at the two columns. -/
def OneScene (P : Nat → K → K) (out : Mat K) (i q q' : Nat) : Prop := ∃ e : K, out.get i q = P i (q - e) ∧ out.get i q' = P i (q' - e)

/-! ### Rounding -/

theorem npRound_eq (x : K) (v : Int) (h : |x - v| < 1 / 2) : npRound x = v := by
  have h1 := npRound_abs x
  have h2 : |(npRound x : K) - v| < 1 := by
    have : (npRound x : K) - v = ((npRound x : K) - x) + (x - v) := by ring
    rw [this]
    exact lt_of_le_of_lt (abs_add_le _ _) (by linarith)
  have h3 : |npRound x - v| < 1 := by
    have : ((|npRound x - v| : Int) : K) < ((1 : Int) : K) := by push_cast; exact h2
    exact_mod_cast this
  have := Int.abs_lt_one_iff.1 h3
  omega

/-- With a fractional overlap the images are shifted and then stitched with the rounded overlap. -/
theorem stitch_shifted (shift : Mat K → K → Mat K) (m1 m2 : Mat K) (b1 b2 : Bool) (overlap : K) (v : Nat) (side : Int) (norm : Bool) (t : Option Nat)
    (hv : |overlap + 1 / 1000 - v| < 1 / 2) (hs : overlap ≠ v) (hh : ∀ s, (shift m1 s).h = m1.h ∧ (shift m2 s).h = m2.h) :
    stitchImage shift m1 m2 b1 b2 overlap side none none norm t =
      stitchImage shift (shift m1 (if side = 1 then overlap - v else -(overlap - v))) (shift m2 (if side = 1 then -(overlap - v) else overlap - v))
        b1 b2 (v : K) side none none norm t := by
  have e1 : npRound (overlap + 1 / 1000) = (v : Int) := npRound_eq _ _ (by push_cast; exact hv)
  have e2 : npRound ((v : K) + 1 / 1000) = (v : Int) := by
    have := npRound_int_eps (K := K) (v : Int)
    rwa [Int.cast_natCast] at this
  unfold stitchImage
  dsimp only
  rw [e1, e2]
  have h1 : overlap - (((v : Nat) : Int) : K) ≠ 0 := by
    rw [Int.cast_natCast]; exact sub_ne_zero.2 hs
  have h2 : ¬ ((v : K) - (((v : Nat) : Int) : K) ≠ 0) := by simp
  rw [if_pos h1, if_pos h1, if_neg h2, if_neg h2, (hh _).1, (hh _).2, Int.cast_natCast]

/-- The same for `join_image`. -/
theorem join_shifted (shift : Mat K → K → Mat K) (m1 m2 : Mat K) (jw : K) (g : Nat) (side : Int) (norm : Bool) (t : Option Nat)
    (hv : |jw + 1 / 1000 - g| < 1 / 2) (hs : jw ≠ g) :
    JoinMany.joinReal shift m1 m2 jw side norm t =
      joinImage (shift m1 (if side = 1 then jw - g else -(jw - g))) (shift m2 (if side = 1 then -(jw - g) else jw - g)) g side norm t := by
  have e1 : npRound (jw + 1 / 1000) = (g : Int) := npRound_eq _ _ (by push_cast; exact hv)
  unfold JoinMany.joinReal
  dsimp only
  rw [e1, Int.cast_natCast, if_pos (sub_ne_zero.2 hs)]
  by_cases h : side = 1
  · rw [if_pos h, if_pos h, if_pos h]; rfl
  · rw [if_neg h, if_neg h, if_neg h]; rfl

theorem sub_small (x : K) (v : Nat) (hv : |x + 1 / 1000 - v| < 1 / 2) : |x - v| < 1 := by
  rw [abs_lt] at hv ⊢
  constructor <;> linarith [hv.1, hv.2, (by norm_num : (1 / 1000 : K) < 1 / 2), (by norm_num : (0 : K) < 1 / 1000)]

/-! ### Where the parts of the scene end up -/

/-- C163: two images of one scene, the second `L.w - overlap` columns further right, stitched with that overlap.  In the result the columns of the
left image alone are displaced by `s`, the difference between the overlap and the whole number used, those of the right image alone are not
displaced.  (Without any sub-pixel shift it would be the other way round: the parts are misaligned by `|s|` in both cases.) -/
theorem stitch_fraction (shift : Mat K → K → Mat K) (P : Nat → K → K) (hP : ExactFor shift P) (m1 m2 : Mat K) (overlap : K) (v : Nat) (side : Int)
    (hv : |overlap + 1 / 1000 - v| < 1 / 2) (hs : overlap ≠ v) (hh : m1.h = m2.h) (h1 : 1 ≤ v) (hw1 : v ≤ m1.w) (hw2 : v ≤ m2.w)
    (hL : Shows P (leftImg side m1 m2) 0) (hR : Shows P (rightImg side m1 m2) ((leftImg side m1 m2).w - overlap)) :
    ∃ out, stitchImage shift m1 m2 false false overlap side none none false none = .ok out ∧ out.h = m1.h ∧ out.w = m1.w + m2.w - v ∧
      (∀ i < out.h, ∀ q, 1 ≤ q → q + v < (leftImg side m1 m2).w → out.get i q = P i (q - (overlap - v))) ∧
      (∀ i < out.h, ∀ q, (leftImg side m1 m2).w ≤ q → q + 1 < out.w → out.get i q = P i q) := by
  obtain ⟨k1, k2⟩ := abs_lt.1 (sub_small overlap v hv)
  set s : K := overlap - v with hsdef
  have hshape : ∀ t, ((shift m1 t).h = m1.h ∧ (shift m1 t).w = m1.w) ∧ (shift m2 t).h = m2.h ∧ (shift m2 t).w = m2.w := by
    intro t
    unfold leftImg at hL
    unfold leftImg rightImg at hR
    by_cases h : side = 1
    · rw [if_pos h] at hL hR
      exact ⟨⟨(hP m1 _ t hL).1, (hP m1 _ t hL).2.1⟩, (hP m2 _ t hR).1, (hP m2 _ t hR).2.1⟩
    · rw [if_neg h] at hL hR
      exact ⟨⟨(hP m1 _ t hR).1, (hP m1 _ t hR).2.1⟩, (hP m2 _ t hL).1, (hP m2 _ t hL).2.1⟩
  rw [stitch_shifted shift m1 m2 false false overlap v side false none hv hs fun t => ⟨(hshape t).1.1, (hshape t).2.1⟩, ← hsdef]
  obtain ⟨out, ho, g1, g2, g3, g4, -⟩ := stitch_image_glues shift (shift m1 (if side = 1 then s else -s)) (shift m2 (if side = 1 then -s else s)) v side
    (by rw [(hshape _).1.1, (hshape _).2.1, hh]) h1 (by rw [(hshape _).1.2]; exact hw1) (by rw [(hshape _).2.2]; exact hw2)
  have eL : leftImg side (shift m1 (if side = 1 then s else -s)) (shift m2 (if side = 1 then -s else s)) = shift (leftImg side m1 m2) s := by
    unfold leftImg
    by_cases h : side = 1
    · rw [if_pos h, if_pos h, if_pos h]
    · rw [if_neg h, if_neg h, if_neg h]
  have eR : rightImg side (shift m1 (if side = 1 then s else -s)) (shift m2 (if side = 1 then -s else s)) = shift (rightImg side m1 m2) (-s) := by
    unfold rightImg
    by_cases h : side = 1
    · rw [if_pos h, if_pos h, if_pos h]
    · rw [if_neg h, if_neg h, if_neg h]
  rw [eL] at g1 g2 g3 g4
  rw [eR] at g2 g4
  obtain ⟨a1, a2, a3⟩ := hP _ _ s hL
  obtain ⟨b1, b2, b3⟩ := hP _ _ (-s) hR
  have hLh : (leftImg side m1 m2).h = m1.h := by unfold leftImg; split <;> simp [hh]
  have hRh : (rightImg side m1 m2).h = m1.h := by unfold rightImg; split <;> simp [hh]
  have hLR : (leftImg side m1 m2).w + (rightImg side m1 m2).w = m1.w + m2.w := by
    unfold leftImg rightImg; split <;> omega
  have hLw : v ≤ (leftImg side m1 m2).w := by unfold leftImg; split <;> omega
  rw [a1] at g1 g3 g4
  rw [a2] at g2 g3 g4
  rw [b2] at g2 g4
  generalize leftImg side m1 m2 = L at *
  generalize rightImg side m1 m2 = R at *
  refine ⟨out, ho, g1.trans hLh, by rw [g2, hLR], fun i hi q hq hq' => ?_, fun i hi q hq hq' => ?_⟩
  · rw [g3 i (g1 ▸ hi) q (by omega), a3 i (g1 ▸ hi) q (by omega) ?_ ?_]
    · rw [zero_add]
    · have : (1 : K) ≤ q := by exact_mod_cast hq
      linarith
    · have : (q : K) + 1 + 1 ≤ L.w := by exact_mod_cast (by omega : q + 1 + 1 ≤ L.w)
      linarith
  · obtain ⟨j, rfl⟩ : ∃ j, q = L.w - v + j := ⟨q - (L.w - v), by omega⟩
    have hj : v ≤ j := by omega
    have hjR : j + 1 < R.w := by omega
    rw [g4 i (g1 ▸ hi) j hj (by omega), b3 i (by rw [hRh, ← hLh]; exact g1 ▸ hi) j (by omega) ?_ ?_]
    · congr 1
      push_cast [Nat.cast_sub hLw]
      rw [hsdef]
      ring
    · have : (1 : K) ≤ j := by exact_mod_cast (by omega : 1 ≤ j)
      linarith
    · have : (j : K) + 1 + 1 ≤ R.w := by exact_mod_cast (by omega : j + 1 + 1 ≤ R.w)
      linarith

/-- C163: two images of one scene, the second `L.w + joint_width` columns further right, joined with that width.  In the result the left image is
displaced by `s`, the difference between the joint width and the whole number used, the right image by `-2 s`: they are misaligned by `3 |s|`, without the
sub-pixel shift it would be `|s|`. -/
theorem join_fraction (shift : Mat K → K → Mat K) (P : Nat → K → K) (hP : ExactFor shift P) (m1 m2 : Mat K) (jw : K) (g : Nat) (side : Int)
    (hv : |jw + 1 / 1000 - g| < 1 / 2) (hs : jw ≠ g) (hh : m1.h = m2.h) (hw1 : 4 ≤ m1.w) (hw2 : 4 ≤ m2.w)
    (hL : Shows P (leftImg side m1 m2) 0) (hR : Shows P (rightImg side m1 m2) ((leftImg side m1 m2).w + jw)) :
    ∃ out, JoinMany.joinReal shift m1 m2 jw side false none = .ok out ∧ out.h = m1.h ∧ out.w = m1.w + m2.w + g ∧
      (∀ i < out.h, ∀ q, 1 ≤ q → q + 2 < (leftImg side m1 m2).w → out.get i q = P i (q - (jw - g))) ∧
      (∀ i < out.h, ∀ q, (leftImg side m1 m2).w + g + 3 ≤ q → q + 1 < out.w → out.get i q = P i (q + 2 * (jw - g))) := by
  obtain ⟨k1, k2⟩ := abs_lt.1 (sub_small jw g hv)
  set s : K := jw - g with hsdef
  have hshape : ∀ t, ((shift m1 t).h = m1.h ∧ (shift m1 t).w = m1.w) ∧ (shift m2 t).h = m2.h ∧ (shift m2 t).w = m2.w := by
    intro t
    unfold leftImg at hL
    unfold leftImg rightImg at hR
    by_cases h : side = 1
    · rw [if_pos h] at hL hR
      exact ⟨⟨(hP m1 _ t hL).1, (hP m1 _ t hL).2.1⟩, (hP m2 _ t hR).1, (hP m2 _ t hR).2.1⟩
    · rw [if_neg h] at hL hR
      exact ⟨⟨(hP m1 _ t hR).1, (hP m1 _ t hR).2.1⟩, (hP m2 _ t hL).1, (hP m2 _ t hL).2.1⟩
  rw [join_shifted shift m1 m2 jw g side false none hv hs, ← hsdef]
  have eL : leftImg side (shift m1 (if side = 1 then s else -s)) (shift m2 (if side = 1 then -s else s)) = shift (leftImg side m1 m2) s := by
    unfold leftImg
    by_cases h : side = 1
    · rw [if_pos h, if_pos h, if_pos h]
    · rw [if_neg h, if_neg h, if_neg h]
  have eR : rightImg side (shift m1 (if side = 1 then s else -s)) (shift m2 (if side = 1 then -s else s)) = shift (rightImg side m1 m2) (-s) := by
    unfold rightImg
    by_cases h : side = 1
    · rw [if_pos h, if_pos h, if_pos h]
    · rw [if_neg h, if_neg h, if_neg h]
  obtain ⟨a1, a2, a3⟩ := hP _ _ s hL
  obtain ⟨b1, b2, b3⟩ := hP _ _ (-s) hR
  have hLh : (leftImg side m1 m2).h = m1.h := by unfold leftImg; split <;> simp [hh]
  have hRh : (rightImg side m1 m2).h = m1.h := by unfold rightImg; split <;> simp [hh]
  have hLR : (leftImg side m1 m2).w + (rightImg side m1 m2).w = m1.w + m2.w := by
    unfold leftImg rightImg; split <;> omega
  have hL4 : 4 ≤ (leftImg side m1 m2).w := by unfold leftImg; split <;> omega
  have hR4 : 4 ≤ (rightImg side m1 m2).w := by unfold rightImg; split <;> omega
  have hj := join_image_joins (shift m1 (if side = 1 then s else -s)) (shift m2 (if side = 1 then -s else s)) g side false
    (by rw [(hshape _).1.1, (hshape _).2.1, hh]) (by rw [eL, a2]; omega) (by rw [eR, b2]; omega)
  rw [show normalised (shift m1 (if side = 1 then s else -s)) (shift m2 (if side = 1 then -s else s)) side false =
    shift m2 (if side = 1 then -s else s) from rfl, eL, eR] at hj
  obtain ⟨out, ho, hJ⟩ := hj
  obtain ⟨j1, j2, j3⟩ := hJ
  rw [a1] at j1 j3
  rw [a2] at j2 j3
  rw [b2] at j2 j3
  generalize leftImg side m1 m2 = L at *
  generalize rightImg side m1 m2 = R at *
  refine ⟨out, ho, j1.trans hLh, by rw [j2, hLR], fun i hi q hq hq' => ?_, fun i hi q hq hq' => ?_⟩
  · rw [(j3 i (j1 ▸ hi)).1 q (by omega), a3 i (j1 ▸ hi) q (by omega) ?_ ?_]
    · rw [zero_add]
    · have : (1 : K) ≤ q := by exact_mod_cast hq
      linarith
    · have : (q : K) + 1 + 1 ≤ L.w := by exact_mod_cast (by omega : q + 1 + 1 ≤ L.w)
      linarith
  · obtain ⟨j, rfl⟩ : ∃ j, q = L.w + g + j := ⟨q - (L.w + g), by omega⟩
    have hjR : j + 1 < R.w := by omega
    rw [(j3 i (j1 ▸ hi)).2.1 j (by omega) (by omega), b3 i (by rw [hRh, ← hLh]; exact j1 ▸ hi) j (by omega) ?_ ?_]
    · congr 1
      push_cast
      have : jw = s + g := by rw [hsdef]; ring
      rw [this]
      ring
    · have : (1 : K) ≤ j := by exact_mod_cast (by omega : 1 ≤ j)
      linarith
    · have : (j : K) + 1 + 1 ≤ R.w := by exact_mod_cast (by omega : j + 1 + 1 ≤ R.w)
      linarith

/-! ### Axes that are not at half a pixel -/

theorem exactFor_moved (shift : Mat K → K → Mat K) (P : Nat → K → K) (hP : ExactFor shift P) (d : K) : ExactFor shift (fun i x => P i (x + d)) := by
  intro m c s hm
  have h : Shows P m (c + d) := fun i hi j hj => by
    rw [hm i hi j hj]
    show P i _ = P i _
    congr 1
    ring
  obtain ⟨h1, h2, h3⟩ := hP m (c + d) s h
  refine ⟨h1, h2, fun i hi j hj a b => ?_⟩
  rw [h3 i hi j hj a b]
  show P i _ = P i _
  congr 1
  ring

/-- An ideal scan over 360 degrees about the position `c`: row `i` of the first half shows `P i` of the offset from the axis, the row `n` below shows its
mirror image. -/
def ScanAbout (P : Nat → K → K) (sino : Mat K) (c : K) (n : Nat) : Prop :=
  ∀ i ≤ n, ∀ x < sino.w, (i < sino.h → sino.get i x = P i (x - c)) ∧ (i + n < sino.h → sino.get (i + n) x = P i (c - x))

/-- C18: axis at any position whose overlap is not a whole number.  The number of rows, the width and the returned centre are as for whole overlaps, but
left of the stitched part the scan appears displaced by `s/2` in one direction and right of it by `s/2` in the other, `s` the difference between the
overlap and the whole number used. -/
theorem convert_360_fraction (shift : Mat K → K → Mat K) (P : Nat → K → K) (hP : ExactFor shift P) (sino : Mat K) (m : Nat) (hm : sino.h = 2 * m + 1)
    (cor : K) (v : Nat) (s : K) (hs : (overlapOfCor sino.w cor).1 = v + s) (hs0 : s ≠ 0) (hsv : |s + 1 / 1000| < 1 / 2) (hv1 : 1 ≤ v) (hvw : v ≤ sino.w)
    (hS : ScanAbout P sino cor m) :
    ∃ out c', convert360to180 shift sino false cor none none false none = .ok (out, c') ∧ out.h = m + 1 ∧ out.w = 2 * sino.w - v ∧ c' = ((out.w : K) - 1) / 2 ∧
      (∀ i < out.h, ∀ q, 1 ≤ q → q + v < sino.w → out.get i q = P i (q - c' - s / 2)) ∧
      (∀ i < out.h, ∀ q, sino.w ≤ q → q + 1 < out.w → out.get i q = P i (q - c' + s / 2)) := by
  set top := sino.rows 0 (min (sino.h / 2 + 1) sino.h) with htop
  set bot := (sino.rows (sino.h - (sino.h / 2 + 1)) sino.h).fliplr with hbot
  have hth : top.h = m + 1 := by simp only [htop, Mat.rows]; omega
  have hbh : bot.h = m + 1 := by simp only [hbot, Mat.rows, Mat.fliplr]; omega
  have htw : top.w = sino.w := rfl
  have hbw : bot.w = sino.w := rfl
  have htg : ∀ i < m + 1, ∀ x < sino.w, top.get i x = P i (x - cor) := by
    intro i hi x hx
    have := (hS i (by omega) x hx).1 (by omega)
    rw [← this]
    show sino.get (0 + i) x = _
    rw [Nat.zero_add]
  have hbg : ∀ i < m + 1, ∀ x < sino.w, bot.get i x = P i (x - ((sino.w : K) - 1 - cor)) := by
    intro i hi x hx
    have h := (hS i (by omega) (sino.w - 1 - x) (by omega)).2 (by omega)
    have e : bot.get i x = sino.get (i + m) (sino.w - 1 - x) := by
      show sino.get (sino.h - (sino.h / 2 + 1) + i) (sino.w - 1 - x) = _
      congr 1
      omega
    rw [e, h]
    congr 1
    rw [Nat.cast_sub (by omega), Nat.cast_sub (by omega)]
    push_cast
    ring
  have hr : npRound ((overlapOfCor sino.w cor).1 + 1 / 1000) = (v : Int) := npRound_eq _ _ (by
    rw [hs]
    push_cast
    rw [show (v : K) + s + 1 / 1000 - v = s + 1 / 1000 by ring]
    exact hsv)
  -- the scene seen from the left image
  have main : ∀ (side : Int) (d : K), (overlapOfCor sino.w cor).2 = side → d = (if side = 1 then cor else (sino.w : K) - 1 - cor) →
      (if side = 1 then 2 * ((sino.w : K) - cor) - 1 else 2 * cor + 1) = (v : K) + s →
      ∃ out c', convert360to180 shift sino false cor none none false none = .ok (out, c') ∧ out.h = m + 1 ∧ out.w = 2 * sino.w - v ∧ c' = ((out.w : K) - 1) / 2 ∧
      (∀ i < out.h, ∀ q, 1 ≤ q → q + v < sino.w → out.get i q = P i (q - c' - s / 2)) ∧
      (∀ i < out.h, ∀ q, sino.w ≤ q → q + 1 < out.w → out.get i q = P i (q - c' + s / 2)) := by
    intro side d hside hd hov
    have hL : (leftImg side top bot).w = sino.w := by unfold leftImg; split <;> rfl
    obtain ⟨out, ho, o1, o2, o3, o4⟩ := stitch_fraction shift (fun i x => P i (x + -d)) (exactFor_moved shift P hP (-d)) top bot ((v : K) + s) v side
      (by rw [show (v : K) + s + 1 / 1000 - v = s + 1 / 1000 by ring]; exact hsv)
      (fun h => hs0 (by linear_combination h)) (hth.trans hbh.symm) hv1 hvw hvw
      (fun i hi j hj => by
        show _ = P i _
        by_cases h : side = 1
        · rw [show leftImg side top bot = top from if_pos h] at hi hj ⊢
          rw [htg i (hth ▸ hi) j hj, hd, if_pos h]
          congr 1
          ring
        · rw [show leftImg side top bot = bot from if_neg h] at hi hj ⊢
          rw [hbg i (hbh ▸ hi) j hj, hd, if_neg h]
          congr 1
          ring)
      (fun i hi j hj => by
        show _ = P i _
        rw [hL]
        by_cases h : side = 1
        · rw [show rightImg side top bot = bot from if_pos h] at hi hj ⊢
          rw [if_pos h] at hov hd
          rw [hbg i (hbh ▸ hi) j hj, hd, ← hov]
          congr 1
          ring
        · rw [show rightImg side top bot = top from if_neg h] at hi hj ⊢
          rw [if_neg h] at hov hd
          rw [htg i (hth ▸ hi) j hj, hd, ← hov]
          congr 1
          ring)
    rw [hL] at o3 o4
    have ow : out.w = 2 * sino.w - v := by rw [o2, htw, hbw]; omega
    have hc' : (sino.w : K) - ((v : Int) : K) / 2 - 1 / 2 = ((out.w : K) - 1) / 2 := by
      rw [ow, Nat.cast_sub (by omega)]
      push_cast
      ring
    refine ⟨out, (sino.w : K) - ((v : Int) : K) / 2 - 1 / 2, ?_, o1.trans hth, ow, hc', fun i hi q h1 h2 => ?_, fun i hi q h1 h2 => ?_⟩
    · unfold convert360to180
      dsimp only
      rw [hr, hs, hside, ← htop, ← hbot, ho]
    · rw [o3 i hi q h1 h2]
      show P i _ = P i _
      congr 1
      rw [Int.cast_natCast]
      by_cases h : side = 1
      · rw [if_pos h] at hov hd
        linear_combination (-1 : K) * hd + 1 / 2 * hov
      · rw [if_neg h] at hov hd
        linear_combination (-1 : K) * hd + 1 / 2 * hov
    · rw [o4 i hi q h1 h2]
      show P i _ = P i _
      congr 1
      rw [Int.cast_natCast]
      by_cases h : side = 1
      · rw [if_pos h] at hov hd
        linear_combination (-1 : K) * hd + 1 / 2 * hov
      · rw [if_neg h] at hov hd
        linear_combination (-1 : K) * hd + 1 / 2 * hov
  by_cases hc : cor ≤ ((sino.w : K) - 1) * (1 / 2)
  · have e : overlapOfCor sino.w cor = (2 * cor + 1, 0) := if_pos hc
    rw [e] at hs
    exact main 0 _ (by rw [e]) rfl (by rw [if_neg (by decide)]; exact hs)
  · have e : overlapOfCor sino.w cor = (2 * ((sino.w : K) - cor) - 1, 1) := if_neg hc
    rw [e] at hs
    exact main 1 _ (by rw [e]) rfl (by rw [if_pos rfl]; exact hs)

/-- C19: the same for `extend_sinogram`: outside the overlap the doubled sinogram shows the scan about a position `s/2` away from the centre returned. -/
theorem extend_fraction (shift : Mat K → K → Mat K) (P : Nat → K → K) (hP : ExactFor shift P) (sino : Mat K)
    (cor : K) (v : Nat) (s : K) (hs : (overlapOfCor sino.w cor).1 = v + s) (hs0 : s ≠ 0) (hsv : |s + 1 / 1000| < 1 / 2) (hv1 : 1 ≤ v) (hvw : v ≤ sino.w)
    (hS : ∀ i < sino.h, ∀ x < sino.w, sino.get i x = P i (x - cor)) :
    ∃ out c', extendSinogram shift sino cor = .ok (out, c') ∧ out.h = sino.h ∧ out.w = 2 * sino.w - v ∧ c' = ((out.w : K) - 1) / 2 ∧
      (((sino.w : K) - 1) * (1 / 2) < cor → ∀ i < out.h, ∀ q, 1 ≤ q → q + v < sino.w → out.get i q = 2 * P i (q - c' - s / 2)) ∧
      (cor ≤ ((sino.w : K) - 1) * (1 / 2) → ∀ i < out.h, ∀ q, sino.w ≤ q → q + 1 < out.w → out.get i q = 2 * P i (q - c' + s / 2)) := by
  have hr : npRound ((overlapOfCor sino.w cor).1 + 1 / 1000) = (v : Int) := npRound_eq _ _ (by
    rw [hs]
    push_cast
    rw [show (v : K) + s + 1 / 1000 - v = s + 1 / 1000 by ring]
    exact hsv)
  have hsm : |s| < 1 := by
    have := sub_small (v + s) v (by rw [show (v : K) + s + 1 / 1000 - v = s + 1 / 1000 by ring]; exact hsv)
    rwa [show (v : K) + s - v = s by ring] at this
  obtain ⟨k1, k2⟩ := abs_lt.1 hsm
  have hsub : (overlapOfCor sino.w cor).1 - ((v : Int) : K) = s := by rw [hs, Int.cast_natCast]; ring
  have hShows : Shows P sino (-cor) := fun i hi j hj => by
    rw [hS i hi j hj]
    congr 1
    ring
  unfold extendSinogram
  dsimp only
  rw [hr, hsub, if_neg (by omega), Int.toNat_natCast, Int.cast_natCast]
  by_cases hc : cor ≤ ((sino.w : K) - 1) * (1 / 2)
  · have e : overlapOfCor sino.w cor = (2 * cor + 1, 0) := if_pos hc
    rw [e] at hs
    rw [e, if_neg (show ¬ ((0 : Int) = 1) by decide), if_pos hs0]
    obtain ⟨a1, a2, a3⟩ := hP sino _ (-s) hShows
    refine ⟨_, _, rfl, ?_, ?_, ?_, fun h => absurd hc (not_le.2 h), fun _ i hi q h1 h2 => ?_⟩
    · show (shift sino (-s)).h = _
      exact a1
    · show (shift sino (-s)).w + (sino.w - v) = _
      rw [a2]; omega
    · show _ = ((((shift sino (-s)).w + (sino.w - v) : Nat) : K) - 1) / 2
      rw [a2]
      push_cast [Nat.cast_sub hvw]
      ring
    · have hi' : i < sino.h := a1 ▸ hi
      have h2' : q + 1 < sino.w - v + sino.w := by
        have : q + 1 < (shift sino (-s)).w + (sino.w - v) := h2
        rw [a2] at this
        omega
      obtain ⟨j, rfl⟩ : ∃ j, q = sino.w - v + j := ⟨q - (sino.w - v), by omega⟩
      have hj : v ≤ j := by omega
      have key : (shift sino (-s)).get i j = P i (((sino.w - v + j : Nat) : K) - ((sino.w : K) - (v : K) / 2 - 1 / 2) + s / 2) := by
        rw [a3 i hi' j (by omega) ?_ ?_]
        · congr 1
          push_cast [Nat.cast_sub hvw]
          linear_combination (-1 / 2 : K) * hs
        · have : (1 : K) ≤ j := by exact_mod_cast (by omega : 1 ≤ j)
          linarith
        · have : (j : K) + 1 + 1 ≤ sino.w := by exact_mod_cast (by omega : j + 1 + 1 ≤ sino.w)
          linarith
      rw [← key]
      show 2 * (if sino.w - v + j - (sino.w - v) < v then _ else (shift sino (-s)).get i (sino.w - v + j - (sino.w - v))) = _
      rw [Nat.add_sub_cancel_left, if_neg (by omega)]
  · have e : overlapOfCor sino.w cor = (2 * ((sino.w : K) - cor) - 1, 1) := if_neg hc
    rw [e] at hs
    rw [e, if_pos rfl, if_pos hs0]
    obtain ⟨a1, a2, a3⟩ := hP sino _ s hShows
    refine ⟨_, _, rfl, ?_, ?_, ?_, fun _ i hi q h1 h2 => ?_, fun h => absurd h hc⟩
    · show (shift sino s).h = _
      exact a1
    · show (shift sino s).w + (sino.w - v) = _
      rw [a2]; omega
    · show _ = ((((shift sino s).w + (sino.w - v) : Nat) : K) - 1) / 2
      rw [a2]
      push_cast [Nat.cast_sub hvw]
      ring
    · have hi' : i < sino.h := a1 ▸ hi
      have key : (shift sino s).get i q = P i ((q : K) - ((sino.w : K) - (v : K) / 2 - 1 / 2) - s / 2) := by
        rw [a3 i hi' q (by omega) ?_ ?_]
        · congr 1
          have : 2 * ((sino.w : K) - cor) - 1 = v + s := hs
          linear_combination (1 / 2 : K) * this
        · have : (1 : K) ≤ q := by exact_mod_cast h1
          linarith
        · have : (q : K) + 1 + 1 ≤ sino.w := by exact_mod_cast (by omega : q + 1 + 1 ≤ sino.w)
          linarith
      rw [← key]
      show 2 * (if (shift sino s).w - v ≤ min q ((shift sino s).w - 1) then _ else (shift sino s).get i (min q ((shift sino s).w - 1))) = _
      rw [a2, Nat.min_eq_left (by omega), if_neg (by omega)]

/-! ### The claim fails -/

/-- For a scene with a gradient, two columns displaced by different amounts do not show one scene. -/
theorem not_oneScene (P : Nat → K → K) (a b : K) (ha : a ≠ 0) (hP : ∀ i x, P i x = a * x + b) (out : Mat K) (i q q' : Nat) (d d' : K) (hd : d ≠ d')
    (h : out.get i q = P i (q - d)) (h' : out.get i q' = P i (q' - d')) : ¬ OneScene P out i q q' := by
  rintro ⟨e, he, he'⟩
  rw [h, hP, hP] at he
  rw [h', hP, hP] at he'
  have h1 : a * (e - d) = 0 := by linear_combination he
  have h2 : a * (e - d') = 0 := by linear_combination he'
  have h3 := (mul_eq_zero.1 h1).resolve_left ha
  have h4 := (mul_eq_zero.1 h2).resolve_left ha
  exact hd (by linear_combination h4 - h3)

/-- C163 is false of `stitch_image`: for every overlap that is not a whole number and every scene with a gradient, the part of the result taken from the left
image and the part taken from the right image show the scene with different offsets. -/
theorem stitch_fraction_refuted (shift : Mat K → K → Mat K) (P : Nat → K → K) (hP : ExactFor shift P) (a b : K) (ha : a ≠ 0)
    (hA : ∀ i x, P i x = a * x + b) (m1 m2 : Mat K) (overlap : K) (v : Nat) (side : Int)
    (hv : |overlap + 1 / 1000 - v| < 1 / 2) (hs : overlap ≠ v) (hh : m1.h = m2.h) (h1 : 1 ≤ v) (hw1 : v ≤ m1.w) (hw2 : v ≤ m2.w)
    (hL : Shows P (leftImg side m1 m2) 0) (hR : Shows P (rightImg side m1 m2) ((leftImg side m1 m2).w - overlap)) :
    ∃ out, stitchImage shift m1 m2 false false overlap side none none false none = .ok out ∧
      ∀ i < out.h, ∀ q, 1 ≤ q → q + v < (leftImg side m1 m2).w → ∀ q', (leftImg side m1 m2).w ≤ q' → q' + 1 < out.w → ¬ OneScene P out i q q' := by
  obtain ⟨out, ho, -, -, g1, g2⟩ := stitch_fraction shift P hP m1 m2 overlap v side hv hs hh h1 hw1 hw2 hL hR
  exact ⟨out, ho, fun i hi q hq hq' q' hr hr' => not_oneScene P a b ha hA out i q q' (overlap - v) 0 (sub_ne_zero.2 hs) (g1 i hi q hq hq')
    (by rw [sub_zero]; exact g2 i hi q' hr hr')⟩

/-- C163 is false of `join_image`. -/
theorem join_fraction_refuted (shift : Mat K → K → Mat K) (P : Nat → K → K) (hP : ExactFor shift P) (a b : K) (ha : a ≠ 0)
    (hA : ∀ i x, P i x = a * x + b) (m1 m2 : Mat K) (jw : K) (g : Nat) (side : Int)
    (hv : |jw + 1 / 1000 - g| < 1 / 2) (hs : jw ≠ g) (hh : m1.h = m2.h) (hw1 : 4 ≤ m1.w) (hw2 : 4 ≤ m2.w)
    (hL : Shows P (leftImg side m1 m2) 0) (hR : Shows P (rightImg side m1 m2) ((leftImg side m1 m2).w + jw)) :
    ∃ out, JoinMany.joinReal shift m1 m2 jw side false none = .ok out ∧
      ∀ i < out.h, ∀ q, 1 ≤ q → q + 2 < (leftImg side m1 m2).w → ∀ q', (leftImg side m1 m2).w + g + 3 ≤ q' → q' + 1 < out.w →
        ¬ OneScene P out i q q' := by
  obtain ⟨out, ho, -, -, g1, g2⟩ := join_fraction shift P hP m1 m2 jw g side hv hs hh hw1 hw2 hL hR
  refine ⟨out, ho, fun i hi q hq hq' q' hr hr' => not_oneScene P a b ha hA out i q q' (jw - g) (-2 * (jw - g)) ?_ (g1 i hi q hq hq') ?_⟩
  · intro h
    have : 3 * (jw - g) = 0 := by linear_combination h
    exact sub_ne_zero.2 hs ((mul_eq_zero.1 this).resolve_left (by norm_num))
  · rw [g2 i hi q' hr hr']
    congr 1
    ring

/-! ### The hypotheses can be met -/

/-- Linear interpolation between neighbouring columns. -/
def linShift (m : Mat K) (s : K) : Mat K :=
  ⟨m.h, m.w, fun i j => m.get i (⌊(j : K) - s⌋.toNat) * (1 - Int.fract ((j : K) - s)) + m.get i (⌊(j : K) - s⌋.toNat + 1) * Int.fract ((j : K) - s)⟩

/-- It is exact for scenes with a constant gradient. -/
theorem linShift_exact (a b : Nat → K) : ExactFor linShift (fun i x => a i * x + b i) := by
  intro m c s hm
  refine ⟨rfl, rfl, fun i hi j hj h0 h1 => ?_⟩
  show m.get i (⌊(j : K) - s⌋.toNat) * (1 - Int.fract ((j : K) - s)) + m.get i (⌊(j : K) - s⌋.toNat + 1) * Int.fract ((j : K) - s) = _
  obtain ⟨n, hn⟩ : ∃ n : Nat, ⌊(j : K) - s⌋ = n := ⟨_, (Int.toNat_of_nonneg (Int.floor_nonneg.2 h0)).symm⟩
  have hf : (j : K) - s = n + Int.fract ((j : K) - s) := by
    have := Int.floor_add_fract ((j : K) - s)
    rw [hn, Int.cast_natCast] at this
    exact this.symm
  have hf0 := Int.fract_nonneg ((j : K) - s)
  rw [hn, Int.toNat_natCast]
  generalize Int.fract ((j : K) - s) = f at *
  have hnw : n < m.w := by
    have : (n : K) < m.w := by linarith
    exact_mod_cast this
  rw [hm i hi n hnw]
  by_cases hn1 : n + 1 < m.w
  · rw [hm i hi (n + 1) hn1]
    have : s = j - n - f := by linear_combination -hf
    rw [this]
    push_cast
    ring
  · have e : (m.w : K) = n + 1 := by exact_mod_cast (by omega : m.w = n + 1)
    have f0 : f = 0 := by linarith
    subst f0
    have : s = j - n := by linear_combination -hf
    rw [this]
    ring

/-- Two images 6 columns wide of the scene `x ↦ 2 x`, overlapping by 2.25 columns; or 1.25 columns apart. -/
example : ∃ out, stitchImage linShift ⟨1, 6, fun _ j => 2 * (j : ℚ)⟩ ⟨1, 6, fun _ j => 2 * ((j : ℚ) + 15 / 4)⟩ false false (9 / 4) 1 none none false none = .ok out ∧
    ¬ OneScene (fun _ x => 2 * x) out 0 2 8 := by
  obtain ⟨out, ho, h⟩ := stitch_fraction_refuted linShift (fun _ (x : ℚ) => 2 * x + 0) (linShift_exact (fun _ => 2) fun _ => 0) 2 0 (by norm_num) (fun _ _ => rfl)
    ⟨1, 6, fun _ j => 2 * (j : ℚ)⟩ ⟨1, 6, fun _ j => 2 * ((j : ℚ) + 15 / 4)⟩ (9 / 4) 2 1 (by rw [abs_lt]; norm_num) (by norm_num) rfl (by decide) (by decide)
    (by decide) (fun i _ j _ => by show (2 * (j : ℚ)) = _; ring) (fun i _ j _ => by show (2 * ((j : ℚ) + 15 / 4)) = _; simp [leftImg]; ring)
  obtain ⟨out', ho', e1, e2, -⟩ := stitch_fraction linShift (fun _ (x : ℚ) => 2 * x + 0) (linShift_exact (fun _ => 2) fun _ => 0)
    ⟨1, 6, fun _ j => 2 * (j : ℚ)⟩ ⟨1, 6, fun _ j => 2 * ((j : ℚ) + 15 / 4)⟩ (9 / 4) 2 1 (by rw [abs_lt]; norm_num) (by norm_num) rfl (by decide) (by decide)
    (by decide) (fun i _ j _ => by show (2 * (j : ℚ)) = _; ring) (fun i _ j _ => by show (2 * ((j : ℚ) + 15 / 4)) = _; simp [leftImg]; ring)
  obtain rfl := Except.ok.inj (ho.symm.trans ho')
  refine ⟨out, ho, fun hO => h 0 (by rw [e1]; decide) 2 (by decide) (by decide) 8 (by decide) (by rw [e2]; decide) ?_⟩
  simpa [OneScene] using hO

example : ∃ out, JoinMany.joinReal linShift ⟨1, 6, fun _ j => 2 * (j : ℚ)⟩ ⟨1, 6, fun _ j => 2 * ((j : ℚ) + 29 / 4)⟩ (5 / 4) 1 false none = .ok out ∧
    ¬ OneScene (fun _ x => 2 * x) out 0 2 11 := by
  obtain ⟨out, ho, h⟩ := join_fraction_refuted linShift (fun _ (x : ℚ) => 2 * x + 0) (linShift_exact (fun _ => 2) fun _ => 0) 2 0 (by norm_num) (fun _ _ => rfl)
    ⟨1, 6, fun _ j => 2 * (j : ℚ)⟩ ⟨1, 6, fun _ j => 2 * ((j : ℚ) + 29 / 4)⟩ (5 / 4) 1 1 (by rw [abs_lt]; norm_num) (by norm_num) rfl (by decide) (by decide)
    (fun i _ j _ => by show (2 * (j : ℚ)) = _; ring) (fun i _ j _ => by show (2 * ((j : ℚ) + 29 / 4)) = _; simp [leftImg]; ring)
  obtain ⟨out', ho', e1, e2, -⟩ := join_fraction linShift (fun _ (x : ℚ) => 2 * x + 0) (linShift_exact (fun _ => 2) fun _ => 0)
    ⟨1, 6, fun _ j => 2 * (j : ℚ)⟩ ⟨1, 6, fun _ j => 2 * ((j : ℚ) + 29 / 4)⟩ (5 / 4) 1 1 (by rw [abs_lt]; norm_num) (by norm_num) rfl (by decide) (by decide)
    (fun i _ j _ => by show (2 * (j : ℚ)) = _; ring) (fun i _ j _ => by show (2 * ((j : ℚ) + 29 / 4)) = _; simp [leftImg]; ring)
  obtain rfl := Except.ok.inj (ho.symm.trans ho')
  refine ⟨out, ho, fun hO => h 0 (by rw [e1]; decide) 2 (by decide) (by decide) 11 (by decide) (by rw [e2]; decide) ?_⟩
  simpa [OneScene] using hO

/-- C18 is false of the code when the overlap is not a whole number: for every scan one of whose rows has a gradient, the converted sinogram does not show
that row on both sides of the returned centre. -/
theorem convert_360_fraction_refuted (shift : Mat K → K → Mat K) (P : Nat → K → K) (hP : ExactFor shift P) (sino : Mat K) (m : Nat) (hm : sino.h = 2 * m + 1)
    (cor : K) (v : Nat) (s : K) (hs : (overlapOfCor sino.w cor).1 = v + s) (hs0 : s ≠ 0) (hsv : |s + 1 / 1000| < 1 / 2) (hv1 : 1 ≤ v) (hvw : v + 1 < sino.w)
    (hS : ScanAbout P sino cor m) (i : Nat) (hi : i ≤ m) (a b : K) (ha : a ≠ 0) (hA : ∀ x, P i x = a * x + b) :
    ∃ out c', convert360to180 shift sino false cor none none false none = .ok (out, c') ∧ ∃ x < out.w, out.get i x ≠ P i (x - c') := by
  obtain ⟨out, c', ho, h1, h2, -, h4, -⟩ := convert_360_fraction shift P hP sino m hm cor v s hs hs0 hsv hv1 (by omega) hS
  refine ⟨out, c', ho, 1, by omega, ?_⟩
  rw [h4 i (by omega) 1 le_rfl (by omega), hA, hA]
  intro h
  have : a * s = 0 := by linear_combination (-2 : K) * h
  exact (mul_ne_zero ha hs0) this

/-- The hypotheses can be met: three rows, axis at 1.125 of six columns, overlap 3.25. -/
example : ∃ out c', convert360to180 linShift (⟨3, 6, fun i x => if i = 1 then 9 / 8 - (x : ℚ) else x - 9 / 8⟩ : Mat ℚ) false (9 / 8) none none false none = .ok (out, c') ∧
    ∃ x < out.w, out.get 0 x ≠ 1 * ((x : ℚ) - c') + 0 :=
  convert_360_fraction_refuted linShift (fun i x => (if i = 0 then 1 else -1) * x + 0) (linShift_exact _ fun _ => 0) _ 1 rfl (9 / 8) 3 (1 / 4)
    (by unfold overlapOfCor; norm_num) (by norm_num) (by rw [abs_lt]; norm_num) (by decide) (by decide)
    (by
      intro i hi x _
      obtain rfl | rfl : i = 0 ∨ i = 1 := by omega
      · exact ⟨fun _ => by simp, fun _ => by simp⟩
      · exact ⟨fun _ => by simp, fun _ => by simp⟩) 0 (by decide) 1 0 one_ne_zero (fun x => by simp)

end Verif.Stitch
