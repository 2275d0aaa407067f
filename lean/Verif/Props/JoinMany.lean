import Verif.Model.JoinMany
import Verif.Props.Stitch
import Mathlib.Algebra.Order.Floor.Ring
import Mathlib.Data.Rat.Floor

/-!
C158: joining several images.
-/

set_option linter.unusedSectionVars false
set_option linter.unusedSimpArgs false

namespace Verif.JoinMany
open Verif.Stitch

variable {K : Type _} [Field K] [LinearOrder K] [IsStrictOrderedRing K] [FloorRing K]

/-! ### specification -/

/-- First column of image `n` when the images are placed side by side with their gaps. -/
def start (m : Nat → Mat K) (g : Nat → Nat) : Nat → Nat
  | 0 => 0
  | n + 1 => start m g n + (m n).w + g n

/-- The factor of image `n`: with `norm` the three columns on the right of a seam get the mean of the three on its left. -/
def factor (m : Nat → Mat K) (norm : Bool) : Nat → K
  | 0 => 1
  | n + 1 => if norm then factor m norm n * meanCols (m n) ((m n).w - 3) (m n).w / meanCols (m (n + 1)) 0 3 else 1

/-- `out` holds the images `0 .. k` side by side: own columns (times the factor) away from the seams, and in the seam (two columns of the left image, the gap,
three columns of the right one) the straight line between the columns next to it. -/
structure Laid (m : Nat → Mat K) (g : Nat → Nat) (f : Nat → K) (k : Nat) (out : Mat K) : Prop where
  rows : out.h = (m 0).h
  width : out.w = start m g k + (m k).w
  own : ∀ i < out.h, ∀ q ≤ k, ∀ j < (m q).w, (q = 0 ∨ 3 ≤ j) → (q = k ∨ j + 2 < (m q).w) → out.get i (start m g q + j) = f q * (m q).get i j
  seam : ∀ i < out.h, ∀ q < k, ∀ t, 0 < t → t < g q + 6 → out.get i (start m g q + ((m q).w - 3) + t) * ((g q : K) + 6) =
    f q * (m q).get i ((m q).w - 3) * ((g q : K) + 6 - t) + f (q + 1) * (m (q + 1)).get i 3 * (t : K)

/-! ### one join -/

/-- For a whole number the images are not shifted. -/
theorem join_whole (shift : Mat K → K → Mat K) (m1 m2 : Mat K) (g : Nat) (side : Int) (norm : Bool) (tw : Option Nat) :
    joinReal shift m1 m2 (g : K) side norm tw = joinImage m1 m2 g side norm tw := by
  have e : npRound ((g : K) + 1 / 1000) = (g : Int) := by
    have := npRound_int_eps (K := K) (g : Int)
    push_cast at this
    exact this
  unfold joinReal
  dsimp only
  rw [e, if_neg]
  · rfl
  · push_cast
    simp

theorem joinImage_shape (m1 m2 : Mat K) (g : Nat) (side : Int) (norm : Bool) :
    (m1.h ≠ m2.h → joinImage m1 m2 g side norm none = .error .valueError) ∧
    (m1.h = m2.h → ∃ out, joinImage m1 m2 g side norm none = .ok out ∧ out.h = m1.h ∧ out.w = m1.w + m2.w + g) := by
  constructor
  · intro h
    unfold joinImage
    rw [if_pos h]
  · intro h
    unfold joinImage
    rw [if_neg (not_not.2 h)]
    exact ⟨_, rfl, rfl, rfl⟩

/-- **C158.** For every joint width that is not negative the result has the width of the images plus the joint width, rounded half up to a thousandth. -/
theorem join_width (shift : Mat K → K → Mat K) (hs : ∀ m s, (shift m s).h = m.h ∧ (shift m s).w = m.w) (m1 m2 : Mat K) (jw : K) (h0 : 0 ≤ jw) (side : Int) (norm : Bool) :
    (m1.h ≠ m2.h → joinReal shift m1 m2 jw side norm none = .error .valueError) ∧
    (m1.h = m2.h → ∃ out, joinReal shift m1 m2 jw side norm none = .ok out ∧ out.h = m1.h ∧
      |((out.w : K) - m1.w - m2.w) - (jw + 1 / 1000)| ≤ 1 / 2) := by
  have hg : 0 ≤ npRound (jw + 1 / 1000) := by
    have h1 := npRound_abs (jw + 1 / 1000)
    rw [abs_le] at h1
    by_contra hc
    have h2 : npRound (jw + 1 / 1000) ≤ -1 := by omega
    have h3 : ((npRound (jw + 1 / 1000) : Int) : K) ≤ -1 := by exact_mod_cast h2
    have h4 : (0 : K) < 1 / 1000 := by norm_num
    linarith [h1.1]
  have hw : ∀ a b c : Nat, c = a + b + (npRound (jw + 1 / 1000)).toNat → |((c : K) - a - b) - (jw + 1 / 1000)| ≤ 1 / 2 := by
    rintro a b c rfl
    have e : (((npRound (jw + 1 / 1000)).toNat : Nat) : K) = ((npRound (jw + 1 / 1000) : Int) : K) := by
      have : (((npRound (jw + 1 / 1000)).toNat : Nat) : Int) = npRound (jw + 1 / 1000) := Int.toNat_of_nonneg hg
      rw [← this]
      push_cast
      rfl
    push_cast
    rw [e]
    have := npRound_abs (jw + 1 / 1000)
    rw [show (a : K) + b + (npRound (jw + 1 / 1000) : K) - a - b - (jw + 1 / 1000) = (npRound (jw + 1 / 1000) : K) - (jw + 1 / 1000) by ring]
    exact this
  have key : ∀ x y : Mat K, x.h = m1.h → x.w = m1.w → y.h = m2.h → y.w = m2.w → ∀ s : Int,
      (m1.h ≠ m2.h → joinImage x y (npRound (jw + 1 / 1000)).toNat s norm none = .error .valueError) ∧
      (m1.h = m2.h → ∃ out, joinImage x y (npRound (jw + 1 / 1000)).toNat s norm none = .ok out ∧ out.h = m1.h ∧
        |((out.w : K) - m1.w - m2.w) - (jw + 1 / 1000)| ≤ 1 / 2) := by
    intro x y x1 x2 y1 y2 s
    obtain ⟨a, b⟩ := joinImage_shape x y (npRound (jw + 1 / 1000)).toNat s norm
    refine ⟨fun h => a (by rw [x1, y1]; exact h), fun h => ?_⟩
    obtain ⟨out, e1, e2, e3⟩ := b (by rw [x1, y1]; exact h)
    exact ⟨out, e1, by rw [e2, x1], hw _ _ _ (by rw [e3, x2, y2])⟩
  unfold joinReal
  dsimp only
  split
  · split
    · exact key _ _ (hs _ _).1 (hs _ _).2 (hs _ _).1 (hs _ _).2 _
    · exact key _ _ (hs _ _).1 (hs _ _).2 (hs _ _).1 (hs _ _).2 _
  · exact key _ _ rfl rfl rfl rfl _

/-! ### several images -/

theorem loop_ok (shift : Mat K → K → Mat K) (hs : ∀ m s, (shift m s).h = m.h ∧ (shift m s).w = m.w) (norm : Bool) (ms : List (Mat K)) :
    ∀ (acc : Mat K) (js : List (K × Int)), (∀ j ∈ js, 0 ≤ j.1) →
      ((∃ out, joinLoop shift norm acc ms js = .ok out) ↔ ms.length ≤ js.length ∧ ∀ m ∈ ms, m.h = acc.h) := by
  induction ms with
  | nil =>
    intro acc js _
    exact ⟨fun _ => ⟨Nat.zero_le _, fun m hm => by cases hm⟩, fun _ => ⟨acc, rfl⟩⟩
  | cons m ms ih =>
    intro acc js hj
    cases js with
    | nil =>
      refine ⟨?_, fun h => absurd h.1 (by simp)⟩
      rintro ⟨out, h⟩
      cases h
    | cons j js =>
      obtain ⟨a, b⟩ := join_width shift hs acc m j.1 (hj j List.mem_cons_self) j.2 norm
      by_cases hh : acc.h = m.h
      · obtain ⟨o, e1, e2, -⟩ := b hh
        have e : joinLoop shift norm acc (m :: ms) (j :: js) = joinLoop shift norm o ms js := by
          show (joinReal shift acc m j.1 j.2 norm none).bind _ = _
          rw [e1]
          rfl
        rw [e, ih o js fun x hx => hj x (List.mem_cons_of_mem _ hx)]
        rw [List.length_cons, List.length_cons, e2]
        constructor
        · rintro ⟨h1, h2⟩
          exact ⟨by omega, fun x hx => by
            rcases List.mem_cons.1 hx with rfl | hx
            · exact hh.symm
            · exact h2 x hx⟩
        · rintro ⟨h1, h2⟩
          exact ⟨by omega, fun x hx => h2 x (List.mem_cons_of_mem _ hx)⟩
      · constructor
        · rintro ⟨out, h⟩
          change (joinReal shift acc m j.1 j.2 norm none).bind _ = _ at h
          rw [a hh] at h
          cases h
        · rintro ⟨-, h⟩
          exact absurd (h m List.mem_cons_self).symm hh

/-- **C158.** Joining succeeds exactly for two or more images of the same height with a joint for each neighbouring pair. -/
theorem join_many_ok (shift : Mat K → K → Mat K) (hs : ∀ m s, (shift m s).h = m.h ∧ (shift m s).w = m.w) (norm : Bool) (tw : Option Nat) (ms : List (Mat K))
    (js : List (K × Int)) (hj : ∀ j ∈ js, 0 ≤ j.1) :
    (∃ out, joinMany shift norm tw ms js = .ok out) ↔ 2 ≤ ms.length ∧ ms.length ≤ js.length + 1 ∧ ∀ m ∈ ms, ∀ m' ∈ ms, m.h = m'.h := by
  match ms with
  | [] =>
    refine ⟨?_, fun h => absurd h.1 (by simp)⟩
    rintro ⟨out, h⟩
    cases h
  | [m] =>
    refine ⟨?_, fun h => absurd h.1 (by simp)⟩
    rintro ⟨out, h⟩
    cases h
  | m0 :: m1 :: ms =>
    have e : (∃ out, joinMany shift norm tw (m0 :: m1 :: ms) js = .ok out) ↔ ∃ out, joinLoop shift norm m0 (m1 :: ms) js = .ok out := by
      show (∃ out, (joinLoop shift norm m0 (m1 :: ms) js).map (padTo tw) = .ok out) ↔ _
      cases joinLoop shift norm m0 (m1 :: ms) js with
      | ok o => exact ⟨fun _ => ⟨o, rfl⟩, fun _ => ⟨_, rfl⟩⟩
      | error e =>
        constructor
        · rintro ⟨out, h⟩; cases h
        · rintro ⟨out, h⟩; cases h
    rw [e, loop_ok shift hs norm _ m0 js hj]
    simp only [List.length_cons]
    constructor
    · rintro ⟨h1, h2⟩
      have hall : ∀ m ∈ m0 :: m1 :: ms, m.h = m0.h := by
        intro m hm
        rcases List.mem_cons.1 hm with rfl | hm
        · rfl
        · exact h2 m hm
      exact ⟨by omega, by omega, fun m hm m' hm' => (hall m hm).trans (hall m' hm').symm⟩
    · rintro ⟨-, h1, h2⟩
      exact ⟨by omega, fun m hm => h2 m (List.mem_cons_of_mem _ hm) m0 List.mem_cons_self⟩

theorem normalised_get (m1 m2 : Mat K) (norm : Bool) (i j : Nat) : (normalised m1 m2 1 norm).get i j =
    (if norm then meanCols m1 (m1.w - 3) m1.w / meanCols m2 0 3 else 1) * m2.get i j := by
  unfold normalised
  cases norm with
  | true =>
    rw [if_pos rfl, if_pos rfl, if_pos rfl]
    show m2.get i j * _ / _ = _
    ring
  | false =>
    rw [if_neg (by decide), if_neg (by decide), one_mul]

theorem start_mono (m : Nat → Mat K) (g : Nat → Nat) (q k : Nat) (h : q < k) : start m g q + (m q).w + g q ≤ start m g k := by
  induction k with
  | zero => omega
  | succ k ih =>
    by_cases e : q = k
    · subst e
      exact le_refl _
    · have := ih (by omega)
      show _ ≤ start m g k + (m k).w + g k
      omega

theorem last_mean (m : Nat → Mat K) (g : Nat → Nat) (f : Nat → K) (k : Nat) (out : Mat K) (h : Laid m g f k out) (hh : (m k).h = (m 0).h) (hw : 6 ≤ (m k).w) :
    meanCols out (out.w - 3) out.w = f k * meanCols (m k) ((m k).w - 3) (m k).w := by
  unfold meanCols
  rw [h.rows, hh, show out.w - (out.w - 3) = 3 by have := h.width; omega, show (m k).w - ((m k).w - 3) = 3 by omega, mul_div_assoc', Finset.mul_sum]
  congr 1
  refine Finset.sum_congr rfl fun i hi => ?_
  rw [Finset.sum_Ico_eq_sum_range, Finset.sum_Ico_eq_sum_range, Finset.mul_sum, show out.w - (out.w - 3) = 3 by have := h.width; omega,
    show (m k).w - ((m k).w - 3) = 3 by omega]
  refine Finset.sum_congr rfl fun t ht => ?_
  have ht := Finset.mem_range.1 ht
  have hi := Finset.mem_range.1 hi
  have e := h.own i (by rw [h.rows]; exact hi) k (le_refl k) ((m k).w - 3 + t) (by omega) (Or.inr (by omega)) (Or.inl rfl)
  rw [← e]
  congr 1
  have := h.width
  omega

/-- One more image. -/
theorem laid_step (m : Nat → Mat K) (g : Nat → Nat) (norm : Bool) (k : Nat) (acc : Mat K) (h : Laid m g (factor m norm) k acc) (hh : ∀ n ≤ k + 1, (m n).h = (m 0).h)
    (hw : ∀ n ≤ k + 1, 6 ≤ (m n).w) :
    ∃ out, joinImage acc (m (k + 1)) (g k) 1 norm none = .ok out ∧ Laid m g (factor m norm) (k + 1) out := by
  have hk := hw k (by omega)
  have hk1 := hw (k + 1) (le_refl _)
  have aw := h.width
  obtain ⟨out, ho, hj⟩ := join_image_joins acc (m (k + 1)) (g k) 1 norm (by rw [h.rows, hh (k + 1) (le_refl _)])
    (show 3 ≤ acc.w by omega) (show 4 ≤ (m (k + 1)).w by omega)
  refine ⟨out, ho, ?_⟩
  have hf : ∀ i j, (normalised acc (m (k + 1)) 1 norm).get i j = factor m norm (k + 1) * (m (k + 1)).get i j := by
    intro i j
    rw [normalised_get, last_mean m g _ k acc h (hh k (by omega)) hk]
    rfl
  have hnw : (normalised acc (m (k + 1)) 1 norm).w = (m (k + 1)).w := by unfold normalised; cases norm <;> rfl
  obtain ⟨j1, j2, j3⟩ := hj
  have j1 : out.h = acc.h := j1
  have j2 : out.w = acc.w + (normalised acc (m (k + 1)) 1 norm).w + g k := j2
  rw [hnw] at j2
  have j3 : ∀ i < acc.h, (∀ j < acc.w - 2, out.get i j = acc.get i j) ∧
    (∀ j, 3 ≤ j → j < (normalised acc (m (k + 1)) 1 norm).w → out.get i (acc.w + g k + j) = (normalised acc (m (k + 1)) 1 norm).get i j) ∧
    (∀ t, 0 < t → t < g k + 6 → out.get i (acc.w - 3 + t) * ((g k : K) + 6)
      = acc.get i (acc.w - 3) * ((g k : K) + 6 - t) + (normalised acc (m (k + 1)) 1 norm).get i 3 * (t : K)) := j3
  have st : start m g (k + 1) = start m g k + (m k).w + g k := rfl
  refine ⟨by rw [j1, h.rows], by omega, fun i hi q hq j hjw hl hr => ?_, fun i hi q hq t h0 ht => ?_⟩
  · obtain ⟨a, b, -⟩ := j3 i (by omega)
    by_cases e : q = k + 1
    · subst e
      have h3 : 3 ≤ j := by omega
      have := b j h3 (by rw [hnw]; exact hjw)
      rw [hf] at this
      rw [← this]
      congr 1
      omega
    · have hlt : j + 2 < (m q).w := by omega
      have hcol : start m g q + j < acc.w - 2 := by
        by_cases e2 : q = k
        · subst e2
          omega
        · have := start_mono m g q k (by omega)
          omega
      rw [a _ hcol]
      exact h.own i (by omega) q (by omega) j hjw hl (Or.inr hlt)
  · obtain ⟨a, -, c⟩ := j3 i (by omega)
    by_cases e : q = k
    · subst e
      have h3 := c t h0 ht
      have e1 : acc.get i (acc.w - 3) = factor m norm q * (m q).get i ((m q).w - 3) := by
        have := h.own i (by omega) q (le_refl q) ((m q).w - 3) (by omega) (Or.inr (by omega)) (Or.inl rfl)
        rw [← this]
        congr 1
        omega
      rw [e1, hf, show acc.w - 3 + t = start m g q + ((m q).w - 3) + t by omega] at h3
      exact h3
    · have := start_mono m g q (q + 1) (by omega)
      have h4 : start m g (q + 1) + (if q + 1 < k then 6 else 0) ≤ start m g k := by
        by_cases e2 : q + 1 < k
        · rw [if_pos e2]
          have := start_mono m g (q + 1) k e2
          have := hw (q + 1) (by omega)
          omega
        · rw [if_neg e2, show k = q + 1 by omega]
          omega
      have st' : start m g (q + 1) = start m g q + (m q).w + g q := rfl
      have := hw q (by omega)
      rw [a _ (by omega)]
      exact h.seam i (by omega) q (by omega) t h0 ht

theorem loop_laid (shift : Mat K → K → Mat K) (m : Nat → Mat K) (g : Nat → Nat) (norm : Bool) (rest : List (Mat K)) :
    ∀ (js : List (K × Int)) (k : Nat) (acc : Mat K), Laid m g (factor m norm) k acc → (∀ n ≤ k + rest.length, (m n).h = (m 0).h) →
      (∀ n ≤ k + rest.length, 6 ≤ (m n).w) → (∀ n < rest.length, rest[n]? = some (m (k + 1 + n))) → (∀ n < rest.length, js[n]? = some ((g (k + n) : K), 1)) →
      ∃ out, joinLoop shift norm acc rest js = .ok out ∧ Laid m g (factor m norm) (k + rest.length) out := by
  induction rest with
  | nil =>
    intro js k acc h _ _ _ _
    exact ⟨acc, rfl, h⟩
  | cons x rest ih =>
    intro js k acc h hh hw hr hj
    rw [List.length_cons] at hh hw hr hj ⊢
    have hx : x = m (k + 1) := by simpa using hr 0 (by omega)
    cases js with
    | nil => simpa using hj 0 (by omega)
    | cons j js =>
      have hj0 : j = ((g k : K), 1) := by simpa using hj 0 (by omega)
      obtain ⟨o, e1, e2⟩ := laid_step m g norm k acc h (fun n hn => hh n (by omega)) fun n hn => hw n (by omega)
      obtain ⟨out, e3, e4⟩ := ih js (k + 1) o e2 (fun n hn => hh n (by omega)) (fun n hn => hw n (by omega))
        (fun n hn => by have := hr (n + 1) (by omega); rw [List.getElem?_cons_succ] at this; rw [this]; congr 2; omega)
        (fun n hn => by have := hj (n + 1) (by omega); rw [List.getElem?_cons_succ] at this; rw [this]; congr 4; omega)
      refine ⟨out, ?_, by rw [show k + (rest.length + 1) = k + 1 + rest.length by omega]; exact e4⟩
      show (joinReal shift acc x j.1 j.2 norm none).bind _ = _
      rw [hx, hj0, join_whole, e1]
      exact e3

/-- **C158.** Images joined from left to right with whole gaps lie side by side in order, for any number of images. -/
theorem join_many_layout (shift : Mat K → K → Mat K) (ms : List (Mat K)) (gs : List Nat) (norm : Bool) (hn : 2 ≤ ms.length) (hg : gs.length + 1 = ms.length)
    (m : Nat → Mat K) (hm : ∀ n, ms[n]? = some (m n) ∨ ms.length ≤ n) (g : Nat → Nat) (hgs : ∀ n, gs[n]? = some (g n) ∨ gs.length ≤ n)
    (hh : ∀ n < ms.length, (m n).h = (m 0).h) (hw : ∀ n < ms.length, 6 ≤ (m n).w) :
    ∃ out, joinMany shift norm none ms (gs.map fun (x : Nat) => ((x : K), (1 : Int))) = .ok out ∧ Laid m g (factor m norm) (ms.length - 1) out := by
  match ms, hn with
  | m0 :: m1 :: rest, _ =>
    have e0 : m0 = m 0 := by
      rcases hm 0 with h | h
      · simpa using h
      · simp at h
    have l0 : Laid m g (factor m norm) 0 m0 := by
      rw [e0]
      refine ⟨rfl, by show (m 0).w = 0 + _; omega, fun i _ q hq j _ _ _ => ?_, fun i _ q hq => by omega⟩
      have : q = 0 := by omega
      subst this
      show (m 0).get i (0 + j) = 1 * _
      rw [Nat.zero_add, one_mul]
    obtain ⟨out, e1, e2⟩ := loop_laid shift m g norm (m1 :: rest) (gs.map fun (x : Nat) => ((x : K), (1 : Int))) 0 m0 l0
      (fun n hn => hh n (by simp at hn ⊢; omega)) (fun n hn => hw n (by simp at hn ⊢; omega))
      (fun n hn => by
        rcases hm (n + 1) with h | h
        · rw [List.getElem?_cons_succ] at h
          rw [h, show 0 + 1 + n = n + 1 by omega]
        · simp at h hn; omega)
      (fun n hn => by
        rcases hgs n with h | h
        · rw [List.getElem?_map, h, Nat.zero_add]
          rfl
        · simp at hg hn; omega)
    refine ⟨out, ?_, by simpa using e2⟩
    show (joinLoop shift norm m0 (m1 :: rest) _).map (padTo none) = _
    rw [e1]
    show Except.ok (padTo none out) = _
    unfold padTo
    rw [Option.getD_none, if_neg (lt_irrefl _)]

/-- **C158.** `total_width` repeats the last column up to that width and never cuts. -/
theorem join_many_total (shift : Mat K → K → Mat K) (ms : List (Mat K)) (js : List (K × Int)) (norm : Bool) (t : Nat) (out : Mat K)
    (h : joinMany shift norm none ms js = .ok out) : ∃ out', joinMany shift norm (some t) ms js = .ok out' ∧ out'.h = out.h ∧ out'.w = max t out.w ∧
      ∀ i j, out'.get i j = out.get i (if j < out.w then j else out.w - 1) ∨ (max t out.w ≤ j) := by
  match ms with
  | [] => cases h
  | [m] => cases h
  | m0 :: m1 :: ms =>
    change (joinLoop shift norm m0 (m1 :: ms) js).map (padTo none) = .ok out at h
    cases hl : joinLoop shift norm m0 (m1 :: ms) js with
    | error e => rw [hl] at h; cases h
    | ok o =>
      rw [hl] at h
      have h' : padTo none o = out := Except.ok.inj h
      have e : padTo none o = o := by unfold padTo; rw [Option.getD_none, if_neg (lt_irrefl _)]
      rw [e] at h'
      subst h'
      refine ⟨padTo (some t) o, by show (joinLoop shift norm m0 (m1 :: ms) js).map (padTo (some t)) = _; rw [hl]; rfl, ?_⟩
      unfold padTo
      rw [Option.getD_some]
      by_cases hc : o.w < t
      · rw [if_pos hc]
        refine ⟨rfl, by show o.w + (t - o.w) = _; omega, fun i j => Or.inl ?_⟩
        show o.get i (min j (o.w - 1)) = _
        congr 1
        split <;> omega
      · rw [if_neg hc]
        refine ⟨rfl, by omega, fun i j => ?_⟩
        by_cases hj : j < o.w
        · left
          rw [if_pos hj]
        · right
          omega

/-- **C158.** With `norm` the images meet at the seams: the mean of three columns on its right equals that on its left. -/
theorem factor_meets (m : Nat → Mat K) (n : Nat) (h : meanCols (m (n + 1)) 0 3 ≠ 0) :
    factor m true (n + 1) * meanCols (m (n + 1)) 0 3 = factor m true n * meanCols (m n) ((m n).w - 3) (m n).w := by
  show (if true then factor m true n * meanCols (m n) ((m n).w - 3) (m n).w / meanCols (m (n + 1)) 0 3 else 1) * _ = _
  rw [if_pos rfl, div_mul_cancel₀ _ h]

/-! ### non-vacuity -/

/-- Three images of two rows and six columns. -/
def exI (n : Nat) : Mat ℚ := ⟨2, 6, fun i j => ((100 * n + 10 * i + j : Nat) : ℚ)⟩

example : ∃ out, joinMany (fun m _ => m) false none [exI 0, exI 1, exI 2] [(2, 1), (0, 1)] = .ok out ∧ out.w = 20 ∧ out.get 1 0 = 10 ∧ out.get 1 11 = 113 ∧ out.get 1 19 = 215 := by
  obtain ⟨out, h1, h2⟩ := join_many_layout (K := ℚ) (fun m _ => m) [exI 0, exI 1, exI 2] [2, 0] false (by decide) (by decide) exI
    (fun n => by
      match n with
      | 0 => exact Or.inl rfl
      | 1 => exact Or.inl rfl
      | 2 => exact Or.inl rfl
      | n + 3 => exact Or.inr (by simp)) (fun n => [2, 0].getD n 0)
    (fun n => by
      match n with
      | 0 => exact Or.inl rfl
      | 1 => exact Or.inl rfl
      | n + 2 => exact Or.inr (by simp)) (fun n _ => rfl) (fun n _ => by show 6 ≤ 6; decide)
  have hf : ∀ n, factor exI false n = 1 := by intro n; cases n <;> rfl
  refine ⟨out, by simpa using h1, h2.width, ?_, ?_, ?_⟩
  · have := h2.own 1 (by rw [h2.rows]; decide) 0 (by decide) 0 (by decide) (Or.inl rfl) (Or.inr (by decide))
    rw [hf] at this
    exact this.trans (by decide +kernel)
  · have := h2.own 1 (by rw [h2.rows]; decide) 1 (by decide) 3 (by decide) (Or.inr (by decide)) (Or.inr (by decide))
    rw [hf] at this
    exact this.trans (by decide +kernel)
  · have := h2.own 1 (by rw [h2.rows]; decide) 2 (by decide) 5 (by decide) (Or.inr (by decide)) (Or.inl rfl)
    rw [hf] at this
    exact this.trans (by decide +kernel)

end Verif.JoinMany
