import Verif.Model.GpuShifts
import Verif.Props.LocalShiftsY
import Verif.Props.Shift

/-!
The kernels of the GPU local-shift search compared with the CPU search (C113).
-/

set_option linter.unusedSectionVars false
set_option linter.unusedSimpArgs false

namespace Verif.GpuShifts
open Finset Verif.Correlation Verif.LocalShifts

/-! ### Coefficients -/

theorem cell_eq (d h w : ℕ) (f g : ℕ → ℕ → ℕ → ℝ) : (cell d h w f g).getD 0 = coefCpu d h w f g := by
  rw [coef_comm]
  unfold cell coefCpu
  dsimp only
  split_ifs with h0
  · rfl
  · rfl

theorem cellMap_eq {ref mat : Arr3 ℝ} (hh : mat.h ≤ ref.h) (hw : mat.w ≤ ref.w) (hd : ref.d = mat.d) :
    correlationMap ref mat = .ok (cellMap ref mat) := by
  unfold correlationMap cellMap
  rw [if_neg (by omega), if_neg (not_not.2 hd)]
  congr 2
  funext i j
  exact (cell_eq _ _ _ _ _).symm

/-! ### Maximum -/

theorem scan1_eq (n : ℕ) (f : ℕ → ℝ) : scan1 n f = argmaxTo f (n - 1) := by
  unfold scan1
  induction n - 1 with
  | zero => rfl
  | succ k ih => rw [List.range_succ, List.foldl_append, ih]; rfl

theorem scan1_spec {n : ℕ} (hn : 0 < n) (f : ℕ → ℝ) : FirstMax n f (scan1 n f) := by
  obtain ⟨p, hp, hs⟩ := npArgmax_spec hn f
  unfold npArgmax at hp
  rw [if_neg (by omega)] at hp
  rw [scan1_eq, Except.ok.inj hp]
  exact hs

/-- State of the two-dimensional scan before the cell `(i, j)`. -/
def Best (m : Mat ℝ) (i j : ℕ) (s : ℕ × ℕ × ℝ) : Prop :=
  s.2.2 = m.get s.1 s.2.1 ∧ (s.1 < m.h ∧ s.2.1 < m.w) ∧ (s.1 < i ∨ (s.1 = i ∧ s.2.1 < j) ∨ (s.1 = 0 ∧ s.2.1 = 0)) ∧
  (∀ a < m.h, ∀ b < m.w, (a < i ∨ a = i ∧ b < j) → m.get a b ≤ s.2.2) ∧
  ∀ a < m.h, ∀ b < m.w, (a < s.1 ∨ a = s.1 ∧ b < s.2.1) → m.get a b < s.2.2

theorem better_step {m : Mat ℝ} {i j : ℕ} {s : ℕ × ℕ × ℝ} (hi : i < m.h) (hj : j < m.w) (h : Best m i j s) :
    Best m i (j + 1) (better m i s j) := by
  obtain ⟨y, x, v⟩ := s
  obtain ⟨h1, ⟨h2, h2'⟩, h3, h4, h5⟩ := h
  dsimp only at h1 h2 h2' h3 h4 h5
  unfold better
  dsimp only
  split_ifs with hc
  · refine ⟨rfl, ⟨hi, hj⟩, Or.inr (Or.inl ⟨rfl, Nat.lt_succ_self j⟩), ?_, ?_⟩
    · intro a ha b hb hab
      dsimp only
      by_cases he : a = i ∧ b = j
      · rw [he.1, he.2]
      · exact le_trans (h4 a ha b hb (by omega)) hc.le
    · intro a ha b hb hab
      dsimp only at hab ⊢
      exact lt_of_le_of_lt (h4 a ha b hb (by omega)) hc
  · refine ⟨h1, ⟨h2, h2'⟩, by dsimp only; omega, ?_, h5⟩
    intro a ha b hb hab
    dsimp only
    by_cases he : a = i ∧ b = j
    · rw [he.1, he.2]; exact not_lt.1 hc
    · exact h4 a ha b hb (by omega)

theorem row_step {m : Mat ℝ} {i : ℕ} {s : ℕ × ℕ × ℝ} (hi : i < m.h) (h : Best m i 0 s) : ∀ n ≤ m.w,
    Best m i n ((List.range n).foldl (better m i) s) := by
  intro n
  induction n with
  | zero => intro _; exact h
  | succ n ih =>
    intro hn
    rw [List.range_succ, List.foldl_append]
    exact better_step hi (by omega) (ih (by omega))

theorem next_row {m : Mat ℝ} {i : ℕ} {s : ℕ × ℕ × ℝ} (h : Best m i m.w s) : Best m (i + 1) 0 s := by
  obtain ⟨h1, h2, h3, h4, h5⟩ := h
  exact ⟨h1, h2, by omega, fun a ha b hb hab => h4 a ha b hb (by omega), h5⟩

theorem all_rows {m : Mat ℝ} {s : ℕ × ℕ × ℝ} (h : Best m 0 0 s) : ∀ n ≤ m.h,
    Best m n 0 ((List.range n).foldl (fun s i => (List.range m.w).foldl (better m i) s) s) := by
  intro n
  induction n with
  | zero => intro _; exact h
  | succ n ih =>
    intro hn
    rw [List.range_succ, List.foldl_append]
    exact next_row (row_step (by omega) (ih (by omega)) _ (le_refl _))

theorem scan2_spec {m : Mat ℝ} (hh : 0 < m.h) (hw : 0 < m.w) : FirstMax2 m (scan2 m).1 (scan2 m).2 := by
  have h0 : Best m 0 0 (0, 0, m.get 0 0) := by
    refine ⟨rfl, ⟨hh, hw⟩, Or.inr (Or.inr ⟨rfl, rfl⟩), ?_, ?_⟩ <;>
      (intro a ha b hb hab; have hab : a < 0 ∨ a = 0 ∧ b < 0 := hab; omega)
  obtain ⟨h1, h2, -, h4, h5⟩ := all_rows h0 m.h (le_refl _)
  unfold scan2
  dsimp only
  generalize (List.range m.h).foldl (fun s i => (List.range m.w).foldl (better m i) s) (0, 0, m.get 0 0) = s at h1 h2 h4 h5 ⊢
  refine ⟨h2.1, h2.2, fun i hi j hj => ?_, fun i hi j hj hlt => ?_⟩
  · rw [← h1]; exact h4 i hi j hj (Or.inl hi)
  · rw [← h1]; exact h5 i hi j hj hlt

/-! ### Refinement in one direction -/

theorem peak1_eq {n : ℕ} {f : ℕ → ℝ} {p : ℕ} (hp : FirstMax n f p) :
    peak1 n f = if 0 < p ∧ p + 1 < n ∧ f (p + 1) + f (p - 1) - 2 * f p ≠ 0 then
      (p : ℝ) + -((f (p + 1) - f (p - 1)) / 2) / (f (p + 1) + f (p - 1) - 2 * f p) else p := by
  have e : scan1 n f = p := firstMax_unique (scan1_spec (lt_of_le_of_lt (Nat.zero_le _) hp.1) f) hp
  unfold peak1
  rw [e]
  dsimp only
  by_cases h1 : p < n - 1 ∧ 0 < p
  · rw [if_pos h1]
    by_cases h2 : f (p + 1) + f (p - 1) - 2 * f p ≠ 0
    · rw [if_pos h2, if_pos ⟨h1.2, by omega, h2⟩]
    · rw [if_neg h2, if_neg (fun h => h2 h.2.2)]
  · rw [if_neg h1, if_neg (fun h => h1 ⟨by omega, h.1⟩)]

/-- `locate_peak` on a map of a single row. -/
theorem locatePeak_row {m : Mat ℝ} (hh : m.h = 1) (hw : m.w ≠ 2) (hw0 : 0 < m.w) (size : Int) (dim : Int) :
    locatePeak m true .diff dim size true = .ok (peak1 m.w (fun q => m.get 0 q), 0) := by
  obtain ⟨y, x, -, hp⟩ := argmax2_spec (m := m) (by omega) hw0
  have hy : y = 0 := by have := hp.1; omega
  subst hy
  have hrow : FirstMax m.w (fun k => m.get 0 k) x := by
    have := firstMax_row hp (col := 0) (n := m.w) (by omega) (by have := hp.2.1; omega) (by omega)
    simpa using this
  rw [peak1_eq hrow]
  unfold locatePeak flipPeak
  simp only [bind, Except.bind, if_true, argmax2_eq hp, Bool.true_eq_false, if_false]
  unfold peakInterior
  rw [if_neg (by omega)]
  simp only
  unfold peakRow
  have hws : winSize (Method.diff : Method ℝ) size = 3 := rfl
  rw [hws]
  have hin : ((Pos.int x : Pos ℝ).val < (m.w : ℝ) - 1 ∧ 0 < (Pos.int x : Pos ℝ).val) ↔ (0 < x ∧ x + 1 < m.w) := inside_iff
  by_cases hx : 0 < x ∧ x + 1 < m.w
  · rw [if_pos ⟨Or.inl (by simp [Pos.val]), (hin.2 hx).1, (hin.2 hx).2, by omega⟩]
    simp only [Pos.index, bind, Except.bind]
    have hst : winStart x (3 / 2) m.w 3 = x - 1 := by unfold winStart npClip; omega
    rw [hst]
    have hfm : FirstMax 3 (fun k => m.get 0 (x - 1 + k)) 1 := by
      have := firstMax_row hp (col := x - 1) (n := 3) (by omega) (by omega) (by omega)
      rwa [show x - (x - 1) = 1 by omega] at this
    obtain ⟨r, hr, hv⟩ := locate1d_diff_interior hfm (by norm_num) (by norm_num)
    rw [hr]
    simp only
    have e1 : x - 1 + (1 + 1) = x + 1 := by omega
    have e2 : x - 1 + (1 - 1) = x - 1 := by omega
    have e3 : x - 1 + 1 = x := by omega
    rw [e1, e2, e3] at hv
    have hval : (r.add (x - 1)).val = ((x - 1 : ℕ) : ℝ) + r.val := by
      cases r with
      | int n => simp [Pos.add, Pos.val]
      | flt v => rfl
    have hx1 : ((x - 1 : ℕ) : ℝ) = (x : ℝ) - 1 := by rw [Nat.cast_sub (by omega)]; norm_num
    have hfin : (r.add (x - 1)).val = if 0 < x ∧ x + 1 < m.w ∧ m.get 0 (x + 1) + m.get 0 (x - 1) - 2 * m.get 0 x ≠ 0 then
        (x : ℝ) + -((m.get 0 (x + 1) - m.get 0 (x - 1)) / 2) / (m.get 0 (x + 1) + m.get 0 (x - 1) - 2 * m.get 0 x) else x := by
      rw [hval, hv, hx1]
      by_cases hd : m.get 0 (x + 1) + m.get 0 (x - 1) - 2 * m.get 0 x = 0
      · rw [if_pos hd, if_neg (fun h => h.2.2 hd)]; push_cast; ring
      · rw [if_neg hd, if_pos ⟨hx.1, hx.2, hd⟩]; push_cast; ring
    have hr3 := locate1d_range 3 (fun k => m.get 0 (x - 1 + k)) (.diff : Method ℝ) hfm
    obtain ⟨r', hr', hrr, -⟩ := hr3
    rw [hr] at hr'
    have er := Except.ok.inj hr'
    subst er
    have hins := pos_add_range (K := ℝ) (c := x - 1) (n := 3) (L := m.w) (x := x) (r := r) hx.1 hx.2 (by omega) (by omega)
      (by rw [show x - (x - 1) = 1 by omega]; exact hrr)
    rw [peakCol_inside 3 _ hins, hfin]
    simp [Pos.val]
  · rw [if_neg (by rintro ⟨-, h1, h2, -⟩; exact hx (hin.1 ⟨h1, h2⟩))]
    simp only
    unfold peakCol
    have h0 : (Pos.int 0 : Pos ℝ).val = 0 := by simp [Pos.val]
    rw [if_neg (by rw [h0]; rintro ⟨-, -, h, -⟩; exact absurd h (lt_irrefl _)), if_neg (fun h => hx ⟨h.1, h.2.1⟩)]
    simp [Pos.val]

/-! ### `find_shift_based_correlation_map` on windows -/

theorem findShift_window {ref t : Arr3 ℝ} {m : ℕ} (hm : 1 ≤ m) (hd : ref.d = t.d) (hh : ref.h = t.h + 2 * m) (hw : ref.w = t.w + 2 * m)
    (subPixel : Bool) (method : Method ℝ) (dim size : Int) :
    findShift ref t m none subPixel method dim size =
      (locatePeak (cellMap ref t) subPixel method dim size true).map fun r => (r.1 - (m : ℝ), r.2 - (m : ℝ)) := by
  have htem : template ref t m none = (t, true) := by
    unfold template
    rw [if_neg (by omega)]
  have hmap := cellMap_eq (ref := ref) (mat := t) (by omega) (by omega) hd
  unfold findShift
  rw [htem]
  dsimp only
  have e1 : ¬ ((ref.h : ℤ) - 2 * m < (t.h : ℤ)) := by omega
  rw [decide_eq_false e1]
  simp only [reduceCtorEq, if_true, if_false, Bool.false_and, Bool.not_false, bind, Except.bind, hmap]
  have eh : (cellMap ref t).h / 2 = m := by show (ref.h - t.h + 1) / 2 = m; omega
  have ew : (cellMap ref t).w / 2 = m := by show (ref.w - t.w + 1) / 2 = m; omega
  rw [eh, ew]
  cases locatePeak (cellMap ref t) subPixel method dim size true with
  | error e => rfl
  | ok r => rfl

theorem findShift_line {ref t : Arr3 ℝ} {m : ℕ} (hm : 1 ≤ m) (hd : ref.d = t.d) (hh : ref.h = t.h) (hw : ref.w = t.w + 2 * m)
    (method : Method ℝ) (size : Int) :
    findShift ref t m (some 1) true method 1 size =
      (locatePeak (cellMap ref t) true method 1 size true).map fun r => (r.1 - (m : ℝ), (0 : ℝ)) := by
  have htem : template ref t m (some 1) = (t, true) := by
    unfold template
    rw [if_neg (by omega)]
  have hmap := cellMap_eq (ref := ref) (mat := t) (by omega) (by omega) hd
  unfold findShift
  rw [htem]
  dsimp only
  have e1 : ¬ ((ref.w : ℤ) - 2 * m < (t.w : ℤ)) := by omega
  rw [decide_eq_false e1]
  simp only [Option.some.injEq, one_ne_zero, if_false, if_true, Bool.not_false, bind, Except.bind, hmap, reduceCtorEq]
  have ew : (cellMap ref t).w / 2 = m := by show (ref.w - t.w + 1) / 2 = m; omega
  rw [ew]
  cases locatePeak (cellMap ref t) true method 1 size true with
  | error e => rfl
  | ok r => simp [Except.map]

/-- **C113.** One position of the one-direction search: the kernel gives exactly the value of the CPU search with method "diff". -/
theorem pixel_1d {d radi margin : ℕ} (hm : 1 ≤ margin) (size : Int) (win : ℕ → Col × Col) :
    pixCol d radi margin .diff size win = .ok (pix1 d radi margin win) := by
  unfold pixCol pix1
  rw [findShift_line (ref := ⟨1, d, 2 * (radi + margin) + 1, fun _ k q => (win q).1 k⟩)
    (t := ⟨1, d, 2 * radi + 1, fun _ k q => (win (margin + q)).2 k⟩) hm rfl rfl (by show 2 * (radi + margin) + 1 = 2 * radi + 1 + 2 * margin; omega)]
  dsimp only
  have hh : (cellMap ⟨1, d, 2 * (radi + margin) + 1, fun _ k q => (win q).1 k⟩ ⟨1, d, 2 * radi + 1, fun _ k q => (win (margin + q)).2 k⟩).h = 1 := by
    show d - d + 1 = 1; omega
  have hw : (cellMap ⟨1, d, 2 * (radi + margin) + 1, fun _ k q => (win q).1 k⟩ ⟨1, d, 2 * radi + 1, fun _ k q => (win (margin + q)).2 k⟩).w
      = 2 * margin + 1 := by
    show 2 * (radi + margin) + 1 - (2 * radi + 1) + 1 = _; omega
  rw [locatePeak_row hh (by omega) (by omega), hw]
  rfl

end Verif.GpuShifts
