import Verif.Model.SpeckleTracking
import Verif.Props.StackShift
import Verif.Props.LocalShifts
import Verif.Lemmas.Fourier

set_option linter.unusedSectionVars false
set_option linter.unusedSimpArgs false

/-!
**C120, C121.** Local shifts of two single images and speckle tracking (algotom/util/correlation.py:1133-1174, algotom/prep/phase.py:942-990).
-/

namespace Verif.SpeckleTracking
open Verif.Correlation Verif.GlobalShift Verif.Sched Verif.Fourier Verif.StackShift

/-! ### Local shifts of two single images -/

theorem allShifts_eq {n ncore : ℕ} {f : ℕ → Py (ℝ × ℝ)} {sched : List Ev} {r : Py (List (ℝ × ℝ))} (h : allShifts n ncore f sched = some r) :
    r = (List.range n).mapM f := by
  unfold allShifts at h
  by_cases h1 : ncore = 1
  · rw [if_pos h1] at h
    exact (Option.some.inj h).symm
  · rw [if_neg h1] at h
    cases hp : parMap n ncore f sched with
    | none => rw [hp] at h; cases h
    | some l =>
      rw [hp] at h
      rw [← Option.some.inj h, Center.parMap_eq _ _ _ _ _ hp]
      show (List.map f (List.range n)).mapM id = _
      rw [List.mapM_map]
      rfl

/-- Pixel `(i, j)` has a full search window in an image of shape `(h, w)`. -/
def Searched (h w start i j : ℕ) : Prop := (start ≤ i ∧ i + start < h) ∧ start ≤ j ∧ j + start < w

/-- The image after the optional normalisation. -/
noncomputable def prep (norm : Bool) (m : Mat ℝ) : Mat ℝ := if norm then normImage m else m

theorem shifts2d_unfold {ref mat : Mat ℝ} {winSize margin : ℕ} {subPixel : Bool} {method : Method ℝ} {size : ℤ} {ncore : ℕ} {norm : Bool}
    {sched : List Ev} {r : Py (Mat ℝ × Mat ℝ)} (hs : ref.h = mat.h ∧ ref.w = mat.w)
    (hz : 2 * (winSize / 2 + margin) + 1 ≤ ref.h ∧ 2 * (winSize / 2 + margin) + 1 ≤ ref.w)
    (hr : shifts2d ref mat winSize margin subPixel method size ncore norm sched = some r) :
    let start := winSize / 2 + margin
    let nc := ref.w - start - start
    r = ((List.range ((ref.h - start - start) * nc)).mapM fun k => pointShift (prep norm ref) (prep norm mat) (winSize / 2) margin subPixel method size
        ((start + k / nc : ℕ) : ℤ) ((start + k % nc : ℕ) : ℤ)).map fun s =>
      let at' : ℕ → ℕ → ℝ × ℝ := fun i j =>
        if start ≤ i ∧ i < start + (ref.h - start - start) ∧ start ≤ j ∧ j < start + nc then s.getD ((i - start) * nc + (j - start)) (0, 0) else (0, 0)
      ((⟨ref.h, ref.w, fun i j => (at' i j).1⟩ : Mat ℝ), (⟨ref.h, ref.w, fun i j => (at' i j).2⟩ : Mat ℝ)) := by
  intro start nc
  unfold shifts2d at hr
  rw [if_neg (by omega)] at hr
  dsimp only at hr
  rw [show (2 * (winSize / 2) + 1) / 2 = winSize / 2 by omega, if_neg (by omega)] at hr
  rw [Option.map_eq_some_iff] at hr
  obtain ⟨a, ha, hr⟩ := hr
  rw [← hr, allShifts_eq ha]
  rfl

/-- **C120.** Two images of different shapes, or smaller than `win_size + 2*margin`, are refused. -/
theorem shifts2d_refused {ref mat : Mat ℝ} {winSize margin : ℕ} {subPixel : Bool} {method : Method ℝ} {size : ℤ} {ncore : ℕ} {norm : Bool}
    {sched : List Ev} (h : ¬ ((ref.h = mat.h ∧ ref.w = mat.w) ∧ 2 * (winSize / 2 + margin) + 1 ≤ ref.h ∧ 2 * (winSize / 2 + margin) + 1 ≤ ref.w)) :
    shifts2d ref mat winSize margin subPixel method size ncore norm sched = some (.error .valueError) := by
  unfold shifts2d
  by_cases h1 : ref.h ≠ mat.h ∨ ref.w ≠ mat.w
  · rw [if_pos h1]
  rw [if_neg h1]
  dsimp only
  rw [if_pos (by omega)]

/-- **C120.** Number of cores and schedule do not matter. -/
theorem shifts2d_schedule {ref mat : Mat ℝ} {winSize margin : ℕ} {subPixel : Bool} {method : Method ℝ} {size : ℤ} {norm : Bool}
    {ncore ncore' : ℕ} {sched sched' : List Ev} {r r' : Py (Mat ℝ × Mat ℝ)}
    (hr : shifts2d ref mat winSize margin subPixel method size ncore norm sched = some r)
    (hr' : shifts2d ref mat winSize margin subPixel method size ncore' norm sched' = some r') : r = r' := by
  by_cases h : (ref.h = mat.h ∧ ref.w = mat.w) ∧ 2 * (winSize / 2 + margin) + 1 ≤ ref.h ∧ 2 * (winSize / 2 + margin) + 1 ≤ ref.w
  · rw [shifts2d_unfold h.1 h.2 hr, shifts2d_unfold h.1 h.2 hr']
  · rw [shifts2d_refused h] at hr hr'
    rw [← Option.some.inj hr, ← Option.some.inj hr']

/-- **C120.** The call succeeds iff every single search does; then both images have the shape of the input, contain the result of the search of the window
around each pixel at least `margin + win_size // 2` from the border, and zeros elsewhere. -/
theorem shifts2d_spec {ref mat : Mat ℝ} {winSize margin : ℕ} {subPixel : Bool} {method : Method ℝ} {size : ℤ} {ncore : ℕ} {norm : Bool}
    {sched : List Ev} {r : Py (Mat ℝ × Mat ℝ)} (hs : ref.h = mat.h ∧ ref.w = mat.w)
    (hz : 2 * (winSize / 2 + margin) + 1 ≤ ref.h ∧ 2 * (winSize / 2 + margin) + 1 ≤ ref.w)
    (hr : shifts2d ref mat winSize margin subPixel method size ncore norm sched = some r) :
    ((∃ s, r = .ok s) ↔ ∀ i j, Searched ref.h ref.w (winSize / 2 + margin) i j →
      ∃ v, pointShift (prep norm ref) (prep norm mat) (winSize / 2) margin subPixel method size i j = .ok v) ∧
    ∀ x y, r = .ok (x, y) → (x.h = ref.h ∧ x.w = ref.w ∧ y.h = ref.h ∧ y.w = ref.w) ∧
      (∀ i j, Searched ref.h ref.w (winSize / 2 + margin) i j →
        pointShift (prep norm ref) (prep norm mat) (winSize / 2) margin subPixel method size i j = .ok (x.get i j, y.get i j)) ∧
      ∀ i j, ¬ Searched ref.h ref.w (winSize / 2 + margin) i j → x.get i j = 0 ∧ y.get i j = 0 := by
  have e := shifts2d_unfold hs hz hr
  dsimp only at e
  generalize hst : winSize / 2 + margin = start at *
  generalize hnc : ref.w - start - start = nc at *
  have hnc0 : 0 < nc := by omega
  set f : ℕ → Py (ℝ × ℝ) := fun k => pointShift (prep norm ref) (prep norm mat) (winSize / 2) margin subPixel method size
        ((start + k / nc : ℕ) : ℤ) ((start + k % nc : ℕ) : ℤ) with hf
  have hfk : ∀ i j, Searched ref.h ref.w start i j → (i - start) * nc + (j - start) < (ref.h - start - start) * nc ∧
      f ((i - start) * nc + (j - start)) = pointShift (prep norm ref) (prep norm mat) (winSize / 2) margin subPixel method size i j := by
    rintro i j ⟨⟨h1, h2⟩, h3, h4⟩
    constructor
    · calc (i - start) * nc + (j - start) < (i - start) * nc + nc := by omega
        _ = (i - start + 1) * nc := by ring
        _ ≤ _ := Nat.mul_le_mul_right _ (by omega)
    · have h5 : 0 ≤ (start : ℤ) := by omega
      rw [hf]
      dsimp only
      rw [mul_comm, Nat.mul_add_div hnc0, Nat.mul_add_mod, Nat.div_eq_of_lt (show j - start < nc by omega),
        Nat.mod_eq_of_lt (show j - start < nc by omega)]
      congr 2 <;> omega
  have hkf : ∀ k, k < (ref.h - start - start) * nc → ∃ i j, Searched ref.h ref.w start i j ∧
      f k = pointShift (prep norm ref) (prep norm mat) (winSize / 2) margin subPixel method size i j := by
    intro k hk
    refine ⟨start + k / nc, start + k % nc, ⟨⟨Nat.le_add_right _ _, ?_⟩, Nat.le_add_right _ _, ?_⟩, rfl⟩
    · have := (Nat.div_lt_iff_lt_mul hnc0).2 hk
      omega
    · have := Nat.mod_lt k hnc0
      omega
  constructor
  · constructor
    · rintro ⟨s, hs'⟩ i j hij
      rw [e] at hs'
      cases hm : (List.range ((ref.h - start - start) * nc)).mapM f with
      | error er => rw [hm] at hs'; cases hs'
      | ok l =>
        obtain ⟨hl, h⟩ := (mapM_range_iff _ _ _).1 hm
        obtain ⟨h1, h2⟩ := hfk i j hij
        exact ⟨_, h2 ▸ h _ h1⟩
    · intro h
      obtain ⟨l, hl, -⟩ := Helical.mapM_range_ok ((ref.h - start - start) * nc) f (fun _ _ => True) (fun k hk => by
        obtain ⟨i, j, hij, he⟩ := hkf k hk
        obtain ⟨v, hv⟩ := h i j hij
        exact ⟨v, by rw [he, hv], trivial⟩)
      rw [e, hl]
      exact ⟨_, rfl⟩
  · intro x y hxy
    rw [e] at hxy
    cases hm : (List.range ((ref.h - start - start) * nc)).mapM f with
    | error er => rw [hm] at hxy; cases hxy
    | ok l =>
      rw [hm] at hxy
      obtain ⟨hl, h⟩ := (mapM_range_iff _ _ _).1 hm
      have hxy' := Except.ok.inj hxy
      rw [Prod.mk.injEq] at hxy'
      obtain ⟨rfl, rfl⟩ := hxy'
      refine ⟨⟨rfl, rfl, rfl, rfl⟩, ?_, ?_⟩
      · intro i j hij
        obtain ⟨h1, h2⟩ := hfk i j hij
        obtain ⟨⟨a1, a2⟩, a3, a4⟩ := hij
        dsimp only
        rw [if_pos (by omega), List.getD_eq_getElem _ _ (by omega), ← h2, h _ h1]
      · intro i j hij
        dsimp only
        rw [if_neg]
        · exact ⟨rfl, rfl⟩
        · rintro ⟨a1, a2, a3, a4⟩
          exact hij ⟨⟨a1, by omega⟩, a3, by omega⟩

/-- **C120.** For every number of cores and schedule: at each searched pixel whose window (in the images that are compared: normalised with `norm=True`,
as given otherwise) is translated by some integer `(dy, dx)` within the margin (and by no other), the shift is found: exactly without sub-pixel search,
to less than one pixel with method "diff". -/
theorem shifts2d_recovers {ref mat : Mat ℝ} {winSize margin : ℕ} {subPixel : Bool} {method : Method ℝ} {size : ℤ} {ncore : ℕ} {norm : Bool}
    {sched : List Ev} {x y : Mat ℝ} (hs : ref.h = mat.h ∧ ref.w = mat.w) (hm : 1 ≤ margin)
    (hz : 2 * (winSize / 2 + margin) + 1 ≤ ref.h ∧ 2 * (winSize / 2 + margin) + 1 ≤ ref.w)
    (hr : shifts2d ref mat winSize margin subPixel method size ncore norm sched = some (.ok (x, y))) (i j : ℕ)
    (hij : Searched ref.h ref.w (winSize / 2 + margin) i j) (dy dx : ℤ) (hy : |dy| ≤ margin) (hx : |dx| ≤ margin)
    (hw : WindowShift (prep norm ref) (prep norm mat) i j (winSize / 2) margin dy dx) :
    Recovered subPixel method 2 dy dx (x.get i j, y.get i j) := by
  obtain ⟨-, h, -⟩ := (shifts2d_spec hs hz hr).2 x y rfl
  have e1 : (prep norm ref).h = ref.h ∧ (prep norm ref).w = ref.w := by cases norm <;> exact ⟨rfl, rfl⟩
  have e2 : (prep norm mat).h = mat.h ∧ (prep norm mat).w = mat.w := by cases norm <;> exact ⟨rfl, rfl⟩
  obtain ⟨v, h1, h2⟩ := point_shift (ref := prep norm ref) (mat := prep norm mat) (by rw [e1.1, e2.1, hs.1]) (by rw [e1.2, e2.2, hs.2]) hm hij.1.1
    (by rw [e1.1]; exact hij.1.2) hij.2.1 (by rw [e1.2]; exact hij.2.2) hy hx hw subPixel method size
  have := h i j hij
  rw [h1] at this
  rw [← Except.ok.inj this]
  exact h2

/-! ### Speckle tracking -/

/-- Row (column) of the interior that is shown at position `i` of an axis of length `n`: itself inside, its mirror image in the border. -/
def MirrorOf (n edge i p : ℕ) : Prop :=
  (edge ≤ p ∧ p + edge < n) ∧ (edge ≤ i → i + edge < n → p = i) ∧
  (3 * edge < n → i < edge → p + i = 2 * edge) ∧ (3 * edge < n → i < n → n ≤ i + edge → p + i + 2 * edge + 2 = 2 * n)

/-- `m'` is `m` with the border of `edge` pixels replaced by the mirror image of the interior. -/
def Mirrored (edge : ℕ) (m m' : Mat ℝ) : Prop :=
  m'.h = m.h ∧ m'.w = m.w ∧ ∀ i j, i < m.h → j < m.w → ∃ p q, MirrorOf m.h edge i p ∧ MirrorOf m.w edge j q ∧ m'.get i j = m.get p q

theorem mirror_idx (n edge i : ℕ) (he : 1 ≤ edge) (hn : 2 * edge < n) (_hi : i < n) : MirrorOf n edge i (edge + reflectPadIdx (n - 2 * edge) edge i) := by
  have h := reflectPadIdx_lt (n - 2 * edge) edge i (by omega)
  refine ⟨by omega, fun h1 h2 => ?_, fun h1 h2 => ?_, fun h1 h2 h3 => ?_⟩
  · have := reflectPadIdx_mid (n - 2 * edge) edge (i - edge) (by omega)
    rw [show edge + (i - edge) = i by omega] at this
    omega
  · unfold reflectPadIdx
    rw [if_neg (by omega)]
    have e : ((i : ℤ) - edge) % (2 * (((n - 2 * edge : ℕ) : ℤ) - 1)) = (i : ℤ) - edge + 2 * (((n - 2 * edge : ℕ) : ℤ) - 1) := by
      rw [← Int.add_emod_right]
      exact Int.emod_eq_of_lt (by omega) (by omega)
    dsimp only
    rw [e]
    split <;> omega
  · unfold reflectPadIdx
    rw [if_neg (by omega)]
    by_cases h5 : (i : ℤ) - edge < 2 * (((n - 2 * edge : ℕ) : ℤ) - 1)
    · have e : ((i : ℤ) - edge) % (2 * (((n - 2 * edge : ℕ) : ℤ) - 1)) = (i : ℤ) - edge := Int.emod_eq_of_lt (by omega) (by omega)
      dsimp only
      rw [e]
      split <;> omega
    · have e : ((i : ℤ) - edge) % (2 * (((n - 2 * edge : ℕ) : ℤ) - 1)) = 0 := by
        have : (i : ℤ) - edge = 2 * (((n - 2 * edge : ℕ) : ℤ) - 1) := by omega
        rw [this, Int.emod_self]
      dsimp only
      rw [e]
      split <;> omega

/-- **C121.** The border is replaced by the mirror image of the interior if there is an interior; otherwise the call raises. -/
theorem refill_spec (edge : ℕ) (he : 1 ≤ edge) (m : Mat ℝ) :
    (¬ (2 * edge < m.h ∧ 2 * edge < m.w) → refill edge m = .error .valueError) ∧
    (2 * edge < m.h ∧ 2 * edge < m.w → ∃ m', refill edge m = .ok m' ∧ Mirrored edge m m') := by
  have b1 : ∀ n : ℕ, pyBound n (-(edge : ℤ)) - pyBound n edge = n - 2 * edge := by
    intro n; unfold pyBound; split_ifs <;> omega
  have b2 : ∀ n : ℕ, 2 * edge < n → pyBound n edge = edge := by
    intro n hn; unfold pyBound; split_ifs <;> omega
  constructor
  · intro h
    unfold refill
    dsimp only
    rw [b1, b1, if_pos (by omega)]
  · rintro ⟨h1, h2⟩
    unfold refill
    dsimp only
    rw [b1, b1, if_neg (by omega), b2 _ h1, b2 _ h2]
    refine ⟨_, rfl, by dsimp only; omega, by dsimp only; omega, fun i j hi hj => ⟨_, _, mirror_idx m.h edge i he h1 hi, mirror_idx m.w edge j he h2 hj, rfl⟩⟩

/-- The search with the clipped options. -/
def Backend.found (b : Backend) (umpa dark : Bool) (winSize margin size : ℤ) : Py ((Mat ℝ × Mat ℝ) × Option (Mat ℝ × Mat ℝ)) :=
  findAll b umpa dark (max winSize 1).toNat (max margin 1).toNat (max size 3)

/-- The parts of a result: shifts if asked for, phase, signals if asked for. -/
def Result.parts : Result → Option (Mat ℝ × Mat ℝ) × Mat ℝ × Option (Mat ℝ × Mat ℝ)
  | .phase p => (none, p, none)
  | .shifts x y p => (some (x, y), p, none)
  | .signals p t d => (none, p, some (t, d))
  | .all x y p t d => (some (x, y), p, some (t, d))

/-- **C121.** What is returned: the shifts iff `return_shift`, transmission and dark signal iff `dark_signal`; the shifts are the found ones with a mirrored
border, the phase is the surface reconstructed from these, transmission and dark signal are those of the search ("umpa") or computed from the found shifts. -/
theorem tracking_spec (b : Backend) (umpa dark scs ret : Bool) (winSize margin size : ℤ) (res : Result)
    (h : tracking b umpa dark scs ret winSize margin size = .ok res) :
    ∃ x0 y0 x y p td,
      (if umpa then ∃ r, b.umpa (max winSize 1).toNat (max margin 1).toNat (max size 3) dark = .ok ((x0, y0), r) ∧ td = (if dark then some r else none)
        else b.correl (max winSize 1).toNat (max margin 1).toNat (max size 3) = .ok (x0, y0) ∧
          (dark = false → td = none) ∧ (dark = true → ∃ r, b.signal x0 y0 (max winSize 1).toNat (max margin 1).toNat = .ok r ∧ td = some r)) ∧
      Mirrored ((max margin 1).toNat + 2) x0 x ∧ Mirrored ((max margin 1).toNat + 2) y0 y ∧
      (if scs then b.scs x y else b.fc x y) = .ok p ∧
      res.parts = (if ret then some (x, y) else none, p, td) := by
  unfold tracking at h
  dsimp only at h
  cases hf : findAll b umpa dark (max winSize 1).toNat (max margin 1).toNat (max size 3) with
  | error e => rw [hf] at h; cases h
  | ok f =>
    obtain ⟨⟨x0, y0⟩, td⟩ := f
    rw [hf] at h
    change (refill ((max margin 1).toNat + 2) x0).bind _ = _ at h
    obtain ⟨r1, r2⟩ := refill_spec ((max margin 1).toNat + 2) (by omega) x0
    obtain ⟨r3, r4⟩ := refill_spec ((max margin 1).toNat + 2) (by omega) y0
    by_cases c1 : 2 * ((max margin 1).toNat + 2) < x0.h ∧ 2 * ((max margin 1).toNat + 2) < x0.w
    swap
    · rw [r1 c1] at h; cases h
    by_cases c2 : 2 * ((max margin 1).toNat + 2) < y0.h ∧ 2 * ((max margin 1).toNat + 2) < y0.w
    swap
    · obtain ⟨x, hx, -⟩ := r2 c1
      rw [hx, r3 c2] at h; cases h
    obtain ⟨x, hx, mx⟩ := r2 c1
    obtain ⟨y, hy, my⟩ := r4 c2
    rw [hx, hy] at h
    change ((if scs then b.scs else b.fc) x y).bind _ = _ at h
    cases hp : (if scs then b.scs else b.fc) x y with
    | error e => rw [hp] at h; cases h
    | ok p =>
      rw [hp] at h
      refine ⟨x0, y0, x, y, p, td, ?_, mx, my, ?_, ?_⟩
      · unfold findAll at hf
        cases umpa with
        | true =>
          rw [if_pos rfl] at hf ⊢
          cases hu : b.umpa (max winSize 1).toNat (max margin 1).toNat (max size 3) dark with
          | error e => rw [hu] at hf; cases hf
          | ok r =>
            rw [hu] at hf
            obtain ⟨r1, r2⟩ := r
            have := Except.ok.inj hf
            rw [Prod.mk.injEq] at this
            dsimp only at this
            obtain ⟨rfl, rfl⟩ := this
            exact ⟨r2, rfl, rfl⟩
        | false =>
          rw [if_neg (by simp)] at hf ⊢
          cases hu : b.correl (max winSize 1).toNat (max margin 1).toNat (max size 3) with
          | error e => rw [hu] at hf; cases hf
          | ok s =>
            rw [hu] at hf
            change (if dark then (b.signal s.1 s.2 (max winSize 1).toNat (max margin 1).toNat).bind _ else _) = _ at hf
            cases dark with
            | false =>
              rw [if_neg (by simp)] at hf
              have := Except.ok.inj hf
              rw [Prod.mk.injEq] at this
              obtain ⟨rfl, rfl⟩ := this
              exact ⟨rfl, fun _ => rfl, fun h => (nomatch h)⟩
            | true =>
              rw [if_pos rfl] at hf
              cases hs : b.signal s.1 s.2 (max winSize 1).toNat (max margin 1).toNat with
              | error e => rw [hs] at hf; cases hf
              | ok t =>
                rw [hs] at hf
                have := Except.ok.inj hf
                rw [Prod.mk.injEq] at this
                obtain ⟨rfl, rfl⟩ := this
                exact ⟨rfl, fun h => (nomatch h), fun _ => ⟨t, hs, rfl⟩⟩
      · cases scs <;> exact hp
      · have := Except.ok.inj h
        rw [← this]
        cases ret <;> cases td <;> rfl

/-- The image is zero within `start` pixels of the border (the documented form of the results of the searches). -/
def ZeroBorder (start : ℕ) (m : Mat ℝ) : Prop := ∀ i j, i < m.h → j < m.w → ¬ Searched m.h m.w start i j → m.get i j = 0

/-- **C121.** For windows of at most 5 pixels the shifts used for the phase are all found ones: every pixel shows the shift found at some searched pixel, and
its own if it lies at least `margin + 2` from the border. -/
theorem tracking_found_partial (margin winSize : ℕ) (hw : winSize ≤ 5) (m m' : Mat ℝ) (h : Mirrored (margin + 2) m m') :
    (∀ i j, i < m.h → j < m.w → ∃ p q, Searched m.h m.w (winSize / 2 + margin) p q ∧ m'.get i j = m.get p q) ∧
    ∀ i j, Searched m.h m.w (margin + 2) i j → m'.get i j = m.get i j := by
  obtain ⟨-, -, h⟩ := h
  constructor
  · intro i j hi hj
    obtain ⟨p, q, ⟨⟨a1, a2⟩, -⟩, ⟨⟨b1, b2⟩, -⟩, e⟩ := h i j hi hj
    exact ⟨p, q, ⟨⟨by omega, by omega⟩, by omega, by omega⟩, e⟩
  · rintro i j ⟨⟨a1, a2⟩, a3, a4⟩
    obtain ⟨p, q, ⟨-, c1, -⟩, ⟨-, c2, -⟩, e⟩ := h i j (by omega) (by omega)
    rw [e, c1 a1 a2, c2 a3 a4]

/-- **C121, refuted.** For windows of 6 pixels or more - the default is 7 - the shifts used for the phase contain a frame of zeros that were not found: rows and
columns `margin + 2` (and their mirror images on the other side), whatever the images. -/
theorem tracking_frame_refuted (margin winSize : ℕ) (hw : 6 ≤ winSize) (m m' : Mat ℝ) (h : Mirrored (margin + 2) m m')
    (hz : ZeroBorder (winSize / 2 + margin) m) (h0 : 0 < m.h) (w0 : 0 < m.w) :
    (∀ j, j < m.w → m'.get (margin + 2) j = 0 ∧ m'.get (m.h - margin - 3) j = 0) ∧
    (∀ i, i < m.h → m'.get i (margin + 2) = 0 ∧ m'.get i (m.w - margin - 3) = 0) := by
  obtain ⟨-, -, h⟩ := h
  have row : ∀ i j, i < m.h → j < m.w → (i = margin + 2 ∨ i + margin + 3 = m.h) → m'.get i j = 0 := by
    intro i j hi hj hi'
    obtain ⟨p, q, ⟨⟨a1, a2⟩, a3, -⟩, ⟨⟨b1, b2⟩, -⟩, e⟩ := h i j hi hj
    rw [e]
    refine hz p q (by omega) (by omega) ?_
    rintro ⟨⟨c1, c2⟩, -⟩
    have := a3 (by omega) (by omega)
    omega
  have col : ∀ i j, i < m.h → j < m.w → (j = margin + 2 ∨ j + margin + 3 = m.w) → m'.get i j = 0 := by
    intro i j hi hj hj'
    obtain ⟨p, q, ⟨⟨a1, a2⟩, -⟩, ⟨⟨b1, b2⟩, b3, -⟩, e⟩ := h i j hi hj
    rw [e]
    refine hz p q (by omega) (by omega) ?_
    rintro ⟨-, c1, c2⟩
    have := b3 (by omega) (by omega)
    omega
  obtain ⟨p, q, ⟨⟨a1, a2⟩, -⟩, ⟨⟨a3, a4⟩, -⟩, -⟩ := h 0 0 h0 w0
  exact ⟨fun j hj => ⟨row _ _ (by omega) hj (.inl rfl), row _ _ (by omega) hj (.inr (by omega))⟩,
    fun i hi => ⟨col _ _ hi (by omega) (.inl rfl), col _ _ hi (by omega) (.inr (by omega))⟩⟩

/-- **C121, refuted.** The same for the whole function with the CPU search of two single images, any number of cores and schedule: whatever the images, the
returned shifts have that frame of zeros. -/
theorem tracking_frame_cpu_refuted {ref mat : Mat ℝ} {method : Method ℝ} {ncore : ℕ} {norm : Bool} (b : Backend)
    (hb : ∀ w m s, ∃ sched, shifts2d ref mat w m true method s ncore norm sched = some (b.correl w m s)) (dark scs : Bool)
    (winSize margin : ℕ) (size : ℤ) (hw : 6 ≤ winSize) (hm : 1 ≤ margin) (res : Result)
    (h : tracking b false dark scs true winSize margin size = .ok res) :
    ∃ x y, res.parts.1 = some (x, y) ∧ (x.h = ref.h ∧ x.w = ref.w ∧ y.h = ref.h ∧ y.w = ref.w) ∧
      ∀ j, j < ref.w → x.get (margin + 2) j = 0 ∧ y.get (margin + 2) j = 0 := by
  obtain ⟨x0, y0, x, y, p, td, h1, mx, my, -, h2⟩ := tracking_spec b false dark scs true winSize margin size res h
  rw [if_neg (by simp)] at h1
  rw [show (max (winSize : ℤ) 1).toNat = winSize by omega, show (max (margin : ℤ) 1).toNat = margin by omega] at h1
  rw [show (max (margin : ℤ) 1).toNat = margin by omega] at mx my
  obtain ⟨sched, hs⟩ := hb winSize margin (max size 3)
  rw [h1.1] at hs
  by_cases hv : (ref.h = mat.h ∧ ref.w = mat.w) ∧ 2 * (winSize / 2 + margin) + 1 ≤ ref.h ∧ 2 * (winSize / 2 + margin) + 1 ≤ ref.w
  swap
  · rw [shifts2d_refused hv] at hs
    cases hs
  obtain ⟨⟨s1, s2, s3, s4⟩, -, hz⟩ := (shifts2d_spec hv.1 hv.2 hs).2 x0 y0 rfl
  have zx : ZeroBorder (winSize / 2 + margin) x0 := fun i j _ _ hn => (hz i j (by rw [← s1, ← s2]; exact hn)).1
  have zy : ZeroBorder (winSize / 2 + margin) y0 := fun i j _ _ hn => (hz i j (by rw [← s3, ← s4]; exact hn)).2
  have rx := (tracking_frame_refuted margin winSize hw x0 x mx zx (by omega) (by omega)).1
  have ry := (tracking_frame_refuted margin winSize hw y0 y my zy (by omega) (by omega)).1
  rw [s2] at rx
  rw [s4] at ry
  refine ⟨x, y, by rw [h2]; rfl, ⟨by rw [mx.1, s1], by rw [mx.2.1, s2], by rw [my.1, s3], by rw [my.2.1, s4]⟩, fun j hj => ⟨(rx j hj).1, (ry j hj).1⟩⟩

/-! ### Examples -/

/-- The frame in numbers: 20 x 20 pixels, window 7, margin 1, a shift of 5 found at every searched pixel. -/
example : ∃ m m' : Mat ℝ, (∀ i j, Searched m.h m.w (7 / 2 + 1) i j → m.get i j = 5) ∧ refill (1 + 2) m = .ok m' ∧ m'.get 3 10 = 0 ∧ m'.get 10 10 = 5 := by
  let m : Mat ℝ := ⟨20, 20, fun i j => if 4 ≤ i ∧ i < 16 ∧ 4 ≤ j ∧ j < 16 then 5 else 0⟩
  obtain ⟨m', h1, h2⟩ := (refill_spec 3 (by omega) m).2 ⟨by norm_num [m], by norm_num [m]⟩
  refine ⟨m, m', ?_, h1, ?_, ?_⟩
  · rintro i j ⟨⟨a1, a2⟩, a3, a4⟩
    have a2' : i + (7 / 2 + 1) < 20 := a2
    have a4' : j + (7 / 2 + 1) < 20 := a4
    show (if _ then _ else _) = _
    rw [if_pos (by omega)]
  · refine ((tracking_frame_refuted 1 7 (by omega) m m' h2 ?_ (by norm_num [m]) (by norm_num [m])).1 10 (by norm_num [m])).1
    intro i j hi hj hn
    show (if _ then _ else _) = _
    rw [if_neg]
    rintro ⟨a1, a2, a3, a4⟩
    exact hn ⟨⟨by omega, by show i + (7 / 2 + 1) < 20; omega⟩, by omega, by show j + (7 / 2 + 1) < 20; omega⟩
  · rw [(tracking_found_partial 1 5 le_rfl m m' h2).2 10 10 ⟨⟨by omega, by norm_num [m]⟩, by omega, by norm_num [m]⟩]
    norm_num [m]

/-- The hypotheses of `shifts2d_recovers` are met by the images of Props/GlobalShift.lean. -/
example (x y : Mat ℝ) (h : shifts2d GlobalShift.exRef GlobalShift.exMat 3 1 false .diff 3 1 false [] = some (.ok (x, y))) : x.get 4 4 = -1 ∧ y.get 4 4 = 1 := by
  have hh : GlobalShift.exRef.h = 9 := rfl
  have hw : GlobalShift.exRef.w = 9 := rfl
  have w : WindowShift GlobalShift.exRef GlobalShift.exMat 4 4 (3 / 2) 1 1 (-1) := exWindow
  have r := shifts2d_recovers (ref := GlobalShift.exRef) (mat := GlobalShift.exMat) (winSize := 3) (margin := 1) (subPixel := false) ⟨rfl, rfl⟩ (by omega)
    ⟨by rw [hh]; omega, by rw [hw]; omega⟩ h 4 4 ⟨⟨by omega, by rw [hh]; omega⟩, by omega, by rw [hw]; omega⟩ 1 (-1) (by norm_num) (by norm_num) w
  have := r.1 rfl
  rw [Prod.mk.injEq] at this
  exact ⟨by rw [this.1]; norm_num, by rw [this.2]; norm_num⟩

end Verif.SpeckleTracking
