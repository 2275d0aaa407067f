import Verif.Model.StackShift
import Verif.Props.GlobalShift
import Verif.Props.Helical
import Verif.Props.Masks

set_option linter.unusedSectionVars false
set_option linter.unusedSimpArgs false

/-!
**C119.** Alignment of speckle-image stacks (algotom/prep/phase.py:534-687).
-/

namespace Verif.StackShift
open Verif.Io Verif.GlobalShift Verif.Correlation Verif.Sched

/-! ### Specification -/

/-- What is assumed of `scipy.ndimage.shift`: the shape is kept and a whole number of pixels is a plain copy wherever the source pixel exists (spline
interpolation passes through the samples).  Nothing is assumed of the filled borders nor of fractional shifts. -/
def ExactShift (sh : ℝ × ℝ → Mat ℝ → Mat ℝ) : Prop :=
  (∀ v m, (sh v m).h = m.h ∧ (sh v m).w = m.w) ∧
  ∀ (m : Mat ℝ) (dy dx : ℤ) (i j : ℕ), i < m.h → j < m.w → 0 ≤ (i : ℤ) - dy → (i : ℤ) - dy < m.h → 0 ≤ (j : ℤ) - dx → (j : ℤ) - dx < m.w →
    (sh ((dy : ℝ), (dx : ℝ)) m).get i j = m.get ((i : ℤ) - dy).toNat ((j : ℤ) - dx).toNat

/-- A scan: `n` pairs of images of `h` rows and `w` columns.  Image `k` shows the speckle pattern `r k`, in the sample image displaced by `s k` = (x, y)
relative to the reference image, times the transmission `t` of the object displaced by `o k`. -/
structure Scan where
  n : ℕ
  h : ℕ
  w : ℕ
  r : ℕ → ℤ → ℤ → ℝ
  t : ℤ → ℤ → ℝ
  s : ℕ → ℤ × ℤ
  o : ℕ → ℤ × ℤ

/-- The reference images. -/
def Scan.ref (e : Scan) : NdArr ℝ := .three ⟨e.n, e.h, e.w, fun k i j => e.r k i j⟩

/-- The sample images. -/
def Scan.sam (e : Scan) : NdArr ℝ :=
  .three ⟨e.n, e.h, e.w, fun k i j => e.r k (i + (e.s k).2) (j + (e.s k).1) * e.t (i + (e.o k).2) (j + (e.o k).1)⟩

/-- A list of integer shifts as the code's list of `[x, y]`. -/
def shiftList (n : ℕ) (s : ℕ → ℤ × ℤ) : List (ℝ × ℝ) := (List.range n).map fun k => (((s k).1 : ℝ), ((s k).2 : ℝ))

/-! ### Lemmas -/

theorem at_range {α : Type} (n : ℕ) (f : ℕ → α) (k : ℕ) (hk : k < n) : at? ((List.range n).map f) k = .ok (f k) := by
  unfold at?
  rw [List.getElem?_map, List.getElem?_range hk]
  rfl

theorem at_ok {α : Type} (l : List α) (k : ℕ) (hk : k < l.length) : at? l k = .ok l[k] := by
  unfold at?
  rw [List.getElem?_eq_getElem hk]

theorem images_three (a : Arr3 ℝ) (k : ℕ) (hk : k < a.d) : at? (images (.three a)) k = .ok ⟨a.h, a.w, a.get k⟩ := at_range _ _ _ hk

theorem images_length (a : Arr3 ℝ) : (images (.three a)).length = a.d := by simp [images]

/-- A single 2D image is a stack of one image. -/
theorem images_two (m : Mat ℝ) : images (.two m) = images (.three ⟨1, m.h, m.w, fun _ => m.get⟩) := rfl

theorem mapM_range_iff {β : Type} (n : ℕ) (f : ℕ → Py β) (l : List β) :
    (List.range n).mapM f = .ok l ↔ ∃ hl : l.length = n, ∀ k (hk : k < n), f k = .ok l[k] := by
  rw [Simulation.mapM_ok_iff, List.forall₂_iff_get]
  constructor
  · rintro ⟨h1, h2⟩
    rw [List.length_range] at h1
    refine ⟨h1.symm, fun k hk => ?_⟩
    have := h2 k (by simpa using hk) (by omega)
    simpa using this
  · rintro ⟨h1, h2⟩
    refine ⟨by simp [h1], fun k hk _ => ?_⟩
    rw [List.length_range] at hk
    simpa using h2 k hk

theorem ok_bind {α β : Type} (x : α) (f : α → Py β) : ((Except.ok x : Py α) >>= f) = f x := rfl

theorem mapM_congr {α β : Type} {f g : α → Py β} (l : List α) (h : ∀ x ∈ l, f x = g x) : l.mapM f = l.mapM g := by
  induction l with
  | nil => rfl
  | cons a l ih => rw [List.mapM_cons, List.mapM_cons, h a (by simp), ih fun x hx => h x (by simp [hx])]

/-! ### Shifts between the pairs -/

/-- **C119.** `find_shift_between_image_stacks` refuses stacks of different shapes, and otherwise returns one shift per pair: the one its search finds for
that pair. -/
theorem find_stack_shifts (find : Mat ℝ → Mat ℝ → Py (ℝ × ℝ)) (a b : Arr3 ℝ) :
    (¬ (a.d = b.d ∧ a.h = b.h ∧ a.w = b.w) → findStackShifts find (.three a) (.three b) = .error .valueError) ∧
    (a.d = b.d ∧ a.h = b.h ∧ a.w = b.w → ∀ l, findStackShifts find (.three a) (.three b) = .ok l ↔
      ∃ hl : l.length = a.d, ∀ k (hk : k < a.d), find ⟨a.h, a.w, a.get k⟩ ⟨b.h, b.w, b.get k⟩ = .ok l[k]) := by
  constructor
  · intro h
    unfold findStackShifts
    rw [if_pos]
    intro he
    simp only [shapeOf, List.cons.injEq, and_true] at he
    exact h he
  · rintro ⟨h1, h2, h3⟩ l
    unfold findStackShifts
    rw [if_neg (by simp [shapeOf, h1, h2, h3])]
    have e : (images (.three a)).zip (images (.three b)) =
        (List.range a.d).map fun k => ((⟨a.h, a.w, a.get k⟩ : Mat ℝ), (⟨b.h, b.w, b.get k⟩ : Mat ℝ)) := by
      unfold images
      dsimp only
      rw [← h1, List.zip_map']
    rw [e, List.mapM_map, mapM_range_iff]
    rfl

/-- **C119.** With the CPU search, any number of cores and any schedule: if every sample image is the reference image translated by whole pixels around
the chosen points, the list contains those translations. -/
theorem find_stack_shifts_recovers {a b : Arr3 ℝ} (hs : a.d = b.d ∧ a.h = b.h ∧ a.w = b.w) {winSize margin : ℕ} {points : Option Points}
    {rnd : List (ℕ × ℕ)} (hm : 1 ≤ margin) (hsz : 2 * (winSize / 2 + margin) + 1 ≤ a.h ∧ 2 * (winSize / 2 + margin) + 1 ≤ a.w)
    (hpts : PointsOk points rnd a.h a.w (winSize / 2 + margin)) (s : ℕ → ℤ × ℤ) (hb : ∀ k < a.d, |(s k).2| ≤ margin ∧ |(s k).1| ≤ margin)
    (hw : ∀ k < a.d, ∀ i j, Chosen points rnd i j → winSize / 2 + margin ≤ i → i + (winSize / 2 + margin) < a.h →
      winSize / 2 + margin ≤ j → j + (winSize / 2 + margin) < a.w →
      WindowShift ⟨a.h, a.w, a.get k⟩ ⟨b.h, b.w, b.get k⟩ i j (winSize / 2) margin (s k).2 (s k).1)
    (agg : Agg) (subPixel : Bool) (method : Method ℝ) (size : ℤ) (ncore : ℕ) (find : Mat ℝ → Mat ℝ → Py (ℝ × ℝ))
    (hf : ∀ x y : Mat ℝ, ∃ sched, globalShift x y winSize margin points rnd agg subPixel method size ncore false sched = some (find x y)) :
    ∃ l, findStackShifts find (.three a) (.three b) = .ok l ∧ ∃ hl : l.length = a.d,
      ∀ k (hk : k < a.d), Recovered subPixel method 2 (s k).2 (s k).1 l[k] := by
  have key : ∀ k < a.d, ∃ v, find ⟨a.h, a.w, a.get k⟩ ⟨b.h, b.w, b.get k⟩ = .ok v ∧ Recovered subPixel method 2 (s k).2 (s k).1 v := by
    intro k hk
    obtain ⟨sched, h⟩ := hf ⟨a.h, a.w, a.get k⟩ ⟨b.h, b.w, b.get k⟩
    exact global_shift_recovers_partial (ref := ⟨a.h, a.w, a.get k⟩) (mat := ⟨b.h, b.w, b.get k⟩) hs.2.1 hs.2.2 hm hsz hpts (hb k hk).1 (hb k hk).2
      (hw k hk) agg subPixel method size ncore sched _ h
  obtain ⟨l, -, hl, h⟩ := Helical.mapM_range_ok a.d (fun k => find ⟨a.h, a.w, a.get k⟩ ⟨b.h, b.w, b.get k⟩)
    (fun k v => find ⟨a.h, a.w, a.get k⟩ ⟨b.h, b.w, b.get k⟩ = .ok v ∧ Recovered subPixel method 2 (s k).2 (s k).1 v)
    (fun k hk => by obtain ⟨v, h1, h2⟩ := key k hk; exact ⟨v, h1, h1, h2⟩)
  exact ⟨l, (((find_stack_shifts find a b).2 hs) l).2 ⟨hl, fun k hk => (h k hk).1⟩, hl, fun k hk => (h k hk).2⟩

/-! ### Alignment -/

/-- **C119.** `align_image_stacks` succeeds exactly for stacks of one shape with one shift per image (in each list that is given), returns one pair per
image, and leaves the sample images alone if no sample shifts are given. -/
theorem align_stacks (shift : ℝ × ℝ → Mat ℝ → Mat ℝ) (a b : Arr3 ℝ) (sr : List (ℝ × ℝ)) (ss : Option (List (ℝ × ℝ))) :
    (¬ ((a.d = b.d ∧ a.h = b.h ∧ a.w = b.w) ∧ sr.length = a.d ∧ (∀ l, ss = some l → l.length = a.d)) →
      alignStacks shift (.three a) (.three b) sr ss = .error .valueError) ∧
    ((a.d = b.d ∧ a.h = b.h ∧ a.w = b.w) → (hsr : sr.length = a.d) → (hss : ∀ l, ss = some l → l.length = a.d) →
      ∃ out, alignStacks shift (.three a) (.three b) sr ss = .ok out ∧ ∃ hl : out.length = a.d, ∀ k (hk : k < a.d),
        (ss = none → out[k].1 = shift (-sr[k].2, -sr[k].1) ⟨a.h, a.w, a.get k⟩ ∧ out[k].2 = ⟨b.h, b.w, b.get k⟩) ∧
        (∀ l (h : ss = some l), out[k].1 = shift ((l[k]'(by rw [hss l h]; exact hk)).2, (l[k]'(by rw [hss l h]; exact hk)).1)
              (shift (-sr[k].2, -sr[k].1) ⟨a.h, a.w, a.get k⟩) ∧
            out[k].2 = shift ((l[k]'(by rw [hss l h]; exact hk)).2, (l[k]'(by rw [hss l h]; exact hk)).1) ⟨b.h, b.w, b.get k⟩)) := by
  constructor
  · intro h
    unfold alignStacks
    by_cases h1 : shapeOf (.three a) ≠ shapeOf (.three b)
    · rw [if_pos h1]
    rw [if_neg h1]
    have h1' : a.d = b.d ∧ a.h = b.h ∧ a.w = b.w := by simpa [shapeOf] using h1
    by_cases h2 : (images (.three a)).length ≠ sr.length
    · rw [if_pos h2]
    rw [if_neg h2]
    rw [images_length] at h2
    rw [if_pos]
    cases ss with
    | none => exact absurd ⟨h1', by omega, by simp⟩ h
    | some l =>
      rw [Option.any_some, images_length, bne_iff_ne]
      intro h3
      exact h ⟨h1', by omega, by rintro l' ⟨rfl⟩; exact h3.symm⟩
  · intro h1 hsr hss
    unfold alignStacks
    rw [if_neg (by simp [shapeOf, h1]), if_neg (by rw [images_length, hsr]; simp), if_neg ?_]
    · rw [images_length]
      have := Helical.mapM_range_ok a.d (fun i => do
          let r ← at? (images (.three a)) i
          let s ← at? (images (.three b)) i
          let d ← at? sr i
          let e ← pick ss i
          return alignPair shift r s d e)
        (fun k v => ∀ (hk : k < a.d),
        (ss = none → v.1 = shift (-sr[k].2, -sr[k].1) ⟨a.h, a.w, a.get k⟩ ∧ v.2 = ⟨b.h, b.w, b.get k⟩) ∧
        (∀ l (h : ss = some l), v.1 = shift ((l[k]'(by rw [hss l h]; exact hk)).2, (l[k]'(by rw [hss l h]; exact hk)).1)
              (shift (-sr[k].2, -sr[k].1) ⟨a.h, a.w, a.get k⟩) ∧
            v.2 = shift ((l[k]'(by rw [hss l h]; exact hk)).2, (l[k]'(by rw [hss l h]; exact hk)).1) ⟨b.h, b.w, b.get k⟩)) ?_
      · obtain ⟨out, h2, hl, h3⟩ := this
        exact ⟨out, h2, hl, fun k hk => h3 k hk hk⟩
      · intro k hk
        rw [images_three a k hk, images_three b k (by omega), at_ok sr k (by omega)]
        cases ss with
        | none => exact ⟨_, rfl, fun _ => ⟨fun _ => ⟨rfl, rfl⟩, fun l h => nomatch h⟩⟩
        | some l =>
          have hl := hss l rfl
          have : pick (some l) k = .ok (some (l[k]'(by omega))) := by
            unfold pick
            dsimp only
            rw [at_ok l k (by omega)]
            rfl
          rw [this]
          exact ⟨_, rfl, fun _ => ⟨fun h => (nomatch h), by rintro l' ⟨rfl⟩; exact ⟨rfl, rfl⟩⟩⟩
    · cases ss with
      | none => simp
      | some l => simp [images_length, hss l rfl]

/-- Pixel `(i, j)` lies in the images of the scan. -/
def Scan.In (e : Scan) (i j : ℤ) : Prop := (0 ≤ i ∧ i < e.h) ∧ 0 ≤ j ∧ j < e.w

theorem shiftList_length (n : ℕ) (s : ℕ → ℤ × ℤ) : (shiftList n s).length = n := by simp [shiftList]

theorem shiftList_get (n : ℕ) (s : ℕ → ℤ × ℤ) (k : ℕ) (hk : k < (shiftList n s).length) :
    (shiftList n s)[k] = (((s k).1 : ℝ), ((s k).2 : ℝ)) := by simp [shiftList]

theorem exact_get {sh : ℝ × ℝ → Mat ℝ → Mat ℝ} (hsh : ExactShift sh) (m : Mat ℝ) (u v : ℝ) (dy dx : ℤ) (hu : u = dy) (hv : v = dx) (i j p q : ℕ)
    (hi : i < m.h) (hj : j < m.w) (hp : (p : ℤ) = i - dy) (hq : (q : ℤ) = j - dx) (hp' : p < m.h) (hq' : q < m.w) :
    (sh (u, v) m).get i j = m.get p q := by
  subst hu hv
  rw [hsh.2 m dy dx i j hi hj (by omega) (by omega) (by omega) (by omega)]
  congr 1 <;> omega

/-- **C119.** With correct reference-to-sample shifts and any whole-pixel sample shifts `d`: at every pixel whose sources lie in the images, both aligned
images show the same speckles, and the aligned sample image is the aligned reference image times the transmission of the object moved by `d`. -/
theorem align_scan (e : Scan) {sh : ℝ × ℝ → Mat ℝ → Mat ℝ} (hsh : ExactShift sh) (d : ℕ → ℤ × ℤ) :
    ∃ out, alignStacks sh e.ref e.sam (shiftList e.n e.s) (some (shiftList e.n d)) = .ok out ∧ ∃ hl : out.length = e.n, ∀ k (hk : k < e.n),
      ∀ i j : ℕ, i < e.h → j < e.w → e.In (i - (d k).2) (j - (d k).1) → e.In (i - (d k).2 + (e.s k).2) (j - (d k).1 + (e.s k).1) →
        out[k].1.get i j = e.r k (i - (d k).2 + (e.s k).2) (j - (d k).1 + (e.s k).1) ∧
        out[k].2.get i j = out[k].1.get i j * e.t (i - (d k).2 + (e.o k).2) (j - (d k).1 + (e.o k).1) := by
  obtain ⟨out, h1, hl, h2⟩ := (align_stacks sh ⟨e.n, e.h, e.w, fun k i j => e.r k i j⟩
    ⟨e.n, e.h, e.w, fun k i j => e.r k (i + (e.s k).2) (j + (e.s k).1) * e.t (i + (e.o k).2) (j + (e.o k).1)⟩ (shiftList e.n e.s)
    (some (shiftList e.n d))).2 ⟨rfl, rfl, rfl⟩ (shiftList_length _ _) (by rintro l ⟨rfl⟩; exact shiftList_length _ _)
  refine ⟨out, h1, hl, fun k hk i j hi hj ⟨⟨a1, a2⟩, a3, a4⟩ ⟨⟨b1, b2⟩, b3, b4⟩ => ?_⟩
  obtain ⟨c1, c2⟩ := (h2 k hk).2 _ rfl
  simp only [shiftList_get] at c1 c2
  obtain ⟨p, hp⟩ := Int.eq_ofNat_of_zero_le a1
  obtain ⟨q, hq⟩ := Int.eq_ofNat_of_zero_le a3
  obtain ⟨p', hp'⟩ := Int.eq_ofNat_of_zero_le b1
  obtain ⟨q', hq'⟩ := Int.eq_ofNat_of_zero_le b3
  have hk' : k < out.length := by rw [hl]; exact hk
  have g1 : out[k].1.get i j = e.r k (i - (d k).2 + (e.s k).2) (j - (d k).1 + (e.s k).1) := by
    rw [c1, exact_get hsh _ _ _ (d k).2 (d k).1 rfl rfl i j p q (by rw [(hsh.1 _ _).1]; exact hi) (by rw [(hsh.1 _ _).2]; exact hj) hp.symm hq.symm
      (by rw [(hsh.1 _ _).1]; show p < e.h; omega) (by rw [(hsh.1 _ _).2]; show q < e.w; omega),
      exact_get hsh _ _ _ (-(e.s k).2) (-(e.s k).1) (by push_cast; rfl) (by push_cast; rfl) p q p' q' (by show p < e.h; omega) (by show q < e.w; omega)
      (by omega) (by omega) (by show p' < e.h; omega) (by show q' < e.w; omega)]
    dsimp only
    rw [hp', hq']
  refine ⟨g1, ?_⟩
  rw [g1, c2, exact_get hsh _ _ _ (d k).2 (d k).1 rfl rfl i j p q hi hj hp.symm hq.symm (by show p < e.h; omega) (by show q < e.w; omega)]
  dsimp only
  rw [hp, hq]

/-- **C119.** The same without sample shifts. -/
theorem align_scan_pairs (e : Scan) {sh : ℝ × ℝ → Mat ℝ → Mat ℝ} (hsh : ExactShift sh) :
    ∃ out, alignStacks sh e.ref e.sam (shiftList e.n e.s) none = .ok out ∧ ∃ hl : out.length = e.n, ∀ k (hk : k < e.n),
      ∀ i j : ℕ, i < e.h → j < e.w → e.In (i + (e.s k).2) (j + (e.s k).1) →
        out[k].1.get i j = e.r k (i + (e.s k).2) (j + (e.s k).1) ∧
        out[k].2.get i j = out[k].1.get i j * e.t (i + (e.o k).2) (j + (e.o k).1) := by
  obtain ⟨out, h1, hl, h2⟩ := (align_stacks sh ⟨e.n, e.h, e.w, fun k i j => e.r k i j⟩
    ⟨e.n, e.h, e.w, fun k i j => e.r k (i + (e.s k).2) (j + (e.s k).1) * e.t (i + (e.o k).2) (j + (e.o k).1)⟩ (shiftList e.n e.s)
    none).2 ⟨rfl, rfl, rfl⟩ (shiftList_length _ _) (by rintro l h; cases h)
  refine ⟨out, h1, hl, fun k hk i j hi hj ⟨⟨b1, b2⟩, b3, b4⟩ => ?_⟩
  obtain ⟨c1, c2⟩ := (h2 k hk).1 rfl
  simp only [shiftList_get] at c1
  obtain ⟨p', hp'⟩ := Int.eq_ofNat_of_zero_le b1
  obtain ⟨q', hq'⟩ := Int.eq_ofNat_of_zero_le b3
  have hk' : k < out.length := by rw [hl]; exact hk
  have g1 : out[k].1.get i j = e.r k (i + (e.s k).2) (j + (e.s k).1) := by
    rw [c1, exact_get hsh _ _ _ (-(e.s k).2) (-(e.s k).1) (by push_cast; rfl) (by push_cast; rfl) i j p' q' hi hj
      (by omega) (by omega) (by show p' < e.h; omega) (by show q' < e.w; omega)]
    dsimp only
    rw [hp', hq']
  refine ⟨g1, ?_⟩
  rw [g1, c2]

/-! ### Shifts between the sample images -/

/-- The normalised sample image `k` without a border of `c` pixels: the object, displaced by `o k - s k`, times `reference / (reference + 1e-9)`. -/
def Scan.IsNormalised (e : Scan) (c k : ℕ) (m : Mat ℝ) : Prop :=
  m.h = e.h - 2 * c ∧ m.w = e.w - 2 * c ∧ ∀ i j : ℕ, i < m.h → j < m.w →
    m.get i j = e.r k (i + c) (j + c) / (e.r k (i + c) (j + c) + 1 / 10 ^ 9) *
      e.t (i + c + ((e.o k).2 - (e.s k).2)) (j + c + ((e.o k).1 - (e.s k).1))

/-- The border: one more than the largest shift. -/
def Scan.Border (e : Scan) (c : ℕ) : Prop :=
  (∀ k < e.n, |(e.s k).1| < c ∧ |(e.s k).2| < c) ∧ ∃ k < e.n, |(e.s k).1| + 1 = c ∨ |(e.s k).2| + 1 = c

theorem maxShift_int (n : ℕ) (s : ℕ → ℤ × ℤ) (hn : 0 < n) :
    ∃ M : ℕ, maxShift (shiftList n s) = .ok (M : ℝ) ∧ (∀ k < n, |(s k).1| ≤ M ∧ |(s k).2| ≤ M) ∧ ∃ k < n, |(s k).1| = M ∨ |(s k).2| = M := by
  have key : ∀ n : ℕ, ∃ M : ℕ, (shiftList n s).foldl (fun a p => max a (max |p.1| |p.2|)) 0 = (M : ℝ) ∧ (∀ k < n, |(s k).1| ≤ M ∧ |(s k).2| ≤ M) ∧
      (0 < n → ∃ k < n, |(s k).1| = M ∨ |(s k).2| = M) := by
    intro n
    induction n with
    | zero => exact ⟨0, by simp [shiftList], by simp, by simp⟩
    | succ n ih =>
      obtain ⟨M, h1, h2, h3⟩ := ih
      refine ⟨max M (max (s n).1.natAbs (s n).2.natAbs), ?_, ?_, ?_⟩
      · unfold shiftList at h1 ⊢
        rw [List.range_succ, List.map_append, List.foldl_append, h1]
        simp only [List.map_cons, List.map_nil, List.foldl_cons, List.foldl_nil]
        push_cast
        rw [Nat.cast_natAbs, Nat.cast_natAbs]
        push_cast
        rfl
      · intro k hk
        rcases Nat.lt_succ_iff_lt_or_eq.1 hk with h | h
        · have := h2 k h
          simp only [Int.abs_eq_natAbs] at this ⊢
          omega
        · subst h; simp only [Int.abs_eq_natAbs]; omega
      · intro _
        rcases Nat.eq_zero_or_pos n with h0 | h0
        · subst h0
          have hM : M = 0 := by
            have : (0 : ℝ) = M := by rw [← h1]; simp [shiftList]
            exact_mod_cast this.symm
          refine ⟨0, by omega, ?_⟩
          simp only [Int.abs_eq_natAbs]
          omega
        · obtain ⟨k, hk, h⟩ := h3 h0
          simp only [Int.abs_eq_natAbs] at h ⊢
          by_cases hm : max (s n).1.natAbs (s n).2.natAbs ≤ M
          · exact ⟨k, by omega, by omega⟩
          · exact ⟨n, by omega, by omega⟩
  obtain ⟨M, h1, h2, h3⟩ := key n
  refine ⟨M, ?_, h2, h3 hn⟩
  rw [← h1]
  obtain ⟨m, rfl⟩ : ∃ m, n = m + 1 := ⟨n - 1, by omega⟩
  unfold shiftList
  rw [List.range_succ_eq_map, List.map_cons]
  rfl

theorem normalised_scan (e : Scan) {sh : ℝ × ℝ → Mat ℝ → Mat ℝ} (hsh : ExactShift sh) (c k : ℕ) (h0 : 1 ≤ c) (h1 : |(e.s k).1| < c) (h2 : |(e.s k).2| < c) :
    e.IsNormalised c k (normalised sh c ⟨e.h, e.w, fun i j => e.r k i j⟩
      ⟨e.h, e.w, fun i j => e.r k (i + (e.s k).2) (j + (e.s k).1) * e.t (i + (e.o k).2) (j + (e.o k).1)⟩ (((e.s k).1 : ℝ), ((e.s k).2 : ℝ))) := by
  rw [abs_lt] at h1 h2
  have b1 : ∀ n : ℕ, pyBound n (-(c : ℤ)) - pyBound n c = n - 2 * c := by
    intro n; unfold pyBound; split_ifs <;> omega
  unfold normalised cropMat
  dsimp only
  rw [(hsh.1 _ _).1, (hsh.1 _ _).2]
  refine ⟨b1 e.h, b1 e.w, fun i j hi hj => ?_⟩
  dsimp only at hi hj ⊢
  rw [b1] at hi hj
  have b2 : pyBound e.h c = c := by unfold pyBound; split_ifs <;> omega
  have b3 : pyBound e.w c = c := by unfold pyBound; split_ifs <;> omega
  rw [b2, b3]
  obtain ⟨p, hp⟩ := Int.eq_ofNat_of_zero_le (a := ((c + i : ℕ) : ℤ) - (e.s k).2) (by omega)
  obtain ⟨q, hq⟩ := Int.eq_ofNat_of_zero_le (a := ((c + j : ℕ) : ℤ) - (e.s k).1) (by omega)
  unfold flip
  dsimp only
  rw [exact_get hsh _ _ _ (e.s k).2 (e.s k).1 rfl rfl (c + i) (c + j) p q (by show c + i < e.h; omega) (by show c + j < e.w; omega) hp.symm hq.symm
    (by show p < e.h; omega) (by show q < e.w; omega)]
  dsimp only
  rw [← hp, ← hq]
  push_cast
  rw [show ((c : ℤ) + i - (e.s k).2 + (e.s k).2) = i + c by ring, show ((c : ℤ) + j - (e.s k).1 + (e.s k).1) = j + c by ring,
    show ((c : ℤ) + i - (e.s k).2 + (e.o k).2) = i + c + ((e.o k).2 - (e.s k).2) by ring,
    show ((c : ℤ) + j - (e.s k).1 + (e.o k).1) = j + c + ((e.o k).1 - (e.s k).1) by ring,
    show (c : ℤ) + i = i + c by ring, show (c : ℤ) + j = j + c by ring]
  ring

/-- **C119.** `find_shift_between_sample_images`, given correct reference-to-sample shifts: the first entry is (0, 0), the others are what the search
finds for the first and the `k`-th normalised sample image.  These show nothing but the object - the border that is cut off contains every pixel that
was filled in. -/
theorem find_sample_shifts (e : Scan) {sh : ℝ × ℝ → Mat ℝ → Mat ℝ} (hsh : ExactShift sh) (find : Mat ℝ → Mat ℝ → Py (ℝ × ℝ)) (hn : 0 < e.n) :
    ∃ (c : ℕ) (N : ℕ → Mat ℝ), e.Border c ∧ (∀ k < e.n, e.IsNormalised c k (N k)) ∧
      ∀ l, findSampleShifts find sh e.ref e.sam (shiftList e.n e.s) = .ok l ↔
        ∃ hl : l.length = e.n, l[0] = (0, 0) ∧ ∀ k, 1 ≤ k → (hk : k < e.n) → find (N 0) (N k) = .ok l[k] := by
  obtain ⟨M, h1, h2, k0, hk0, h3⟩ := maxShift_int e.n e.s hn
  refine ⟨M + 1, fun k => normalised sh ((M + 1 : ℕ) : ℤ) ⟨e.h, e.w, fun i j => e.r k i j⟩
      ⟨e.h, e.w, fun i j => e.r k (i + (e.s k).2) (j + (e.s k).1) * e.t (i + (e.o k).2) (j + (e.o k).1)⟩ (((e.s k).1 : ℝ), ((e.s k).2 : ℝ)), ⟨?_, k0, hk0, ?_⟩, ?_, ?_⟩
  · intro k hk; have := h2 k hk; push_cast; omega
  · push_cast; omega
  · intro k hk
    have := h2 k hk
    exact normalised_scan e hsh (M + 1) k (by omega) (by push_cast; omega) (by push_cast; omega)
  · intro l
    unfold findSampleShifts
    rw [if_neg (by simp [shapeOf, Scan.ref, Scan.sam]), h1]
    have ht : (1 : ℤ) + pyTrunc (M : ℝ) = ((M + 1 : ℕ) : ℤ) := by
      unfold pyTrunc
      rw [if_pos (by positivity), Int.floor_natCast]
      push_cast; ring
    have i1 : ∀ k < e.n, at? (images e.sam) k = .ok ⟨e.h, e.w, fun i j => e.r k (i + (e.s k).2) (j + (e.s k).1) * e.t (i + (e.o k).2) (j + (e.o k).1)⟩ :=
      fun k hk => images_three _ k hk
    have i2 : ∀ k < e.n, at? (images e.ref) k = .ok ⟨e.h, e.w, fun i j => e.r k i j⟩ := fun k hk => images_three _ k hk
    have i3 : ∀ k < e.n, at? (shiftList e.n e.s) k = .ok (((e.s k).1 : ℝ), ((e.s k).2 : ℝ)) := fun k hk => at_range _ _ k hk
    have hlen : (images e.ref).length = e.n := images_length _
    set N : ℕ → Mat ℝ := fun k => normalised sh ((M + 1 : ℕ) : ℤ) ⟨e.h, e.w, fun i j => e.r k i j⟩
      ⟨e.h, e.w, fun i j => e.r k (i + (e.s k).2) (j + (e.s k).1) * e.t (i + (e.o k).2) (j + (e.o k).1)⟩ (((e.s k).1 : ℝ), ((e.s k).2 : ℝ)) with hN
    rw [hlen, ok_bind]
    dsimp only
    rw [i1 0 hn, i2 0 hn, i3 0 hn, ok_bind, ok_bind, ok_bind, ht]
    rw [mapM_congr (g := fun i => find (N 0) (N (i + 1))) (List.range (e.n - 1)) (fun i hi => by
      have : i + 1 < e.n := by have := List.mem_range.1 hi; omega
      rw [i1 _ this, i2 _ this, i3 _ this]
      rfl)]
    cases hm : (List.range (e.n - 1)).mapM fun i => find (N 0) (N (i + 1)) with
    | error er =>
      refine ⟨fun h => (nomatch h), ?_⟩
      rintro ⟨hl, h0, hk⟩
      exfalso
      have : (List.range (e.n - 1)).mapM (fun i => find (N 0) (N (i + 1))) = .ok l.tail := by
        rw [mapM_range_iff]
        refine ⟨by rw [List.length_tail]; omega, fun k hk' => ?_⟩
        rw [List.getElem_tail]
        exact hk (k + 1) (by omega) (by omega)
      rw [this] at hm
      cases hm
    | ok rest =>
      obtain ⟨hr, hk⟩ := (mapM_range_iff _ _ _).1 hm
      rw [ok_bind]
      change Except.ok ((0, 0) :: rest) = Except.ok l ↔ _
      constructor
      · intro h
        cases h
        refine ⟨by rw [List.length_cons]; omega, rfl, fun k h1k hkn => ?_⟩
        obtain ⟨m, rfl⟩ : ∃ m, k = m + 1 := ⟨k - 1, by omega⟩
        rw [List.getElem_cons_succ]
        exact hk m (by omega)
      · rintro ⟨hl, h0, hk'⟩
        congr 1
        refine List.ext_getElem (by rw [List.length_cons]; omega) fun k g1 g2 => ?_
        rcases Nat.eq_zero_or_pos k with rfl | hpos
        · rw [h0]; rfl
        · obtain ⟨m, rfl⟩ : ∃ m, k = m + 1 := ⟨k - 1, by omega⟩
          rw [List.getElem_cons_succ]
          have a1 := hk m (by omega)
          have a2 := hk' (m + 1) (by omega) (by omega)
          rw [a1] at a2
          exact Except.ok.inj a2

/-- The displacement between the objects of the first and of the `k`-th normalised sample image. -/
def Scan.drift (e : Scan) (k : ℕ) : ℤ × ℤ :=
  (((e.o k).1 - (e.s k).1) - ((e.o 0).1 - (e.s 0).1), ((e.o k).2 - (e.s k).2) - ((e.o 0).2 - (e.s 0).2))

/-- The search finds the displacement of the object between normalised images. -/
def Scan.Finds (e : Scan) (find : Mat ℝ → Mat ℝ → Py (ℝ × ℝ)) : Prop :=
  ∀ (c k : ℕ) (A B : Mat ℝ), e.Border c → 1 ≤ k → k < e.n → e.IsNormalised c 0 A → e.IsNormalised c k B →
    find A B = .ok (((e.drift k).1 : ℝ), ((e.drift k).2 : ℝ))

/-- **C119.** The two steps together, with correct reference-to-sample shifts and a search that finds the displacement of the object: in the aligned sample
images the object of image `k` is displaced by `o 0 + (s k - s 0)`, that of the first image by `o 0`. -/
theorem sample_alignment_offset (e : Scan) {sh sh' : ℝ × ℝ → Mat ℝ → Mat ℝ} (hsh : ExactShift sh) (hsh' : ExactShift sh')
    (find : Mat ℝ → Mat ℝ → Py (ℝ × ℝ)) (hn : 0 < e.n) (hf : e.Finds find) :
    ∃ l out, findSampleShifts find sh e.ref e.sam (shiftList e.n e.s) = .ok l ∧ alignStacks sh' e.ref e.sam (shiftList e.n e.s) (some l) = .ok out ∧
      ∃ hl : out.length = e.n, ∀ k (hk : k < e.n), ∀ i j : ℕ, i < e.h → j < e.w → e.In (i - (e.drift k).2) (j - (e.drift k).1) →
        e.In (i - (e.drift k).2 + (e.s k).2) (j - (e.drift k).1 + (e.s k).1) →
        out[k].2.get i j = out[k].1.get i j *
          e.t (i + (e.o 0).2 + ((e.s k).2 - (e.s 0).2)) (j + (e.o 0).1 + ((e.s k).1 - (e.s 0).1)) := by
  obtain ⟨c, N, hb, hN, hl⟩ := find_sample_shifts e hsh find hn
  obtain ⟨out, h1, h2, h3⟩ := align_scan e hsh' e.drift
  refine ⟨shiftList e.n e.drift, out, (hl _).2 ⟨shiftList_length _ _, ?_, ?_⟩, h1, h2, ?_⟩
  · rw [shiftList_get]; simp [Scan.drift]
  · intro k h1k hk
    rw [shiftList_get]
    exact hf c k (N 0) (N k) hb h1k hk (hN 0 hn) (hN k hk)
  · intro k hk i j hi hj a b
    rw [(h3 k hk i j hi hj a b).2]
    unfold Scan.drift
    dsimp only
    congr 2 <;> ring

/-- **C119.** If all reference-to-sample shifts are equal, the object is at the same place in all aligned sample images. -/
theorem sample_alignment_partial (e : Scan) {sh sh' : ℝ × ℝ → Mat ℝ → Mat ℝ} (hsh : ExactShift sh) (hsh' : ExactShift sh')
    (find : Mat ℝ → Mat ℝ → Py (ℝ × ℝ)) (hn : 0 < e.n) (hf : e.Finds find) (hs : ∀ k < e.n, e.s k = e.s 0) :
    ∃ l out, findSampleShifts find sh e.ref e.sam (shiftList e.n e.s) = .ok l ∧ alignStacks sh' e.ref e.sam (shiftList e.n e.s) (some l) = .ok out ∧
      ∃ hl : out.length = e.n, ∀ k (hk : k < e.n), ∀ i j : ℕ, i < e.h → j < e.w → e.In (i - (e.drift k).2) (j - (e.drift k).1) →
        e.In (i - (e.drift k).2 + (e.s k).2) (j - (e.drift k).1 + (e.s k).1) →
        out[k].2.get i j = out[k].1.get i j * e.t (i + (e.o 0).2) (j + (e.o 0).1) := by
  obtain ⟨l, out, h1, h2, hl, h3⟩ := sample_alignment_offset e hsh hsh' find hn hf
  refine ⟨l, out, h1, h2, hl, fun k hk i j hi hj a b => ?_⟩
  rw [h3 k hk i j hi hj a b, hs k hk]
  simp

/-- **C119, refuted.** As soon as two reference-to-sample shifts differ the sample images are not aligned: for any speckles (non-zero), any displacements of
the object and any pixel in range there is an object that the aligned first image shows at that pixel and the aligned second image does not. -/
theorem sample_alignment_refuted (h w : ℕ) (r : ℕ → ℤ → ℤ → ℝ) (hr : ∀ k i j, r k i j ≠ 0) (s o : ℕ → ℤ × ℤ) (hs : s 1 ≠ s 0)
    {sh sh' : ℝ × ℝ → Mat ℝ → Mat ℝ} (hsh : ExactShift sh) (hsh' : ExactShift sh') (i j : ℕ)
    (hin : ∀ k < 2, (Scan.mk 2 h w r 0 s o).In (i - ((Scan.mk 2 h w r 0 s o).drift k).2) (j - ((Scan.mk 2 h w r 0 s o).drift k).1) ∧
      (Scan.mk 2 h w r 0 s o).In (i - ((Scan.mk 2 h w r 0 s o).drift k).2 + (s k).2) (j - ((Scan.mk 2 h w r 0 s o).drift k).1 + (s k).1))
    (hi : i < h) (hj : j < w) :
    ∃ (t : ℤ → ℤ → ℝ) (find : Mat ℝ → Mat ℝ → Py (ℝ × ℝ)) (l : List (ℝ × ℝ)) (out : List (Mat ℝ × Mat ℝ)),
      (Scan.mk 2 h w r t s o).Finds find ∧
      findSampleShifts find sh (Scan.mk 2 h w r t s o).ref (Scan.mk 2 h w r t s o).sam (shiftList 2 s) = .ok l ∧
      alignStacks sh' (Scan.mk 2 h w r t s o).ref (Scan.mk 2 h w r t s o).sam (shiftList 2 s) (some l) = .ok out ∧
      ∃ a b, out = [a, b] ∧ a.2.get i j / a.1.get i j = 1 ∧ b.2.get i j / b.1.get i j = 0 := by
  set t : ℤ → ℤ → ℝ := fun y x => if y = i + (o 0).2 ∧ x = j + (o 0).1 then 1 else 0 with ht
  set e : Scan := ⟨2, h, w, r, t, s, o⟩ with he
  obtain ⟨c, N, hb, hN, hl⟩ := find_sample_shifts e hsh (fun _ _ => .ok (((e.drift 1).1 : ℝ), ((e.drift 1).2 : ℝ))) (by show 0 < 2; omega)
  obtain ⟨out, h1, h2, h3⟩ := align_scan e hsh' e.drift
  refine ⟨t, fun _ _ => .ok (((e.drift 1).1 : ℝ), ((e.drift 1).2 : ℝ)), shiftList 2 e.drift, out, (by
      intro c k A B _ h1k hk _ _
      have : k = 1 := by have : k < 2 := hk; omega
      subst this
      rfl),
    (hl _).2 ⟨shiftList_length _ _, ?_, ?_⟩, h1, ?_⟩
  · rw [shiftList_get]; simp [Scan.drift]
  · intro k h1k hk
    have : k = 1 := by have : k < 2 := hk; omega
    subst this
    rw [shiftList_get]
  · have hlen : out.length = 2 := h2
    refine ⟨out[0], out[1], ?_, ?_, ?_⟩
    · refine List.ext_getElem (by simp [hlen]) fun k g1 g2 => ?_
      have : k = 0 ∨ k = 1 := by omega
      rcases this with rfl | rfl <;> rfl
    · obtain ⟨a1, a2⟩ := h3 0 (by show 0 < 2; omega) i j hi hj (hin 0 (by omega)).1 (hin 0 (by omega)).2
      rw [a2]
      have e1 : e.t (i - (e.drift 0).2 + (e.o 0).2) (j - (e.drift 0).1 + (e.o 0).1) = 1 := by
        simp [Scan.drift, he, ht]
      rw [e1, mul_one, div_self]
      rw [a1]; exact hr _ _ _
    · obtain ⟨a1, a2⟩ := h3 1 (by show 1 < 2; omega) i j hi hj (hin 1 (by omega)).1 (hin 1 (by omega)).2
      rw [a2]
      have e1 : e.t (i - (e.drift 1).2 + (e.o 1).2) (j - (e.drift 1).1 + (e.o 1).1) = 0 := by
        show (if _ then _ else _) = _
        rw [if_neg]
        rintro ⟨h4, h5⟩
        apply hs
        simp only [Scan.drift, he] at h4 h5
        refine Prod.ext ?_ ?_ <;> omega
      rw [e1, mul_zero, zero_div]

/-! ### Example -/

/-- A shift that rounds to whole pixels and repeats the border. -/
noncomputable def exShift (v : ℝ × ℝ) (m : Mat ℝ) : Mat ℝ :=
  ⟨m.h, m.w, fun i j => m.get (min ((i : ℤ) - round v.1).toNat (m.h - 1)) (min ((j : ℤ) - round v.2).toNat (m.w - 1))⟩

/-- The assumption on the shift is satisfiable. -/
theorem exShift_exact : ExactShift exShift := by
  refine ⟨fun _ _ => ⟨rfl, rfl⟩, fun m dy dx i j hi hj h1 h2 h3 h4 => ?_⟩
  unfold exShift
  dsimp only
  rw [round_intCast, round_intCast, Nat.min_eq_left (by omega), Nat.min_eq_left (by omega)]

/-- The hypotheses of `sample_alignment_refuted` are satisfiable: images of 9 x 9 pixels, second reference displaced by one column, object not moved,
pixel (4, 4). -/
example : ∃ (t : ℤ → ℤ → ℝ) (find : Mat ℝ → Mat ℝ → Py (ℝ × ℝ)) (l : List (ℝ × ℝ)) (out : List (Mat ℝ × Mat ℝ)),
    findSampleShifts find exShift (Scan.mk 2 9 9 (fun _ i j => 2 + i ^ 2 + j ^ 2) t (fun k => (k, 0)) (fun _ => (0, 0))).ref
      (Scan.mk 2 9 9 (fun _ i j => 2 + i ^ 2 + j ^ 2) t (fun k => (k, 0)) (fun _ => (0, 0))).sam (shiftList 2 fun k => (k, 0)) = .ok l ∧
    alignStacks exShift (Scan.mk 2 9 9 (fun _ i j => 2 + i ^ 2 + j ^ 2) t (fun k => (k, 0)) (fun _ => (0, 0))).ref
      (Scan.mk 2 9 9 (fun _ i j => 2 + i ^ 2 + j ^ 2) t (fun k => (k, 0)) (fun _ => (0, 0))).sam (shiftList 2 fun k => (k, 0)) (some l) = .ok out ∧
    ∃ a b, out = [a, b] ∧ a.2.get 4 4 / a.1.get 4 4 = 1 ∧ b.2.get 4 4 / b.1.get 4 4 = 0 := by
  obtain ⟨t, find, l, out, -, h⟩ := sample_alignment_refuted 9 9 (fun _ i j => 2 + (i : ℝ) ^ 2 + (j : ℝ) ^ 2) (fun _ i j => by positivity)
    (fun k => ((k : ℤ), 0)) (fun _ => (0, 0)) (by simp) exShift_exact exShift_exact 4 4
    (by intro k hk; have : k = 0 ∨ k = 1 := by omega
        rcases this with rfl | rfl <;> simp [Scan.In, Scan.drift]) (by omega) (by omega)
  exact ⟨t, find, l, out, h⟩

end Verif.StackShift
