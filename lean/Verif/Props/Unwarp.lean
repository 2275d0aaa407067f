import Verif.Model.Unwarp
import Verif.Props.Correction
import Verif.Props.DetectSample
import Mathlib.Tactic.LinearCombination

/-! C166 — unwarping with a radial model; C66 with explicit coordinates. -/

set_option linter.unusedSectionVars false
set_option linter.unusedSimpArgs false

namespace Verif.Correction
open Verif.Sorting Finset

/-! ### specification -/

/-- `v` is the bilinear interpolation at the point `(y, x)` of the four pixels around it. -/
def Bilinear (h w : ℕ) (g : ℕ → ℕ → ℝ) (y x v : ℝ) : Prop :=
  ∃ (i j : ℕ) (t u : ℝ), i < h ∧ j < w ∧ 0 ≤ t ∧ t < 1 ∧ 0 ≤ u ∧ u < 1 ∧ y = i + t ∧ x = j + u ∧ (i + 1 < h ∨ t = 0) ∧ (j + 1 < w ∨ u = 0) ∧
    v = (1 - t) * (1 - u) * g i j + (1 - t) * u * g i (j + 1) + t * (1 - u) * g (i + 1) j + t * u * g (i + 1) (j + 1)

/-- The coordinate moved to the nearest one inside `[0, n - 1]`. -/
noncomputable def inside (n : ℕ) (y : ℝ) : ℝ := min (max y 0) ((n : ℝ) - 1)

/-- The distortion polynomial `Σ a_k r^k` at the distance of pixel `(i, j)` from the centre. -/
noncomputable def poly (a : List ℝ) (xc yc : ℝ) (i j : ℕ) : ℝ :=
  ∑ k ∈ range a.length, a.getD k 0 * Real.sqrt (((j : ℝ) - xc) ^ 2 + ((i : ℝ) - yc) ^ 2) ^ k

/-- Projection number `k` of `range(start, stop, step)` exists. -/
def Selected (start stop step : ℤ) (k : ℕ) : Prop := (0 < step ∧ start + k * step < stop) ∨ (step < 0 ∧ stop < start + k * step)

/-! ### facts -/

theorem sample_bilinear (h w : ℕ) (g : ℕ → ℕ → ℝ) (y x : ℝ) (hy : 0 ≤ y) (hy' : y ≤ (h : ℝ) - 1) (hx : 0 ≤ x) (hx' : x ≤ (w : ℝ) - 1) :
    Bilinear h w g y x (sample h w g y x) := by
  have key : ∀ (n : ℕ) (z : ℝ), 0 ≤ z → z ≤ (n : ℝ) - 1 → ⌊z⌋.toNat < n ∧ reflectIdx n ⌊z⌋ = ⌊z⌋.toNat ∧ z = (⌊z⌋.toNat : ℝ) + (z - ⌊z⌋) ∧
      (⌊z⌋.toNat + 1 < n ∧ reflectIdx n (⌊z⌋ + 1) = ⌊z⌋.toNat + 1 ∨ z - ⌊z⌋ = 0) := by
    intro n z h0 h1
    have f0 : 0 ≤ ⌊z⌋ := Int.floor_nonneg.2 h0
    have f1 : (⌊z⌋ : ℝ) ≤ z := Int.floor_le z
    have f2 : ⌊z⌋ < (n : ℤ) := by
      have : (⌊z⌋ : ℝ) < ((n : ℤ) : ℝ) := by push_cast; linarith
      exact_mod_cast this
    have e : ((⌊z⌋.toNat : ℕ) : ℝ) = (⌊z⌋ : ℝ) := by
      have : ((⌊z⌋.toNat : ℕ) : ℤ) = ⌊z⌋ := Int.toNat_of_nonneg f0
      exact_mod_cast congrArg (Int.cast : ℤ → ℝ) this
    refine ⟨by omega, reflectIdx_id n _ f0 f2, by rw [e]; ring, ?_⟩
    by_cases hl : ⌊z⌋ + 1 < (n : ℤ)
    · refine Or.inl ⟨by omega, ?_⟩
      rw [reflectIdx_id n _ (by omega) hl]
      omega
    · refine Or.inr ?_
      have : ⌊z⌋ = (n : ℤ) - 1 := by omega
      have h2 : (⌊z⌋ : ℝ) = (n : ℝ) - 1 := by rw [this]; push_cast; ring
      linarith
  obtain ⟨a1, a2, a3, a4⟩ := key h y hy hy'
  obtain ⟨b1, b2, b3, b4⟩ := key w x hx hx'
  refine ⟨⌊y⌋.toNat, ⌊x⌋.toNat, y - ⌊y⌋, x - ⌊x⌋, a1, b1, sub_nonneg.2 (Int.floor_le y), by linarith [Int.lt_floor_add_one y], sub_nonneg.2 (Int.floor_le x),
    by linarith [Int.lt_floor_add_one x], a3, b3, a4.imp (fun h => h.1) id, b4.imp (fun h => h.1) id, ?_⟩
  unfold sample
  dsimp only
  rw [a2, b2]
  rcases a4 with ⟨_, a4⟩ | a4 <;> rcases b4 with ⟨_, b4⟩ | b4
  · rw [a4, b4]; ring
  · rw [a4, b4]; ring
  · rw [a4, b4]; ring
  · rw [a4, b4]; ring

theorem inside_range {n : ℕ} (hn : 0 < n) (y : ℝ) : 0 ≤ inside n y ∧ inside n y ≤ (n : ℝ) - 1 := by
  have : (1 : ℝ) ≤ n := by exact_mod_cast hn
  exact ⟨le_min (le_max_right _ _) (by linarith), min_le_right _ _⟩

theorem radial_eq (a : List ℝ) (r : ℝ) : radial a r = ∑ k ∈ range a.length, a.getD k 0 * r ^ k := by
  have key : ∀ (l : List ℝ) (n : ℕ), ((l.zipIdx n).map fun p => p.1 * r ^ p.2).sum = ∑ k ∈ range l.length, l.getD k 0 * r ^ (n + k) := by
    intro l
    induction l with
    | nil => intro n; rfl
    | cons x l ih =>
      intro n
      rw [List.zipIdx_cons, List.map_cons, List.sum_cons, ih, List.length_cons, Finset.sum_range_succ']
      simp only [List.getD_cons_zero, List.getD_cons_succ, Nat.add_zero]
      rw [add_comm]
      congr 1
      exact Finset.sum_congr rfl fun k _ => by rw [show n + 1 + k = n + (k + 1) by omega]
  unfold radial
  rw [key]
  simp only [Nat.zero_add]

theorem selected_iff {start stop step : ℤ} (h : step ≠ 0) (k : ℕ) : k < rangeLen start stop step ↔ Selected start stop step k := by
  have key : ∀ (n s : ℤ), 0 < s → (k < ((n + s - 1) / s).toNat ↔ k * s < n) := by
    intro n s hs
    have e : (k < ((n + s - 1) / s).toNat) ↔ ((k : ℤ) + 1 ≤ (n + s - 1) / s) := by omega
    rw [e, Int.le_ediv_iff_mul_le hs]
    constructor <;> intro h <;> nlinarith
  unfold rangeLen Selected
  rcases lt_or_gt_of_ne h with hs | hs
  · rw [if_neg (by omega), show start - stop - step - 1 = (start - stop) + (-step) - 1 by ring, key _ _ (by omega)]
    constructor
    · intro h1; exact Or.inr ⟨hs, by nlinarith⟩
    · rintro (h1 | h1)
      · omega
      · nlinarith [h1.2]
  · rw [if_pos hs, key _ _ hs]
    constructor
    · intro h1; exact Or.inl ⟨hs, by linarith⟩
    · rintro (h1 | h1)
      · linarith [h1.2]
      · omega

theorem mapM_error {α β : Type} (l : List α) (f : α → Py β) (e : PyErr) (h : ∀ x ∈ l, (∃ v, f x = .ok v) ∨ f x = .error e) (he : ∃ x ∈ l, f x = .error e) :
    l.mapM f = .error e := by
  induction l with
  | nil => obtain ⟨x, hx, _⟩ := he; cases hx
  | cons a l ih =>
    rw [List.mapM_cons]
    rcases h a (by simp) with ⟨v, hv⟩ | hv
    · rw [hv]
      obtain ⟨x, hx, hxe⟩ := he
      rcases List.mem_cons.1 hx with rfl | hx
      · rw [hv] at hxe; cases hxe
      · show Except.bind (l.mapM f) _ = _
        rw [ih (fun x hx => h x (by simp [hx])) ⟨x, hx, hxe⟩]
        rfl
    · rw [hv]; rfl

/-- The position `i` of an axis of length `d` in numpy indexing, negative values counting from the end. -/
def position (d : ℕ) (i : ℤ) : ℕ := if 0 ≤ i then i.toNat else (i + d).toNat

theorem pyIndex_ok {d : ℕ} {i : ℤ} (h : -(d : ℤ) ≤ i ∧ i < d) : pyIndex d i = .ok (position d i) ∧ position d i < d := by
  unfold pyIndex position
  by_cases h0 : 0 ≤ i
  · rw [if_pos ⟨h0, h.2⟩, if_pos h0]; exact ⟨rfl, by omega⟩
  · rw [if_neg (by omega), if_pos ⟨by omega, h.1⟩, if_neg h0]; exact ⟨rfl, by omega⟩

theorem pyIndex_error {d : ℕ} {i : ℤ} (h : ¬ (-(d : ℤ) ≤ i ∧ i < d)) : pyIndex d i = .error .indexError := by
  unfold pyIndex
  rw [if_neg (by omega), if_neg (by omega)]

/-- The loop over projections. -/
theorem overProj_spec (data : Arr3 ℝ) (opt : Option (ℤ × ℤ × ℤ)) (entry : ℕ → ℕ → Py ℝ) (val : ℕ → ℕ → ℝ)
    (he : ∀ d < data.d, ∀ j < data.w, entry d j = .ok (val d j)) (start stop step : ℤ) (ho : opt.getD (0, (data.d : ℤ), 1) = (start, stop, step)) :
    (step = 0 → overProj data opt entry = .error .valueError) ∧
    (step ≠ 0 → (∃ k, Selected start stop step k ∧ ¬ (-(data.d : ℤ) ≤ start + k * step ∧ start + k * step < data.d)) →
      overProj data opt entry = .error .indexError) ∧
    (step ≠ 0 → (∀ k, Selected start stop step k → -(data.d : ℤ) ≤ start + k * step ∧ start + k * step < data.d) →
      ∃ out, overProj data opt entry = .ok out ∧ (∀ k, k < out.h ↔ Selected start stop step k) ∧ out.w = data.w ∧
        ∀ k < out.h, ∀ j < data.w, out.get k j = val (position data.d (start + k * step)) j) := by
  have row : ∀ k : ℕ, (-(data.d : ℤ) ≤ start + k * step ∧ start + k * step < data.d) →
      ((pyIndex data.d (start + k * step)).bind fun d => (List.range data.w).mapM fun (j : ℕ) => entry d j) =
        .ok ((List.range data.w).map fun j => val (position data.d (start + k * step)) j) := by
    intro k hk
    obtain ⟨h1, h2⟩ := pyIndex_ok hk
    rw [h1]
    exact Verif.Detect.mapM_all_ok _ _ _ fun j hj => he _ h2 j (List.mem_range.1 hj)
  have rowE : ∀ k : ℕ, ¬ (-(data.d : ℤ) ≤ start + k * step ∧ start + k * step < data.d) →
      ((pyIndex data.d (start + k * step)).bind fun d => (List.range data.w).mapM fun (j : ℕ) => entry d j) = .error .indexError := by
    intro k hk
    rw [pyIndex_error hk]
    rfl
  unfold overProj
  simp only [ho]
  refine ⟨fun h => by rw [if_pos h], fun h hex => ?_, fun h hall => ?_⟩
  · rw [if_neg h]
    show Except.bind (List.mapM _ _) _ = _
    rw [mapM_error _ _ .indexError]
    · rfl
    · intro k _
      by_cases hk : -(data.d : ℤ) ≤ start + k * step ∧ start + k * step < data.d
      · exact Or.inl ⟨_, row k hk⟩
      · exact Or.inr (rowE k hk)
    · obtain ⟨k, hs, hk⟩ := hex
      exact ⟨k, List.mem_range.2 ((selected_iff h k).2 hs), rowE k hk⟩
  · rw [if_neg h]
    show ∃ out, Except.bind (List.mapM (fun k : ℕ => (pyIndex data.d (start + k * step)).bind fun d => (List.range data.w).mapM fun (j : ℕ) => entry d j) _) _ = _ ∧ _
    rw [Verif.Detect.mapM_all_ok _ _ (fun k : ℕ => (List.range data.w).map fun j => val (position data.d (start + k * step)) j) fun k hk =>
      row k (hall k ((selected_iff h k).1 (List.mem_range.1 hk)))]
    refine ⟨_, rfl, fun k => ?_, rfl, fun k hk j hj => ?_⟩
    · show k < (List.map _ _).length ↔ _
      rw [List.length_map, List.length_range]
      exact selected_iff h k
    · have hk' : k < rangeLen start stop step := by
        have : k < (List.map (fun k : ℕ => (List.range data.w).map fun j => val (position data.d (start + k * step)) j)
          (List.range (rangeLen start stop step))).length := hk
        simpa using this
      simp [hk', hj]

/-! ### C166 -/

/-- C166: pixel `(i, j)` of an unwarped projection is the bilinear interpolation of the projection at the point at which the radial model puts that pixel,
moved to the border if the point is outside. -/
theorem unwarp_pixel (xc yc : ℝ) (a : List ℝ) (m : Mat ℝ) : (unwarpImage xc yc a m).h = m.h ∧ (unwarpImage xc yc a m).w = m.w ∧
    ∀ i < m.h, ∀ j < m.w, Bilinear m.h m.w m.get (inside m.h (yc + poly a xc yc i j * ((i : ℝ) - yc))) (inside m.w (xc + poly a xc yc i j * ((j : ℝ) - xc)))
      ((unwarpImage xc yc a m).get i j) := by
  refine ⟨rfl, rfl, fun i hi j hj => ?_⟩
  have e : factOf xc yc a i j = poly a xc yc i j := radial_eq _ _
  have h1 := inside_range (n := m.h) (by omega) (yc + poly a xc yc i j * ((i : ℝ) - yc))
  have h2 := inside_range (n := m.w) (by omega) (xc + poly a xc yc i j * ((j : ℝ) - xc))
  have := sample_bilinear m.h m.w m.get _ _ h1.1 h1.2 h2.1 h2.2
  show Bilinear _ _ _ _ _ (sample m.h m.w m.get (ydOf m.h yc (factOf xc yc a) i j) (xdOf m.w xc (factOf xc yc a) i j))
  unfold ydOf xdOf clip
  rw [e]
  exact this

/-- What bilinear interpolation means: it reproduces images that are affine in the coordinates, stays between the smallest and the largest grey value and
gives pixels at whole coordinates. -/
theorem bilinear_spec {h w : ℕ} {g : ℕ → ℕ → ℝ} {y x v : ℝ} (hb : Bilinear h w g y x v) :
    (∀ p q r : ℝ, (∀ i < h, ∀ j < w, g i j = p * i + q * j + r) → v = p * y + q * x + r) ∧
    (∀ lo hi : ℝ, (∀ i < h, ∀ j < w, lo ≤ g i j ∧ g i j ≤ hi) → lo ≤ v ∧ v ≤ hi) ∧
    (∀ i j : ℕ, y = i → x = j → v = g i j) := by
  obtain ⟨i, j, t, u, hi, hj, t0, t1, u0, u1, rfl, rfl, hi', hj', rfl⟩ := hb
  refine ⟨fun p q r hg => ?_, fun lo hi2 hg => ?_, fun i' j' e e' => ?_⟩
  · rcases hi' with hi' | rfl <;> rcases hj' with hj' | rfl
    · rw [hg i hi j hj, hg i hi _ hj', hg _ hi' j hj, hg _ hi' _ hj']; push_cast; ring
    · rw [hg i hi j hj, hg _ hi' j hj]; push_cast; ring
    · rw [hg i hi j hj, hg i hi _ hj']; push_cast; ring
    · rw [hg i hi j hj]; ring
  · have w1 : 0 ≤ (1 - t) * (1 - u) := mul_nonneg (by linarith) (by linarith)
    have w2 : 0 ≤ (1 - t) * u := mul_nonneg (by linarith) u0
    have w3 : 0 ≤ t * (1 - u) := mul_nonneg t0 (by linarith)
    have w4 : 0 ≤ t * u := mul_nonneg t0 u0
    have a1 := hg i hi j hj
    have a2 : (1 - t) * u * lo ≤ (1 - t) * u * g i (j + 1) ∧ (1 - t) * u * g i (j + 1) ≤ (1 - t) * u * hi2 := by
      rcases hj' with h | rfl
      · exact ⟨mul_le_mul_of_nonneg_left (hg i hi _ h).1 w2, mul_le_mul_of_nonneg_left (hg i hi _ h).2 w2⟩
      · simp
    have a3 : t * (1 - u) * lo ≤ t * (1 - u) * g (i + 1) j ∧ t * (1 - u) * g (i + 1) j ≤ t * (1 - u) * hi2 := by
      rcases hi' with h | rfl
      · exact ⟨mul_le_mul_of_nonneg_left (hg _ h j hj).1 w3, mul_le_mul_of_nonneg_left (hg _ h j hj).2 w3⟩
      · simp
    have a4 : t * u * lo ≤ t * u * g (i + 1) (j + 1) ∧ t * u * g (i + 1) (j + 1) ≤ t * u * hi2 := by
      rcases hi' with h | rfl
      · rcases hj' with h' | rfl
        · exact ⟨mul_le_mul_of_nonneg_left (hg _ h _ h').1 w4, mul_le_mul_of_nonneg_left (hg _ h _ h').2 w4⟩
        · simp
      · simp
    have b1 := mul_le_mul_of_nonneg_left a1.1 w1
    have b2 := mul_le_mul_of_nonneg_left a1.2 w1
    constructor
    · nlinarith [a2.1, a3.1, a4.1]
    · nlinarith [a2.2, a3.2, a4.2]
  · have key : ∀ (n n' : ℕ) (z : ℝ), 0 ≤ z → z < 1 → (n : ℝ) + z = n' → n = n' ∧ z = 0 := by
      intro n n' z h0 h1 e
      have l1 : (n : ℝ) ≤ n' := by linarith
      have l2 : (n' : ℝ) < (n + 1 : ℕ) := by push_cast; linarith
      have : n = n' := by
        have l1' : n ≤ n' := by exact_mod_cast l1
        have l2' : n' < n + 1 := by exact_mod_cast l2
        omega
      subst this
      exact ⟨rfl, by linarith⟩
    obtain ⟨rfl, rfl⟩ := key i i' t t0 t1 e
    obtain ⟨rfl, rfl⟩ := key j j' u u0 u1 e'
    ring

/-- C166: `unwarp_sinogram(data, index, …)` with the option `(start, stop, step)` (all projections without it) returns row `index` of the unwarped
projections `start, start + step, …`; a zero step and projections that do not exist raise. -/
theorem unwarp_sinogram_rows (xc yc : ℝ) (a : List ℝ) (data : Arr3 ℝ) (index : ℕ) (opt : Option (ℤ × ℤ × ℤ)) (hh : 1 ≤ data.h) (start stop step : ℤ)
    (ho : opt.getD (0, (data.d : ℤ), 1) = (start, stop, step)) :
    (step = 0 → unwarpSino xc yc a data index opt = .error .valueError) ∧
    (step ≠ 0 → (∃ k, Selected start stop step k ∧ ¬ (-(data.d : ℤ) ≤ start + k * step ∧ start + k * step < data.d)) →
      unwarpSino xc yc a data index opt = .error .indexError) ∧
    (step ≠ 0 → (∀ k, Selected start stop step k → -(data.d : ℤ) ≤ start + k * step ∧ start + k * step < data.d) →
      ∃ out, unwarpSino xc yc a data index opt = .ok out ∧ (∀ k, k < out.h ↔ Selected start stop step k) ∧ out.w = data.w ∧
        ∀ k < out.h, ∀ j < data.w,
          out.get k j = (unwarpImage xc yc a ⟨data.h, data.w, data.get (position data.d (start + k * step))⟩).get index j) :=
  overProj_spec data opt _ (fun d j => (unwarpImage xc yc a ⟨data.h, data.w, data.get d⟩).get index j)
    (fun d _ j hj => unwarp_sinogram_eq xc yc _ data index d j hh hj) start stop step ho

/-- C166: without the option all projections are used, in order. -/
theorem unwarp_sinogram_all (xc yc : ℝ) (a : List ℝ) (data : Arr3 ℝ) (index : ℕ) (hh : 1 ≤ data.h) :
    ∃ out, unwarpSino xc yc a data index none = .ok out ∧ out.h = data.d ∧ out.w = data.w ∧
      ∀ k < data.d, ∀ j < data.w, out.get k j = (unwarpImage xc yc a ⟨data.h, data.w, data.get k⟩).get index j := by
  obtain ⟨out, h1, h2, h3, h4⟩ := (unwarp_sinogram_rows xc yc a data index none hh 0 data.d 1 rfl).2.2 one_ne_zero (by
    rintro k (⟨_, h⟩ | ⟨h, _⟩)
    · exact ⟨by omega, by omega⟩
    · omega)
  have hsel : ∀ k : ℕ, Selected 0 (data.d : ℤ) 1 k ↔ k < data.d := by
    intro k
    unfold Selected
    omega
  have hd : out.h = data.d := by
    have e := fun k => (h2 k).trans (hsel k)
    have e1 := (e out.h).not.1 (lt_irrefl _)
    have e2 := (e data.d).not.2 (lt_irrefl _)
    omega
  refine ⟨out, h1, hd, h3, fun k hk j hj => ?_⟩
  rw [h4 k (by omega) j hj]
  have : position data.d (0 + (k : ℤ) * 1) = k := by unfold position; rw [if_pos (by omega)]; omega
  rw [this]

/-- C166: the model `[1]` changes nothing. -/
theorem unwarp_one (xc yc : ℝ) (m : Mat ℝ) : (unwarpImage xc yc [1] m).Eqv m := by
  have : factOf xc yc [1] = fun _ _ => 1 := by
    funext y x
    unfold factOf
    rw [radial_eq]
    simp
  unfold unwarpImage
  rw [this]
  exact unwarp_projection_identity xc yc m

/-! ### C66 -/

/-- C66: `generate_tilted_sinogram(data, index, angle)` with the option `(start, stop, step)`: entry `(k, j)` is the bilinear interpolation of projection
`start + k * step` at the point `j` columns along the line through row `index`, turned by the angle about the centre of the image. -/
theorem tilted_line (angle : ℝ) (data : Arr3 ℝ) (index : ℕ) (opt : Option (ℤ × ℤ × ℤ)) (hh : 1 ≤ data.h) (start stop step : ℤ)
    (ho : opt.getD (0, (data.d : ℤ), 1) = (start, stop, step)) :
    (step = 0 → tiltedSino angle data index opt = .error .valueError) ∧
    (step ≠ 0 → (∃ k, Selected start stop step k ∧ ¬ (-(data.d : ℤ) ≤ start + k * step ∧ start + k * step < data.d)) →
      tiltedSino angle data index opt = .error .indexError) ∧
    (step ≠ 0 → (∀ k, Selected start stop step k → -(data.d : ℤ) ≤ start + k * step ∧ start + k * step < data.d) →
      ∃ out, tiltedSino angle data index opt = .ok out ∧ (∀ k, k < out.h ↔ Selected start stop step k) ∧ out.w = data.w ∧
        ∀ k < out.h, ∀ j < data.w, Bilinear data.h data.w (data.get (position data.d (start + k * step)))
          (inside data.h (((data.h : ℝ) - 1) / 2 + (((j : ℝ) - ((data.w : ℝ) - 1) / 2) * Real.sin (angle * Real.pi / 180) +
            ((index : ℝ) - ((data.h : ℝ) - 1) / 2) * Real.cos (angle * Real.pi / 180))))
          (inside data.w (((data.w : ℝ) - 1) / 2 + (((j : ℝ) - ((data.w : ℝ) - 1) / 2) * Real.cos (angle * Real.pi / 180) -
            ((index : ℝ) - ((data.h : ℝ) - 1) / 2) * Real.sin (angle * Real.pi / 180))))
          (out.get k j)) := by
  obtain ⟨h1, h2, h3⟩ := overProj_spec data opt (tiltedSinogram (Real.cos (angle * Real.pi / 180)) (Real.sin (angle * Real.pi / 180)) data index) _
    (fun d _ j hj => tilted_sinogram_eq _ _ data index d j hh hj) start stop step ho
  refine ⟨h1, h2, fun hs hall => ?_⟩
  obtain ⟨out, e1, e2, e3, e4⟩ := h3 hs hall
  refine ⟨out, e1, e2, e3, fun k hk j hj => ?_⟩
  rw [e4 k hk j hj]
  exact sample_bilinear _ _ _ _ _ (inside_range (by omega) _).1 (inside_range (by omega) _).2 (inside_range (by omega) _).1 (inside_range (by omega) _).2

/-- Every second projection from the last backwards: `range(3, -1, -2)` selects projections 3 and 1. -/
example : Selected 3 (-1) (-2) 0 ∧ Selected 3 (-1) (-2) 1 ∧ ¬ Selected 3 (-1) (-2) 2 ∧ position 4 (3 + (1 : ℕ) * (-2)) = 1 := by
  unfold Selected position; norm_num

/-- A barrel model moves the corner pixel `(0, 0)` towards the centre `(1, 1)` of a 3×3 image: to `(1/2, 1/2)`. -/
example : inside 3 (1 + poly [1, 0, -1/4] 1 1 0 0 * ((0 : ℕ) - 1)) = 1 / 2 := by
  have : poly [1, 0, -1/4] 1 1 0 0 = 1 / 2 := by
    unfold poly
    norm_num [Finset.sum_range_succ]
  rw [this]
  unfold inside
  norm_num

end Verif.Correction
