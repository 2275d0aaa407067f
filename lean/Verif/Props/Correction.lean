import Verif.Model.Correction
import Verif.Lemmas.Num
import Verif.Props.Sorting
import Mathlib.Data.Rat.Floor
import Mathlib.Tactic.NormNum
import Mathlib.Tactic.FieldSimp
import Mathlib.Algebra.Order.BigOperators.Group.Finset

/-! C30, C31, C33, C65, C66 — flat-field, unwarping, tilted sinograms, upsampling. -/

set_option linter.unusedSectionVars false
set_option linter.unusedSimpArgs false

namespace Verif.Correction
open Verif.Sorting

variable {K : Type _} [Field K] [LinearOrder K] [IsStrictOrderedRing K] [FloorRing K]

/-! ### C30 -/

theorem hasZero_false (m : Mat K) (h : hasZero m = false) : ∀ i < m.h, ∀ j < m.w, m.get i j ≠ 0 := by
  intro i hi j hj h0
  have : hasZero m = true := by
    unfold hasZero
    rw [List.any_eq_true]
    refine ⟨i, List.mem_range.mpr hi, ?_⟩
    rw [List.any_eq_true]
    exact ⟨j, List.mem_range.mpr hj, by simpa using h0⟩
  rw [h] at this; cases this

theorem hasZero_of_forall (m : Mat K) (h : ∀ i < m.h, ∀ j < m.w, m.get i j ≠ 0) : hasZero m = false := by
  rw [← Bool.not_eq_true]
  intro ht
  unfold hasZero at ht
  rw [List.any_eq_true] at ht
  obtain ⟨i, hi, ht⟩ := ht
  rw [List.any_eq_true] at ht
  obtain ⟨j, hj, ht⟩ := ht
  exact h i (List.mem_range.mp hi) j (List.mem_range.mp hj) (by simpa using ht)

theorem fixZeros_shape (b : Bool) (m : Mat K) : (fixZeros b m).h = m.h ∧ (fixZeros b m).w = m.w := by
  unfold fixZeros; split <;> exact ⟨rfl, rfl⟩

theorem fixZeros_nonzero (m : Mat K) : ∀ i < m.h, ∀ j < m.w, (fixZeros false m).get i j ≠ 0 := by
  intro i hi j hj
  unfold fixZeros
  by_cases hz : hasZero m = true
  · rw [if_pos hz]
    dsimp only
    by_cases h0 : m.get i j = 0
    · rw [if_pos h0]
      by_cases hm : meanAll m ≠ 0
      · rw [if_pos hm]; simpa [storeAs] using hm
      · rw [if_neg hm]; exact one_ne_zero
    · rw [if_neg h0]; exact h0
  · rw [if_neg hz]; exact hasZero_false m (by simpa using hz) i hi j hj

theorem fixZeros_keep (b : Bool) (m : Mat K) (i j : Nat) (h : m.get i j ≠ 0) : (fixZeros b m).get i j = m.get i j := by
  unfold fixZeros
  split
  · dsimp only; rw [if_neg h]
  · rfl

/-- Spec of the corrected image at one pixel, given the (dark-corrected) numerator and denominator there. -/
def FlatFieldPixel (num den out : K) : Prop :=
  (den ≠ 0 → out = num / den) ∧ (num = 0 → out = 0) ∧ (den ≠ 0 → num = den → out = 1)

/-- C30.  For every projection, flat, dark of one shape (floating type), every ratio, with or without dark: no
division by zero happens, and each pixel is `(proj - dark) / (ratio*flat - dark)` where that is defined, 0 where
proj = dark and 1 where proj = ratio*flat. -/
theorem flat_field_correct (ratio : K) (useDark : Bool) (proj flat dark : Mat K)
    (hf : flat.h = proj.h ∧ flat.w = proj.w) :
    ∃ out, flatField false ratio useDark proj flat dark = .ok out ∧ out.h = proj.h ∧ out.w = proj.w ∧
      ∀ i < proj.h, ∀ j < proj.w,
        FlatFieldPixel (if useDark then proj.get i j - dark.get i j else proj.get i j)
          (if useDark then ratio * flat.get i j - dark.get i j else ratio * flat.get i j) (out.get i j) := by
  have key : ∀ (num den0 : Mat K), den0.h = proj.h → den0.w = proj.w →
      ∃ out : Mat K, (if hasZero (fixZeros false den0) = true then (.error .zeroDivision : Py (Mat K))
          else .ok ⟨proj.h, proj.w, fun i j => num.get i j / (fixZeros false den0).get i j⟩) = .ok out ∧
        out.h = proj.h ∧ out.w = proj.w ∧
        ∀ i < proj.h, ∀ j < proj.w, FlatFieldPixel (num.get i j) (den0.get i j) (out.get i j) := by
    intro num den0 hh hw
    have hz : hasZero (fixZeros false den0) = false := by
      apply hasZero_of_forall
      intro i hi j hj
      rw [(fixZeros_shape false den0).1] at hi
      rw [(fixZeros_shape false den0).2] at hj
      exact fixZeros_nonzero den0 i hi j hj
    rw [hz]
    refine ⟨⟨proj.h, proj.w, fun i j => num.get i j / (fixZeros false den0).get i j⟩, rfl, rfl, rfl, ?_⟩
    intro i _ j _
    refine ⟨?_, ?_, ?_⟩
    · intro hd; dsimp only; rw [fixZeros_keep _ _ _ _ hd]
    · intro hn; dsimp only; rw [hn, zero_div]
    · intro hd hn; dsimp only; rw [fixZeros_keep _ _ _ _ hd, hn, div_self hd]
  cases useDark with
  | true =>
    exact key ⟨proj.h, proj.w, fun i j => proj.get i j - dark.get i j⟩
      ⟨flat.h, flat.w, fun i j => ratio * flat.get i j - dark.get i j⟩ hf.1 hf.2
  | false => exact key proj ⟨flat.h, flat.w, fun i j => ratio * flat.get i j⟩ hf.1 hf.2

/-- C30, dead pixels: where `ratio*flat = dark` the divisor is the mean of `ratio*flat - dark` over the image, or 1 if that mean vanishes. -/
theorem flat_field_dead (ratio : K) (useDark : Bool) (proj flat dark : Mat K) (out : Mat K)
    (h : flatField false ratio useDark proj flat dark = .ok out) (hf : flat.h = proj.h ∧ flat.w = proj.w) (i j : Nat) (hi : i < proj.h) (hj : j < proj.w) :
    let num := fun i j => if useDark then proj.get i j - dark.get i j else proj.get i j
    let den := fun i j => if useDark then ratio * flat.get i j - dark.get i j else ratio * flat.get i j
    let mean := (∑ a ∈ Finset.range flat.h, ∑ b ∈ Finset.range flat.w, den a b) / ((flat.h : K) * flat.w)
    den i j = 0 → out.get i j = if mean = 0 then num i j else num i j / mean := by
  intro num den mean h0
  have key : ∀ (num0 den0 : Mat K), den0.h = flat.h → den0.w = flat.w → (∀ a b, den0.get a b = den a b) → num0.get i j = num i j →
      num0.get i j / (fixZeros false den0).get i j = if mean = 0 then num i j else num i j / mean := by
    intro num0 den0 hh hw hd hn
    have hz : hasZero den0 = true := by
      by_contra hz
      exact hasZero_false den0 (by simpa using hz) i (by omega) j (by omega) ((hd i j).trans h0)
    have hm : meanAll den0 = mean := by
      unfold meanAll
      rw [hh, hw]
      simp only [hd]
      rw [Nat.cast_mul]
    unfold fixZeros
    rw [if_pos hz]
    dsimp only
    rw [if_pos ((hd i j).trans h0), hm, hn]
    by_cases hm0 : mean = 0
    · rw [if_neg (not_not.2 hm0), if_pos hm0, div_one]
    · rw [if_pos hm0, if_neg hm0]
      rfl
  unfold flatField at h
  cases useDark with
  | true =>
    have k := key ⟨proj.h, proj.w, fun i j => proj.get i j - dark.get i j⟩
      ⟨flat.h, flat.w, fun i j => ratio * flat.get i j - dark.get i j⟩ rfl rfl (fun _ _ => rfl) rfl
    by_cases hz : hasZero (fixZeros false (⟨flat.h, flat.w, fun i j => ratio * flat.get i j - dark.get i j⟩ : Mat K)) = true
    · simp [hz] at h
    · simp only [if_true, if_neg hz] at h
      rw [← Except.ok.inj h]
      exact k
  | false =>
    have k := key proj ⟨flat.h, flat.w, fun i j => ratio * flat.get i j⟩ rfl rfl (fun _ _ => rfl) rfl
    by_cases hz : hasZero (fixZeros false (⟨flat.h, flat.w, fun i j => ratio * flat.get i j⟩ : Mat K)) = true
    · simp [hz] at h
    · simp only [Bool.false_eq_true, if_false, if_neg hz] at h
      rw [← Except.ok.inj h]
      exact k

/-- Non-vacuity: a 1×2 image with a dead pixel. -/
example : ∃ out, flatField false (1 : ℚ) true ⟨1, 2, fun _ j => if j = 0 then 3 else 1⟩ ⟨1, 2, fun _ j => if j = 0 then 5 else 1⟩
    ⟨1, 2, fun _ _ => 1⟩ = .ok out ∧ out.get 0 0 = 1 / 2 ∧ out.get 0 1 = 0 := by
  obtain ⟨out, h1, _, _, h2⟩ := flat_field_correct (1 : ℚ) true ⟨1, 2, fun _ j => if j = 0 then 3 else 1⟩
    ⟨1, 2, fun _ j => if j = 0 then 5 else 1⟩ ⟨1, 2, fun _ _ => 1⟩ ⟨rfl, rfl⟩
  refine ⟨out, h1, ?_, ?_⟩
  · have := (h2 0 (by decide) 0 (by decide)).1 (by norm_num)
    rw [this]; norm_num
  · have := (h2 0 (by decide) 1 (by decide)).2.1 (by norm_num)
    exact this

theorem getD_snoc_self {α : Type _} (l : List α) (x d : α) : (l ++ [x]).getD l.length d = x := by
  rw [List.getD_eq_getElem?_getD, List.getElem?_append_right (le_refl _), Nat.sub_self]; rfl

theorem set_snoc_self {α : Type _} (l : List α) (x y : α) : (l ++ [x]).set l.length y = l ++ [y] := by
  rw [List.set_append_right _ _ (le_refl _), Nat.sub_self]; rfl

theorem fixZeros_of_not (isInt : Bool) (m : Mat K) (h : ¬ hasZero m = true) : fixZeros isInt m = m := by
  unfold fixZeros; rw [if_neg h]

/-- C30, arguments: the call only adds arrays to memory, so no array that existed before is changed (whether or not some arguments are the same array), and
the result is a new array that holds the value of `flatField`. -/
theorem flat_field_memory (isInt : Bool) (ratio : K) (useDark : Bool) (mem : Heap K) (proj flat dark : Nat) (hp : proj < mem.length) (hf : flat < mem.length)
    (hd : dark < mem.length) :
    let r := flatFieldMem isInt ratio useDark mem proj flat dark
    (∃ new, r.1 = mem ++ new) ∧ (∀ a, r.2 = .ok a → mem.length ≤ a) ∧
      r.2.map (fun a => r.1.getD a ⟨0, 0, fun _ _ => 0⟩) = flatField isInt ratio useDark mem[proj] mem[flat] mem[dark] := by
  have gp : mem.getD proj ⟨0, 0, fun _ _ => 0⟩ = mem[proj] := by rw [List.getD_eq_getElem?_getD, List.getElem?_eq_getElem hp]; rfl
  have gf : mem.getD flat ⟨0, 0, fun _ _ => 0⟩ = mem[flat] := by rw [List.getD_eq_getElem?_getD, List.getElem?_eq_getElem hf]; rfl
  have gd : mem.getD dark ⟨0, 0, fun _ _ => 0⟩ = mem[dark] := by rw [List.getD_eq_getElem?_getD, List.getElem?_eq_getElem hd]; rfl
  have app : ∀ (l : Heap K) (a : Nat), a < mem.length → (mem ++ l).getD a ⟨0, 0, fun _ _ => 0⟩ = mem.getD a ⟨0, 0, fun _ _ => 0⟩ := fun l a ha =>
    by rw [List.getD_eq_getElem?_getD, List.getD_eq_getElem?_getD, List.getElem?_append_left ha]
  generalize mem[proj] = P at *
  generalize mem[flat] = F at *
  generalize mem[dark] = D at *
  -- the last step, for any memory that extends the first one and ends with the denominator
  have last : ∀ (l : Heap K) (den : Mat K),
      let mem3 := if hasZero ((mem ++ l ++ [den]).getD (mem ++ l).length ⟨0, 0, fun _ _ => 0⟩) then
        (mem ++ l ++ [den]).set (mem ++ l).length (fixZeros isInt ((mem ++ l ++ [den]).getD (mem ++ l).length ⟨0, 0, fun _ _ => 0⟩)) else mem ++ l ++ [den]
      mem3 = mem ++ (l ++ [fixZeros isInt den]) ∧ mem3.getD (mem ++ l).length ⟨0, 0, fun _ _ => 0⟩ = fixZeros isInt den := by
    intro l den
    have e : (if hasZero ((mem ++ l ++ [den]).getD (mem ++ l).length ⟨0, 0, fun _ _ => 0⟩) then
        (mem ++ l ++ [den]).set (mem ++ l).length (fixZeros isInt ((mem ++ l ++ [den]).getD (mem ++ l).length ⟨0, 0, fun _ _ => 0⟩)) else mem ++ l ++ [den]) =
        (mem ++ l) ++ [fixZeros isInt den] := by
      rw [getD_snoc_self, set_snoc_self]
      by_cases h : hasZero den = true
      · rw [if_pos h]
      · rw [if_neg h, fixZeros_of_not _ _ h]
    refine ⟨?_, ?_⟩
    · rw [e, List.append_assoc]
    · rw [e, getD_snoc_self]
  cases useDark with
  | true =>
    have e1 : (mem ++ [(⟨F.h, F.w, fun i j => ratio * F.get i j⟩ : Mat K)]).getD mem.length ⟨0, 0, fun _ _ => 0⟩ = ⟨F.h, F.w, fun i j => ratio * F.get i j⟩ :=
      getD_snoc_self _ _ _
    obtain ⟨l1, l2⟩ := last [⟨F.h, F.w, fun i j => ratio * F.get i j⟩] ⟨F.h, F.w, fun i j => ratio * F.get i j - D.get i j⟩
    dsimp only
    unfold flatFieldMem flatField
    dsimp only
    simp only [if_true, gf, e1, app _ dark hd, gd] at l1 l2 ⊢
    rw [l1] at l2 ⊢
    rw [l2]
    simp only [app _ proj hp, gp, app _ dark hd, gd]
    by_cases h : hasZero (fixZeros isInt (⟨F.h, F.w, fun i j => ratio * F.get i j - D.get i j⟩ : Mat K)) = true
    · simp only [if_pos h]
      exact ⟨⟨_, rfl⟩, fun a ha => (nomatch ha), rfl⟩
    · simp only [if_neg h]
      refine ⟨⟨_, List.append_assoc _ _ _⟩, fun a ha => ?_, ?_⟩
      · cases ha; simp
      · show Except.ok (List.getD _ _ _) = _
        rw [getD_snoc_self]
  | false =>
    obtain ⟨l1, l2⟩ := last [] ⟨F.h, F.w, fun i j => ratio * F.get i j⟩
    simp only [List.append_nil, List.nil_append] at l1 l2
    dsimp only
    unfold flatFieldMem flatField
    dsimp only
    simp only [Bool.false_eq_true, if_false, gf] at l1 l2 ⊢
    rw [l1] at l2 ⊢
    rw [l2]
    simp only [app _ proj hp, gp]
    by_cases h : hasZero (fixZeros isInt (⟨F.h, F.w, fun i j => ratio * F.get i j⟩ : Mat K)) = true
    · simp only [if_pos h]
      exact ⟨⟨_, rfl⟩, fun a ha => (nomatch ha), rfl⟩
    · simp only [if_neg h]
      refine ⟨⟨_, List.append_assoc _ _ _⟩, fun a ha => ?_, ?_⟩
      · cases ha; simp
      · show Except.ok (List.getD _ _ _) = _
        rw [getD_snoc_self]

/-! ### C65 -/

/-- Full claim: no division by zero for integer typed data with an integer ratio either. -/
def IntFlatFieldDefined (proj flat dark : Mat ℚ) : Prop :=
  ∃ out, flatField true 1 true proj flat dark = .ok out

/-- C65 is false of the code: if flat - dark is an integer array with zeros whose mean is below one in magnitude, the mean is
truncated to 0 when stored, and the correction divides by zero. -/
theorem flat_field_int_refuted :
    ¬ IntFlatFieldDefined ⟨1, 2, fun _ _ => 1⟩ ⟨1, 2, fun _ j => if j = 0 then 1 else 0⟩ ⟨1, 2, fun _ _ => 0⟩ := by
  rintro ⟨out, h⟩
  have hmean : meanAll (⟨1, 2, fun _ j => 1 * (if j = 0 then (1 : ℚ) else 0) - 0⟩ : Mat ℚ) = 1 / 2 := by
    simp [meanAll, Finset.sum_range_succ]
  have hz : hasZero (⟨1, 2, fun _ j => 1 * (if j = 0 then (1 : ℚ) else 0) - 0⟩ : Mat ℚ) = true := by
    simp [hasZero, List.range_succ]
  have hst : storeAs true (1 / 2 : ℚ) = 0 := by
    have : ⌊(1 / 2 : ℚ)⌋ = 0 := by rw [Int.floor_eq_iff]; norm_num
    unfold storeAs pyTrunc
    rw [if_pos rfl, if_pos (by norm_num), this]; rfl
  have hfix : fixZeros true (⟨1, 2, fun _ j => 1 * (if j = 0 then (1 : ℚ) else 0) - 0⟩ : Mat ℚ) =
      ⟨1, 2, fun _ j => if 1 * (if j = 0 then (1 : ℚ) else 0) - 0 = 0 then 0 else 1 * (if j = 0 then (1 : ℚ) else 0) - 0⟩ := by
    unfold fixZeros
    rw [if_pos hz]
    dsimp only
    rw [hmean, if_pos (by norm_num), hst]
  unfold flatField at h
  dsimp only at h
  rw [if_pos rfl, hfix] at h
  have hz2 : hasZero (⟨1, 2, fun _ j => if 1 * (if j = 0 then (1 : ℚ) else 0) - 0 = 0 then 0
      else 1 * (if j = 0 then (1 : ℚ) else 0) - 0⟩ : Mat ℚ) = true := by
    simp [hasZero, List.range_succ]
  rw [if_pos hz2] at h
  cases h

/-- C65 (partial): integer typed data is safe if flat and dark differ everywhere. -/
theorem flat_field_int_partial (ratio : K) (proj flat dark : Mat K) (hf : flat.h = proj.h ∧ flat.w = proj.w)
    (hne : ∀ i < proj.h, ∀ j < proj.w, ratio * flat.get i j - dark.get i j ≠ 0) :
    ∃ out, flatField true ratio true proj flat dark = .ok out ∧ out.h = proj.h ∧ out.w = proj.w ∧
      ∀ i < proj.h, ∀ j < proj.w, out.get i j = (proj.get i j - dark.get i j) / (ratio * flat.get i j - dark.get i j) := by
  have h0 : hasZero (⟨flat.h, flat.w, fun i j => ratio * flat.get i j - dark.get i j⟩ : Mat K) = false := by
    apply hasZero_of_forall
    intro i hi j hj
    exact hne i (by rw [← hf.1]; exact hi) j (by rw [← hf.2]; exact hj)
  have hfix : fixZeros true (⟨flat.h, flat.w, fun i j => ratio * flat.get i j - dark.get i j⟩ : Mat K) =
      ⟨flat.h, flat.w, fun i j => ratio * flat.get i j - dark.get i j⟩ := by
    unfold fixZeros; rw [h0]; rfl
  unfold flatField
  dsimp only
  rw [if_pos rfl, hfix, h0]
  exact ⟨_, rfl, rfl, rfl, fun _ _ _ _ => rfl⟩

/-! ### slab interpolation -/

theorem reflectIdx_id (n : Nat) (i : Int) (h0 : 0 ≤ i) (h1 : i < n) : reflectIdx n i = i.toNat := by
  unfold reflectIdx
  rw [Int.emod_eq_of_lt h0 (by omega)]
  dsimp only
  rw [if_pos (by omega)]

/-- The slab gives the same value as the full image whenever it contains the rows needed. -/
theorem slab_eq (h w : Nat) (g : Nat → Nat → K) (lo hi : Int) (y x : K) (hlo : 0 ≤ lo) (h1 : lo ≤ ⌊y⌋)
    (h2 : y ≤ ((min hi h : Int) : K) - 1) : slabSample h w g lo hi y x = .ok (sample h w g y x) := by
  set hi' := min hi (h : Int) with hhi
  have hle : hi' ≤ h := min_le_right _ _
  have hy0 : (⌊y⌋ : K) ≤ y := Int.floor_le y
  have hfl : ⌊y⌋ ≤ hi' - 1 := by
    have : (⌊y⌋ : K) ≤ ((hi' - 1 : Int) : K) := by push_cast; linarith
    exact_mod_cast this
  unfold slabSample
  dsimp only
  rw [← hhi, if_neg (by omega)]
  congr 1
  have hf : ⌊y - (lo : K)⌋ = ⌊y⌋ - lo := by rw [Int.floor_sub_intCast]
  have ht : y - (lo : K) - ((⌊y⌋ - lo : Int) : K) = y - (⌊y⌋ : K) := by push_cast; ring
  unfold sample
  dsimp only
  rw [hf, ht]
  have e1 : lo.toNat + reflectIdx (hi' - lo).toNat (⌊y⌋ - lo) = reflectIdx h ⌊y⌋ := by
    rw [reflectIdx_id _ _ (by omega) (by omega), reflectIdx_id _ _ (by omega) (by omega)]; omega
  rw [e1]
  rcases Int.lt_or_le (⌊y⌋ + 1) hi' with hlt | hge
  · have e2 : lo.toNat + reflectIdx (hi' - lo).toNat (⌊y⌋ - lo + 1) = reflectIdx h (⌊y⌋ + 1) := by
      rw [reflectIdx_id _ _ (by omega) (by omega), reflectIdx_id _ _ (by omega) (by omega)]; omega
    rw [e2]
  · have : y - (⌊y⌋ : K) = 0 := by
      have h3 : ((hi' - 1 : Int) : K) ≤ (⌊y⌋ : K) := by exact_mod_cast (by omega : hi' - 1 ≤ ⌊y⌋)
      push_cast at h3; linarith
    rw [this]; ring

theorem foldl_min_le (l : List K) : ∀ a : K, l.foldl min a ≤ a ∧ ∀ x ∈ l, l.foldl min a ≤ x := by
  induction l with
  | nil => intro a; exact ⟨le_rfl, fun x hx => (List.not_mem_nil hx).elim⟩
  | cons b l ih =>
    intro a
    obtain ⟨h1, h2⟩ := ih (min a b)
    rw [List.foldl_cons]
    refine ⟨h1.trans (min_le_left _ _), ?_⟩
    intro x hx
    rcases List.mem_cons.mp hx with rfl | hx
    · exact h1.trans (min_le_right _ _)
    · exact h2 x hx

theorem le_foldl_max (l : List K) : ∀ a : K, a ≤ l.foldl max a ∧ ∀ x ∈ l, x ≤ l.foldl max a := by
  induction l with
  | nil => intro a; exact ⟨le_rfl, fun x hx => (List.not_mem_nil hx).elim⟩
  | cons b l ih =>
    intro a
    obtain ⟨h1, h2⟩ := ih (max a b)
    rw [List.foldl_cons]
    refine ⟨(le_max_left _ _).trans h1, ?_⟩
    intro x hx
    rcases List.mem_cons.mp hx with rfl | hx
    · exact (le_max_right _ _).trans h1
    · exact h2 x hx

theorem foldl_min_mem (l : List K) : ∀ a : K, l.foldl min a = a ∨ l.foldl min a ∈ l := by
  induction l with
  | nil => intro a; exact Or.inl rfl
  | cons b l ih =>
    intro a
    rw [List.foldl_cons]
    rcases ih (min a b) with h | h
    · rcases min_choice a b with h' | h'
      · exact Or.inl (h.trans h')
      · exact Or.inr (by rw [h, h']; simp)
    · exact Or.inr (by simp [h])

theorem foldl_max_mem (l : List K) : ∀ a : K, l.foldl max a = a ∨ l.foldl max a ∈ l := by
  induction l with
  | nil => intro a; exact Or.inl rfl
  | cons b l ih =>
    intro a
    rw [List.foldl_cons]
    rcases ih (max a b) with h | h
    · rcases max_choice a b with h' | h'
      · exact Or.inl (h.trans h')
      · exact Or.inr (by rw [h, h']; simp)
    · exact Or.inr (by simp [h])

theorem minOver_le (n : Nat) (f : Nat → K) (j : Nat) (hj : j < n) : minOver n f ≤ f j :=
  (foldl_min_le _ _).2 _ (List.mem_map_of_mem (List.mem_range.mpr hj))

theorem le_maxOver (n : Nat) (f : Nat → K) (j : Nat) (hj : j < n) : f j ≤ maxOver n f :=
  (le_foldl_max _ _).2 _ (List.mem_map_of_mem (List.mem_range.mpr hj))

theorem minOver_attained (n : Nat) (f : Nat → K) : ∃ j, minOver n f = f j := by
  rcases foldl_min_mem ((List.range n).map f) (f 0) with h | h
  · exact ⟨0, h⟩
  · obtain ⟨j, _, hj⟩ := List.mem_map.mp h
    exact ⟨j, hj.symm⟩

theorem maxOver_attained (n : Nat) (f : Nat → K) : ∃ j, maxOver n f = f j := by
  rcases foldl_max_mem ((List.range n).map f) (f 0) with h | h
  · exact ⟨0, h⟩
  · obtain ⟨j, _, hj⟩ := List.mem_map.mp h
    exact ⟨j, hj.symm⟩

theorem clip_range (x lo hi : K) (h : lo ≤ hi) : lo ≤ clip x lo hi ∧ clip x lo hi ≤ hi :=
  ⟨le_min (le_max_right _ _) h, min_le_right _ _⟩

/-- Slab bounds computed as `floor(min)` and `ceil(max)+1` of coordinates in `[0, h-1]` always contain the rows
needed. -/
theorem slab_ok (h w : Nat) (g : Nat → Nat → K) (lo hi : K) (y x : K) (hlo0 : 0 ≤ lo) (hly : lo ≤ y)
    (hyh : y ≤ hi) (hhi : hi ≤ (h : K) - 1) :
    slabSample h w g ⌊lo⌋ (⌈hi⌉ + 1) y x = .ok (sample h w g y x) := by
  apply slab_eq
  · exact Int.floor_nonneg.mpr hlo0
  · exact Int.floor_le_floor hly
  · have h1 : hi ≤ (⌈hi⌉ : K) := Int.le_ceil hi
    have h2 : ⌈hi⌉ + 1 ≤ (h : Int) := by
      have : ⌈hi⌉ ≤ (h : Int) - 1 := by rw [Int.ceil_le]; push_cast; exact hhi
      omega
    rw [min_eq_left h2]
    push_cast; linarith

/-! ### C31 -/

/-- C31, single sinogram.  For every data set, distortion function, centre and row index: `unwarp_sinogram` is the same
row of every unwarped projection. -/
theorem unwarp_sinogram_eq (xc yc : K) (fact : Nat → Nat → K) (data : Arr3 K) (index d j : Nat) (hh : 1 ≤ data.h)
    (hj : j < data.w) :
    unwarpSinogram xc yc fact data index d j =
      .ok ((unwarpProjection xc yc fact ⟨data.h, data.w, data.get d⟩).get index j) := by
  have hh' : (0 : K) ≤ (data.h : K) - 1 := by
    have : (1 : K) ≤ (data.h : K) := by exact_mod_cast hh
    linarith
  have hr : ∀ j, 0 ≤ ydOf data.h yc fact index j ∧ ydOf data.h yc fact index j ≤ (data.h : K) - 1 :=
    fun j => clip_range _ _ _ hh'
  obtain ⟨j1, h1⟩ := minOver_attained data.w (ydOf data.h yc fact index)
  obtain ⟨j2, h2⟩ := maxOver_attained data.w (ydOf data.h yc fact index)
  exact slab_ok _ _ _ _ _ _ _ (by rw [h1]; exact (hr j1).1) (minOver_le _ _ j hj) (le_maxOver _ _ j hj)
    (by rw [h2]; exact (hr j2).2)

/-- Full claim for chunks: rows of the chunk are the rows of the unwarped projections. -/
def ChunkRight (xc yc : K) (fact : Nat → Nat → K) (data : Arr3 K) (start stop : Nat) : Prop :=
  ∀ d i j, start + i < stop → j < data.w → unwarpChunk xc yc fact data start stop d i j =
    .ok ((unwarpProjection xc yc fact ⟨data.h, data.w, data.get d⟩).get (start + i) j)

theorem ydOf_one (h : Nat) (yc : K) (y x : Nat) (hy : y < h) : ydOf h yc (fun _ _ => 1) y x = (y : K) := by
  unfold ydOf clip
  have h1 : (y : K) ≤ (h : K) - 1 := by
    have : ((y + 1 : Nat) : K) ≤ (h : K) := by exact_mod_cast hy
    push_cast at this; linarith
  have h0 : (0 : K) ≤ (y : K) := by positivity
  rw [one_mul, add_sub_cancel, max_eq_left h0, min_eq_left h1]

theorem ydOf_one_end (h : Nat) (yc : K) (x : Nat) (hh : 1 ≤ h) : ydOf h yc (fun _ _ => 1) h x = (h : K) - 1 := by
  unfold ydOf clip
  have h0 : (0 : K) ≤ (h : K) := by positivity
  rw [one_mul, add_sub_cancel, max_eq_left h0, min_eq_right (by linarith)]

theorem minOver_const (n : Nat) (f : Nat → K) (c : K) (hf : ∀ j, f j = c) : minOver n f = c := by
  obtain ⟨j, h⟩ := minOver_attained n f; rw [h, hf]

theorem maxOver_const (n : Nat) (f : Nat → K) (c : K) (hf : ∀ j, f j = c) : maxOver n f = c := by
  obtain ⟨j, h⟩ := maxOver_attained n f; rw [h, hf]

theorem sample_int (h w : Nat) (g : Nat → Nat → K) (y x : Nat) (hy : y < h) (hx : x < w) :
    sample h w g (y : K) (x : K) = g y x := by
  unfold sample
  have f1 : ⌊(y : K)⌋ = (y : Int) := Int.floor_natCast y
  have f2 : ⌊(x : K)⌋ = (x : Int) := Int.floor_natCast x
  dsimp only
  rw [f1, f2, reflectIdx_id h y (by omega) (by omega), reflectIdx_id w x (by omega) (by omega)]
  simp

theorem xdOf_one (w : Nat) (xc : K) (y x : Nat) (hx : x < w) : xdOf w xc (fun _ _ => 1) y x = (x : K) := by
  unfold xdOf clip
  have h1 : (x : K) ≤ (w : K) - 1 := by
    have : ((x + 1 : Nat) : K) ≤ (w : K) := by exact_mod_cast hx
    push_cast at this; linarith
  have h0 : (0 : K) ≤ (x : K) := by positivity
  rw [one_mul, add_sub_cancel, max_eq_left h0, min_eq_left h1]

/-- Unwarping without distortion is the identity (so `ChunkRight` then means `data[:, start:stop, :]`). -/
theorem unwarp_projection_identity (xc yc : K) (m : Mat K) : (unwarpProjection xc yc (fun _ _ => 1) m).Eqv m := by
  refine ⟨rfl, rfl, ?_⟩
  intro i hi j hj
  have hi : i < m.h := hi
  have hj : j < m.w := hj
  show sample m.h m.w m.get (ydOf m.h yc (fun _ _ => 1) i j) (xdOf m.w xc (fun _ _ => 1) i j) = _
  rw [ydOf_one m.h yc i j hi, xdOf_one m.w xc i j hj, sample_int _ _ _ _ _ hi hj]

/-- What the code does at the end of the image, without any distortion: for every data set and start row the last row of the chunk
`[start, height)` is a copy of row `height-2`. -/
theorem unwarp_chunk_last_row (xc yc : K) (data : Arr3 K) (start d j : Nat) (hs : start + 1 < data.h) (hj : j < data.w) :
    unwarpChunk xc yc (fun _ _ => 1) data start data.h d (data.h - 1 - start) j = .ok (data.get d (data.h - 2) j) := by
  have hmin : minOver data.w (ydOf data.h yc (fun _ _ => 1) start) = (start : K) :=
    minOver_const _ _ _ (fun j => ydOf_one data.h yc start j (by omega))
  have hmax : maxOver data.w (ydOf data.h yc (fun _ _ => 1) data.h) = (data.h : K) - 1 :=
    maxOver_const _ _ _ (fun j => ydOf_one_end data.h yc j (by omega))
  have hc : ⌈(data.h : K) - 1⌉ = (data.h : Int) - 1 := by
    rw [show (data.h : K) - 1 = (((data.h : Int) - 1 : Int) : K) by push_cast; ring, Int.ceil_intCast]
  have hyv : ydOf data.h yc (fun _ _ => 1) (start + (data.h - 1 - start)) j = ((data.h - 1 : Nat) : K) := by
    rw [show start + (data.h - 1 - start) = data.h - 1 by omega]
    exact ydOf_one data.h yc _ j (by omega)
  unfold unwarpChunk
  dsimp only
  rw [hmin, hmax, hc, Int.floor_natCast, hyv, xdOf_one _ _ _ _ hj]
  unfold slabSample
  dsimp only
  rw [min_eq_left (by omega), if_neg (by omega)]
  congr 1
  have hcast : ((data.h - 1 : Nat) : K) - (((start : Nat) : Int) : K) = ((data.h - 1 - start : Nat) : K) := by
    rw [Nat.cast_sub (by omega : start ≤ data.h - 1)]; simp
  rw [hcast]
  unfold sample
  dsimp only
  have f1 : ⌊((data.h - 1 - start : Nat) : K)⌋ = ((data.h - 1 - start : Nat) : Int) := Int.floor_natCast _
  have f2 : ⌊(j : K)⌋ = (j : Int) := Int.floor_natCast j
  rw [f1, f2, reflectIdx_id data.w j (by omega) (by omega)]
  have hr : reflectIdx ((data.h : Int) - 1 - (start : Int)).toNat ((data.h - 1 - start : Nat) : Int) = data.h - 2 - start := by
    have hn : ((data.h : Int) - 1 - (start : Int)).toNat = data.h - 1 - start := by omega
    rw [hn]
    unfold reflectIdx
    rw [Int.emod_eq_of_lt (by omega) (by omega)]
    dsimp only
    rw [if_neg (by omega)]; omega
  rw [hr]
  have : ((start : Nat) : Int).toNat + (data.h - 2 - start) = data.h - 2 := by omega
  rw [this]
  simp

/-- C31 is false of the code for every chunk that ends at the last row: whenever the last two rows of some projection differ, the
chunk is not the rows of the (un)warped projections, even without distortion. -/
theorem unwarp_chunk_refuted (xc yc : K) (data : Arr3 K) (start d j : Nat) (hs : start + 1 < data.h) (hj : j < data.w)
    (hne : data.get d (data.h - 1) j ≠ data.get d (data.h - 2) j) :
    ¬ ChunkRight xc yc (fun _ _ => 1) data start data.h := by
  intro h
  have h1 := h d (data.h - 1 - start) j (by omega) hj
  rw [unwarp_chunk_last_row xc yc data start d j hs hj] at h1
  have h2 := (unwarp_projection_identity xc yc (⟨data.h, data.w, data.get d⟩ : Mat K)).2.2 (data.h - 1) (by show data.h - 1 < data.h; omega) j hj
  rw [show start + (data.h - 1 - start) = data.h - 1 by omega, h2] at h1
  exact hne (Except.ok.inj h1).symm

/-- C31 (partial): right for every distortion and range whose rows all lie between the bounds taken from the first row and
the row after the last. -/
theorem unwarp_chunk_partial (xc yc : K) (fact : Nat → Nat → K) (data : Arr3 K) (start stop : Nat) (hh : 1 ≤ data.h)
    (hin : ∀ i j, start + i < stop → j < data.w →
      minOver data.w (ydOf data.h yc fact start) ≤ ydOf data.h yc fact (start + i) j ∧
      ydOf data.h yc fact (start + i) j ≤ (⌈maxOver data.w (ydOf data.h yc fact stop)⌉ : K) - 1) :
    ChunkRight xc yc fact data start stop := by
  have hh' : (0 : K) ≤ (data.h : K) - 1 := by
    have : (1 : K) ≤ (data.h : K) := by exact_mod_cast hh
    linarith
  intro d i j hi hj
  obtain ⟨h1, h2⟩ := hin i j hi hj
  obtain ⟨j1, e1⟩ := minOver_attained data.w (ydOf data.h yc fact start)
  obtain ⟨j2, e2⟩ := maxOver_attained data.w (ydOf data.h yc fact stop)
  apply slab_eq
  · rw [e1]; exact Int.floor_nonneg.mpr (clip_range _ _ _ hh').1
  · exact Int.floor_le_floor h1
  · have h3 : ⌈maxOver data.w (ydOf data.h yc fact stop)⌉ ≤ (data.h : Int) := by
      rw [Int.ceil_le, e2]
      have := (clip_range (yc + fact stop j2 * ((stop : K) - yc)) 0 ((data.h : K) - 1) hh').2
      have h4 : ydOf data.h yc fact stop j2 ≤ (data.h : K) - 1 := this
      push_cast; linarith
    rw [min_eq_left h3]; exact h2

/-- C31 (partial): without distortion every range that stops before the last row is exact. -/
theorem unwarp_chunk_identity_partial (xc yc : K) (data : Arr3 K) (start stop : Nat) (hst : stop < data.h) :
    ∀ d i j, start + i < stop → j < data.w →
      unwarpChunk xc yc (fun _ _ => 1) data start stop d i j = .ok (data.get d (start + i) j) := by
  intro d i j hi hj
  have hmin : minOver data.w (ydOf data.h yc (fun _ _ => 1) start) = (start : K) :=
    minOver_const _ _ _ (fun j => ydOf_one data.h yc start j (by omega))
  have hmax : maxOver data.w (ydOf data.h yc (fun _ _ => 1) stop) = (stop : K) :=
    maxOver_const _ _ _ (fun j => ydOf_one data.h yc stop j hst)
  have := unwarp_chunk_partial xc yc (fun _ _ => 1) data start stop (by omega) (by
    intro i j hi hj
    rw [hmin, hmax, Int.ceil_natCast, ydOf_one data.h yc (start + i) j (by omega)]
    refine ⟨by exact_mod_cast Nat.le_add_right _ _, ?_⟩
    have : ((start + i + 1 : Nat) : K) ≤ (stop : K) := by exact_mod_cast hi
    push_cast at this ⊢; linarith) d i j hi hj
  rw [this]
  congr 1
  exact (unwarp_projection_identity xc yc (⟨data.h, data.w, data.get d⟩ : Mat K)).2.2 (start + i) (by show start + i < data.h; omega) j hj

/-- Non-vacuity of C31's hypotheses. -/
example : (0 : Nat) + 1 < (⟨1, 4, 3, fun _ i _ => (i : ℚ)⟩ : Arr3 ℚ).h ∧
    (⟨1, 4, 3, fun _ i _ => (i : ℚ)⟩ : Arr3 ℚ).get 0 3 0 ≠ (⟨1, 4, 3, fun _ i _ => (i : ℚ)⟩ : Arr3 ℚ).get 0 2 0 := by
  constructor
  · decide
  · norm_num

/-! ### C66 -/

/-- C66.  For every data set, angle (any `c`, `s`) and row: a tilted sinogram reads only inside the slab it loads and equals
bilinear interpolation of the full projection along the tilted line. -/
theorem tilted_sinogram_eq (c s : K) (data : Arr3 K) (index d j : Nat) (hh : 1 ≤ data.h) (hj : j < data.w) :
    tiltedSinogram c s data index d j =
      .ok (sample data.h data.w (data.get d) (ytOf data.h data.w c s index j) (xtOf data.h data.w c s index j)) := by
  have hh' : (0 : K) ≤ (data.h : K) - 1 := by
    have : (1 : K) ≤ (data.h : K) := by exact_mod_cast hh
    linarith
  have hr : ∀ j, 0 ≤ ytOf data.h data.w c s index j ∧ ytOf data.h data.w c s index j ≤ (data.h : K) - 1 :=
    fun j => clip_range _ _ _ hh'
  obtain ⟨j1, h1⟩ := minOver_attained data.w (ytOf data.h data.w c s index)
  obtain ⟨j2, h2⟩ := maxOver_attained data.w (ytOf data.h data.w c s index)
  exact slab_ok _ _ _ _ _ _ _ (by rw [h1]; exact (hr j1).1) (minOver_le _ _ j hj) (le_maxOver _ _ j hj)
    (by rw [h2]; exact (hr j2).2)

/-- C66.  Row `i` of a tilted chunk is the tilted sinogram at `start + i`, for every range and angle. -/
theorem tilted_chunk_eq_single (c s : K) (data : Arr3 K) (start stop d i j : Nat) (hh : 1 ≤ data.h) (hj : j < data.w)
    (hi : start + i ≤ stop) :
    tiltedChunk c s data start stop d i j = tiltedSinogram c s data (start + i) d j := by
  rw [tilted_sinogram_eq c s data (start + i) d j hh hj]
  have hh' : (0 : K) ≤ (data.h : K) - 1 := by
    have : (1 : K) ≤ (data.h : K) := by exact_mod_cast hh
    linarith
  have hr : ∀ i j, 0 ≤ ytOf data.h data.w c s i j ∧ ytOf data.h data.w c s i j ≤ (data.h : K) - 1 :=
    fun i j => clip_range _ _ _ hh'
  have hlo : minOver (stop + 1 - start) (fun r => minOver data.w (ytOf data.h data.w c s (start + r))) ≤ ytOf data.h data.w c s (start + i) j :=
    (minOver_le _ _ i (by omega)).trans (minOver_le _ _ j hj)
  have hhi : ytOf data.h data.w c s (start + i) j ≤ maxOver (stop + 1 - start) (fun r => maxOver data.w (ytOf data.h data.w c s (start + r))) :=
    (le_maxOver data.w (ytOf data.h data.w c s (start + i)) j hj).trans
      (le_maxOver (stop + 1 - start) (fun r => maxOver data.w (ytOf data.h data.w c s (start + r))) i (by omega))
  refine slab_ok _ _ _ _ _ _ _ ?_ hlo hhi ?_
  · obtain ⟨r, e⟩ := minOver_attained (stop + 1 - start) (fun r => minOver data.w (ytOf data.h data.w c s (start + r)))
    obtain ⟨j1, e1⟩ := minOver_attained data.w (ytOf data.h data.w c s (start + r))
    rw [e, e1]; exact (hr _ _).1
  · obtain ⟨r, e⟩ := maxOver_attained (stop + 1 - start) (fun r => maxOver data.w (ytOf data.h data.w c s (start + r)))
    obtain ⟨j1, e1⟩ := maxOver_attained data.w (ytOf data.h data.w c s (start + r))
    rw [e, e1]; exact (hr _ _).2

/-- C66.  At angle zero a tilted sinogram is the plain sinogram. -/
theorem tilted_sinogram_zero (data : Arr3 K) (index d j : Nat) (hi : index < data.h) (hj : j < data.w) :
    tiltedSinogram 1 0 data index d j = .ok (data.get d index j) := by
  rw [tilted_sinogram_eq 1 0 data index d j (by omega) hj]
  have h1 : (index : K) ≤ (data.h : K) - 1 := by
    have : ((index + 1 : Nat) : K) ≤ (data.h : K) := by exact_mod_cast hi
    push_cast at this; linarith
  have h2 : (j : K) ≤ (data.w : K) - 1 := by
    have : ((j + 1 : Nat) : K) ≤ (data.w : K) := by exact_mod_cast hj
    push_cast at this; linarith
  have e1 : ytOf data.h data.w (1 : K) 0 index j = (index : K) := by
    unfold ytOf clip
    rw [show ((data.h : K) - 1) / 2 + (((j : K) - ((data.w : K) - 1) / 2) * 0 + ((index : K) - ((data.h : K) - 1) / 2) * 1) = index by ring,
      max_eq_left (by positivity), min_eq_left h1]
  have e2 : xtOf data.h data.w (1 : K) 0 index j = (j : K) := by
    unfold xtOf clip
    rw [show ((data.w : K) - 1) / 2 + (((j : K) - ((data.w : K) - 1) / 2) * 1 - ((index : K) - ((data.h : K) - 1) / 2) * 0) = j by ring,
      max_eq_left (by positivity), min_eq_left h2]
  rw [e1, e2, sample_int _ _ _ _ _ hi hj]

/-- C66.  All coordinates read are inside the projection (bilinear weights are in `[0,1]` by construction). -/
theorem tilted_coordinates_in_range (h w : Nat) (c s : K) (y x : Nat) (hh : 1 ≤ h) (hw : 1 ≤ w) :
    (0 ≤ ytOf h w c s y x ∧ ytOf h w c s y x ≤ (h : K) - 1) ∧ (0 ≤ xtOf h w c s y x ∧ xtOf h w c s y x ≤ (w : K) - 1) := by
  have hh' : (1 : K) ≤ (h : K) := by exact_mod_cast hh
  have hw' : (1 : K) ≤ (w : K) := by exact_mod_cast hw
  exact ⟨clip_range _ _ _ (by linarith), clip_range _ _ _ (by linarith)⟩

/-! ### C33 -/

theorem upStep_iter (h k : Nat) (hh : 1 ≤ h) : upStep^[k] h = 2 ^ k * (h - 1) + 1 := by
  induction k with
  | zero => simp; omega
  | succ k ih =>
    rw [Function.iterate_succ_apply', ih]
    unfold upStep
    rw [pow_succ]
    have : 2 ^ k * 2 * (h - 1) = 2 * (2 ^ k * (h - 1)) := by ring
    omega

/-- Full claim: `upsample_sinogram` multiplies the number of angular steps (rows minus one) by `scale`. -/
def UpsampledBy (rows : Nat) (scale : Nat) (is180 : Bool) : Prop :=
  upsampleRows rows scale is180 = .ok (scale * (rows - 1) + 1)

/-- What the code does: for every even scale the angular steps are multiplied by `2^(scale/2)`. -/
theorem upsample_rows_eq (rows k : Nat) (is180 : Bool) (hr : 2 ≤ rows) (hk : 1 ≤ k) :
    upsampleRows rows (2 * k : Nat) is180 = .ok (2 ^ k * (rows - 1) + 1) := by
  have hsc : max ((2 * k : Nat) : Int) 1 = ((2 * k : Nat) : Int) := by omega
  have hdiv : (((2 * k : Nat) : Int) / 2).toNat = k := by omega
  unfold upsampleRows
  dsimp only
  rw [hsc, if_neg (by omega), hdiv]
  cases is180 with
  | false =>
    rw [if_neg (by decide), if_neg (by decide), upStep_iter rows k (by omega)]
  | true =>
    rw [if_pos rfl, if_pos rfl, upStep_iter _ k (by omega)]
    have h1 : rows + (rows - 1) - 1 = 2 * (rows - 1) := by omega
    rw [h1]
    have h2 : 2 ^ k * (2 * (rows - 1)) = 2 * (2 ^ k * (rows - 1)) := by ring
    rw [h2]
    have h3 : 1 ≤ 2 ^ k * (rows - 1) := Nat.mul_pos (by positivity) (by omega)
    congr 1
    omega

theorem two_pow_gt (k : Nat) (hk : 3 ≤ k) : 2 * k < 2 ^ k := by
  induction k with
  | zero => omega
  | succ k ih =>
    rcases Nat.lt_or_ge k 3 with h | h
    · have : k = 2 := by omega
      subst this; decide
    · have := ih h
      rw [pow_succ]; omega

/-- C33 is false of the code for every even scale ≥ 6 (6 gives 8 times, 8 gives 16 times, ...), for every sinogram. -/
theorem upsample_scale_refuted (rows k : Nat) (is180 : Bool) (hr : 2 ≤ rows) (hk : 3 ≤ k) :
    ¬ UpsampledBy rows (2 * k) is180 := by
  unfold UpsampledBy
  rw [upsample_rows_eq rows k is180 hr (by omega)]
  intro h
  have h1 := Except.ok.inj h
  have h2 : 2 ^ k * (rows - 1) = 2 * k * (rows - 1) := by omega
  have h3 := Nat.eq_of_mul_eq_mul_right (by omega) h2
  have := two_pow_gt k hk
  omega

/-- C33 (partial): right for scale 2 and 4. -/
theorem upsample_scale_partial (rows : Nat) (is180 : Bool) (hr : 2 ≤ rows) :
    UpsampledBy rows 2 is180 ∧ UpsampledBy rows 4 is180 :=
  ⟨upsample_rows_eq rows 1 is180 hr (by omega), upsample_rows_eq rows 2 is180 hr (by omega)⟩

/-- Odd scales are rejected. -/
theorem upsample_odd_rejected (rows : Nat) (scale : Int) (is180 : Bool) (h : scale % 2 = 1) :
    upsampleRows rows scale is180 = .error .valueError := by
  unfold upsampleRows
  dsimp only
  rw [if_pos]
  rcases le_total scale 1 with h1 | h1
  · rw [max_eq_right h1]; decide
  · rw [max_eq_left h1]; omega

end Verif.Correction
