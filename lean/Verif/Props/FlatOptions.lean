import Verif.Model.FlatOptions
import Verif.Props.Correction

set_option linter.unusedSectionVars false
set_option linter.unusedSimpArgs false

/-!
**C126.** `flat_field_correction` with options on images, sinograms and stacks (algotom/prep/correction.py:45-132).
-/

namespace Verif.FlatOptions
open Verif.Correction

variable {K : Type} [Field K] [LinearOrder K] [IsStrictOrderedRing K] [FloorRing K] {P : Type}

/-! ### specification -/

/-- The function a name stands for: `removal` before `filtering` before `phase`. -/
def Means (ns : Modules K P) (s : String) (f : Method K P) : Prop :=
  ns.remo s = some f ∨ (ns.remo s = none ∧ ns.filt s = some f) ∨ (ns.remo s = none ∧ ns.filt s = none ∧ ns.ps s = some f)

/-- All functions that can be called keep the shape of the image. -/
def KeepShape (ns : Modules K P) : Prop :=
  ∀ s f para m r, Means ns s f → f para m = .ok r → r.h = m.h ∧ r.w = m.w

/-- Row `i` of a flat (dark) field, to be used with a sinogram. -/
def flatRow (flat : Mat K) (i : Nat) : Mat K := ⟨1, flat.w, fun _ j => flat.get i j⟩

/-- Uniform image with the shape of `m`. -/
def uniform (m : Mat K) (c : K) : Mat K := ⟨m.h, m.w, fun _ _ => c⟩

/-- What a pixel is divided by, if it is not zero. -/
def divisor (ratio : K) (useDark : Bool) (flat dark : Mat K) (i j : Nat) : K :=
  if useDark then ratio * flat.get i j - dark.get i j else ratio * flat.get i j

/-! ### lemmas -/

theorem find_iff (ns : Modules K P) (v : Value P) (f : Method K P) : ns.find v = .ok f ↔ ∃ s, v = .str s ∧ Means ns s f := by
  cases v with
  | par p => exact ⟨fun h => (nomatch h), fun ⟨_, h, _⟩ => (nomatch h)⟩
  | str s =>
    simp only [Modules.find, Means, Value.str.injEq, exists_eq_left']
    cases h1 : ns.remo s <;> cases h2 : ns.filt s <;> cases h3 : ns.ps s <;> simp

theorem find_error (ns : Modules K P) (v : Value P) (h : ∀ f, ns.find v ≠ .ok f) : ns.find v = .error .valueError := by
  cases v with
  | par p => rfl
  | str s =>
    simp only [Modules.find] at *
    cases h1 : ns.remo s <;> cases h2 : ns.filt s <;> cases h3 : ns.ps s <;> simp [h1, h2, h3] at h ⊢

theorem bind_ok {α β : Type} {x : Py α} {g : α → Py β} {b : β} (h : x.bind g = .ok b) : ∃ a, x = .ok a ∧ g a = .ok b := by
  cases x with
  | error e => exact nomatch h
  | ok a => exact ⟨a, rfl, h⟩

theorem store_ok (a : Arr3 K) (i : Nat) (r : Mat K) (hh : r.h = a.d) (hw : r.w = a.w) :
    ∃ b, store a i r = .ok b ∧ (b.d = a.d ∧ b.h = a.h ∧ b.w = a.w) ∧ sinoOf b i = r ∧ ∀ i', i' ≠ i → sinoOf b i' = sinoOf a i' := by
  unfold store
  rw [if_pos ⟨Or.inl hh, Or.inl hw⟩]
  refine ⟨_, rfl, ⟨rfl, rfl, rfl⟩, ?_, ?_⟩
  · unfold sinoOf
    simp only [if_true, if_pos hh, if_pos hw]
    rw [← hh, ← hw]
  · intro i' hi'
    unfold sinoOf
    simp only [if_neg hi']

theorem loop_ok (ns : Modules K P) (v : Value P) (para : List (Value P)) (f : Method K P) (hf : ns.find v = .ok f)
    (hk : ∀ m r, f para m = .ok r → r.h = m.h ∧ r.w = m.w) (a : Arr3 K) (n : Nat) (b : Arr3 K)
    (hb : (List.range n).foldlM (step3 ns v para) a = .ok b) :
    (b.d = a.d ∧ b.h = a.h ∧ b.w = a.w) ∧ (∀ i < n, f para (sinoOf a i) = .ok (sinoOf b i)) ∧ ∀ i, n ≤ i → sinoOf b i = sinoOf a i := by
  induction n generalizing b with
  | zero =>
    obtain rfl : a = b := Except.ok.inj hb
    exact ⟨⟨rfl, rfl, rfl⟩, fun i hi => absurd hi (by omega), fun _ _ => rfl⟩
  | succ n ih =>
    rw [List.range_succ, List.foldlM_append] at hb
    obtain ⟨c, hc, hb⟩ := bind_ok hb
    obtain ⟨⟨s1, s2, s3⟩, h1, h2⟩ := ih c hc
    rw [List.foldlM_cons] at hb
    obtain ⟨c', hc', hb⟩ := bind_ok hb
    obtain rfl : c' = b := Except.ok.inj hb
    unfold step3 at hc'
    rw [hf] at hc'
    obtain ⟨r, hr, hst⟩ := bind_ok (show (f para (sinoOf c n)).bind (fun r => store c n r) = .ok c' from hc')
    have hs := hk _ _ hr
    obtain ⟨d, hd, ⟨t1, t2, t3⟩, u1, u2⟩ := store_ok c n r hs.1 hs.2
    obtain rfl : d = c' := by rw [hst] at hd; exact (Except.ok.inj hd).symm
    refine ⟨⟨t1.trans s1, t2.trans s2, t3.trans s3⟩, fun i hi => ?_, fun i hi => ?_⟩
    · rcases Nat.lt_or_ge i n with h | h
      · rw [u2 i (by omega)]; exact h1 i h
      · obtain rfl : i = n := by omega
        rw [← h2 i (le_refl _), u1]
        exact hr
    · rw [u2 i (by omega)]; exact h2 i (by omega)

theorem loop_exists (ns : Modules K P) (v : Value P) (para : List (Value P)) (f : Method K P) (hf : ns.find v = .ok f)
    (hk : ∀ m r, f para m = .ok r → r.h = m.h ∧ r.w = m.w) (a : Arr3 K) (n : Nat) (h : ∀ i < n, ∃ r, f para (sinoOf a i) = .ok r) :
    ∃ b, (List.range n).foldlM (step3 ns v para) a = .ok b := by
  induction n with
  | zero => exact ⟨a, rfl⟩
  | succ n ih =>
    obtain ⟨c, hc⟩ := ih fun i hi => h i (by omega)
    obtain ⟨-, -, h2⟩ := loop_ok ns v para f hf hk a n c hc
    obtain ⟨r, hr⟩ := h n (by omega)
    rw [← h2 n (le_refl _)] at hr
    have hs := hk _ _ hr
    obtain ⟨d, hd, -⟩ := store_ok c n r hs.1 hs.2
    refine ⟨d, ?_⟩
    rw [List.range_succ, List.foldlM_append, hc]
    show (step3 ns v para c n).bind _ = _
    unfold step3
    rw [hf]
    show ((f para (sinoOf c n)).bind fun r => store c n r).bind _ = _
    rw [hr]
    show (store c n r).bind _ = _
    rw [hd]
    rfl

theorem apply3_ok (ns : Modules K P) (hk : KeepShape ns) (a b : Arr3 K) (o : Opt P) (hb : apply3 ns a o = .ok b) :
    (b.d = a.d ∧ b.h = a.h ∧ b.w = a.w) ∧ ∀ i < a.h, apply2 ns (sinoOf a i) o = .ok (sinoOf b i) := by
  cases o with
  | none =>
    obtain rfl : a = b := Except.ok.inj hb
    exact ⟨⟨rfl, rfl, rfl⟩, fun _ _ => rfl⟩
  | other => exact nomatch hb
  | dict l =>
    cases l with
    | nil => exact nomatch hb
    | cons v para =>
      by_cases hf : ∃ f, ns.find v = .ok f
      · obtain ⟨f, hf⟩ := hf
        obtain ⟨s, -, hm⟩ := (find_iff ns v f).1 hf
        obtain ⟨h1, h2, -⟩ := loop_ok ns v para f hf (fun m r => hk s f para m r hm) a a.h b hb
        refine ⟨h1, fun i hi => ?_⟩
        show (ns.find v).bind _ = _
        rw [hf]
        exact h2 i hi
      · have he := find_error ns v fun f h => hf ⟨f, h⟩
        rcases Nat.eq_zero_or_pos a.h with h0 | h0
        · have hb' : (List.range a.h).foldlM (step3 ns v para) a = .ok b := hb
          rw [h0] at hb'
          obtain rfl : a = b := Except.ok.inj hb'
          exact ⟨⟨rfl, rfl, rfl⟩, fun i hi => absurd hi (by omega)⟩
        · exfalso
          have hb' : (List.range a.h).foldlM (step3 ns v para) a = .ok b := hb
          obtain ⟨n, hn⟩ : ∃ n, a.h = n + 1 := ⟨a.h - 1, by omega⟩
          rw [hn, List.range_succ_eq_map, List.foldlM_cons] at hb'
          obtain ⟨c, hc, -⟩ := bind_ok hb'
          unfold step3 at hc
          rw [he] at hc
          exact nomatch hc

theorem apply3_exists (ns : Modules K P) (hk : KeepShape ns) (a : Arr3 K) (o : Opt P) (h0 : 0 < a.h)
    (h : ∀ i < a.h, ∃ r, apply2 ns (sinoOf a i) o = .ok r) : ∃ b, apply3 ns a o = .ok b := by
  cases o with
  | none => exact ⟨a, rfl⟩
  | other => obtain ⟨r, hr⟩ := h 0 h0; exact nomatch hr
  | dict l =>
    cases l with
    | nil => obtain ⟨r, hr⟩ := h 0 h0; exact nomatch hr
    | cons v para =>
      obtain ⟨r, hr⟩ := h 0 h0
      obtain ⟨f, hf, -⟩ := bind_ok (show (ns.find v).bind (fun f => f para (sinoOf a 0)) = .ok r from hr)
      obtain ⟨s, -, hm⟩ := (find_iff ns v f).1 hf
      refine loop_exists ns v para f hf (fun m r => hk s f para m r hm) a a.h fun i hi => ?_
      obtain ⟨r, hr⟩ := h i hi
      have hr' : (ns.find v).bind (fun f => f para (sinoOf a i)) = .ok r := hr
      rw [hf] at hr'
      exact ⟨r, hr'⟩

theorem fold_ok (ns : Modules K P) (hk : KeepShape ns) (opts : List (Opt P)) (a b : Arr3 K) (hb : opts.foldlM (apply3 ns) a = .ok b) :
    (b.d = a.d ∧ b.h = a.h ∧ b.w = a.w) ∧ ∀ i < a.h, opts.foldlM (apply2 ns) (sinoOf a i) = .ok (sinoOf b i) := by
  induction opts generalizing a with
  | nil =>
    obtain rfl : a = b := Except.ok.inj hb
    exact ⟨⟨rfl, rfl, rfl⟩, fun _ _ => rfl⟩
  | cons o opts ih =>
    rw [List.foldlM_cons] at hb
    obtain ⟨c, hc, hb⟩ := bind_ok hb
    obtain ⟨⟨s1, s2, s3⟩, h1⟩ := apply3_ok ns hk a c o hc
    obtain ⟨⟨t1, t2, t3⟩, h2⟩ := ih c hb
    refine ⟨⟨t1.trans s1, t2.trans s2, t3.trans s3⟩, fun i hi => ?_⟩
    rw [List.foldlM_cons, h1 i hi]
    exact h2 i (by omega)

theorem fold_exists (ns : Modules K P) (hk : KeepShape ns) (opts : List (Opt P)) (a : Arr3 K) (h0 : 0 < a.h)
    (h : ∀ i < a.h, ∃ r, opts.foldlM (apply2 ns) (sinoOf a i) = .ok r) : ∃ b, opts.foldlM (apply3 ns) a = .ok b := by
  induction opts generalizing a with
  | nil => exact ⟨a, rfl⟩
  | cons o opts ih =>
    obtain ⟨c, hc⟩ := apply3_exists ns hk a o h0 fun i hi => by
      obtain ⟨r, hr⟩ := h i hi
      rw [List.foldlM_cons] at hr
      obtain ⟨x, hx, -⟩ := bind_ok hr
      exact ⟨x, hx⟩
    obtain ⟨⟨s1, s2, s3⟩, h1⟩ := apply3_ok ns hk a c o hc
    obtain ⟨b, hb⟩ := ih c (by omega) fun i hi => by
      obtain ⟨r, hr⟩ := h i (by omega)
      rw [List.foldlM_cons, h1 i (by omega)] at hr
      exact ⟨r, hr⟩
    refine ⟨b, ?_⟩
    rw [List.foldlM_cons, hc]
    exact hb

theorem denominator_shape (isInt : Bool) (ratio : K) (useDark : Bool) (flat dark : Mat K) :
    (denominator isInt ratio useDark flat dark).h = flat.h ∧ (denominator isInt ratio useDark flat dark).w = flat.w := by
  unfold denominator
  dsimp only
  cases useDark
  · exact fixZeros_shape _ _
  · exact fixZeros_shape _ _

theorem denominator_keep (isInt : Bool) (ratio : K) (useDark : Bool) (flat dark : Mat K) (i j : Nat)
    (h : divisor ratio useDark flat dark i j ≠ 0) : (denominator isInt ratio useDark flat dark).get i j = divisor ratio useDark flat dark i j := by
  unfold denominator divisor at *
  dsimp only
  cases useDark
  · exact fixZeros_keep isInt ⟨flat.h, flat.w, fun i j => ratio * flat.get i j⟩ i j h
  · exact fixZeros_keep isInt ⟨flat.h, flat.w, fun i j => ratio * flat.get i j - dark.get i j⟩ i j h

theorem denominator_nonzero (ratio : K) (useDark : Bool) (flat dark : Mat K) : hasZero (denominator false ratio useDark flat dark) = false := by
  refine hasZero_of_forall _ fun i hi j hj => ?_
  rw [(denominator_shape _ _ _ _ _).1] at hi
  rw [(denominator_shape _ _ _ _ _).2] at hj
  unfold denominator
  dsimp only
  cases useDark
  · exact fixZeros_nonzero ⟨flat.h, flat.w, fun i j => ratio * flat.get i j⟩ i hi j hj
  · exact fixZeros_nonzero ⟨flat.h, flat.w, fun i j => ratio * flat.get i j - dark.get i j⟩ i hi j hj

theorem denominator_raw (isInt : Bool) (ratio : K) (useDark : Bool) (flat dark : Mat K)
    (h : ∀ i < flat.h, ∀ j < flat.w, divisor ratio useDark flat dark i j ≠ 0) (i j : Nat) :
    (denominator isInt ratio useDark flat dark).get i j = divisor ratio useDark flat dark i j := by
  unfold denominator divisor at *
  dsimp only
  cases useDark
  · have : hasZero (⟨flat.h, flat.w, fun i j => ratio * flat.get i j⟩ : Mat K) = false := hasZero_of_forall _ h
    unfold fixZeros
    rw [this]
    rfl
  · have : hasZero (⟨flat.h, flat.w, fun i j => ratio * flat.get i j - dark.get i j⟩ : Mat K) = false := hasZero_of_forall _ h
    unfold fixZeros
    simp only [if_true]
    rw [this]
    rfl

/-! ### properties -/

/-- **C126.** Without options, data and flat field of one shape: the correction is the one of C30. -/
theorem divide_flatField (isInt : Bool) (ratio : K) (useDark : Bool) (proj flat dark out : Mat K) (hf : flat.h = proj.h ∧ flat.w = proj.w)
    (h : flatField isInt ratio useDark proj flat dark = .ok out) :
    ∃ out', divide2 isInt ratio useDark proj flat dark = .ok out' ∧ out'.Eqv out := by
  unfold flatField at h
  unfold divide2
  rw [if_neg (not_not.2 ⟨Or.inl hf.1, hf.2⟩)]
  dsimp only at h ⊢
  change (if hasZero (denominator isInt ratio useDark flat dark) = true then Except.error PyErr.zeroDivision else Except.ok ⟨proj.h, proj.w, fun i j =>
    (if useDark = true then (⟨proj.h, proj.w, fun i j => proj.get i j - dark.get i j⟩ : Mat K) else proj).get i j /
      (denominator isInt ratio useDark flat dark).get i j⟩) = .ok out at h
  by_cases hz : hasZero (denominator isInt ratio useDark flat dark) = true
  · rw [if_pos hz] at h; exact nomatch h
  · rw [if_neg hz] at h ⊢
    obtain rfl := Except.ok.inj h
    refine ⟨_, rfl, rfl, rfl, fun i hi j hj => ?_⟩
    dsimp only at hi hj ⊢
    have hr : (if flat.h = 1 then 0 else i) = i := by
      by_cases h1 : flat.h = 1
      · rw [if_pos h1]; omega
      · rw [if_neg h1]
    rw [hr]
    cases useDark <;> rfl

/-- **C126.** Options that are `None` have no effect. -/
theorem options_none (ns : Modules K P) (isInt : Bool) (ratio : K) (useDark : Bool) (flat dark : Mat K) (o1 o2 : List (Opt P)) :
    (∀ proj, correct2 ns isInt ratio useDark proj flat dark (o1 ++ Opt.none :: o2) = correct2 ns isInt ratio useDark proj flat dark (o1 ++ o2)) ∧
    ∀ proj, correct3 ns isInt ratio useDark proj flat dark (o1 ++ Opt.none :: o2) = correct3 ns isInt ratio useDark proj flat dark (o1 ++ o2) := by
  constructor
  · intro proj
    unfold correct2
    congr 1
    funext m
    rw [List.foldlM_append, List.foldlM_append]
    congr 1
  · intro proj
    unfold correct3
    congr 1
    funext m
    rw [List.foldlM_append, List.foldlM_append]
    congr 1

theorem divide2_uniform (useDark : Bool) (m : Mat K) : divide2 false 1 useDark m (uniform m 1) (uniform m 0) = .ok m := by
  unfold divide2
  rw [if_neg (not_not.2 ⟨Or.inl rfl, rfl⟩)]
  dsimp only
  rw [denominator_nonzero, if_neg (by decide)]
  congr 1
  have : ∀ i j, (denominator false (1 : K) useDark (uniform m 1) (uniform m 0)).get i j = 1 := by
    intro i j
    have e : divisor (1 : K) useDark (uniform m 1) (uniform m 0) i j = 1 := by
      unfold divisor uniform
      cases useDark <;> simp
    rw [denominator_keep _ _ _ _ _ _ _ (by rw [e]; exact one_ne_zero), e]
  obtain ⟨h, w, g⟩ := m
  congr 1
  funext i j
  rw [this, div_one]
  cases useDark
  · rfl
  · show g i j - 0 = g i j
    rw [sub_zero]

theorem divide3_uniform (useDark : Bool) (a : Arr3 K) :
    divide3 false 1 useDark a ⟨a.h, a.w, fun _ _ => 1⟩ ⟨a.h, a.w, fun _ _ => 0⟩ = .ok a := by
  unfold divide3
  rw [if_neg (not_not.2 ⟨rfl, rfl⟩)]
  dsimp only
  rw [denominator_nonzero, if_neg (by decide)]
  congr 1
  have : ∀ i j, (denominator false (1 : K) useDark ⟨a.h, a.w, fun _ _ => 1⟩ ⟨a.h, a.w, fun _ _ => 0⟩).get i j = 1 := by
    intro i j
    have e : divisor (1 : K) useDark ⟨a.h, a.w, fun _ _ => 1⟩ ⟨a.h, a.w, fun _ _ => 0⟩ i j = 1 := by
      unfold divisor
      cases useDark <;> simp
    rw [denominator_keep _ _ _ _ _ _ _ (by rw [e]; exact one_ne_zero), e]
  obtain ⟨d, h, w, g⟩ := a
  congr 1
  funext d i j
  rw [this, div_one]
  cases useDark
  · rfl
  · show g d i j - 0 = g d i j
    rw [sub_zero]

/-- **C126.** Options are applied in the order given: a call with options `o1`, `o2` is a call with `o1` followed by a call with `o2` on its result
(with a uniform flat field and no dark current). -/
theorem options_order (ns : Modules K P) (isInt : Bool) (ratio : K) (useDark useDark' : Bool) (flat dark : Mat K) (o1 o2 : List (Opt P)) :
    (∀ proj, correct2 ns isInt ratio useDark proj flat dark (o1 ++ o2) =
      (correct2 ns isInt ratio useDark proj flat dark o1).bind fun m => correct2 ns false 1 useDark' m (uniform m 1) (uniform m 0) o2) ∧
    ∀ proj, correct3 ns isInt ratio useDark proj flat dark (o1 ++ o2) =
      (correct3 ns isInt ratio useDark proj flat dark o1).bind fun a =>
        correct3 ns false 1 useDark' a ⟨a.h, a.w, fun _ _ => 1⟩ ⟨a.h, a.w, fun _ _ => 0⟩ o2 := by
  constructor
  · intro proj
    unfold correct2
    cases divide2 isInt ratio useDark proj flat dark with
    | error e => rfl
    | ok m =>
      show List.foldlM (apply2 ns) m (o1 ++ o2) = (List.foldlM (apply2 ns) m o1).bind _
      rw [List.foldlM_append]
      cases List.foldlM (apply2 ns) m o1 with
      | error e => rfl
      | ok r =>
        show _ = (divide2 false 1 useDark' r (uniform r 1) (uniform r 0)).bind _
        rw [divide2_uniform]
        rfl
  · intro proj
    unfold correct3
    cases divide3 isInt ratio useDark proj flat dark with
    | error e => rfl
    | ok m =>
      show List.foldlM (apply3 ns) m (o1 ++ o2) = (List.foldlM (apply3 ns) m o1).bind _
      rw [List.foldlM_append]
      cases List.foldlM (apply3 ns) m o1 with
      | error e => rfl
      | ok r =>
        show _ = (divide3 false 1 useDark' r ⟨r.h, r.w, fun _ _ => 1⟩ ⟨r.h, r.w, fun _ _ => 0⟩).bind _
        rw [divide3_uniform]
        rfl

/-- **C126.** What a single option does to 2D data `m` (corrected with a uniform flat field): the named function is called with the further values of
the dictionary, in order; a name that is in none of the modules, or an option that is not a dictionary, raises ValueError. -/
theorem option_meaning (ns : Modules K P) (useDark : Bool) (m : Mat K) :
    (∀ s f para, Means ns s f → correct2 ns false 1 useDark m (uniform m 1) (uniform m 0) [.dict (.str s :: para)] = f para m) ∧
    (∀ s para, (∀ f, ¬ Means ns s f) → correct2 ns false 1 useDark m (uniform m 1) (uniform m 0) [.dict (.str s :: para)] = .error .valueError) ∧
    (∀ p para, correct2 ns false 1 useDark m (uniform m 1) (uniform m 0) [.dict (.par p :: para)] = .error .valueError) ∧
    correct2 ns false 1 useDark m (uniform m 1) (uniform m 0) [.dict []] = .error .indexError ∧
    correct2 ns false 1 useDark m (uniform m 1) (uniform m 0) [.other] = .error .valueError := by
  have key : ∀ o, correct2 ns false 1 useDark m (uniform m 1) (uniform m 0) [o] = apply2 ns m o := by
    intro o
    unfold correct2
    rw [divide2_uniform]
    show List.foldlM (apply2 ns) m [o] = _
    rw [List.foldlM_cons]
    cases apply2 ns m o <;> rfl
  refine ⟨fun s f para h => ?_, fun s para h => ?_, fun p para => ?_, ?_, ?_⟩
  · rw [key]
    show (ns.find (.str s)).bind _ = _
    rw [(find_iff ns (.str s) f).2 ⟨s, rfl, h⟩]
    rfl
  · rw [key]
    show (ns.find (.str s)).bind _ = _
    rw [find_error ns (.str s) fun f hf => by
      obtain ⟨s', e, hm⟩ := (find_iff ns _ f).1 hf
      cases e
      exact h f hm]
    rfl
  · rw [key]; rfl
  · rw [key]; rfl
  · rw [key]; rfl

/-- **C126.** A stack (with at least one row) is corrected sinogram by sinogram: if no pixel of the flat field equals the dark field and the functions keep
the shape, the call on the stack succeeds exactly if the calls on its sinograms with the rows of the flat field do, and gives the same sinograms. -/
theorem stack_eq_single (ns : Modules K P) (hk : KeepShape ns) (isInt : Bool) (ratio : K) (useDark : Bool) (proj : Arr3 K) (flat dark : Mat K)
    (options : List (Opt P)) (hf : flat.h = proj.h ∧ flat.w = proj.w) (h0 : 0 < proj.h)
    (hz : ∀ i < flat.h, ∀ j < flat.w, divisor ratio useDark flat dark i j ≠ 0) :
    ((∃ b, correct3 ns isInt ratio useDark proj flat dark options = .ok b) ↔
      ∀ i < proj.h, ∃ r, correct2 ns isInt ratio useDark (sinoOf proj i) (flatRow flat i) (flatRow dark i) options = .ok r) ∧
    ∀ b, correct3 ns isInt ratio useDark proj flat dark options = .ok b → b.d = proj.d ∧ b.h = proj.h ∧ b.w = proj.w ∧
      ∀ i < proj.h, correct2 ns isInt ratio useDark (sinoOf proj i) (flatRow flat i) (flatRow dark i) options = .ok (sinoOf b i) := by
  have hden : hasZero (denominator isInt ratio useDark flat dark) = false := by
    refine hasZero_of_forall _ fun i hi j hj => ?_
    rw [(denominator_shape _ _ _ _ _).1] at hi
    rw [(denominator_shape _ _ _ _ _).2] at hj
    rw [denominator_keep _ _ _ _ _ _ _ (hz i hi j hj)]
    exact hz i hi j hj
  obtain ⟨a, ha, hsh, hrow⟩ : ∃ a, divide3 isInt ratio useDark proj flat dark = .ok a ∧ (a.d = proj.d ∧ a.h = proj.h ∧ a.w = proj.w) ∧
      ∀ i < proj.h, divide2 isInt ratio useDark (sinoOf proj i) (flatRow flat i) (flatRow dark i) = .ok (sinoOf a i) := by
    unfold divide3
    rw [if_neg (not_not.2 hf)]
    dsimp only
    rw [hden, if_neg (by decide)]
    refine ⟨_, rfl, ⟨rfl, rfl, rfl⟩, fun i hi => ?_⟩
    have hz' : ∀ i' < (flatRow flat i).h, ∀ j < (flatRow flat i).w, divisor ratio useDark (flatRow flat i) (flatRow dark i) i' j ≠ 0 :=
      fun i' _ j hj => hz i (by omega) j hj
    have hden' : hasZero (denominator isInt ratio useDark (flatRow flat i) (flatRow dark i)) = false := by
      refine hasZero_of_forall _ fun i' hi' j hj => ?_
      rw [(denominator_shape _ _ _ _ _).1] at hi'
      rw [(denominator_shape _ _ _ _ _).2] at hj
      rw [denominator_raw _ _ _ _ _ hz']
      exact hz' i' hi' j hj
    unfold divide2
    rw [if_neg (not_not.2 ⟨Or.inr rfl, hf.2⟩)]
    dsimp only
    rw [hden', if_neg (by decide)]
    congr 1
    unfold sinoOf
    dsimp only
    congr 1
    funext d j
    rw [denominator_raw _ _ _ _ _ hz', denominator_raw _ _ _ _ _ hz]
    rfl
  have c3 : ∀ b, correct3 ns isInt ratio useDark proj flat dark options = .ok b ↔ options.foldlM (apply3 ns) a = .ok b := by
    intro b
    unfold correct3
    rw [ha]
    rfl
  have c2 : ∀ i < proj.h, correct2 ns isInt ratio useDark (sinoOf proj i) (flatRow flat i) (flatRow dark i) options =
      options.foldlM (apply2 ns) (sinoOf a i) := by
    intro i hi
    unfold correct2
    rw [hrow i hi]
    rfl
  have fwd : ∀ b, correct3 ns isInt ratio useDark proj flat dark options = .ok b → b.d = proj.d ∧ b.h = proj.h ∧ b.w = proj.w ∧
      ∀ i < proj.h, correct2 ns isInt ratio useDark (sinoOf proj i) (flatRow flat i) (flatRow dark i) options = .ok (sinoOf b i) := by
    intro b hb
    obtain ⟨⟨s1, s2, s3⟩, h⟩ := fold_ok ns hk options a b ((c3 b).1 hb)
    refine ⟨s1.trans hsh.1, s2.trans hsh.2.1, s3.trans hsh.2.2, fun i hi => ?_⟩
    rw [c2 i hi]
    exact h i (by omega)
  refine ⟨⟨fun ⟨b, hb⟩ i hi => ⟨_, (fwd b hb).2.2.2 i hi⟩, fun h => ?_⟩, fwd⟩
  obtain ⟨b, hb⟩ := fold_exists ns hk options a (by omega) fun i hi => by
    obtain ⟨r, hr⟩ := h i (by omega)
    rw [c2 i (by omega)] at hr
    exact ⟨r, hr⟩
  exact ⟨b, (c3 b).2 hb⟩

/-- Full statement: the zeros of the flat field do not matter, a stack is corrected as its sinograms are. -/
def StackAsSingle (K : Type) [Field K] [LinearOrder K] [FloorRing K] : Prop :=
  ∀ (ns : Modules K Unit) (ratio : K) (useDark : Bool) (proj b : Arr3 K) (flat dark : Mat K), flat.h = proj.h → flat.w = proj.w →
    correct3 ns false ratio useDark proj flat dark [] = .ok b → ∀ i < proj.h, ∃ r,
      correct2 ns false ratio useDark (sinoOf proj i) (flatRow flat i) (flatRow dark i) [] = .ok r ∧ r.Eqv (sinoOf b i)

/-- **C126**, flat fields with zeros (floating type): stack and single sinograms agree in all pixels where the flat field differs from the dark field. -/
theorem stack_pixels_partial (ns : Modules K P) (ratio : K) (useDark : Bool) (proj : Arr3 K) (flat dark : Mat K) (hf : flat.h = proj.h ∧ flat.w = proj.w) :
    ∃ b, correct3 ns false ratio useDark proj flat dark [] = .ok b ∧ ∀ i < proj.h, ∃ r,
      correct2 ns false ratio useDark (sinoOf proj i) (flatRow flat i) (flatRow dark i) [] = .ok r ∧
      ∀ d < proj.d, ∀ j < proj.w, divisor ratio useDark flat dark i j ≠ 0 → r.get d j = b.get d i j := by
  unfold correct3 divide3
  rw [if_neg (not_not.2 hf)]
  dsimp only
  rw [denominator_nonzero, if_neg (by decide)]
  refine ⟨_, rfl, fun i hi => ?_⟩
  unfold correct2 divide2
  rw [if_neg (not_not.2 ⟨Or.inr rfl, hf.2⟩)]
  dsimp only
  rw [denominator_nonzero, if_neg (by decide)]
  refine ⟨_, rfl, fun d hd j hj h => ?_⟩
  dsimp only
  rw [denominator_keep _ _ _ _ _ _ _ h, denominator_keep _ _ _ (flatRow flat i) (flatRow dark i) _ j h]
  rfl

/-- A flat field with a dead pixel. -/
def deadFlat : Mat ℚ := ⟨2, 2, fun i j => if i = 0 then 1 else if j = 0 then 0 else 4⟩

/-- **C126** is false of the code for flat fields with zeros: the zero is replaced by the mean of the whole flat image in a stack, by the mean of the row
in a single sinogram. -/
theorem stack_refuted : ¬ StackAsSingle ℚ := by
  intro H
  obtain ⟨r, hr, -, -, h⟩ := H ⟨fun _ => none, fun _ => none, fun _ => none⟩ 1 false ⟨1, 2, 2, fun _ _ _ => 6⟩
    ⟨1, 2, 2, fun _ i j => 6 / (denominator false 1 false deadFlat deadFlat).get i j⟩ deadFlat deadFlat rfl rfl (by
      unfold correct3 divide3
      rw [if_neg (not_not.2 ⟨rfl, rfl⟩)]
      dsimp only
      rw [denominator_nonzero, if_neg (by decide)]
      rfl) 1 (by decide)
  have hr' : (divide2 false 1 false (sinoOf (⟨1, 2, 2, fun _ _ _ => 6⟩ : Arr3 ℚ) 1) (flatRow deadFlat 1) (flatRow deadFlat 1)).bind (fun m => .ok m) = .ok r := hr
  unfold divide2 at hr'
  rw [if_neg (not_not.2 ⟨Or.inr rfl, rfl⟩)] at hr'
  dsimp only at hr'
  rw [denominator_nonzero, if_neg (by decide)] at hr'
  have e := Except.ok.inj hr'
  have h00 := h 0 (by rw [← e]; exact Nat.zero_lt_one) 0 (by rw [← e]; exact Nat.zero_lt_two)
  rw [← e] at h00
  revert h00
  decide +kernel

/-- Shapes matter: a function that returns a single row is broadcast to all rows of every sinogram of a stack, without an error. -/
theorem broadcast_row (a : Arr3 K) (f : Method K P) (g : Nat → K) (s : String) (para : List (Value P)) (ns : Modules K P) (hm : Means ns s f)
    (hf : ∀ m, f para m = .ok ⟨1, m.w, fun _ j => g j⟩) (useDark : Bool) :
    ∃ b, correct3 ns false 1 useDark a ⟨a.h, a.w, fun _ _ => 1⟩ ⟨a.h, a.w, fun _ _ => 0⟩ [.dict (.str s :: para)] = .ok b ∧
      b.d = a.d ∧ b.h = a.h ∧ b.w = a.w ∧ ∀ d i j, i < a.h → b.get d i j = g j := by
  have key : ∀ n, ∃ b, (List.range n).foldlM (step3 ns (.str s) para) a = .ok b ∧ b.d = a.d ∧ b.h = a.h ∧ b.w = a.w ∧ ∀ d i j, i < n → b.get d i j = g j := by
    intro n
    induction n with
    | zero => exact ⟨a, rfl, rfl, rfl, rfl, fun _ _ _ h => absurd h (by omega)⟩
    | succ n ih =>
      obtain ⟨b, hb, h1, h2, h3, h4⟩ := ih
      rw [List.range_succ, List.foldlM_append, hb]
      show ∃ c, (step3 ns (.str s) para b n).bind _ = .ok c ∧ _
      unfold step3
      rw [(find_iff ns (.str s) f).2 ⟨s, rfl, hm⟩]
      show ∃ c, ((f para (sinoOf b n)).bind fun r => store b n r).bind _ = .ok c ∧ _
      rw [hf]
      show ∃ c, (store b n ⟨1, b.w, fun _ j => g j⟩).bind _ = .ok c ∧ _
      unfold store
      rw [if_pos ⟨Or.inr rfl, Or.inl rfl⟩]
      refine ⟨_, rfl, h1, h2, h3, fun d i j hi => ?_⟩
      dsimp only
      by_cases hin : i = n
      · rw [if_pos hin, if_pos rfl]
      · rw [if_neg hin]; exact h4 d i j (by omega)
  obtain ⟨b, hb, h⟩ := key a.h
  refine ⟨b, ?_, h⟩
  unfold correct3
  rw [divide3_uniform]
  show (((List.range a.h).foldlM (step3 ns (.str s) para) a).bind fun b => .ok b) = .ok b
  rw [hb]
  rfl

/-- Two modules with functions of the same name. -/
def exModules : Modules ℚ Nat where
  remo s := if s = "scale" then some fun para m => match para with
    | [.par p] => .ok ⟨m.h, m.w, fun i j => (p : ℚ) * m.get i j⟩
    | _ => .error .typeError else none
  filt s := if s = "scale" ∨ s = "shift" then some fun para m => match para with
    | [.par p] => .ok ⟨m.h, m.w, fun i j => (p : ℚ) + m.get i j⟩
    | _ => .error .typeError else none
  ps _ := none

/-- Concrete instance: a stack of two sinograms, the first `scale` is applied to both, then `shift`. -/
example : KeepShape exModules ∧
    (match correct3 exModules false 1 true ⟨3, 2, 4, fun d i j => d + i + j + 2⟩ ⟨2, 4, fun i _ => i + 2⟩ ⟨2, 4, fun _ _ => 1⟩
      [.dict [.str "scale", .par 10], .none, .dict [.str "shift", .par 3]] with
    | .ok b => decide (b.get 2 1 3 = 7 / 2 * 10 + 3)
    | .error _ => false) = true := by
  refine ⟨?_, by decide +kernel⟩
  rintro s f para m r hm hr
  unfold Means exModules at hm
  dsimp only at hm
  have : ∀ (p : Prop) [Decidable p] (g : Method ℚ Nat), (if p then some g else none) = some f → g = f := by
    intro p _ g h
    by_cases hp : p
    · rw [if_pos hp] at h; exact Option.some.inj h
    · rw [if_neg hp] at h; exact nomatch h
  rcases hm with h | ⟨-, h⟩ | ⟨-, -, h⟩
  · rw [← this _ _ h] at hr
    rcases para with _ | ⟨_ | p, _ | _⟩ <;> first | (obtain rfl := Except.ok.inj hr; exact ⟨rfl, rfl⟩) | cases hr
  · rw [← this _ _ h] at hr
    rcases para with _ | ⟨_ | p, _ | _⟩ <;> first | (obtain rfl := Except.ok.inj hr; exact ⟨rfl, rfl⟩) | cases hr
  · exact nomatch h

end Verif.FlatOptions
