import Verif.Props.StripeRemove
import Mathlib.Tactic.Linarith
import Mathlib.Tactic.Ring
import Mathlib.LinearAlgebra.Lagrange

/-! C28 — `interpolate_inside_stripe` for every kind of spline. -/

set_option linter.unusedSectionVars false
set_option linter.unusedSimpArgs false

namespace Verif.Stripe
open Verif.Removal

variable {K : Type _} [Field K] [LinearOrder K] [IsStrictOrderedRing K] [Inhabited K]

/-- Number of rows and columns a kind needs. -/
def needs : Kind → Nat
  | .linear => 2
  | .cubic => 3
  | .quintic => 4

theorem good_iff (n : Nat) (mask : Nat → Bool) (k : Nat) (hk : k ≤ 4) :
    k ≤ ((List.range n).filter fun j => !zeroEdges n mask j).length ↔ k ≤ n := by
  constructor
  · intro h
    exact h.trans (by simpa using List.length_filter_le (fun j => !zeroEdges n mask j) (List.range n))
  · intro h
    by_cases h4 : 4 ≤ n
    · have hsub : ([0, 1, n - 2, n - 1] : List Nat) ⊆ (List.range n).filter fun j => !zeroEdges n mask j := by
        intro j hj
        rw [List.mem_filter, List.mem_range]
        simp only [List.mem_cons, List.not_mem_nil, or_false] at hj
        refine ⟨by omega, ?_⟩
        unfold zeroEdges
        rw [if_pos (by omega)]
        rfl
      have hnd : ([0, 1, n - 2, n - 1] : List Nat).Nodup := by
        simp only [List.nodup_cons, List.mem_cons, List.not_mem_nil, or_false, not_or, not_false_eq_true, List.nodup_nil, and_true]
        omega
      exact hk.trans (List.subperm_of_subset hnd hsub).length_le
    · have e : ((List.range n).filter fun j => !zeroEdges n mask j) = List.range n := by
        rw [List.filter_eq_self]
        intro j hj
        rw [List.mem_range] at hj
        unfold zeroEdges
        rw [if_pos (by omega)]
        rfl
      rw [e, List.length_range]
      exact h

/-- C28 for every kind.  The call succeeds exactly if the mask has the width of the image and the image has at least 2 / 3 / 4 rows and columns
(linear / cubic / quintic), however many columns are masked, and otherwise raises `ValueError`.  The result has the shape of the input;
columns that are not masked, and the first and last two, are returned unchanged; every other masked pixel is the value, at its column, of the
spline through the good columns of its own row (of degree 1, 2, 3: one less than the number of columns needed). -/
theorem interpolate_kind_spec (sp : Nat → (Nat → Bool) → Nat → (Nat → K) → Nat → K) (kind : Kind) (m : Mat K) (l : Nat) (mask : Nat → Bool) :
    ((∃ out, interpolateKind sp kind m l mask = .ok out) ↔ l = m.w ∧ needs kind ≤ m.h ∧ needs kind ≤ m.w) ∧
    (∀ e, interpolateKind sp kind m l mask = .error e → e = .valueError) ∧
    (∀ out, interpolateKind sp kind m l mask = .ok out → out.h = m.h ∧ out.w = m.w ∧ ∀ i < m.h, ∀ j < m.w,
      (¬ InnerMasked m.w mask j → out.get i j = m.get i j) ∧
      (InnerMasked m.w mask j →
        out.get i j = sp (needs kind - 1) (fun k => decide (¬ InnerMasked m.w mask k)) m.w (fun k => m.get i k) j)) := by
  have hd : degInside kind + 1 = needs kind := by cases kind <;> rfl
  have h4 : needs kind ≤ 4 := by cases kind <;> simp [needs]
  have hd' : needs kind - 1 = degInside kind := by omega
  have hgood : (fun j => !zeroEdges m.w mask j) = fun k => decide (¬ InnerMasked m.w mask k) := by
    funext k
    rw [Bool.eq_iff_iff, decide_eq_true_eq, Bool.not_eq_true', ← Bool.not_eq_true, zeroEdges_iff]
  have hg := good_iff m.w mask (needs kind) h4
  unfold interpolateKind splineMat
  rw [hd, hd']
  by_cases hl : l = m.w
  · rw [if_neg (fun h => h hl)]
    by_cases hc : m.h < needs kind ∨ ((List.range m.w).filter fun j => !zeroEdges m.w mask j).length < needs kind
    · rw [if_pos hc]
      refine ⟨⟨fun ⟨_, h⟩ => (nomatch h), fun ⟨_, h1, h2⟩ => ?_⟩, fun e he => (Except.error.inj he).symm, fun _ h => (nomatch h)⟩
      exfalso
      have := hg.2 h2
      omega
    · rw [if_neg hc]
      refine ⟨⟨fun _ => ⟨hl, by omega, hg.1 (by omega)⟩, fun _ => ⟨_, rfl⟩⟩, fun e he => (nomatch he), fun out h => ?_⟩
      have h := (Except.ok.inj h).symm
      subst h
      refine ⟨rfl, rfl, fun i hi j hj => ⟨fun hn => ?_, fun hm => ?_⟩⟩
      · show (if zeroEdges m.w mask j = true then _ else _) = _
        rw [if_neg (fun hc => hn ((zeroEdges_iff _ _ _).1 hc))]
      · show (if zeroEdges m.w mask j = true then _ else _) = _
        rw [if_pos ((zeroEdges_iff _ _ _).2 hm), ← hgood]
  · rw [if_pos hl]
    exact ⟨⟨fun ⟨_, h⟩ => (nomatch h), fun ⟨h, _⟩ => absurd h hl⟩, fun e he => (Except.error.inj he).symm, fun _ h => (nomatch h)⟩

/-- What every interpolating spline of degree `k` does: its values depend on the good columns only, and it is exact for polynomials of degree at
most `k` (here in the monomial basis), given `k + 1` good columns. -/
def PolyExact (sp : Nat → (Nat → Bool) → Nat → (Nat → K) → Nat → K) : Prop :=
  (∀ k good n (f g : Nat → K) j, (∀ i < n, good i = true → f i = g i) → sp k good n f j = sp k good n g j) ∧
  ∀ k good n (a : Nat → K), k + 1 ≤ ((List.range n).filter good).length → ∀ j < n,
    sp k good n (fun x => ∑ t ∈ Finset.range (k + 1), a t * (x : K) ^ t) j = ∑ t ∈ Finset.range (k + 1), a t * (j : K) ^ t

/-- C28: whatever is in the masked columns (from the third to the last but two), an image whose rows are polynomials of degree less than 2 / 3 / 4 in the
column outside them is restored exactly. -/
theorem interpolate_kind_restores (sp : Nat → (Nat → Bool) → Nat → (Nat → K) → Nat → K) (hsp : PolyExact sp) (kind : Kind) (m : Mat K)
    (mask : Nat → Bool) (hh : needs kind ≤ m.h) (hw : needs kind ≤ m.w) (a : Nat → Nat → K)
    (hm : ∀ i < m.h, ∀ j < m.w, ¬ InnerMasked m.w mask j → m.get i j = ∑ t ∈ Finset.range (needs kind), a i t * (j : K) ^ t) :
    ∃ out, interpolateKind sp kind m m.w mask = .ok out ∧ out.h = m.h ∧ out.w = m.w ∧
      ∀ i < m.h, ∀ j < m.w, out.get i j = ∑ t ∈ Finset.range (needs kind), a i t * (j : K) ^ t := by
  obtain ⟨h1, h2, h3⟩ := interpolate_kind_spec sp kind m m.w mask
  obtain ⟨out, ho⟩ := h1.2 ⟨rfl, hh, hw⟩
  obtain ⟨e1, e2, e3⟩ := h3 out ho
  refine ⟨out, ho, e1, e2, fun i hi j hj => ?_⟩
  by_cases hi' : InnerMasked m.w mask j
  · rw [(e3 i hi j hj).2 hi']
    have hd : needs kind - 1 + 1 = needs kind := by cases kind <;> rfl
    have h4 : needs kind ≤ 4 := by cases kind <;> simp [needs]
    have hgood : (fun j => !zeroEdges m.w mask j) = fun k => decide (¬ InnerMasked m.w mask k) := by
      funext k
      rw [Bool.eq_iff_iff, decide_eq_true_eq, Bool.not_eq_true', ← Bool.not_eq_true, zeroEdges_iff]
    have hg := (good_iff m.w mask (needs kind) h4).2 hw
    rw [hgood] at hg
    rw [hsp.1 _ _ _ _ (fun x => ∑ t ∈ Finset.range (needs kind - 1 + 1), a i t * (x : K) ^ t) j
      (fun k hk hgk => by rw [hd]; exact hm i hi k hk (of_decide_eq_true hgk))]
    rw [hsp.2 _ _ _ (a i) (by rw [hd]; exact hg) j hj, hd]
  · rw [(e3 i hi j hj).1 hi', hm i hi j hj hi']

/-- C28: with the degree-1 spline of the default kind (the chord between the nearest good columns) this is the linear filling of
`interpolate_inside_stripe_fills`. -/
theorem interpolate_kind_linear (m : Mat K) (mask : Nat → Bool) (hh : 2 ≤ m.h) (hw : 2 ≤ m.w) :
    ∃ out, interpolateKind linSpline .linear m m.w mask = .ok out ∧ FilledOnly (InnerMasked m.w mask) m out := by
  obtain ⟨h1, _, h3⟩ := interpolate_kind_spec linSpline .linear m m.w mask
  obtain ⟨out, ho⟩ := h1.2 ⟨rfl, hh, hw⟩
  obtain ⟨e1, e2, e3⟩ := h3 out ho
  refine ⟨out, ho, e1, e2, fun i hi j hj => ⟨(e3 i hi j hj).1, fun hm => ?_⟩⟩
  have hz := zeroEdges_neighbours m.w mask j hj ((zeroEdges_iff _ _ _).2 hm)
  have hb : ∀ k, decide (¬ InnerMasked m.w mask k) = !zeroEdges m.w mask k := by
    intro k
    rw [Bool.eq_iff_iff, decide_eq_true_eq, Bool.not_eq_true', ← Bool.not_eq_true, zeroEdges_iff]
  simp only [← hb] at hz
  obtain ⟨a, b, v, hv, c1, c2, c3, c4, c5, c6, c7, c8, c9, c10⟩ :=
    linInterp_spec (fun k => decide (¬ InnerMasked m.w mask k)) m.w (m.get i) j hz.1 hz.2
  have hout : out.get i j = v := by
    rw [(e3 i hi j hj).2 hm]
    unfold linSpline
    rw [hv]
    rfl
  rw [hout]
  exact ⟨a, b, c1, c2, c3, of_decide_eq_true c4, of_decide_eq_true c5, fun k k1 k2 => of_decide_eq_false (c6 k k1 k2),
    fun k k1 k2 => of_decide_eq_false (c7 k k1 k2), c8, c9, c10⟩

/-- The polynomial through the first `k + 1` good columns is such a spline. -/
noncomputable def firstPoly (k : Nat) (good : Nat → Bool) (n : Nat) (f : Nat → K) (j : Nat) : K :=
  (Lagrange.interpolate (((List.range n).filter good).take (k + 1)).toFinset (fun i : Nat => (i : K)) f).eval (j : K)

theorem firstPoly_exact : PolyExact (firstPoly (K := K)) := by
  refine ⟨fun k good n f g j h => ?_, fun k good n a hk j hj => ?_⟩
  · unfold firstPoly
    congr 1
    apply Lagrange.interpolate_eq_of_values_eq_on
    intro i hi
    rw [List.mem_toFinset] at hi
    have hm := List.mem_of_mem_take hi
    rw [List.mem_filter, List.mem_range] at hm
    exact h i hm.1 hm.2
  · unfold firstPoly
    set S := (((List.range n).filter good).take (k + 1)).toFinset with hS
    have hcard : S.card = k + 1 := by
      rw [hS, List.toFinset_card_of_nodup ((List.nodup_range.filter _).sublist (List.take_sublist _ _)), List.length_take]
      omega
    have hinj : Set.InjOn (fun i : Nat => (i : K)) S := fun x _ y _ hxy => Nat.cast_injective hxy
    have hdeg : (∑ t ∈ Finset.range (k + 1), Polynomial.C (a t) * Polynomial.X ^ t : Polynomial K).degree < S.card := by
      rw [hcard]
      refine lt_of_le_of_lt (Polynomial.degree_sum_le _ _) ?_
      rw [Finset.sup_lt_iff (by exact WithBot.bot_lt_coe _)]
      intro t ht
      rw [Finset.mem_range] at ht
      refine lt_of_le_of_lt (Polynomial.degree_C_mul_X_pow_le t (a t)) ?_
      exact_mod_cast ht
    have hev : ∀ x : K, (∑ t ∈ Finset.range (k + 1), Polynomial.C (a t) * Polynomial.X ^ t : Polynomial K).eval x =
        ∑ t ∈ Finset.range (k + 1), a t * x ^ t := by
      intro x
      rw [Polynomial.eval_finset_sum]
      exact Finset.sum_congr rfl fun t _ => by simp
    rw [← Lagrange.eq_interpolate_of_eval_eq (fun x : Nat => ∑ t ∈ Finset.range (k + 1), a t * (x : K) ^ t) hinj hdeg
      (fun i _ => hev _), hev]

/-- Concrete instance of `interpolate_kind_restores`: rows `j²`, columns 3 and 4 of 9 destroyed. -/
example : ∃ out, interpolateKind firstPoly .cubic (⟨5, 9, fun _ j => if j = 3 ∨ j = 4 then 1000 else (j : ℚ) ^ 2⟩ : Mat ℚ) 9
    (fun j => decide (j = 3 ∨ j = 4)) = .ok out ∧ out.get 2 4 = 16 := by
  obtain ⟨out, h1, _, _, h4⟩ := interpolate_kind_restores firstPoly firstPoly_exact .cubic
    (⟨5, 9, fun _ j => if j = 3 ∨ j = 4 then 1000 else (j : ℚ) ^ 2⟩ : Mat ℚ) (fun j => decide (j = 3 ∨ j = 4)) (by decide) (by decide)
    (fun _ t => if t = 2 then 1 else 0) (by
      intro i _ j hj hn
      have hj : j < 9 := hj
      have hne : ¬ (j = 3 ∨ j = 4) := by
        intro hc
        apply hn
        refine ⟨decide_eq_true hc, by omega, ?_⟩
        show j + 2 < 9
        omega
      show (if j = 3 ∨ j = 4 then (1000 : ℚ) else (j : ℚ) ^ 2) = _
      rw [if_neg hne]
      simp [needs, Finset.sum_range_succ])
  refine ⟨out, h1, ?_⟩
  rw [h4 2 (by decide) 4 (by decide)]
  norm_num [needs, Finset.sum_range_succ]

end Verif.Stripe
