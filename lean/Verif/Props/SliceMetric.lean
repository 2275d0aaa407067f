import Verif.Model.SliceMetric
import Verif.Props.Center
import Verif.Props.Post
import Verif.Props.Masks
import Verif.Props.Recon
import Mathlib.Data.List.GetD
import Mathlib.Tactic.Linarith
import Mathlib.Tactic.FieldSimp

/-! C110, C111 — centre search by a metric of the reconstructed slice. -/

set_option linter.unusedSectionVars false
set_option linter.unusedSimpArgs false

namespace Verif.SliceMetric

/-! ### The grid -/

theorem length_lt_iff (start stop step : ℝ) (hs : 0 < step) (k : ℕ) :
    k < (arange start stop step).length ↔ start + (k : ℝ) * step < stop := by
  unfold arange
  rw [List.length_map, List.length_range]
  have h1 : (k < ⌈(stop - start) / step⌉.toNat) ↔ ((k : ℤ) < ⌈(stop - start) / step⌉) := by omega
  rw [h1, Int.lt_ceil, Int.cast_natCast, lt_div_iff₀ hs]
  constructor <;> intro h <;> linarith

theorem arange_get (start stop step : ℝ) (k : ℕ) (hk : k < (arange start stop step).length) :
    (arange start stop step)[k] = start + (k : ℝ) * step := by
  simp only [arange, List.getElem_map, List.getElem_range]

theorem mem_arange (start stop step : ℝ) (hs : 0 < step) (c : ℝ) :
    c ∈ arange start stop step ↔ ∃ k : ℕ, c = start + (k : ℝ) * step ∧ c < stop := by
  rw [List.mem_iff_getElem]
  constructor
  · rintro ⟨k, hk, rfl⟩
    rw [arange_get]
    exact ⟨k, rfl, (length_lt_iff _ _ _ hs k).1 hk⟩
  · rintro ⟨k, rfl, h⟩
    have hk := (length_lt_iff start stop step hs k).2 h
    exact ⟨k, hk, arange_get _ _ _ _ hk⟩

theorem arange_ne_nil (start stop step : ℝ) (hs : 0 < step) : arange start stop step ≠ [] ↔ start < stop := by
  rw [← List.length_pos_iff_ne_nil, length_lt_iff _ _ _ hs]
  simp

/-! ### Minimisation -/

theorem ok_bind {α β : Type _} (x : α) (f : α → Py β) : ((Except.ok x : Py α) >>= f) = f x := rfl
theorem err_bind {α β : Type _} (e : PyErr) (f : α → Py β) : ((Except.error e : Py α) >>= f) = .error e := rfl

theorem bind_ok {α β : Type _} {x : Py α} {f : α → Py β} {y : β} (h : (x >>= f) = .ok y) : ∃ v, x = .ok v ∧ f v = .ok y := by
  cases x with
  | error e => exact nomatch h
  | ok v => exact ⟨v, rfl, h⟩

/-- Position `k` is the first one with the least value. -/
def FirstMin (n : ℕ) (f : ℕ → ℝ) (k : ℕ) : Prop := k < n ∧ (∀ j < n, f k ≤ f j) ∧ ∀ j < k, f k < f j

theorem FirstMin.unique {n : ℕ} {f : ℕ → ℝ} {k l : ℕ} (hk : FirstMin n f k) (hl : FirstMin n f l) : k = l := by
  rcases lt_trichotomy k l with h | h | h
  · exact absurd (hk.2.1 l hl.1) (not_le.2 (hl.2.2 k h))
  · exact h
  · exact absurd (hl.2.1 k hk.1) (not_le.2 (hk.2.2 l h))

theorem argmin_ok (l : List ℝ) (i : ℕ) (h : Center.argmin l = .ok i) : FirstMin l.length (fun j => l.getD j 0) i := by
  have hne : l ≠ [] := by
    rintro rfl
    simp [Center.argmin] at h
  obtain ⟨i', hi, ha, h1, h2⟩ := Center.argmin_spec l hne
  rw [h] at ha
  cases ha
  refine ⟨hi, ?_, ?_⟩
  · intro j hj
    simp only [List.getD_eq_getElem _ _ hi, List.getD_eq_getElem _ _ hj]
    exact h1 _ (List.getElem_mem hj)
  · intro j hj
    simp only [List.getD_eq_getElem _ _ hi, List.getD_eq_getElem _ _ (hj.trans hi)]
    exact h2 j hj

theorem argmin_exists (l : List ℝ) (h : l ≠ []) : ∃ i, Center.argmin l = .ok i := by
  obtain ⟨i, -, ha, -⟩ := Center.argmin_spec l h
  exact ⟨i, ha⟩

theorem argmin_of_first (l : List ℝ) (i : ℕ) (h : FirstMin l.length (fun j => l.getD j 0) i) : Center.argmin l = .ok i := by
  have hne : l ≠ [] := by rintro rfl; exact absurd h.1 (by simp)
  obtain ⟨k, hk⟩ := argmin_exists l hne
  rw [hk, (argmin_ok l k hk).unique h]

theorem inverted_length (b : Bool) (ms : List ℝ) : (inverted b ms).length = ms.length := by
  unfold inverted; split <;> simp

theorem inverted_getD (b : Bool) (ms : List ℝ) (j : ℕ) (hj : j < ms.length) :
    (inverted b ms).getD j 0 = if b then Post.npMax ms - ms.getD j 0 else ms.getD j 0 := by
  unfold inverted
  cases b
  · simp
  · simp only [if_true]
    rw [List.getD_eq_getElem _ _ (by simpa using hj), List.getElem_map, List.getD_eq_getElem _ _ hj]

theorem forall2_iff {α β : Type _} {R : α → β → Prop} {l : List α} {l' : List β} :
    List.Forall₂ R l l' ↔ l.length = l'.length ∧ ∀ (i : ℕ) (h : i < l.length) (h' : i < l'.length), R l[i] l'[i] := by
  constructor
  · intro h
    refine ⟨h.length_eq, fun i h1 h2 => ?_⟩
    exact List.Forall₂.get h h1 h2
  · rintro ⟨hl, h⟩
    exact List.forall₂_of_length_eq_of_get hl h

/-! ### The search -/

/-- The smallest and the largest value of the image reconstructed at the middle of the candidates `start, start + step, … < stop`; they
differ. -/
def Reference (rec : Mat ℝ → ℝ → Py (Mat ℝ)) (p : Mat ℝ) (cs : List ℝ) (lo hi : ℝ) : Prop :=
  ∃ ref, rec p (cs.sum / cs.length) = .ok ref ∧ Post.IsMin (entries ref) lo ∧ Post.IsMax (entries ref) hi ∧ lo ≠ hi

theorem range_ok_iff (o : Opt) (rec : Mat ℝ → ℝ → Py (Mat ℝ)) (p : Mat ℝ) (cs : List ℝ) (r : ℝ × ℝ) :
    range o rec p cs = .ok r ↔ (o.metric = .entropy ∧ Reference rec p cs r.1 r.2) ∨ (o.metric ≠ .entropy ∧ r = (0, 1)) := by
  unfold range
  cases hm : o.metric with
  | entropy =>
    simp only [ne_eq, not_true_eq_false, false_and, or_false, true_and]
    constructor
    · intro h
      obtain ⟨ref, h1, h2⟩ := bind_ok h
      split at h2
      · exact nomatch h2
      split at h2
      · exact nomatch h2
      rename_i hne hd
      cases h2
      exact ⟨ref, h1, Post.npMin_spec _ hne, Post.npMax_spec _ hne, hd⟩
    · rintro ⟨ref, h1, h2, h3, h4⟩
      have hne : entries ref ≠ [] := List.ne_nil_of_mem h2.1
      have e1 := h2.unique (Post.npMin_spec _ hne)
      have e2 := h3.unique (Post.npMax_spec _ hne)
      rw [h1, ok_bind]
      rw [if_neg hne, ← e1, ← e2, if_neg h4]
  | sharpness =>
    simp only [ne_eq, reduceCtorEq, not_false_eq_true, false_and, true_and, false_or]
    constructor
    · intro h; cases h; rfl
    · rintro rfl; rfl
  | custom f =>
    simp only [ne_eq, reduceCtorEq, not_false_eq_true, false_and, true_and, false_or]
    constructor
    · intro h; cases h; rfl
    · rintro rfl; rfl

/-- `f j` is the metric of candidate `start + j * step`, for every candidate below `stop`: that of the slice reconstructed there, scaled for
the entropy by the range of the slice at the mean candidate. -/
def Metrics (o : Opt) (rec : Mat ℝ → ℝ → Py (Mat ℝ)) (m : Mat ℝ) (start stop step : ℝ) (f : ℕ → ℝ) : Prop :=
  ∃ lo hi : ℝ, (o.metric = .entropy → Reference rec (prepare o m) (arange start stop step) lo hi) ∧
    (o.metric ≠ .entropy → lo = 0 ∧ hi = 1) ∧
    ∀ j : ℕ, start + j * step < stop →
      ∃ img, rec (prepare o m) (start + j * step) = .ok img ∧ metricOf o.metric lo hi img = .ok (f j)

theorem mapM_values (o : Opt) (rec : Mat ℝ → ℝ → Py (Mat ℝ)) (p : Mat ℝ) (r : ℝ × ℝ) (start stop step : ℝ) (hs : 0 < step) (ms : List ℝ) :
    (arange start stop step).mapM (valueAt o rec p r) = .ok ms ↔
      ms.length = (arange start stop step).length ∧ ∀ j : ℕ, start + j * step < stop →
      ∃ img, rec p (start + j * step) = .ok img ∧ metricOf o.metric r.1 r.2 img = .ok (ms.getD j 0) := by
  rw [Simulation.mapM_ok_iff, forall2_iff]
  constructor
  · rintro ⟨hl, h⟩
    refine ⟨hl.symm, fun j hj => ?_⟩
    have hj' := (length_lt_iff start stop step hs j).2 hj
    have hv := h j hj' (hl ▸ hj')
    rw [arange_get] at hv
    obtain ⟨img, h1, h2⟩ := bind_ok hv
    exact ⟨img, h1, by rw [h2, List.getD_eq_getElem _ _ (hl ▸ hj')]⟩
  · rintro ⟨hl, h⟩
    refine ⟨hl.symm, fun j hj hj' => ?_⟩
    obtain ⟨img, h1, h2⟩ := h j ((length_lt_iff start stop step hs j).1 hj)
    rw [arange_get]
    unfold valueAt
    rw [h1, ok_bind, h2, List.getD_eq_getElem _ _ hj']

theorem search_iff (o : Opt) (rec : Mat ℝ → ℝ → Py (Mat ℝ)) (m : Mat ℝ) (start stop step : ℝ) (hs : 0 < step) (cs ms : List ℝ) :
    search o rec m start stop step = .ok (cs, ms) ↔
      start < stop ∧ cs = arange start stop step ∧ ∃ f, Metrics o rec m start stop step f ∧
        ms = inverted o.invert ((List.range cs.length).map f) := by
  unfold search
  dsimp only
  by_cases hne : start < stop
  swap
  · have : arange start stop step = [] := by
      by_contra h; exact hne ((arange_ne_nil _ _ _ hs).1 h)
    rw [if_pos this]
    simp [hne]
  rw [if_neg ((arange_ne_nil _ _ _ hs).2 hne)]
  simp only [hne, true_and]
  constructor
  · intro h
    obtain ⟨r, h1, h2⟩ := bind_ok h
    obtain ⟨l, h3, h4⟩ := bind_ok h2
    cases h4
    refine ⟨rfl, fun j => l.getD j 0, ⟨r.1, r.2, ?_, ?_, ((mapM_values o rec _ r start stop step hs l).1 h3).2⟩, ?_⟩
    · intro he
      rcases (range_ok_iff _ _ _ _ _).1 h1 with ⟨-, hr⟩ | ⟨hn, -⟩
      · exact hr
      · exact absurd he hn
    · intro he
      rcases (range_ok_iff _ _ _ _ _).1 h1 with ⟨hn, -⟩ | ⟨-, hr⟩
      · exact absurd hn he
      · rw [hr]; exact ⟨rfl, rfl⟩
    · congr 1
      have hl := ((mapM_values o rec _ r start stop step hs l).1 h3).1
      apply List.ext_getElem
      · simp [hl]
      · intro i h1 h2
        rw [List.getElem_map, List.getElem_range, List.getD_eq_getElem _ _ h1]
  · rintro ⟨rfl, f, ⟨lo, hi, h1, h2, h3⟩, rfl⟩
    have hr : range o rec (prepare o m) (arange start stop step) = .ok (lo, hi) := by
      rw [range_ok_iff]
      by_cases he : o.metric = .entropy
      · exact Or.inl ⟨he, h1 he⟩
      · obtain ⟨a, b⟩ := h2 he
        exact Or.inr ⟨he, by rw [a, b]⟩
    rw [hr, ok_bind]
    have hm := (mapM_values o rec (prepare o m) (lo, hi) start stop step hs
      ((List.range (arange start stop step).length).map f)).2 ⟨by simp, fun j hj => by
        have hj' := (length_lt_iff start stop step hs j).2 hj
        obtain ⟨img, a, b⟩ := h3 j hj
        refine ⟨img, a, ?_⟩
        rw [b, List.getD_eq_getElem _ _ (by simpa using hj'), List.getElem_map, List.getElem_range]⟩
    rw [hm, ok_bind]
    rfl

/-- C110: the search returns `c` exactly if the candidates `start, start + step, … < stop` are at least one, the slice can be reconstructed and
measured at each of them (for the entropy also at their mean, with at least two values in it), and `c` is the first candidate with the
smallest metric, or with `invert_metric` the first with the largest. -/
theorem search_opt_iff (o : Opt) (rec : Mat ℝ → ℝ → Py (Mat ℝ)) (m : Mat ℝ) (start stop step : ℝ) (hs : 0 < step) (c : ℝ) :
    searchOpt o rec m start stop step = .ok c ↔
      ∃ (f : ℕ → ℝ) (k : ℕ), Metrics o rec m start stop step f ∧ c = start + k * step ∧ c < stop ∧
        (∀ j : ℕ, start + j * step < stop → if o.invert then f j ≤ f k else f k ≤ f j) ∧
        (∀ j < k, if o.invert then f j < f k else f k < f j) := by
  unfold searchOpt
  have key : ∀ (f : ℕ → ℝ) (k : ℕ), FirstMin (inverted o.invert ((List.range (arange start stop step).length).map f)).length
      (fun j => (inverted o.invert ((List.range (arange start stop step).length).map f)).getD j 0) k ↔
      (start + k * step < stop ∧ (∀ j : ℕ, start + j * step < stop → if o.invert then f j ≤ f k else f k ≤ f j) ∧
        (∀ j < k, if o.invert then f j < f k else f k < f j)) := by
    intro f k
    set n := (arange start stop step).length with hn
    have hlen : (inverted o.invert ((List.range n).map f)).length = n := by rw [inverted_length]; simp
    have hg : ∀ j < n, (inverted o.invert ((List.range n).map f)).getD j 0 =
        if o.invert then Post.npMax ((List.range n).map f) - f j else f j := by
      intro j hj
      rw [inverted_getD _ _ _ (by simpa using hj), List.getD_eq_getElem _ _ (by simpa using hj), List.getElem_map, List.getElem_range]
    unfold FirstMin
    rw [hlen, length_lt_iff _ _ _ hs]
    constructor
    · rintro ⟨hk, h1, h2⟩
      have hk' := (length_lt_iff start stop step hs k).2 hk
      refine ⟨hk, fun j hj => ?_, fun j hj => ?_⟩
      · have := h1 j ((length_lt_iff start stop step hs j).2 hj)
        simp only [hg j ((length_lt_iff start stop step hs j).2 hj), hg k hk'] at this
        split at this
        · rw [if_pos (by assumption)]; linarith
        · rw [if_neg (by assumption)]; exact this
      · have := h2 j hj
        simp only [hg j (hj.trans hk'), hg k hk'] at this
        split at this
        · rw [if_pos (by assumption)]; linarith
        · rw [if_neg (by assumption)]; exact this
    · rintro ⟨hk, h1, h2⟩
      have hk' := (length_lt_iff start stop step hs k).2 hk
      refine ⟨hk, fun j hj => ?_, fun j hj => ?_⟩
      · have := h1 j ((length_lt_iff start stop step hs j).1 hj)
        simp only [hg j hj, hg k hk']
        split at this
        · rw [if_pos (by assumption), if_pos (by assumption)]; linarith
        · rw [if_neg (by assumption), if_neg (by assumption)]; exact this
      · have := h2 j hj
        simp only [hg j (hj.trans hk'), hg k hk']
        split at this
        · rw [if_pos (by assumption), if_pos (by assumption)]; linarith
        · rw [if_neg (by assumption), if_neg (by assumption)]; exact this
  constructor
  · intro h
    obtain ⟨⟨cs, ms⟩, h1, h2⟩ := bind_ok h
    obtain ⟨i, h3, h4⟩ := bind_ok h2
    obtain ⟨-, rfl, f, hf, rfl⟩ := (search_iff o rec m start stop step hs cs ms).1 h1
    have hk := (key f i).1 (argmin_ok _ _ h3)
    have hi := (length_lt_iff start stop step hs i).2 hk.1
    have hc : c = start + i * step := by
      cases h4
      rw [List.getD_eq_getElem _ _ hi, arange_get]
    exact ⟨f, i, hf, hc, hc ▸ hk.1, hk.2⟩
  · rintro ⟨f, k, hf, rfl, hc, hb⟩
    have hlt : start < stop := by
      have : 0 ≤ (k : ℝ) * step := by positivity
      linarith
    rw [(search_iff o rec m start stop step hs _ _).2 ⟨hlt, rfl, f, hf, rfl⟩, ok_bind]
    have := argmin_of_first _ _ ((key f k).2 ⟨hc, hb⟩)
    show (Center.argmin _ >>= _) = _
    rw [this, ok_bind, List.getD_eq_getElem _ _ ((length_lt_iff start stop step hs k).2 hc), arange_get]
    rfl

end Verif.SliceMetric
