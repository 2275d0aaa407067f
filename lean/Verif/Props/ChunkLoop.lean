import Verif.Model.LocalShifts
import Verif.Lemmas.Chunks

/-!
Facts about the chunk loop of the local-shift searches.
-/

set_option linter.unusedSectionVars false
set_option linter.unusedSimpArgs false

namespace Verif.LocalShifts

/-- The non-empty pieces of `np.array_split(np.arange(a, a + n), k)`. -/
theorem chunkEnds_bounds {a n k : ℕ} {cs : List (List ℕ)} (hc : arraySplit (List.range' a n) k = .ok cs) :
    ∀ pos ∈ cs, ∀ p, chunkEnds pos = .ok p → a ≤ p.1 ∧ p.1 < p.2 ∧ p.2 ≤ a + n := by
  intro pos hpos p hp
  unfold arraySplit at hc
  split at hc
  · exact (nomatch hc)
  · rename_i hk
    have hcs : cutSizes (List.range' a n) (splitSizes n k) = cs := by
      have := Except.ok.inj hc
      rwa [List.length_range'] at this
    have hsum := splitSizes_sum n k (by omega)
    obtain ⟨f, h1, -, -, -⟩ := cutSizes_range' (splitSizes n k) a n hsum
    have hfl := cutSizes_flatten (splitSizes n k) (List.range' a n) (by rw [List.length_range', hsum])
    rw [hcs] at h1 hfl
    have hmem := hpos
    rw [h1, List.mem_map] at hmem
    obtain ⟨q, -, rfl⟩ := hmem
    by_cases h0 : q.2 - q.1 = 0
    · rw [h0] at hp
      exact (nomatch hp)
    · rw [chunkEnds_range' _ _ (by omega)] at hp
      have e := Except.ok.inj hp
      subst e
      have hsub : ∀ x, q.1 ≤ x → x < q.2 → a ≤ x ∧ x < a + n := by
        intro x hx1 hx2
        have : x ∈ List.range' a n := by
          rw [← hfl, List.mem_flatten]
          refine ⟨_, hpos, ?_⟩
          rw [List.mem_range'_1]
          omega
        rwa [List.mem_range'_1] at this
      have a1 := hsub q.1 (le_refl _) (by omega)
      have a2 := hsub (q.2 - 1) (by omega) (by omega)
      refine ⟨a1.1, ?_, ?_⟩ <;> dsimp only <;> omega

/-- One pass of the loop. -/
def pass {α β : Type _} (edge : ℕ) (F : ℕ → (ℕ → α) → Py (ℕ → β)) (rows : ℕ → α) (pos : List ℕ) : Py ((ℕ × ℕ) × (ℕ → β)) := do
  let p ← chunkEnds pos
  let r ← F (p.2 + edge - (p.1 - edge)) fun t => rows (p.1 - edge + t)
  .ok (p, r)

/-- The assignment of one pass. -/
def store {β : Type _} (out : ℕ → β) (q : (ℕ × ℕ) × (ℕ → β)) : ℕ → β :=
  fun i => if q.1.1 ≤ i ∧ i < q.1.2 then q.2 (i - q.1.1) else out i

theorem chunkLoop_def {α β : Type _} (a n k edge : ℕ) (F : ℕ → (ℕ → α) → Py (ℕ → β)) (rows : ℕ → α) (zero : β) :
    chunkLoop a n k edge F rows zero =
      (arraySplit (List.range' a n) k).bind fun cs => (cs.mapM (pass edge F rows)).bind fun rs => .ok (rs.foldl store fun _ => zero) := rfl

theorem store_congr {β : Type _} (out : ℕ → β) (p : ℕ × ℕ) (g g' : ℕ → β) (h : ∀ t < p.2 - p.1, g t = g' t) :
    store out (p, g) = store out (p, g') := by
  funext i
  unfold store
  dsimp only
  split_ifs with hi
  · exact h _ (by omega)
  · rfl

theorem loop_congr {α α' β : Type _} (edge : ℕ) (F : ℕ → (ℕ → α) → Py (ℕ → β)) (F' : ℕ → (ℕ → α') → Py (ℕ → β)) (rows : ℕ → α)
    (rows' : ℕ → α') : ∀ cs : List (List ℕ), (∀ pos ∈ cs, ∀ p : ℕ × ℕ, chunkEnds pos = .ok p →
      (∃ err, F (p.2 + edge - (p.1 - edge)) (fun t => rows (p.1 - edge + t)) = .error err ∧
        F' (p.2 + edge - (p.1 - edge)) (fun t => rows' (p.1 - edge + t)) = .error err) ∨
      ∃ g g', F (p.2 + edge - (p.1 - edge)) (fun t => rows (p.1 - edge + t)) = .ok g ∧
        F' (p.2 + edge - (p.1 - edge)) (fun t => rows' (p.1 - edge + t)) = .ok g' ∧ ∀ t < p.2 - p.1, g t = g' t) →
    ∀ out : ℕ → β, ((cs.mapM (pass edge F rows)).bind fun rs => (.ok (rs.foldl store out) : Py (ℕ → β))) =
      (cs.mapM (pass edge F' rows')).bind fun rs => .ok (rs.foldl store out) := by
  intro cs
  induction cs with
  | nil => intro _ _; rfl
  | cons pos cs ih =>
    intro h out
    rw [List.mapM_cons, List.mapM_cons]
    have ih' := ih fun q hq => h q (List.mem_cons_of_mem _ hq)
    cases hp : chunkEnds pos with
    | error e =>
      have e1 : pass edge F rows pos = .error e := by unfold pass; rw [hp]; rfl
      have e2 : pass edge F' rows' pos = .error e := by unfold pass; rw [hp]; rfl
      rw [e1, e2]; rfl
    | ok p =>
      rcases h pos (List.mem_cons_self ..) p hp with ⟨err, h1, h2⟩ | ⟨g, g', h1, h2, h3⟩
      · have e1 : pass edge F rows pos = .error err := by unfold pass; rw [hp]; simp only [bind, Except.bind]; rw [h1]
        have e2 : pass edge F' rows' pos = .error err := by unfold pass; rw [hp]; simp only [bind, Except.bind]; rw [h2]
        rw [e1, e2]; rfl
      · have e1 : pass edge F rows pos = .ok (p, g) := by unfold pass; rw [hp]; simp only [bind, Except.bind]; rw [h1]
        have e2 : pass edge F' rows' pos = .ok (p, g') := by unfold pass; rw [hp]; simp only [bind, Except.bind]; rw [h2]
        rw [e1, e2]
        have key := ih' (store out (p, g))
        have key2 : store out (p, g) = store out (p, g') := store_congr out p g g' h3
        simp only [bind, Except.bind, pure, Except.pure] at key ⊢
        cases hm : cs.mapM (pass edge F rows) with
        | error e =>
          rw [hm] at key
          cases hm' : cs.mapM (pass edge F' rows') with
          | error e' => rw [hm'] at key; simpa using key
          | ok r' => rw [hm'] at key; exact (nomatch key)
        | ok r =>
          rw [hm] at key
          cases hm' : cs.mapM (pass edge F' rows') with
          | error e' => rw [hm'] at key; exact (nomatch key)
          | ok r' =>
            rw [hm'] at key
            dsimp only [List.foldl_cons] at key ⊢
            rw [key, key2]

/-- Two loops whose bodies agree on every chunk of the range give the same result, or the same error. -/
theorem chunkLoop_congr {α α' β : Type _} {a n k edge : ℕ} {F : ℕ → (ℕ → α) → Py (ℕ → β)} {F' : ℕ → (ℕ → α') → Py (ℕ → β)} {rows : ℕ → α}
    {rows' : ℕ → α'} {zero : β}
    (h : ∀ b e, a ≤ b → b < e → e ≤ a + n →
      (∃ err, F (e + edge - (b - edge)) (fun t => rows (b - edge + t)) = .error err ∧
        F' (e + edge - (b - edge)) (fun t => rows' (b - edge + t)) = .error err) ∨
      ∃ g g', F (e + edge - (b - edge)) (fun t => rows (b - edge + t)) = .ok g ∧
        F' (e + edge - (b - edge)) (fun t => rows' (b - edge + t)) = .ok g' ∧ ∀ t < e - b, g t = g' t) :
    chunkLoop a n k edge F rows zero = chunkLoop a n k edge F' rows' zero := by
  rw [chunkLoop_def, chunkLoop_def]
  cases hc : arraySplit (List.range' a n) k with
  | error e => rfl
  | ok cs =>
    refine loop_congr edge F F' rows rows' cs (fun pos hpos p hp => ?_) _
    obtain ⟨h1, h2, h3⟩ := chunkEnds_bounds hc pos hpos p hp
    exact h p.1 p.2 h1 h2 h3

/-- A loop with at most as many chunks as rows: every row of the range is computed by the chunk it lies in, the others are zero.  The chunks are those of `np.array_split`. -/
theorem chunkLoop_bounds {α β : Type _} {a n k edge : ℕ} {F : ℕ → (ℕ → α) → Py (ℕ → β)} {rows : ℕ → α} {zero : β} (hk : 0 < k) (hkn : k ≤ n)
    (G : ℕ → ℕ → ℕ → β)
    (hF : ∀ b e, a ≤ b → b < e → e ≤ a + n → F (e + edge - (b - edge)) (fun t => rows (b - edge + t)) = .ok (G b e)) :
    ∃ out bs, chunkLoop a n k edge F rows zero = .ok out ∧ chunkBounds a n k = .ok bs ∧
      (∀ i, a ≤ i → i < a + n → ∃ b e, (b, e) ∈ bs ∧ a ≤ b ∧ b ≤ i ∧ i < e ∧ e ≤ a + n ∧ out i = G b e (i - b)) ∧
      ∀ i, (i < a ∨ a + n ≤ i) → out i = zero := by
  obtain ⟨bs, hb, hc, -, -⟩ := chunkBounds_ok a n k hk hkn
  have hbd := consec_bounds bs _ _ hc
  have hb0 := hb
  unfold chunkBounds at hb
  cases hcs : arraySplit (List.range' a n) k with
  | error e => rw [hcs] at hb; exact (nomatch hb)
  | ok cs =>
    rw [hcs] at hb
    have hb : cs.mapM chunkEnds = .ok bs := hb
    have key : ∀ (cs : List (List ℕ)) (bs : List (ℕ × ℕ)), (∀ p ∈ bs, a ≤ p.1 ∧ p.1 < p.2 ∧ p.2 ≤ a + n) → cs.mapM chunkEnds = .ok bs →
        cs.mapM (pass edge F rows) = .ok (bs.map fun p => (p, G p.1 p.2)) := by
      intro cs
      induction cs with
      | nil =>
        intro bs _ h
        have : bs = [] := (Except.ok.inj h).symm
        subst this
        rfl
      | cons pos cs ih =>
        intro bs hbs h
        rw [List.mapM_cons] at h
        cases hp : chunkEnds pos with
        | error e => rw [hp] at h; exact (nomatch h)
        | ok p =>
          cases hr : cs.mapM chunkEnds with
          | error e => rw [hp, hr] at h; exact (nomatch h)
          | ok bs' =>
            rw [hp, hr] at h
            have e : p :: bs' = bs := Except.ok.inj h
            subst e
            obtain ⟨b1, b2, b3⟩ := hbs p (List.mem_cons_self ..)
            have e1 : pass edge F rows pos = .ok (p, G p.1 p.2) := by
              unfold pass
              rw [hp]
              simp only [bind, Except.bind]
              rw [hF p.1 p.2 b1 b2 b3]
            rw [List.mapM_cons, e1, ih bs' (fun q hq => hbs q (List.mem_cons_of_mem _ hq)) hr]
            rfl
    obtain ⟨f1, f2⟩ := foldl_consec (fun b e (_ : ℕ → β) i => G b e (i - b)) (fun b e s s' i _ _ _ => rfl) bs a (a + n) (fun _ => zero) hc
    refine ⟨bs.foldl (fun s p i => if p.1 ≤ i ∧ i < p.2 then G p.1 p.2 (i - p.1) else s i) (fun _ => zero), bs, ?_, hb0, ?_, f2⟩
    · rw [chunkLoop_def, hcs]
      show (cs.mapM (pass edge F rows)).bind _ = _
      rw [key cs bs hbd hb]
      show Except.ok ((bs.map fun p => (p, G p.1 p.2)).foldl store fun _ => zero) = _
      rw [List.foldl_map]
      rfl
    · intro i h1 h2
      obtain ⟨p, hp, hp1, hp2⟩ := consec_cover bs _ _ hc i h1 h2
      have hb := hbd p hp
      exact ⟨p.1, p.2, hp, hb.1, hp1, hp2, hb.2.2, f1 p hp i hp1 hp2⟩

/-- A loop with at most as many chunks as rows: every row of the range is computed by the chunk it lies in, the others are zero. -/
theorem chunkLoop_ok {α β : Type _} {a n k edge : ℕ} {F : ℕ → (ℕ → α) → Py (ℕ → β)} {rows : ℕ → α} {zero : β} (hk : 0 < k) (hkn : k ≤ n)
    (G : ℕ → ℕ → ℕ → β)
    (hF : ∀ b e, a ≤ b → b < e → e ≤ a + n → F (e + edge - (b - edge)) (fun t => rows (b - edge + t)) = .ok (G b e)) :
    ∃ out, chunkLoop a n k edge F rows zero = .ok out ∧
      (∀ i, a ≤ i → i < a + n → ∃ b e, a ≤ b ∧ b ≤ i ∧ i < e ∧ e ≤ a + n ∧ out i = G b e (i - b)) ∧
      ∀ i, (i < a ∨ a + n ≤ i) → out i = zero := by
  obtain ⟨out, bs, h1, -, h2, h3⟩ := chunkLoop_bounds (zero := zero) hk hkn G hF
  refine ⟨out, h1, fun i hi hi' => ?_, h3⟩
  obtain ⟨b, e, -, h⟩ := h2 i hi hi'
  exact ⟨b, e, h⟩

end Verif.LocalShifts
