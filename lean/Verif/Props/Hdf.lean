import Verif.Model.Hdf
import Mathlib.Data.List.Infix
import Mathlib.Data.List.Count
import Mathlib.Tactic.Ring

set_option linter.unusedSectionVars false
set_option linter.unusedSimpArgs false

/-!
C101: keys found in an hdf file, C102: its tree view, C103: opening a file for writing.
-/

namespace Verif.Hdf
open Verif.Io

variable {D : Type _}

/-! ### well-formed files -/

/-- A possible name of an object: not empty, no slash. -/
def GoodName (n : Name) : Prop := n ≠ [] ∧ '/' ∉ n

/-- Files: good names, all different within a group. -/
def WF : Forest D → Prop
  | .nil => True
  | .group n kids rest => GoodName n ∧ n ∉ rest.names ∧ WF kids ∧ WF rest
  | .dataset n _ rest => GoodName n ∧ n ∉ rest.names ∧ WF rest
  | .link n rest => GoodName n ∧ n ∉ rest.names ∧ WF rest

theorem good_names : ∀ f : Forest D, WF f → ∀ n ∈ f.names, GoodName n
  | .nil, _, n, hn => by simp [Forest.names] at hn
  | .group m kids rest, h, n, hn => by
    rcases List.mem_cons.1 hn with rfl | hn
    · exact h.1
    · exact good_names rest h.2.2.2 n hn
  | .dataset m d rest, h, n, hn => by
    rcases List.mem_cons.1 hn with rfl | hn
    · exact h.1
    · exact good_names rest h.2.2 n hn
  | .link m rest, h, n, hn => by
    rcases List.mem_cons.1 hn with rfl | hn
    · exact h.1
    · exact good_names rest h.2.2 n hn

theorem names_nodup : ∀ f : Forest D, WF f → f.names.Nodup
  | .nil, _ => List.nodup_nil
  | .group _ _ rest, h => List.nodup_cons.2 ⟨h.2.1, names_nodup rest h.2.2.2⟩
  | .dataset _ _ rest, h => List.nodup_cons.2 ⟨h.2.1, names_nodup rest h.2.2⟩
  | .link _ rest, h => List.nodup_cons.2 ⟨h.2.1, names_nodup rest h.2.2⟩

theorem at_not_mem : ∀ (f : Forest D) (a : Name) (q : List Name), a ∉ f.names → f.at (a :: q) = none
  | .nil, _, _, _ => rfl
  | .group n kids rest, a, q, h => by
    rw [Forest.names, List.mem_cons, not_or] at h
    rw [Forest.at, if_neg h.1]
    exact at_not_mem rest a q h.2
  | .dataset n d rest, a, q, h => by
    rw [Forest.names, List.mem_cons, not_or] at h
    rw [Forest.at, if_neg h.1]
    exact at_not_mem rest a q h.2
  | .link n rest, a, q, h => by
    rw [Forest.names, List.mem_cons, not_or] at h
    rw [Forest.at, if_neg h.1]
    exact at_not_mem rest a q h.2

theorem at_mem (f : Forest D) (a : Name) (q : List Name) (o : Obj D) (h : f.at (a :: q) = some o) : a ∈ f.names := by
  by_contra hc
  rw [at_not_mem f a q hc] at h
  cases h

/-! ### keys and paths -/

theorem compsAux_append : ∀ (n acc r : Name), '/' ∉ n → compsAux acc (n ++ r) = compsAux (n.reverse ++ acc) r
  | [], _, _, _ => rfl
  | c :: n, acc, r, h => by
    rw [List.mem_cons, not_or] at h
    rw [List.cons_append, compsAux, if_neg (fun hc => h.1 hc.symm), compsAux_append n _ _ h.2, List.reverse_cons, List.append_assoc]
    rfl

theorem comps_cons (n r : Name) (h : GoodName n) : comps (n ++ '/' :: r) = n :: comps r := by
  unfold comps
  rw [compsAux_append n [] _ h.2, List.append_nil, compsAux, if_pos rfl, if_neg (by simpa using h.1), List.reverse_reverse]

theorem comps_one (n : Name) (h : GoodName n) : comps n = [n] := by
  unfold comps
  have := compsAux_append n [] [] h.2
  rw [List.append_nil, List.append_nil] at this
  rw [this, compsAux, if_neg (by simpa using h.1), List.reverse_reverse]

theorem comps_join : ∀ p : List Name, (∀ n ∈ p, GoodName n) → comps (join p) = p
  | [], _ => rfl
  | [n], h => comps_one n (h n (List.mem_singleton_self n))
  | n :: m :: p, h => by
    rw [join, comps_cons n _ (h n (List.mem_cons_self ..)), comps_join (m :: p) fun k hk => h k (List.mem_cons_of_mem _ hk)]
    simp

theorem comps_slash (k : Name) : comps ('/' :: k) = comps k := by
  unfold comps
  rw [compsAux, if_pos rfl, if_pos rfl]

theorem join_snoc : ∀ (p : List Name) (n : Name), p ≠ [] → join (p ++ [n]) = join p ++ '/' :: n
  | [], _, h => absurd rfl h
  | [m], n, _ => rfl
  | m :: k :: p, n, _ => by
    show m ++ '/' :: join ((k :: p) ++ [n]) = _
    rw [join_snoc (k :: p) n (by simp)]
    show _ = (m ++ '/' :: join (k :: p)) ++ '/' :: n
    simp

/-! ### C101 -/

/-- The paths behind the listed keys. -/
def listed (pre : List Name) : Forest D → List (List Name)
  | .nil => []
  | .group n kids rest =>
    (if kids.names.isEmpty then [pre ++ [n]] else kids.names.map fun k => pre ++ [n] ++ [k]) ++
      (listed (pre ++ [n]) kids ++ listed pre rest)
  | .dataset n _ rest => (pre ++ [n]) :: listed pre rest
  | .link _ rest => listed pre rest

/-- The listed keys themselves. -/
def listedKeys (pre : List Name) : Forest D → List Name
  | .nil => []
  | .group n kids rest =>
    (if kids.names.isEmpty then [join (pre ++ [n])] else kids.names.map fun k => join (pre ++ [n] ++ [k])) ++
      (listedKeys (pre ++ [n]) kids ++ listedKeys pre rest)
  | .dataset n _ rest => ('/' :: join (pre ++ [n])) :: listedKeys pre rest
  | .link _ rest => listedKeys pre rest

theorem visit_keys (F : Forest D) (miss : Name → List Name) : ∀ (g : Forest D) (pre : List Name), WF g → (∀ n ∈ pre, GoodName n) →
    (∀ a q, a ∈ g.names → F.at (pre ++ a :: q) = g.at (a :: q)) → (visit pre g).flatMap (keysOf F miss) = listedKeys pre g
  | .nil, _, _, _, _ => rfl
  | .group n kids rest, pre, hw, hp, hF => by
    have hgood : ∀ m ∈ pre ++ [n], GoodName m := by
      intro m hm
      rcases List.mem_append.1 hm with h | h
      · exact hp m h
      · rw [List.mem_singleton.1 h]; exact hw.1
    have hat : F.at (pre ++ [n]) = some (.group kids) := by
      rw [hF n [] (List.mem_cons_self ..), Forest.at, if_pos rfl, if_pos rfl]
    have hopen : openKey F (join (pre ++ [n])) = some (.group kids) := by
      unfold openKey; rw [comps_join _ hgood, hat]
    have ih1 := visit_keys F miss kids (pre ++ [n]) hw.2.2.1 hgood (by
      intro a q _
      rw [List.append_assoc, List.singleton_append, hF n (a :: q) (List.mem_cons_self ..), Forest.at, if_pos rfl, if_neg (by simp)])
    have ih2 := visit_keys F miss rest pre hw.2.2.2 hp (by
      intro a q ha
      rw [hF a q (List.mem_cons_of_mem _ ha), Forest.at, if_neg]
      intro hc
      exact hw.2.1 (hc ▸ ha))
    rw [visit, List.flatMap_cons, List.flatMap_append, ih1, ih2, listedKeys]
    congr 1
    unfold keysOf
    rw [hopen]
    dsimp only
    split_ifs
    · rfl
    · apply List.map_congr_left
      intro k _
      rw [join_snoc _ k (by simp)]
  | .dataset n d rest, pre, hw, hp, hF => by
    have hgood : ∀ m ∈ pre ++ [n], GoodName m := by
      intro m hm
      rcases List.mem_append.1 hm with h | h
      · exact hp m h
      · rw [List.mem_singleton.1 h]; exact hw.1
    have hat : F.at (pre ++ [n]) = some (.dataset d) := by
      rw [hF n [] (List.mem_cons_self ..), Forest.at, if_pos rfl, if_pos rfl]
    have hopen : openKey F (join (pre ++ [n])) = some (.dataset d) := by
      unfold openKey; rw [comps_join _ hgood, hat]
    have ih2 := visit_keys F miss rest pre hw.2.2 hp (by
      intro a q ha
      rw [hF a q (List.mem_cons_of_mem _ ha), Forest.at, if_neg]
      intro hc
      exact hw.2.1 (hc ▸ ha))
    rw [visit, List.flatMap_cons, ih2, listedKeys]
    unfold keysOf
    rw [hopen]
    rfl
  | .link n rest, pre, hw, hp, hF => by
    have ih2 := visit_keys F miss rest pre hw.2.2 hp (by
      intro a q ha
      rw [hF a q (List.mem_cons_of_mem _ ha), Forest.at, if_neg]
      intro hc
      exact hw.2.1 (hc ▸ ha))
    rw [visit, ih2, listedKeys]

theorem info_keys (f : Forest D) (hf : WF f) (miss : Name → List Name) : (visit [] f).flatMap (keysOf f miss) = listedKeys [] f :=
  visit_keys f miss f [] hf (by simp) (fun a q _ => rfl)

theorem listed_comps : ∀ (g : Forest D) (pre : List Name), WF g → (∀ n ∈ pre, GoodName n) →
    (listedKeys pre g).map comps = listed pre g
  | .nil, _, _, _ => rfl
  | .group n kids rest, pre, hw, hp => by
    have hgood : ∀ m ∈ pre ++ [n], GoodName m := by
      intro m hm
      rcases List.mem_append.1 hm with h | h
      · exact hp m h
      · rw [List.mem_singleton.1 h]; exact hw.1
    rw [listedKeys, listed, List.map_append, List.map_append, listed_comps kids _ hw.2.2.1 hgood, listed_comps rest pre hw.2.2.2 hp]
    congr 1
    split_ifs
    · rw [List.map_singleton, comps_join _ hgood]
    · rw [List.map_map]
      apply List.map_congr_left
      intro k hk
      show comps (join _) = _
      rw [comps_join]
      intro m hm
      rcases List.mem_append.1 hm with h | h
      · exact hgood m h
      · rw [List.mem_singleton.1 h]; exact good_names kids hw.2.2.1 k hk
  | .dataset n d rest, pre, hw, hp => by
    have hgood : ∀ m ∈ pre ++ [n], GoodName m := by
      intro m hm
      rcases List.mem_append.1 hm with h | h
      · exact hp m h
      · rw [List.mem_singleton.1 h]; exact hw.1
    rw [listedKeys, listed, List.map_cons, listed_comps rest pre hw.2.2 hp, comps_slash, comps_join _ hgood]
  | .link n rest, pre, hw, hp => by
    rw [listedKeys, listed, listed_comps rest pre hw.2.2 hp]

theorem listed_prefix : ∀ (g : Forest D) (pre p : List Name), p ∈ listed pre g → ∃ a q, a ∈ g.names ∧ p = pre ++ a :: q
  | .nil, _, _, h => by simp [listed] at h
  | .group n kids rest, pre, p, h => by
    rw [listed, List.mem_append, List.mem_append] at h
    rcases h with h | h | h
    · split_ifs at h
      · exact ⟨n, [], List.mem_cons_self .., List.mem_singleton.1 h⟩
      · obtain ⟨k, _, rfl⟩ := List.mem_map.1 h
        exact ⟨n, [k], List.mem_cons_self .., by simp⟩
    · obtain ⟨a, q, _, rfl⟩ := listed_prefix kids _ _ h
      exact ⟨n, a :: q, List.mem_cons_self .., by simp⟩
    · obtain ⟨a, q, ha, rfl⟩ := listed_prefix rest _ _ h
      exact ⟨a, q, List.mem_cons_of_mem _ ha, rfl⟩
  | .dataset n d rest, pre, p, h => by
    rw [listed, List.mem_cons] at h
    rcases h with h | h
    · exact ⟨n, [], List.mem_cons_self .., h⟩
    · obtain ⟨a, q, ha, rfl⟩ := listed_prefix rest _ _ h
      exact ⟨a, q, List.mem_cons_of_mem _ ha, rfl⟩
  | .link n rest, pre, p, h => by
    rw [listed] at h
    obtain ⟨a, q, ha, rfl⟩ := listed_prefix rest _ _ h
    exact ⟨a, q, List.mem_cons_of_mem _ ha, rfl⟩

theorem listed_count_zero (g : Forest D) (pre : List Name) (a : Name) (q : List Name) (h : a ∉ g.names) :
    (listed pre g).count (pre ++ a :: q) = 0 := by
  rw [List.count_eq_zero]
  intro hm
  obtain ⟨b, r, hb, he⟩ := listed_prefix g pre _ hm
  have := List.append_cancel_left he
  exact h ((List.cons.inj this).1 ▸ hb)

theorem map_count (l : List Name) (pre q : List Name) (a : Name) (hl : l.Nodup) (ha : a ∈ l) :
    (l.map fun k => pre ++ [k]).count (pre ++ a :: q) = if q = [] then 1 else 0 := by
  split_ifs with h
  · rw [h]
    exact (List.count_map_of_injective l (fun k => pre ++ [k]) (fun x y hxy => by simpa using hxy) a).trans (hl.count.trans (if_pos ha))
  · rw [List.count_eq_zero]
    intro hm
    obtain ⟨k, _, he⟩ := List.mem_map.1 hm
    have := List.append_cancel_left he
    exact h (List.cons.inj this).2.symm

/-- How often the path of a dataset is listed. -/
theorem listed_count_dataset : ∀ (g : Forest D) (pre p : List Name) (d : D), WF g → g.at p = some (.dataset d) →
    (listed pre g).count (pre ++ p) = if p.length = 1 then 1 else 2
  | _, _, [], _, _, h => by simp [Forest.at] at h
  | .nil, _, _ :: _, _, _, h => by simp [Forest.at] at h
  | .group n kids rest, pre, a :: q, d, hw, h => by
    rw [Forest.at] at h
    rw [listed, List.count_append, List.count_append]
    by_cases ha : a = n
    · subst ha
      rw [if_pos rfl] at h
      by_cases hq : q = []
      · rw [if_pos hq] at h; cases h
      rw [if_neg hq] at h
      obtain ⟨b, r, rfl⟩ : ∃ b r, q = b :: r := by cases q with | nil => exact absurd rfl hq | cons b r => exact ⟨b, r, rfl⟩
      have hb := at_mem kids b r _ h
      rw [if_neg (by intro hc; rw [List.isEmpty_iff] at hc; rw [hc] at hb; simp at hb)]
      have h3 := listed_count_zero rest pre a (b :: r) hw.2.1
      have h2 := listed_count_dataset kids (pre ++ [a]) (b :: r) d hw.2.2.1 h
      have h1 := map_count kids.names (pre ++ [a]) r b (names_nodup kids hw.2.2.1) hb
      rw [List.append_assoc, List.singleton_append] at h1 h2
      rw [h3, h2, h1]
      cases r with
      | nil => simp
      | cons c r => simp
    · rw [if_neg ha] at h
      have h3 := listed_count_dataset rest pre (a :: q) d hw.2.2.2 h
      have hout : ∀ (l : List (List Name)), (∀ x ∈ l, ∃ r, x = pre ++ n :: r) → l.count (pre ++ a :: q) = 0 := by
        intro l hl
        rw [List.count_eq_zero]
        intro hm
        obtain ⟨r, hr⟩ := hl _ hm
        exact ha (List.cons.inj (List.append_cancel_left hr)).1
      rw [hout _ ?_, hout _ ?_, h3]
      · omega
      · intro x hx
        obtain ⟨b, r, _, rfl⟩ := listed_prefix kids _ _ hx
        exact ⟨b :: r, by simp⟩
      · intro x hx
        split_ifs at hx
        · exact ⟨[], List.mem_singleton.1 hx⟩
        · obtain ⟨k, _, rfl⟩ := List.mem_map.1 hx
          exact ⟨[k], by simp⟩
  | .dataset n e rest, pre, a :: q, d, hw, h => by
    rw [Forest.at] at h
    rw [listed, List.count_cons]
    by_cases ha : a = n
    · subst ha
      rw [if_pos rfl] at h
      by_cases hq : q = []
      · subst hq
        rw [listed_count_zero rest pre a [] hw.2.1]
        simp
      · rw [if_neg hq] at h; cases h
    · rw [if_neg ha] at h
      have hne : ¬ ((pre ++ [n] == pre ++ a :: q) = true) := by
        intro hc
        have hc := eq_of_beq hc
        exact ha (List.cons.inj (List.append_cancel_left hc)).1.symm
      rw [listed_count_dataset rest pre (a :: q) d hw.2.2 h, if_neg hne, Nat.add_zero]
  | .link n rest, pre, a :: q, d, hw, h => by
    rw [Forest.at] at h
    rw [listed]
    by_cases ha : a = n
    · subst ha
      rw [if_pos rfl] at h
      by_cases hq : q = []
      · rw [if_pos hq] at h; cases h
      · rw [if_neg hq] at h; cases h
    · rw [if_neg ha] at h
      exact listed_count_dataset rest pre (a :: q) d hw.2.2 h

theorem at_good : ∀ (f : Forest D) (p : List Name) (o : Obj D), WF f → f.at p = some o → ∀ n ∈ p, GoodName n
  | _, [], _, _, _ => by simp
  | .nil, _ :: _, _, _, h => by simp [Forest.at] at h
  | .group m kids rest, a :: q, o, hw, h => by
    rw [Forest.at] at h
    by_cases ha : a = m
    · rw [if_pos ha] at h
      intro n hn
      rcases List.mem_cons.1 hn with rfl | hn
      · rw [ha]; exact hw.1
      · by_cases hq : q = []
        · rw [hq] at hn; simp at hn
        · rw [if_neg hq] at h
          exact at_good kids q o hw.2.2.1 h n hn
    · rw [if_neg ha] at h
      exact at_good rest _ o hw.2.2.2 h
  | .dataset m d rest, a :: q, o, hw, h => by
    rw [Forest.at] at h
    by_cases ha : a = m
    · rw [if_pos ha] at h
      by_cases hq : q = []
      · subst hq
        intro n hn
        rw [List.mem_singleton.1 hn, ha]; exact hw.1
      · rw [if_neg hq] at h; cases h
    · rw [if_neg ha] at h
      exact at_good rest _ o hw.2.2 h
  | .link m rest, a :: q, o, hw, h => by
    rw [Forest.at] at h
    by_cases ha : a = m
    · rw [if_pos ha] at h
      by_cases hq : q = []
      · subst hq
        intro n hn
        rw [List.mem_singleton.1 hn, ha]; exact hw.1
      · rw [if_neg hq] at h; cases h
    · rw [if_neg ha] at h
      exact at_good rest _ o hw.2.2 h

/-- C101: opening an object: by the names of its path joined with "/", with or without a leading "/"; a link without target and a path that
leads nowhere are refused with `ValueError`. -/
theorem load_spec (f : Forest D) (hf : WF f) (p : List Name) (hp : ∀ n ∈ p, GoodName n) (key : Name)
    (hk : key = join p ∨ key = '/' :: join p) :
    (∀ o, loadHdf f key = .ok o ↔ f.at p = some o ∧ ∀ (_ : o = .link), False) ∧
    (f.at p = none ∨ f.at p = some .link → loadHdf f key = .error .valueError) := by
  have hc : comps key = p := by
    rcases hk with rfl | rfl
    · exact comps_join p hp
    · rw [comps_slash, comps_join p hp]
  unfold loadHdf openKey
  rw [hc]
  cases h : f.at p with
  | none => simp
  | some o' =>
    cases o' with
    | link => simp
    | group k =>
      simp only [Option.some.injEq, Except.ok.injEq]
      refine ⟨fun o => ⟨fun ho => ⟨ho, fun hl => by rw [hl] at ho; cases ho⟩, fun ho => ho.1⟩, fun ho => by simp at ho⟩
    | dataset d =>
      simp only [Option.some.injEq, Except.ok.injEq]
      refine ⟨fun o => ⟨fun ho => ⟨ho, fun hl => by rw [hl] at ho; cases ho⟩, fun ho => ho.1⟩, fun ho => by simp at ho⟩

theorem mem_at : ∀ (f : Forest D) (a : Name), a ∈ f.names → ∃ o, f.at [a] = some o
  | .nil, _, h => by simp [Forest.names] at h
  | .group n kids rest, a, h => by
    rw [Forest.at]
    by_cases ha : a = n
    · exact ⟨_, by rw [if_pos ha, if_pos rfl]⟩
    · rw [if_neg ha]
      exact mem_at rest a ((List.mem_cons.1 h).resolve_left ha)
  | .dataset n d rest, a, h => by
    rw [Forest.at]
    by_cases ha : a = n
    · exact ⟨_, by rw [if_pos ha, if_pos rfl]⟩
    · rw [if_neg ha]
      exact mem_at rest a ((List.mem_cons.1 h).resolve_left ha)
  | .link n rest, a, h => by
    rw [Forest.at]
    by_cases ha : a = n
    · exact ⟨_, by rw [if_pos ha, if_pos rfl]⟩
    · rw [if_neg ha]
      exact mem_at rest a ((List.mem_cons.1 h).resolve_left ha)

/-- Every listed path leads to an object. -/
theorem listed_at : ∀ (g : Forest D) (pre q : List Name), WF g → pre ++ q ∈ listed pre g → ∃ o, g.at q = some o
  | .nil, _, _, _, h => by simp [listed] at h
  | .group n kids rest, pre, q, hw, h => by
    rw [listed, List.mem_append, List.mem_append] at h
    rcases h with h | h | h
    · split_ifs at h
      · have := List.append_cancel_left (List.mem_singleton.1 h)
        subst this
        exact mem_at _ _ (List.mem_cons_self ..)
      · obtain ⟨k, hk, he⟩ := List.mem_map.1 h
        rw [List.append_assoc] at he
        have := List.append_cancel_left he
        subst this
        show ∃ o, (Forest.group n kids rest).at (n :: [k]) = some o
        rw [Forest.at, if_pos rfl, if_neg (by simp)]
        exact mem_at _ _ hk
    · obtain ⟨a, r, _, he⟩ := listed_prefix kids _ _ h
      rw [List.append_assoc] at he
      have := List.append_cancel_left he
      subst this
      rw [← List.append_assoc] at h
      obtain ⟨o, ho⟩ := listed_at kids (pre ++ [n]) (a :: r) hw.2.2.1 h
      exact ⟨o, by
        show (Forest.group n kids rest).at (n :: a :: r) = some o
        rw [Forest.at, if_pos rfl, if_neg (by simp), ho]⟩
    · obtain ⟨a, r, ha, he⟩ := listed_prefix rest _ _ h
      have := List.append_cancel_left he
      subst this
      obtain ⟨o, ho⟩ := listed_at rest pre (a :: r) hw.2.2.2 h
      refine ⟨o, ?_⟩
      rw [Forest.at, if_neg, ho]
      intro hc
      exact hw.2.1 (hc ▸ ha)
  | .dataset n d rest, pre, q, hw, h => by
    rw [listed, List.mem_cons] at h
    rcases h with h | h
    · have := List.append_cancel_left h
      subst this
      exact mem_at _ _ (List.mem_cons_self ..)
    · obtain ⟨a, r, ha, he⟩ := listed_prefix rest _ _ h
      have := List.append_cancel_left he
      subst this
      obtain ⟨o, ho⟩ := listed_at rest pre (a :: r) hw.2.2 h
      refine ⟨o, ?_⟩
      rw [Forest.at, if_neg, ho]
      intro hc
      exact hw.2.1 (hc ▸ ha)
  | .link n rest, pre, q, hw, h => by
    rw [listed] at h
    obtain ⟨a, r, ha, he⟩ := listed_prefix rest _ _ h
    have := List.append_cancel_left he
    subst this
    obtain ⟨o, ho⟩ := listed_at rest pre (a :: r) hw.2.2 h
    refine ⟨o, ?_⟩
    rw [Forest.at, if_neg, ho]
    intro hc
    exact hw.2.1 (hc ▸ ha)

theorem listedKeys_form : ∀ (g : Forest D) (pre : List Name) (k : Name), k ∈ listedKeys pre g →
    ∃ p ∈ listed pre g, k = join p ∨ k = '/' :: join p
  | .nil, _, _, h => by simp [listedKeys] at h
  | .group n kids rest, pre, k, h => by
    rw [listedKeys, List.mem_append, List.mem_append] at h
    simp only [listed, List.mem_append]
    rcases h with h | h | h
    · by_cases hk : kids.names.isEmpty = true
      · rw [if_pos hk] at h ⊢
        exact ⟨pre ++ [n], Or.inl (List.mem_singleton_self _), Or.inl (List.mem_singleton.1 h)⟩
      · rw [if_neg hk] at h ⊢
        obtain ⟨m, hm, rfl⟩ := List.mem_map.1 h
        exact ⟨_, Or.inl (List.mem_map.2 ⟨m, hm, rfl⟩), Or.inl rfl⟩
    · obtain ⟨p, hp, hf⟩ := listedKeys_form kids _ _ h
      exact ⟨p, Or.inr (Or.inl hp), hf⟩
    · obtain ⟨p, hp, hf⟩ := listedKeys_form rest _ _ h
      exact ⟨p, Or.inr (Or.inr hp), hf⟩
  | .dataset n d rest, pre, k, h => by
    rw [listedKeys, List.mem_cons] at h
    simp only [listed, List.mem_cons]
    rcases h with h | h
    · exact ⟨_, Or.inl rfl, Or.inr h⟩
    · obtain ⟨p, hp, hf⟩ := listedKeys_form rest _ _ h
      exact ⟨p, Or.inr hp, hf⟩
  | .link n rest, pre, k, h => by
    rw [listedKeys] at h
    rw [listed]
    exact listedKeys_form rest _ _ h

/-- An object that appears in the list: everything but links and non-empty groups at the top level. -/
def Shown (p : List Name) (o : Obj D) : Prop :=
  p.length = 1 → match o with
    | .link => False
    | .group kids => kids.names = []
    | .dataset _ => True

theorem listed_complete : ∀ (g : Forest D) (pre p : List Name) (o : Obj D), g.at p = some o → Shown p o → pre ++ p ∈ listed pre g
  | _, _, [], _, h, _ => by simp [Forest.at] at h
  | .nil, _, _ :: _, _, h, _ => by simp [Forest.at] at h
  | .group n kids rest, pre, a :: q, o, h, hs => by
    rw [Forest.at] at h
    rw [listed, List.mem_append, List.mem_append]
    by_cases ha : a = n
    · subst ha
      rw [if_pos rfl] at h
      by_cases hq : q = []
      · subst hq
        rw [if_pos rfl] at h
        have := Option.some.inj h
        subst this
        have hs : kids.names = [] := hs rfl
        left
        rw [if_pos (by simp [hs])]
        exact List.mem_singleton_self _
      · rw [if_neg hq] at h
        obtain ⟨b, r, rfl⟩ : ∃ b r, q = b :: r := by cases q with | nil => exact absurd rfl hq | cons b r => exact ⟨b, r, rfl⟩
        by_cases hr : r = []
        · subst hr
          left
          have hb := at_mem kids b [] _ h
          rw [if_neg (by intro hc; rw [List.isEmpty_iff] at hc; rw [hc] at hb; simp at hb)]
          exact List.mem_map.2 ⟨b, hb, by simp⟩
        · right; left
          have := listed_complete kids (pre ++ [a]) (b :: r) o h (fun hl => by
            cases r with
            | nil => exact absurd rfl hr
            | cons _ _ => simp at hl)
          rw [List.append_assoc] at this
          exact this
    · rw [if_neg ha] at h
      right; right
      exact listed_complete rest pre (a :: q) o h hs
  | .dataset n d rest, pre, a :: q, o, h, hs => by
    rw [Forest.at] at h
    rw [listed, List.mem_cons]
    by_cases ha : a = n
    · subst ha
      rw [if_pos rfl] at h
      by_cases hq : q = []
      · subst hq; exact Or.inl rfl
      · rw [if_neg hq] at h; cases h
    · rw [if_neg ha] at h
      exact Or.inr (listed_complete rest pre (a :: q) o h hs)
  | .link n rest, pre, a :: q, o, h, hs => by
    rw [Forest.at] at h
    rw [listed]
    by_cases ha : a = n
    · subst ha
      rw [if_pos rfl] at h
      by_cases hq : q = []
      · subst hq
        rw [if_pos rfl] at h
        have := Option.some.inj h
        subst this
        exact (hs rfl).elim
      · rw [if_neg hq] at h; cases h
    · rw [if_neg ha] at h
      exact listed_complete rest pre (a :: q) o h hs

theorem listed_shown : ∀ (g : Forest D) (p : List Name) (o : Obj D), WF g → g.at p = some o → p ∈ listed [] g → Shown p o
  | g, p, o, hw, h, hm => by
    intro hl
    obtain ⟨a, rfl⟩ := List.length_eq_one_iff.1 hl
    clear hl
    induction g with
    | nil => simp [listed] at hm
    | group n kids rest ih1 ih2 =>
      rw [Forest.at] at h
      rw [listed, List.mem_append, List.mem_append] at hm
      by_cases ha : a = n
      · rw [if_pos ha, if_pos rfl] at h
        have := Option.some.inj h
        subst this
        rcases hm with hm | hm | hm
        · split_ifs at hm with hk
          · exact List.isEmpty_iff.1 hk
          · obtain ⟨k, _, he⟩ := List.mem_map.1 hm
            simp at he
        · obtain ⟨b, r, _, he⟩ := listed_prefix kids _ _ hm
          simp at he
        · obtain ⟨b, r, hb, he⟩ := listed_prefix rest _ _ hm
          have : a = b := (List.cons.inj he).1
          exact absurd (ha ▸ this ▸ hb) hw.2.1
      · rw [if_neg ha] at h
        rcases hm with hm | hm | hm
        · split_ifs at hm with hk
          · have := (List.cons.inj (List.mem_singleton.1 hm)).1
            exact absurd this ha
          · obtain ⟨k, _, he⟩ := List.mem_map.1 hm
            simp at he
        · obtain ⟨b, r, _, he⟩ := listed_prefix kids _ _ hm
          simp at he
        · exact ih2 hw.2.2.2 h hm
    | dataset n d rest ih =>
      rw [Forest.at] at h
      rw [listed, List.mem_cons] at hm
      by_cases ha : a = n
      · rw [if_pos ha, if_pos rfl] at h
        have := Option.some.inj h
        subst this
        trivial
      · rw [if_neg ha] at h
        rcases hm with hm | hm
        · exact absurd (List.cons.inj hm).1 ha
        · exact ih hw.2.2 h hm
    | link n rest ih =>
      rw [Forest.at] at h
      rw [listed] at hm
      by_cases ha : a = n
      · obtain ⟨b, r, hb, he⟩ := listed_prefix rest _ _ hm
        have : a = b := (List.cons.inj he).1
        exact absurd (ha ▸ this ▸ hb) hw.2.1
      · rw [if_neg ha] at h
        exact ih hw.2.2 h hm

/-- Shape and type of an object, if it is a dataset. -/
def Obj.data : Obj D → Option D
  | .dataset d => some d
  | _ => none

/-- C101: each listed key is the path of an object of the file, and beside it stands the shape and type of that object (nothing if it is no
dataset); every object is listed, except links and non-empty groups at the top level. -/
theorem info_spec (f : Forest D) (hf : WF f) :
    (getHdfInformation f).1.length = (getHdfInformation f).2.length ∧
    (∀ ks ∈ (getHdfInformation f).1.zip (getHdfInformation f).2, ∃ p o, f.at p = some o ∧ (ks.1 = join p ∨ ks.1 = '/' :: join p) ∧
      ks.2 = o.data) ∧
    (∀ p o, f.at p = some o → (Shown p o ↔ ∃ ks ∈ (getHdfInformation f).1.zip (getHdfInformation f).2,
      (ks.1 = join p ∨ ks.1 = '/' :: join p) ∧ ks.2 = o.data)) := by
  have h1 : (getHdfInformation f).1 = listedKeys [] f := info_keys f hf _
  have h2 : (getHdfInformation f).2 = (getHdfInformation f).1.map (infoOf f) := rfl
  have h3 : (getHdfInformation f).1.zip (getHdfInformation f).2 = (listedKeys [] f).map fun k => (k, infoOf f k) := by
    rw [h2, h1]
    generalize listedKeys [] f = l
    induction l with
    | nil => rfl
    | cons a l ih => simp [ih]
  have hinfo : ∀ k p o, f.at p = some o → (k = join p ∨ k = '/' :: join p) → infoOf f k = o.data := by
    intro k p o hp hk
    have hg := at_good f p o hf hp
    have hc : comps k = p := by
      rcases hk with rfl | rfl
      · exact comps_join p hg
      · rw [comps_slash, comps_join p hg]
    unfold infoOf openKey
    rw [hc, hp]
    cases o <;> rfl
  refine ⟨by rw [h2, List.length_map], ?_, ?_⟩
  · intro ks hks
    rw [h3] at hks
    obtain ⟨k, hk, rfl⟩ := List.mem_map.1 hks
    obtain ⟨p, hp, hform⟩ := listedKeys_form f [] k hk
    obtain ⟨o, ho⟩ := listed_at f [] p hf hp
    exact ⟨p, o, ho, hform, hinfo k p o ho hform⟩
  · intro p o hp
    have hg := at_good f p o hf hp
    constructor
    · intro hs
      have hl := listed_complete f [] p o hp hs
      rw [List.nil_append, ← listed_comps f [] hf (by simp), List.mem_map] at hl
      obtain ⟨k, hk, hc⟩ := hl
      obtain ⟨p', hp', hform⟩ := listedKeys_form f [] k hk
      obtain ⟨o', ho'⟩ := listed_at f [] p' hf hp'
      have hg' := at_good f p' o' hf ho'
      have : comps k = p' := by
        rcases hform with rfl | rfl
        · exact comps_join p' hg'
        · rw [comps_slash, comps_join p' hg']
      rw [← this, hc] at hform
      exact ⟨(k, infoOf f k), by rw [h3]; exact List.mem_map.2 ⟨k, hk, rfl⟩, hform, hinfo k p o hp hform⟩
    · rintro ⟨ks, hks, hk, _⟩
      rw [h3] at hks
      obtain ⟨k, hkm, rfl⟩ := List.mem_map.1 hks
      have hcp : comps k = p := by
        rcases hk with rfl | rfl
        · exact comps_join p hg
        · rw [comps_slash, comps_join p hg]
      have hmem : p ∈ listed [] f := by
        rw [← listed_comps f [] hf (by simp), ← hcp]
        exact List.mem_map.2 ⟨k, hkm, rfl⟩
      exact listed_shown f p o hf hp hmem

/-- C101 refuted ("each dataset is listed once"): every dataset inside a group is listed twice (once without and once with a leading
slash), a dataset at the top level once. -/
theorem info_twice_refuted (f : Forest D) (hf : WF f) (p : List Name) (d : D) (hp : f.at p = some (.dataset d)) :
    ((getHdfInformation f).1.filter fun k => decide (k = join p ∨ k = '/' :: join p)).length = if p.length = 1 then 1 else 2 := by
  have hg := at_good f p _ hf hp
  have h1 : (getHdfInformation f).1 = listedKeys [] f := info_keys f hf _
  rw [h1, ← listed_count_dataset f [] p d hf hp, List.nil_append, ← listed_comps f [] hf (by simp), List.count, List.countP_map,
    List.countP_eq_length_filter]
  congr 1
  apply List.filter_congr
  intro k hk
  obtain ⟨p', hp', hform⟩ := listedKeys_form f [] k hk
  obtain ⟨o', ho'⟩ := listed_at f [] p' hf hp'
  have hg' := at_good f p' o' hf ho'
  have hck : comps k = p' := by
    rcases hform with rfl | rfl
    · exact comps_join p' hg'
    · rw [comps_slash, comps_join p' hg']
  show decide (k = join p ∨ k = '/' :: join p) = (comps k == p)
  rw [hck]
  by_cases h : p' = p
  · subst h
    simp [hform]
  · rw [show (p' == p) = false by simpa using h, decide_eq_false_iff_not]
    rintro (rfl | rfl)
    · rw [comps_join p hg] at hck; exact h hck.symm
    · rw [comps_slash, comps_join p hg] at hck; exact h hck.symm

theorem zip_info {α β : Type _} (g : α → β) (l : List α) : l.zip (l.map g) = l.map fun k => (k, g k) := by
  induction l with
  | nil => rfl
  | cons a l ih => simp [ih]

/-- C101: `find_hdf_key` returns the entries of `get_hdf_information` whose key contains the pattern, in the same order. -/
theorem find_spec (f : Forest D) (hf : WF f) (pattern : Name) :
    (findHdfKey f pattern).1.zip (findHdfKey f pattern).2 =
      ((getHdfInformation f).1.zip (getHdfInformation f).2).filter (fun ks => decide (pattern <:+: ks.1)) ∧
    (findHdfKey f pattern).1.length = (findHdfKey f pattern).2.length := by
  constructor
  · have h1 : (getHdfInformation f).1 = listedKeys [] f := info_keys f hf _
    have h2 : (getHdfInformation f).2 = (getHdfInformation f).1.map (infoOf f) := rfl
    have h3 : (findHdfKey f pattern).1 = (listedKeys [] f).filter fun k => decide (pattern <:+: k) := by
      rw [← info_keys f hf fun _ => []]
      unfold findHdfKey
      dsimp only
      apply List.filter_congr
      intro k _
      congr
    have h4 : (findHdfKey f pattern).2 = (findHdfKey f pattern).1.map (infoOf f) := rfl
    rw [h4, h3, h2, h1, zip_info, zip_info, List.filter_map]
    rfl
  · show _ = (List.map _ _).length
    rw [List.length_map]
    rfl

/-- A small file: `entry/data` (a dataset), `entry/link` (no target), an empty group and a dataset at the top level. -/
def exFile : Forest ℕ :=
  .group "entry".toList (.dataset "data".toList 7 (.link "link".toList .nil)) (.group "free".toList .nil (.dataset "top".toList 3 .nil))

example : WF exFile ∧ (getHdfInformation exFile) =
    (["entry/data".toList, "entry/link".toList, "/entry/data".toList, "free".toList, "/top".toList], [some 7, none, some 7, none, some 3]) ∧
    findHdfKey exFile "data".toList = (["entry/data".toList, "/entry/data".toList], [some 7, some 7]) := by
  refine ⟨?_, by decide, by decide⟩
  simp [WF, exFile, GoodName, Forest.names]

/-! ### C102: the tree view -/

/-- The printed content of a file: a text per object, nested (members of a group: first one, its own members, the remaining ones). -/
inductive LTree where
  | nil
  | node (text : Name) (kids rest : LTree)

/-- The text of an object is its name, for datasets followed by the shape. -/
def texts (shape : D → Option Name) : Forest D → LTree
  | .nil => .nil
  | .group n kids rest => .node n (texts shape kids) (texts shape rest)
  | .dataset n d rest => .node (match shape d with | some s => n ++ ' ' :: s | none => n) .nil (texts shape rest)
  | .link n rest => .node n .nil (texts shape rest)

/-- Depth and text of all objects, each before its members. -/
def LTree.preorder (d : ℕ) : LTree → List (ℕ × Name)
  | .nil => []
  | .node t kids rest => (d, t) :: (kids.preorder (d + 1) ++ rest.preorder d)

/-- Number of objects. -/
def LTree.size : LTree → ℕ
  | .nil => 0
  | .node _ kids rest => 1 + kids.size + rest.size

/-- How a reader understands a line: each leading column of four characters (`│` or blank) is one level; a branch and a blank come before the
text (only a blank for a single object at the top); a line that is nothing but vertical bars belongs to no object. -/
def parse : Name → Option (ℕ × Name)
  | a :: b :: c :: e :: r =>
    if [a, b, c, e] = ['├', '─', '─', ' '] ∨ [a, b, c, e] = ['└', '─', '─', ' '] then some (0, r)
    else if [a, b, c, e] = ['│', ' ', ' ', ' '] ∨ [a, b, c, e] = [' ', ' ', ' ', ' '] then (parse r).map fun x => (x.1 + 1, x.2)
    else if a = ' ' then some (0, b :: c :: e :: r) else none
  | a :: r => if a = ' ' then some (0, r) else none
  | [] => none

/-- Leading columns. -/
def cols (bs : List Bool) : Name := bs.flatMap fun b => if b then pipePrefix else spacePrefix

theorem parse_cols : ∀ (bs : List Bool) (r : Name), parse (cols bs ++ r) = (parse r).map fun x => (bs.length + x.1, x.2)
  | [], r => by
    rw [show cols [] ++ r = r from rfl]
    cases parse r with
    | none => rfl
    | some x => simp
  | b :: bs, r => by
    have h : cols (b :: bs) ++ r = (if b then pipePrefix else spacePrefix) ++ (cols bs ++ r) := by
      unfold cols; rw [List.flatMap_cons, List.append_assoc]
    rw [h]
    have h2 : ∀ s : Name, parse ((if b then pipePrefix else spacePrefix) ++ s) = (parse s).map fun x => (x.1 + 1, x.2) := by
      intro s
      cases b
      · show parse (' ' :: ' ' :: ' ' :: ' ' :: s) = _
        rw [parse, if_neg (by decide), if_pos (by decide)]
      · show parse ('│' :: ' ' :: ' ' :: ' ' :: s) = _
        rw [parse, if_neg (by decide), if_pos (by decide)]
    rw [h2, parse_cols bs r, Option.map_map]
    congr 1
    funext x
    simp only [Function.comp_apply, List.length_cons]
    congr 1
    ring

theorem parse_pipe (bs : List Bool) : parse (cols bs ++ pipe) = none := by
  rw [parse_cols]
  rfl

theorem cols_snoc (bs : List Bool) (last : Bool) : cols bs ++ (if last then spacePrefix else pipePrefix) = cols (bs ++ [!last]) := by
  unfold cols
  rw [List.flatMap_append]
  cases last <;> simp

theorem parse_line (bs : List Bool) (top single last : Bool) (t : Name) (ht : t.head? ≠ some ' ') (hb : top = true → bs = []) :
    parse (cols bs ++ connector top single last ++ ' ' :: t) = some (bs.length, t) := by
  rw [List.append_assoc, parse_cols]
  have : parse (connector top single last ++ ' ' :: t) = some (0, t) := by
    have htee : parse (tee ++ ' ' :: t) = some (0, t) := by
      show parse ('├' :: '─' :: '─' :: ' ' :: t) = _
      rw [parse, if_pos (by decide)]
    have help : parse (elbow ++ ' ' :: t) = some (0, t) := by
      show parse ('└' :: '─' :: '─' :: ' ' :: t) = _
      rw [parse, if_pos (by decide)]
    have hroot : parse (' ' :: t) = some (0, t) := by
      match t, ht with
      | [], _ => rfl
      | [a], _ => simp [parse]
      | [a, b], _ => simp [parse]
      | a :: b :: c :: r, ht =>
        have ha : a ≠ ' ' := by simpa using ht
        rw [parse, if_neg, if_neg, if_pos rfl]
        · simp [ha]
        · simp
    unfold connector
    split_ifs
    · exact hroot
    · exact help
    · exact help
    · exact htee
  rw [this]
  simp

/-- No object's name starts with a blank. -/
def NoBlank : Forest D → Prop
  | .nil => True
  | .group n kids rest => (n ≠ [] ∧ n.head? ≠ some ' ') ∧ NoBlank kids ∧ NoBlank rest
  | .dataset n _ rest => (n ≠ [] ∧ n.head? ≠ some ' ') ∧ NoBlank rest
  | .link n rest => (n ≠ [] ∧ n.head? ≠ some ' ') ∧ NoBlank rest

theorem label_head (n : Name) (s : Option Name) (h : n ≠ [] ∧ n.head? ≠ some ' ') : (label n s).head? ≠ some ' ' := by
  obtain ⟨a, r, rfl⟩ : ∃ a r, n = a :: r := by cases n with | nil => exact absurd rfl h.1 | cons a r => exact ⟨a, r, rfl⟩
  cases s <;> exact h.2

theorem headLine_parse (bs : List Bool) (f : Forest D) : (headLine (cols bs) f).filterMap parse = [] := by
  unfold headLine
  split_ifs
  · rw [List.filterMap_cons_none (parse_pipe bs), List.filterMap_nil]
  · rfl

theorem branches_parse (shape : D → Option Name) : ∀ (f : Forest D) (bs : List Bool) (top single : Bool), NoBlank f → (top = true → bs = []) →
    (branches shape (cols bs) top single f).filterMap parse = (texts shape f).preorder bs.length
  | .nil, _, _, _, _, _ => rfl
  | .group n kids rest, bs, top, single, hn, hb => by
    rw [branches]
    rw [List.filterMap_cons_some (parse_line bs top single _ _ (label_head n none hn.1) hb), List.filterMap_append, List.filterMap_append,
      cols_snoc, headLine_parse, branches_parse shape kids _ false _ hn.2.1 (by simp), branches_parse shape rest bs top single hn.2.2 hb,
      texts, LTree.preorder]
    simp [label]
  | .dataset n d rest, bs, top, single, hn, hb => by
    rw [branches, List.filterMap_cons_some (parse_line bs top single _ _ (label_head n (shape d) hn.1) hb),
      branches_parse shape rest bs top single hn.2 hb, texts, LTree.preorder]
    rfl
  | .link n rest, bs, top, single, hn, hb => by
    rw [branches, List.filterMap_cons_some (parse_line bs top single _ _ (label_head n none hn.1) hb),
      branches_parse shape rest bs top single hn.2 hb, texts, LTree.preorder]
    rfl

/-- C102: the lines of the tree view, as a reader understands them, are the objects of the file with their depth and text, each exactly once and
before its members; the remaining lines are vertical bars. -/
theorem tree_lines (shape : D → Option Name) (f : Forest D) (hf : NoBlank f) :
    (getHdfTree shape f).filterMap parse = (texts shape f).preorder 0 := by
  unfold getHdfTree
  rw [List.filterMap_append]
  have h1 := headLine_parse [] f
  have h2 := branches_parse shape f [] true (f.names.length = 1) hf (fun _ => rfl)
  rw [show cols [] = [] from rfl] at h1 h2
  rw [h1, h2]
  rfl

/-- No object. -/
def LTree.isNil : LTree → Bool
  | .nil => true
  | .node .. => false

/-- For every object in the same order: is it the last member of its group? -/
def LTree.lasts : LTree → List Bool
  | .nil => []
  | .node _ kids rest => rest.isNil :: (kids.lasts ++ rest.lasts)

/-- How a reader sees whether more members of the same group follow: `├──` if so, `└──` (or no branch, for a single object at the top) if not. -/
def mark : Name → Option Bool
  | a :: b :: c :: e :: r =>
    if [a, b, c, e] = ['├', '─', '─', ' '] then some false
    else if [a, b, c, e] = ['└', '─', '─', ' '] then some true
    else if [a, b, c, e] = ['│', ' ', ' ', ' '] ∨ [a, b, c, e] = [' ', ' ', ' ', ' '] then mark r
    else if a = ' ' then some true else none
  | a :: _ => if a = ' ' then some true else none
  | [] => none

theorem mark_cols : ∀ (bs : List Bool) (r : Name), mark (cols bs ++ r) = mark r
  | [], r => rfl
  | b :: bs, r => by
    have h : cols (b :: bs) ++ r = (if b then pipePrefix else spacePrefix) ++ (cols bs ++ r) := by
      unfold cols; rw [List.flatMap_cons, List.append_assoc]
    rw [h]
    have h2 : ∀ s : Name, mark ((if b then pipePrefix else spacePrefix) ++ s) = mark s := by
      intro s
      cases b
      · show mark (' ' :: ' ' :: ' ' :: ' ' :: s) = _
        rw [mark, if_neg (by decide), if_neg (by decide), if_pos (by decide)]
      · show mark ('│' :: ' ' :: ' ' :: ' ' :: s) = _
        rw [mark, if_neg (by decide), if_neg (by decide), if_pos (by decide)]
    rw [h2, mark_cols bs r]

theorem mark_line (bs : List Bool) (top single last : Bool) (t : Name) (ht : t.head? ≠ some ' ') (hs : single = true → last = true) :
    mark (cols bs ++ connector top single last ++ ' ' :: t) = some last := by
  rw [List.append_assoc, mark_cols]
  have htee : mark (tee ++ ' ' :: t) = some false := by
    show mark ('├' :: '─' :: '─' :: ' ' :: t) = _
    rw [mark, if_pos (by decide)]
  have help : mark (elbow ++ ' ' :: t) = some true := by
    show mark ('└' :: '─' :: '─' :: ' ' :: t) = _
    rw [mark, if_neg (by decide), if_pos (by decide)]
  have hroot : mark (' ' :: t) = some true := by
    match t, ht with
    | [], _ => rfl
    | [a], _ => simp [mark]
    | [a, b], _ => simp [mark]
    | a :: b :: c :: r, ht =>
      have ha : a ≠ ' ' := by simpa using ht
      rw [mark, if_neg, if_neg, if_neg, if_pos rfl]
      · simp [ha]
      · simp
      · simp
  cases single with
  | true =>
    rw [hs rfl]
    cases top
    · exact help
    · exact hroot
  | false => cases last
             · exact htee
             · exact help

theorem headLine_mark (bs : List Bool) (f : Forest D) : (headLine (cols bs) f).filterMap mark = [] := by
  unfold headLine
  split_ifs
  · rw [List.filterMap_cons_none (by rw [mark_cols]; rfl), List.filterMap_nil]
  · rfl

theorem texts_nil (shape : D → Option Name) (f : Forest D) : (texts shape f).isNil = f.names.isEmpty := by
  cases f <;> rfl

theorem branches_mark (shape : D → Option Name) : ∀ (f : Forest D) (bs : List Bool) (top single : Bool), NoBlank f → (single = true → f.names.length ≤ 1) →
    (branches shape (cols bs) top single f).filterMap mark = (texts shape f).lasts
  | .nil, _, _, _, _, _ => rfl
  | .group n kids rest, bs, top, single, hn, hs => by
    have hl : single = true → rest.names.isEmpty = true := fun h => by
      have := hs h; simp only [Forest.names, List.length_cons] at this
      rw [List.isEmpty_iff_length_eq_zero]; omega
    have hr : single = true → rest.names.length ≤ 1 := fun h => by
      have := hs h; simp only [Forest.names, List.length_cons] at this; omega
    rw [branches]
    rw [List.filterMap_cons_some (mark_line bs top single _ _ (label_head n none hn.1) hl), List.filterMap_append, List.filterMap_append,
      cols_snoc, headLine_mark, branches_mark shape kids _ false _ hn.2.1 (by simp; omega), branches_mark shape rest bs top single hn.2.2 hr,
      texts, LTree.lasts, texts_nil, List.nil_append]
  | .dataset n d rest, bs, top, single, hn, hs => by
    have hl : single = true → rest.names.isEmpty = true := fun h => by
      have := hs h; simp only [Forest.names, List.length_cons] at this
      rw [List.isEmpty_iff_length_eq_zero]; omega
    have hr : single = true → rest.names.length ≤ 1 := fun h => by
      have := hs h; simp only [Forest.names, List.length_cons] at this; omega
    rw [branches, List.filterMap_cons_some (mark_line bs top single _ _ (label_head n (shape d) hn.1) hl),
      branches_mark shape rest bs top single hn.2 hr, texts, LTree.lasts, texts_nil]
    rfl
  | .link n rest, bs, top, single, hn, hs => by
    have hl : single = true → rest.names.isEmpty = true := fun h => by
      have := hs h; simp only [Forest.names, List.length_cons] at this
      rw [List.isEmpty_iff_length_eq_zero]; omega
    have hr : single = true → rest.names.length ≤ 1 := fun h => by
      have := hs h; simp only [Forest.names, List.length_cons] at this; omega
    rw [branches, List.filterMap_cons_some (mark_line bs top single _ _ (label_head n none hn.1) hl),
      branches_mark shape rest bs top single hn.2 hr, texts, LTree.lasts, texts_nil]
    rfl

/-- C102: the branch of a line tells whether the object is the last member of its group. -/
theorem tree_marks (shape : D → Option Name) (f : Forest D) (hf : NoBlank f) : (getHdfTree shape f).filterMap mark = (texts shape f).lasts := by
  unfold getHdfTree
  rw [List.filterMap_append]
  have h1 := headLine_mark [] f
  have h2 := branches_mark shape f [] true (f.names.length = 1) hf (by simp; omega)
  rw [show cols [] = [] from rfl] at h1 h2
  rw [h1, h2]
  rfl

theorem preorder_length : ∀ (t : LTree) (d : ℕ), (t.preorder d).length = t.size
  | .nil, _ => rfl
  | .node _ kids rest, d => by
    rw [LTree.preorder, LTree.size, List.length_cons, List.length_append, preorder_length kids, preorder_length rest]
    ring

theorem preorder_depth : ∀ (t : LTree) (d : ℕ), ∀ x ∈ t.preorder d, d ≤ x.1
  | .nil, _, x, h => by simp [LTree.preorder] at h
  | .node _ kids rest, d, x, h => by
    rw [LTree.preorder, List.mem_cons, List.mem_append] at h
    rcases h with rfl | h | h
    · exact le_rfl
    · have := preorder_depth kids _ x h; omega
    · exact preorder_depth rest _ x h

theorem preorder_inj : ∀ (s t : LTree) (d : ℕ) (u v : List (ℕ × Name)), (∀ x, u.head? = some x → x.1 < d) → (∀ x, v.head? = some x → x.1 < d) →
    s.preorder d ++ u = t.preorder d ++ v → s = t ∧ u = v
  | .nil, .nil, _, u, v, _, _, h => ⟨rfl, h⟩
  | .nil, .node a k r, d, u, v, hu, _, h => by
    have := hu (d, a) (by rw [LTree.preorder, List.nil_append] at h; rw [h, LTree.preorder]; rfl)
    simp at this
  | .node a k r, .nil, d, u, v, _, hv, h => by
    have := hv (d, a) (by rw [LTree.preorder, LTree.preorder, List.nil_append] at h; rw [← h]; rfl)
    simp at this
  | .node a k r, .node b k' r', d, u, v, hu, hv, h => by
    rw [LTree.preorder, LTree.preorder, List.cons_append, List.cons_append, List.append_assoc, List.append_assoc] at h
    have h1 := List.cons.inj h
    have hab := (Prod.mk.inj h1.1).2
    have hhead : ∀ (q : LTree) (w : List (ℕ × Name)), (∀ x, w.head? = some x → x.1 < d) → ∀ x, (q.preorder d ++ w).head? = some x → x.1 < d + 1 := by
      intro q w hw x hx
      cases q with
      | nil => exact Nat.lt_succ_of_lt (hw x hx)
      | node c k r =>
        rw [LTree.preorder, List.cons_append, List.head?_cons] at hx
        rw [← Option.some.inj hx]
        exact Nat.lt_succ_self d
    obtain ⟨h2, h3⟩ := preorder_inj k k' (d + 1) _ _ (hhead r u hu) (hhead r' v hv) h1.2
    obtain ⟨h4, h5⟩ := preorder_inj r r' d u v hu hv h3
    exact ⟨by rw [hab, h2, h4], h5⟩

/-- C102: the tree view tells files apart: if two files are printed alike, they have the same objects with the same names and shapes. -/
theorem tree_injective (shape : D → Option Name) (f g : Forest D) (hf : NoBlank f) (hg : NoBlank g)
    (h : getHdfTree shape f = getHdfTree shape g) : texts shape f = texts shape g := by
  have := congrArg (List.filterMap parse) h
  rw [tree_lines shape f hf, tree_lines shape g hg] at this
  exact (preorder_inj _ _ 0 [] [] (by simp) (by simp) (by simpa using this)).1

theorem texts_paths (f : Forest D) : ∀ g : Forest D, texts (fun _ => none) f = texts (fun _ => none) g →
    ∀ p, (f.at p).isSome = (g.at p).isSome := by
  induction f with
  | nil =>
    intro g h
    cases g with
    | nil => intro p; rfl
    | group n k r => cases h
    | dataset n d r => cases h
    | link n r => cases h
  | group n k r ihk ihr =>
    intro g h p
    have hempty : ∀ {k : Forest D}, LTree.nil = texts (fun _ => none) k → ∀ q, (k.at q).isSome = false := by
      intro k hk q
      cases k with
      | nil => cases q <;> rfl
      | group => cases hk
      | dataset => cases hk
      | link => cases hk
    cases g with
    | nil => cases h
    | group n' k' r' =>
      rw [texts, texts] at h
      injection h with h1 h2 h3
      subst h1
      cases p with
      | nil => rfl
      | cons a q =>
        rw [Forest.at, Forest.at]
        split_ifs
        · rfl
        · exact ihk k' h2 q
        · exact ihr r' h3 _
    | dataset n' d r' =>
      rw [texts, texts] at h
      injection h with h1 h2 h3
      subst h1
      cases p with
      | nil => rfl
      | cons a q =>
        rw [Forest.at, Forest.at]
        split_ifs
        · rfl
        · exact hempty h2.symm q
        · exact ihr r' h3 _
    | link n' r' =>
      rw [texts, texts] at h
      injection h with h1 h2 h3
      subst h1
      cases p with
      | nil => rfl
      | cons a q =>
        rw [Forest.at, Forest.at]
        split_ifs
        · rfl
        · exact hempty h2.symm q
        · exact ihr r' h3 _
  | dataset n d r ihr =>
    intro g h p
    have hempty : ∀ {k : Forest D}, LTree.nil = texts (fun _ => none) k → ∀ q, (k.at q).isSome = false := by
      intro k hk q
      cases k with
      | nil => cases q <;> rfl
      | group => cases hk
      | dataset => cases hk
      | link => cases hk
    cases g with
    | nil => cases h
    | group n' k' r' =>
      rw [texts, texts] at h
      injection h with h1 h2 h3
      subst h1
      cases p with
      | nil => rfl
      | cons a q =>
        rw [Forest.at, Forest.at]
        split_ifs
        · rfl
        · exact (hempty h2 q).symm
        · exact ihr r' h3 _
    | dataset n' d r' =>
      rw [texts, texts] at h
      injection h with h1 h2 h3
      subst h1
      cases p with
      | nil => rfl
      | cons a q =>
        rw [Forest.at, Forest.at]
        split_ifs
        · rfl
        · rfl
        · exact ihr r' h3 _
    | link n' r' =>
      rw [texts, texts] at h
      injection h with h1 h2 h3
      subst h1
      cases p with
      | nil => rfl
      | cons a q =>
        rw [Forest.at, Forest.at]
        split_ifs
        · rfl
        · rfl
        · exact ihr r' h3 _
  | link n r ihr =>
    intro g h p
    have hempty : ∀ {k : Forest D}, LTree.nil = texts (fun _ => none) k → ∀ q, (k.at q).isSome = false := by
      intro k hk q
      cases k with
      | nil => cases q <;> rfl
      | group => cases hk
      | dataset => cases hk
      | link => cases hk
    cases g with
    | nil => cases h
    | group n' k' r' =>
      rw [texts, texts] at h
      injection h with h1 h2 h3
      subst h1
      cases p with
      | nil => rfl
      | cons a q =>
        rw [Forest.at, Forest.at]
        split_ifs
        · rfl
        · exact (hempty h2 q).symm
        · exact ihr r' h3 _
    | dataset n' d r' =>
      rw [texts, texts] at h
      injection h with h1 h2 h3
      subst h1
      cases p with
      | nil => rfl
      | cons a q =>
        rw [Forest.at, Forest.at]
        split_ifs
        · rfl
        · rfl
        · exact ihr r' h3 _
    | link n' r' =>
      rw [texts, texts] at h
      injection h with h1 h2 h3
      subst h1
      cases p with
      | nil => rfl
      | cons a q =>
        rw [Forest.at, Forest.at]
        split_ifs
        · rfl
        · rfl
        · exact ihr r' h3 _

/-- C102: without shapes, two files printed alike have objects at the same paths. -/
theorem tree_paths (f g : Forest D) (hf : NoBlank f) (hg : NoBlank g)
    (h : getHdfTree (fun _ => none) f = getHdfTree (fun _ => none) g) (p : List Name) : (f.at p).isSome = (g.at p).isSome :=
  texts_paths f g (tree_injective _ f g hf hg h) p

/-- Number of objects of a file. -/
def Forest.size : Forest D → ℕ
  | .nil => 0
  | .group _ kids rest => 1 + kids.size + rest.size
  | .dataset _ _ rest => 1 + rest.size
  | .link _ rest => 1 + rest.size

/-- C102: as many object lines as objects. -/
theorem tree_count (shape : D → Option Name) (f : Forest D) (hf : NoBlank f) :
    ((getHdfTree shape f).filterMap parse).length = f.size := by
  rw [tree_lines shape f hf, preorder_length]
  clear hf
  induction f with
  | nil => rfl
  | group n k r h1 h2 => rw [texts, LTree.size, h1, h2]; rfl
  | dataset n d r h1 => rw [texts, LTree.size, h1]; rfl
  | link n r h1 => rw [texts, LTree.size, h1]; rfl

/-- The display of the small file; it meets the hypothesis. -/
example : NoBlank exFile ∧ getHdfTree (fun d => some (if d = 7 then "(7,)".toList else "(3,)".toList)) exFile =
    ["│".toList, "├── entry".toList, "│   │".toList, "│   ├── data (7,)".toList, "│   └── link".toList, "├── free".toList, "└── top (3,)".toList] := by
  refine ⟨?_, by decide +kernel⟩
  simp [NoBlank, exFile]

/-- A dangling link and an empty group look alike in the tree. -/
theorem tree_link_group (shape : D → Option Name) (n : Name) :
    getHdfTree shape (.link n .nil : Forest D) = getHdfTree shape (.group n .nil .nil) := rfl

/-! ### C103: open_hdf_stream -/

/-- Neither path is a beginning of the other. -/
def Apart (p q : List Name) : Prop := ¬ p <+: q ∧ ¬ q <+: p

theorem compatible_iff (p q : List Name) : compatible p q = true ↔ Apart p q := by
  unfold compatible Apart
  rw [Bool.and_eq_true, Bool.not_eq_true', Bool.not_eq_true', ← Bool.not_eq_true, ← Bool.not_eq_true, List.isPrefixOf_iff_prefix,
    List.isPrefixOf_iff_prefix]

theorem create_ok (ps : List (List Name)) (key : Name) (ps' : List (List Name)) :
    createDataset ps key = .ok ps' ↔ (comps key ≠ [] ∧ ∀ p ∈ ps, Apart (comps key) p) ∧ ps' = ps ++ [comps key] := by
  unfold createDataset
  have : ps.all (compatible (comps key)) = true ↔ ∀ p ∈ ps, Apart (comps key) p := by
    rw [List.all_eq_true]
    exact forall₂_congr fun p _ => compatible_iff _ _
  rw [← this]
  split_ifs with h
  · rw [Except.ok.injEq]; exact ⟨fun h1 => ⟨h, h1.symm⟩, fun h1 => h1.2.symm⟩
  · exact ⟨fun h1 => (nomatch h1), fun h1 => absurd h1.1 h⟩

theorem add_ok (keyPath : Name) : ∀ (opts : List Name) (ps ps' : List (List Name)), addOptions keyPath opts ps = (ps', .ok ()) ↔
    (∀ k ∈ opts, ¬ keyPath <:+: k ∧ comps k ≠ [] ∧ ∀ p ∈ ps, Apart (comps k) p) ∧ (opts.map comps).Pairwise (fun p q => Apart q p) ∧
      ps' = ps ++ opts.map comps
  | [], ps, ps' => by
    rw [addOptions, List.map_nil, List.append_nil]
    constructor
    · intro h
      exact ⟨fun k hk => absurd hk (List.not_mem_nil), List.Pairwise.nil, (Prod.mk.inj h).1.symm⟩
    · rintro ⟨_, _, rfl⟩
      rfl
  | key :: rest, ps, ps' => by
    rw [addOptions]
    by_cases h : keyPath <:+: key
    · rw [if_pos h]
      simp [h]
    · rw [if_neg h]
      cases hc : createDataset ps key with
      | error e =>
        dsimp only
        constructor
        · intro h1; simp at h1
        · rintro ⟨h1, _, _⟩
          have h2 := h1 key (List.mem_cons_self ..)
          have := (create_ok ps key _).2 ⟨h2.2, rfl⟩
          rw [this] at hc; cases hc
      | ok ps1 =>
        dsimp only
        obtain ⟨h1, h2⟩ := (create_ok ps key ps1).1 hc
        subst h2
        rw [add_ok keyPath rest]
        simp only [List.mem_cons, List.map_cons, List.pairwise_cons, List.mem_append, List.mem_singleton, List.append_assoc,
          List.singleton_append, List.mem_map]
        constructor
        · rintro ⟨h3, h4, h5⟩
          refine ⟨?_, ⟨?_, h4⟩, h5⟩
          · rintro k (rfl | hk)
            · exact ⟨h, h1⟩
            · exact ⟨(h3 k hk).1, (h3 k hk).2.1, fun p hp => (h3 k hk).2.2 p (Or.inl hp)⟩
          · rintro q ⟨k, hk, rfl⟩
            exact (h3 k hk).2.2 _ (Or.inr (Or.inl rfl))
        · rintro ⟨h3, ⟨h4, h4'⟩, h5⟩
          refine ⟨fun k hk => ⟨(h3 k (Or.inr hk)).1, (h3 k (Or.inr hk)).2.1, ?_⟩, h4', h5⟩
          rintro p (hp | hp | hp)
          · exact (h3 k (Or.inr hk)).2.2 p hp
          · rw [hp]; exact h4 _ ⟨k, hk, rfl⟩
          · simp at hp

/-- C103 (partial): exactly when a stream can be opened, and what the file then holds: the additional datasets in order, and the one asked
for.  The part that is not what the message says is that additional keys are refused whenever they *contain* the main key as text. -/
theorem stream_spec_partial (old : List (List Name)) (keyPath : Name) (opts : List Name) :
    ((openStream old keyPath opts).2 = .ok () ↔ comps keyPath ≠ [] ∧ (∀ k ∈ opts, comps k ≠ [] ∧ ¬ keyPath <:+: k) ∧
      ((opts ++ [keyPath]).map comps).Pairwise (fun p q => Apart q p)) ∧
    ((openStream old keyPath opts).2 = .ok () → (openStream old keyPath opts).1 = opts.map comps ++ [comps keyPath]) := by
  have key : ∀ ps', addOptions keyPath opts [] = (ps', .ok ()) ↔ ((∀ k ∈ opts, comps k ≠ [] ∧ ¬ keyPath <:+: k) ∧
      (opts.map comps).Pairwise (fun p q => Apart q p)) ∧ ps' = opts.map comps := by
    intro ps'
    rw [add_ok]
    constructor
    · rintro ⟨h1, h2, h3⟩
      exact ⟨⟨fun k hk => ⟨(h1 k hk).2.1, (h1 k hk).1⟩, h2⟩, by simpa using h3⟩
    · rintro ⟨⟨h1, h2⟩, h3⟩
      exact ⟨fun k hk => ⟨(h1 k hk).2, (h1 k hk).1, by simp⟩, h2, by simpa using h3⟩
  have hpw : ((opts ++ [keyPath]).map comps).Pairwise (fun p q => Apart q p) ↔
      (opts.map comps).Pairwise (fun p q => Apart q p) ∧ ∀ p ∈ opts.map comps, Apart (comps keyPath) p := by
    rw [List.map_append, List.pairwise_append]
    simp
  unfold openStream
  cases ha : addOptions keyPath opts [] with
  | mk ps r =>
    cases r with
    | error e =>
      dsimp only
      refine ⟨⟨fun h => (nomatch h), fun h => ?_⟩, fun h => nomatch h⟩
      rw [hpw] at h
      have := (key _).2 ⟨⟨h.2.1, h.2.2.1⟩, rfl⟩
      rw [ha] at this
      cases this
    | ok u =>
      have h1 := (key ps).1 ha
      dsimp only
      cases hc : createDataset ps keyPath with
      | error e =>
        dsimp only
        refine ⟨⟨fun h => (nomatch h), fun h => ?_⟩, fun h => nomatch h⟩
        rw [hpw] at h
        have := (create_ok ps keyPath _).2 ⟨⟨h.1, by rw [h1.2]; exact h.2.2.2⟩, rfl⟩
        rw [hc] at this
        cases this
      | ok ps2 =>
        dsimp only
        obtain ⟨h2, h3⟩ := (create_ok _ _ _).1 hc
        rw [hpw]
        refine ⟨⟨fun _ => ⟨h2.1, h1.1.1, h1.1.2, by rw [← h1.2]; exact h2.2⟩, fun _ => rfl⟩, fun _ => by rw [h3, h1.2]⟩

/-- C103 refuted ("refused only if it is a child of the main key"): a key that merely continues the last name of the main key (`entry/data2`
beside `entry/data`) is refused although the two datasets could stand side by side. -/
theorem stream_sibling_refuted (p : List Name) (n s : Name) (hp : ∀ m ∈ p, GoodName m) (hn : GoodName n) (hs : GoodName s) :
    Apart (comps (join (p ++ [n]))) (comps (join (p ++ [n ++ s]))) ∧
    ∀ old, (openStream old (join (p ++ [n])) [join (p ++ [n ++ s])]).2 = .error .valueError := by
  have hns : GoodName (n ++ s) := ⟨by simp [hn.1], by simp [hn.2, hs.2]⟩
  constructor
  · rw [comps_join, comps_join]
    · constructor
      · intro h
        rw [List.prefix_append_right_inj] at h
        obtain ⟨t, ht⟩ := h
        have := (List.cons.inj ht).1
        rw [List.self_eq_append_right] at this
        exact hs.1 this
      · intro h
        rw [List.prefix_append_right_inj] at h
        obtain ⟨t, ht⟩ := h
        have := (List.cons.inj ht).1
        have := congrArg List.length this
        rw [List.length_append] at this
        exact hs.1 (List.length_eq_zero_iff.1 (by omega))
    · intro m hm
      rcases List.mem_append.1 hm with h | h
      · exact hp m h
      · rw [List.mem_singleton.1 h]; exact hns
    · intro m hm
      rcases List.mem_append.1 hm with h | h
      · exact hp m h
      · rw [List.mem_singleton.1 h]; exact hn
  · intro old
    have hin : join (p ++ [n]) <:+: join (p ++ [n ++ s]) := by
      apply List.IsPrefix.isInfix
      cases p with
      | nil => exact List.prefix_append n s
      | cons a p =>
        rw [join_snoc _ n (by simp), join_snoc _ (n ++ s) (by simp)]
        exact ⟨s, by simp⟩
    unfold openStream
    rw [addOptions, if_pos hin]

/-- C103: whatever the outcome, nothing of the previous content of the file is left — also when the call is refused. -/
theorem stream_old_lost (old old' : List (List Name)) (keyPath : Name) (opts : List Name) :
    openStream old keyPath opts = openStream old' keyPath opts := rfl

/-- C103 refuted ("a refused call leaves the file as it was"): with a child key the file ends up empty. -/
theorem stream_refused_truncates (old : List (List Name)) (keyPath key : Name) (rest : List Name) (h : keyPath <:+: key) :
    openStream old keyPath (key :: rest) = ([], .error .valueError) := by
  unfold openStream
  rw [addOptions, if_pos h]

/-- C103 refuted ("different names give different files"): names that differ only in an extension that is not an hdf one are written to the
same file; hdf extensions are kept. -/
theorem stream_name_spec (stem ext : Name) :
    (streamName stem ".hdf".toList = stem ++ ".hdf".toList ∧ streamName stem ".nxs".toList = stem ++ ".nxs".toList ∧
      streamName stem ".H5".toList = stem ++ ".H5".toList ∧ streamName stem ".hdf5".toList = stem ++ ".hdf5".toList) ∧
    (ext.map Char.toLower ∉ [".hdf".toList, ".h5".toList, ".nxs".toList, ".hdf5".toList] →
      streamName stem ext = streamName stem ".hdf".toList) := by
  refine ⟨⟨?_, ?_, ?_, ?_⟩, ?_⟩
  · unfold streamName; rw [if_pos (by decide)]
  · unfold streamName; rw [if_pos (by decide)]
  · unfold streamName; rw [if_pos (by decide)]
  · unfold streamName; rw [if_pos (by decide)]
  · intro h
    unfold streamName
    rw [if_neg h, if_pos (by decide)]

/-- Non-vacuity: metadata beside the data is accepted. -/
example : openStream [["old".toList]] "entry/data".toList ["entry/angles".toList, "meta".toList] =
    ([["entry".toList, "angles".toList], ["meta".toList], ["entry".toList, "data".toList]], .ok ()) := by
  decide +kernel

end Verif.Hdf
