import Verif.Model.HdfTree
import Verif.Props.Hdf

/-! C102 — the recursion by paths prints what the recursion on the tree prints. -/

set_option linter.unusedSectionVars false
set_option linter.unusedSimpArgs false

namespace Verif.Hdf
open Verif.Io

variable {D : Type _}

/-- Members in increasing order of their names, in every group. -/
def Ordered : Forest D → Prop
  | .nil => True
  | .group n kids rest => (∀ m ∈ rest.names, n ≤ m) ∧ Ordered kids ∧ Ordered rest
  | .dataset n _ rest => (∀ m ∈ rest.names, n ≤ m) ∧ Ordered rest
  | .link n rest => (∀ m ∈ rest.names, n ≤ m) ∧ Ordered rest

/-- Number of levels of the tree. -/
def depth : Forest D → ℕ
  | .nil => 0
  | .group _ kids rest => max (depth kids + 1) (depth rest)
  | .dataset _ _ rest => max 1 (depth rest)
  | .link _ rest => max 1 (depth rest)

theorem ordered_pairwise : ∀ f : Forest D, Ordered f → f.names.Pairwise (fun a b => a ≤ b)
  | .nil, _ => List.Pairwise.nil
  | .group _ _ rest, h => List.pairwise_cons.2 ⟨h.1, ordered_pairwise rest h.2.2⟩
  | .dataset _ _ rest, h => List.pairwise_cons.2 ⟨h.1, ordered_pairwise rest h.2⟩
  | .link _ rest, h => List.pairwise_cons.2 ⟨h.1, ordered_pairwise rest h.2⟩

theorem sortNames_eq (f : Forest D) (h : Ordered f) : sortNames f.names = f.names :=
  List.mergeSort_of_pairwise ((ordered_pairwise f h).imp fun {a b} hab => by simpa using hab)

/-- The key of the group reached by the path `p`. -/
def keyOf (p : List Name) : Name := if p = [] then [] else '/' :: join p

theorem keyOf_snoc (p : List Name) (n : Name) : keyOf p ++ '/' :: n = '/' :: join (p ++ [n]) := by
  unfold keyOf
  by_cases h : p = []
  · subst h; rfl
  · rw [if_neg h, join_snoc p n h]
    rfl

/-- What is found at the end of a link: nothing. -/
def seen : Obj D → Option (Obj D)
  | .link => none
  | o => some o

theorem openKey_some (F : Forest D) (p : List Name) (hp : ∀ n ∈ p, GoodName n) (o : Obj D) (ho : F.at p = some o) :
    openKey F ('/' :: join p) = seen o := by
  unfold openKey
  rw [comps_slash, comps_join p hp, ho]
  cases o <;> rfl

/-- The shape printed beside an object. -/
def shapeOf (shape : D → Option Name) : Obj D → Option Name
  | .dataset d => shape d
  | _ => none

theorem body_empty (shape : D → Option Name) (F : Forest D) (fuel level : ℕ) (pre k : Name) (h : ∀ g, openKey F k ≠ some (.group g)) :
    makeTreeBody shape F fuel pre (some k) level = [] := by
  cases fuel with
  | zero => rfl
  | succ n =>
    have : getSubgroups F (some k) = ([], k) := by
      unfold getSubgroups
      dsimp only
      cases ho : openKey F k with
      | none => rfl
      | some o =>
        cases o with
        | group g => exact absurd ho (h g)
        | dataset d => rfl
        | link => rfl
    rw [makeTreeBody, this]
    rfl

/-- One member. -/
theorem add_eq (shape : D → Option Name) (F : Forest D) (body : Name → Option Name → ℕ → List Name) (p : List Name) (n : Name)
    (hp : ∀ m ∈ p ++ [n], GoodName m) (o : Obj D) (ho : F.at (p ++ [n]) = some o) (index last level : ℕ) (pre conn : Name) :
    addBranches shape F body (keyOf p) n index last pre conn level =
      (pre ++ conn ++ ' ' :: label n (shapeOf shape o)) ::
        body (pre ++ if index = last then spacePrefix else pipePrefix) (some ('/' :: join (p ++ [n]))) level := by
  unfold addBranches
  dsimp only
  rw [keyOf_snoc, openKey_some F _ hp o ho]
  have hpre : (if index ≠ last then pre ++ pipePrefix else pre ++ spacePrefix) = pre ++ if index = last then spacePrefix else pipePrefix := by
    by_cases h : index = last
    · rw [if_neg (not_not.2 h), if_pos h]
    · rw [if_pos h, if_neg h]
  rw [hpre]
  cases o with
  | group g => rfl
  | link => rfl
  | dataset d =>
    dsimp only [shapeOf, seen]
    cases shape d with
    | none => rfl
    | some s =>
      dsimp only [label]
      simp

/-- The members of a group, one after the other, given that the bodies of its subgroups are right. -/
theorem members_eq (shape : D → Option Name) (F : Forest D) (fuel : ℕ) (p : List Name) (hp : ∀ m ∈ p, GoodName m) (level n : ℕ) (pre : Name) (top : Bool)
    (ih : ∀ (g : Forest D) (q : List Name) (pre : Name), q ≠ [] → (∀ m ∈ q, GoodName m) → F.at q = some (.group g) → WF g → Ordered g →
      depth g ≤ fuel → (∀ a r, a ∈ g.names → F.at (q ++ a :: r) = g.at (a :: r)) →
      makeTreeBody shape F fuel pre (some ('/' :: join q)) (level + 1) =
        headLine pre g ++ branches shape pre false (g.names.length = 1) g) :
    ∀ (h : Forest D) (i : ℕ), i + h.names.length = n → 2 ≤ n → WF h → Ordered h → depth h ≤ fuel + 1 →
      (∀ a r, a ∈ h.names → F.at (p ++ a :: r) = h.at (a :: r)) →
      ((h.names.zipIdx i).flatMap fun (x : Name × ℕ) =>
        (if x.2 = 0 then [pre ++ pipe] else []) ++
          addBranches shape F (makeTreeBody shape F fuel) (keyOf p) x.1 x.2 (n - 1) pre (if x.2 = n - 1 then elbow else tee) (level + 1)) =
      (if i = 0 then [pre ++ pipe] else []) ++ branches shape pre top false h := by
  have good : ∀ (m : Name), GoodName m → ∀ k ∈ p ++ [m], GoodName k := by
    intro m hm k hk
    rcases List.mem_append.1 hk with hk | hk
    · exact hp k hk
    · rw [List.mem_singleton.1 hk]; exact hm
  intro h
  induction h with
  | nil =>
    intro i hi h2 _ _ _ _
    have : ¬ i = 0 := by
      have : i + 0 = n := hi
      omega
    rw [if_neg this]
    rfl
  | group m kids rest _ ihr =>
    intro i hi h2 hw ho hd hF
    have hi : i + (rest.names.length + 1) = n := hi
    have hat : F.at (p ++ [m]) = some (.group kids) := by
      rw [hF m [] (List.mem_cons_self ..), Forest.at, if_pos rfl, if_pos rfl]
    have hlast : (i = n - 1) ↔ rest.names.isEmpty = true := by
      rw [List.isEmpty_iff, ← List.length_eq_zero_iff]; omega
    have hr := ihr (i + 1) (by omega) h2 hw.2.2.2 ho.2.2 (le_trans (le_max_right _ _) hd) (fun a r ha => by
      rw [hF a r (List.mem_cons_of_mem _ ha), Forest.at, if_neg]
      rintro rfl
      exact hw.2.1 ha)
    rw [if_neg (by omega), List.nil_append] at hr
    rw [Forest.names, List.zipIdx_cons, List.flatMap_cons, hr]
    dsimp only
    rw [add_eq shape F _ p m (good m hw.1) _ hat, ih kids (p ++ [m]) _ (by simp) (good m hw.1) hat hw.2.2.1 ho.2.1
      (by have := le_trans (le_max_left _ _) hd; omega) (fun a r ha => by
        rw [List.append_assoc, List.singleton_append, hF m (a :: r) (List.mem_cons_self ..), Forest.at, if_pos rfl, if_neg (by simp)]),
      branches]
    unfold connector shapeOf
    by_cases hl : i = n - 1
    · have hl' := hlast.1 hl
      rw [if_pos hl, if_pos hl, hl']
      simp
    · have hl' : rest.names.isEmpty = false := by
        cases hb : rest.names.isEmpty with
        | false => rfl
        | true => exact absurd (hlast.2 hb) hl
      rw [if_neg hl, if_neg hl, hl']
      simp
  | dataset m d rest ihr =>
    intro i hi h2 hw ho hd hF
    have hi : i + (rest.names.length + 1) = n := hi
    have hat : F.at (p ++ [m]) = some (.dataset d) := by
      rw [hF m [] (List.mem_cons_self ..), Forest.at, if_pos rfl, if_pos rfl]
    have hlast : (i = n - 1) ↔ rest.names.isEmpty = true := by
      rw [List.isEmpty_iff, ← List.length_eq_zero_iff]; omega
    have hr := ihr (i + 1) (by omega) h2 hw.2.2 ho.2 (le_trans (le_max_right _ _) hd) (fun a r ha => by
      rw [hF a r (List.mem_cons_of_mem _ ha), Forest.at, if_neg]
      rintro rfl
      exact hw.2.1 ha)
    rw [if_neg (by omega), List.nil_append] at hr
    rw [Forest.names, List.zipIdx_cons, List.flatMap_cons, hr]
    dsimp only
    rw [add_eq shape F _ p m (good m hw.1) _ hat, body_empty shape F _ _ _ _ (by
        rw [openKey_some F _ (good m hw.1) _ hat]; exact fun g h => (nomatch h)), branches]
    unfold connector shapeOf
    by_cases hl : i = n - 1
    · have hl' := hlast.1 hl
      rw [if_pos hl, hl']
      simp
    · have hl' : rest.names.isEmpty = false := by
        cases hb : rest.names.isEmpty with
        | false => rfl
        | true => exact absurd (hlast.2 hb) hl
      rw [if_neg hl, hl']
      simp
  | link m rest ihr =>
    intro i hi h2 hw ho hd hF
    have hi : i + (rest.names.length + 1) = n := hi
    have hat : F.at (p ++ [m]) = some .link := by
      rw [hF m [] (List.mem_cons_self ..), Forest.at, if_pos rfl, if_pos rfl]
    have hlast : (i = n - 1) ↔ rest.names.isEmpty = true := by
      rw [List.isEmpty_iff, ← List.length_eq_zero_iff]; omega
    have hr := ihr (i + 1) (by omega) h2 hw.2.2 ho.2 (le_trans (le_max_right _ _) hd) (fun a r ha => by
      rw [hF a r (List.mem_cons_of_mem _ ha), Forest.at, if_neg]
      rintro rfl
      exact hw.2.1 ha)
    rw [if_neg (by omega), List.nil_append] at hr
    rw [Forest.names, List.zipIdx_cons, List.flatMap_cons, hr]
    dsimp only
    rw [add_eq shape F _ p m (good m hw.1) _ hat, body_empty shape F _ _ _ _ (by
        rw [openKey_some F _ (good m hw.1) _ hat]; exact fun g h => (nomatch h)), branches]
    unfold connector shapeOf
    by_cases hl : i = n - 1
    · have hl' := hlast.1 hl
      rw [if_pos hl, hl']
      simp
    · have hl' : rest.names.isEmpty = false := by
        cases hb : rest.names.isEmpty with
        | false => rfl
        | true => exact absurd (hlast.2 hb) hl
      rw [if_neg hl, hl']
      simp

/-- Only member of its group. -/
theorem single_eq (shape : D → Option Name) (F : Forest D) (fuel : ℕ) (p : List Name) (hp : ∀ m ∈ p, GoodName m) (level : ℕ) (pre : Name) (top : Bool)
    (ih : ∀ (g : Forest D) (q : List Name) (pre : Name), q ≠ [] → (∀ m ∈ q, GoodName m) → F.at q = some (.group g) → WF g → Ordered g →
      depth g ≤ fuel → (∀ a r, a ∈ g.names → F.at (q ++ a :: r) = g.at (a :: r)) →
      makeTreeBody shape F fuel pre (some ('/' :: join q)) (level + 1) =
        headLine pre g ++ branches shape pre false (g.names.length = 1) g)
    (h : Forest D) (h1 : h.names.length = 1) (hw : WF h) (ho : Ordered h) (hd : depth h ≤ fuel + 1)
    (hF : ∀ a r, a ∈ h.names → F.at (p ++ a :: r) = h.at (a :: r)) :
    addBranches shape F (makeTreeBody shape F fuel) (keyOf p) (h.names.getD 0 []) 0 0 pre (if top then [] else elbow) (level + 1) =
      branches shape pre top true h := by
  have good : ∀ (m : Name), GoodName m → ∀ k ∈ p ++ [m], GoodName k := by
    intro m hm k hk
    rcases List.mem_append.1 hk with hk | hk
    · exact hp k hk
    · rw [List.mem_singleton.1 hk]; exact hm
  have nil_of : ∀ r : Forest D, r.names.length + 1 = 1 → r = .nil := by
    intro r hr
    cases r with
    | nil => rfl
    | group => simp [Forest.names] at hr
    | dataset => simp [Forest.names] at hr
    | link => simp [Forest.names] at hr
  cases h with
  | nil => simp [Forest.names] at h1
  | group m kids rest =>
    obtain rfl := nil_of rest h1
    have hat : F.at (p ++ [m]) = some (.group kids) := by
      rw [hF m [] (List.mem_cons_self ..), Forest.at, if_pos rfl, if_pos rfl]
    rw [show (Forest.group m kids (.nil : Forest D)).names.getD 0 [] = m from rfl, add_eq shape F _ p m (good m hw.1) _ hat,
      ih kids (p ++ [m]) _ (by simp) (good m hw.1) hat hw.2.2.1 ho.2.1 (by have := le_trans (le_max_left _ _) hd; omega) (fun a r ha => by
        rw [List.append_assoc, List.singleton_append, hF m (a :: r) (List.mem_cons_self ..), Forest.at, if_pos rfl, if_neg (by simp)]),
      branches, branches]
    unfold connector shapeOf
    simp [Forest.names]
  | dataset m d rest =>
    obtain rfl := nil_of rest h1
    have hat : F.at (p ++ [m]) = some (.dataset d) := by
      rw [hF m [] (List.mem_cons_self ..), Forest.at, if_pos rfl, if_pos rfl]
    rw [show (Forest.dataset m d (.nil : Forest D)).names.getD 0 [] = m from rfl, add_eq shape F _ p m (good m hw.1) _ hat,
      body_empty shape F _ _ _ _ (by rw [openKey_some F _ (good m hw.1) _ hat]; exact fun g h => (nomatch h)), branches, branches]
    unfold connector shapeOf
    simp [Forest.names]
  | link m rest =>
    obtain rfl := nil_of rest h1
    have hat : F.at (p ++ [m]) = some .link := by
      rw [hF m [] (List.mem_cons_self ..), Forest.at, if_pos rfl, if_pos rfl]
    rw [show (Forest.link m (.nil : Forest D)).names.getD 0 [] = m from rfl, add_eq shape F _ p m (good m hw.1) _ hat,
      body_empty shape F _ _ _ _ (by rw [openKey_some F _ (good m hw.1) _ hat]; exact fun g h => (nomatch h)), branches, branches]
    unfold connector shapeOf
    simp [Forest.names]

/-- The body of a group, given its members and the key under which it was opened. -/
theorem body_step (shape : D → Option Name) (F : Forest D) (fuel : ℕ) (p : List Name) (hp : ∀ m ∈ p, GoodName m) (level : ℕ) (pre : Name)
    (key : Option Name) (g : Forest D) (k : Name) (hk : getSubgroups F key = (sortNames g.names, k))
    (hkey : (if level = 0 then (if g.names.length = 1 then [] else k) else k) = keyOf p)
    (ih : ∀ (g : Forest D) (q : List Name) (pre : Name), q ≠ [] → (∀ m ∈ q, GoodName m) → F.at q = some (.group g) → WF g → Ordered g →
      depth g ≤ fuel → (∀ a r, a ∈ g.names → F.at (q ++ a :: r) = g.at (a :: r)) →
      makeTreeBody shape F fuel pre (some ('/' :: join q)) (level + 1) =
        headLine pre g ++ branches shape pre false (g.names.length = 1) g)
    (hw : WF g) (ho : Ordered g) (hd : depth g ≤ fuel + 1) (hF : ∀ a r, a ∈ g.names → F.at (p ++ a :: r) = g.at (a :: r)) :
    makeTreeBody shape F (fuel + 1) pre key level =
      headLine pre g ++ branches shape pre (decide (level = 0)) (g.names.length = 1) g := by
  rw [makeTreeBody, hk, sortNames_eq g ho]
  dsimp only
  unfold headLine
  by_cases h0 : g.names.length = 0
  · rw [if_neg (by omega), if_neg (by omega)]
    have : g = .nil := by
      cases g with
      | nil => rfl
      | group => simp [Forest.names] at h0
      | dataset => simp [Forest.names] at h0
      | link => simp [Forest.names] at h0
    subst this
    rfl
  rw [if_pos (by omega)]
  by_cases h1 : g.names.length = 1
  · rw [if_pos (show g.names.length - 1 = 0 by omega), if_neg (show ¬ g.names.length > 1 by omega),
      if_neg (show ¬ g.names.length ≥ 2 by omega), List.nil_append]
    have hkey' : (if level + 1 = 1 then ([] : Name) else k) = keyOf p := by
      rw [← hkey, if_pos h1]
      by_cases hl : level = 0
      · rw [if_pos (by omega), if_pos hl]
      · rw [if_neg (by omega), if_neg hl]
    have hc : (if level + 1 > 1 then elbow else ([] : Name)) = if decide (level = 0) = true then [] else elbow := by
      by_cases hl : level = 0
      · rw [if_neg (by omega), if_pos (by simpa using hl)]
      · rw [if_pos (by omega), if_neg (by simpa using hl)]
    rw [hkey', hc, single_eq shape F fuel p hp level pre (decide (level = 0)) ih g h1 hw ho hd hF]
    congr 1
    simpa using h1
  · rw [if_neg (by omega), if_pos (by omega)]
    have hkey' : k = keyOf p := by
      rw [← hkey, if_neg h1, ite_self]
    rw [hkey']
    have := members_eq shape F fuel p hp level g.names.length pre (decide (level = 0)) ih g 0 (by omega) (by omega) hw ho hd hF
    rw [if_pos rfl] at this
    rw [show decide (g.names.length = 1) = false from decide_eq_false h1]
    exact this

/-- Every group below the root. -/
theorem body_eq (shape : D → Option Name) (F : Forest D) : ∀ (fuel level : ℕ) (g : Forest D) (q : List Name) (pre : Name), q ≠ [] →
    (∀ m ∈ q, GoodName m) → F.at q = some (.group g) → WF g → Ordered g → depth g ≤ fuel →
    (∀ a r, a ∈ g.names → F.at (q ++ a :: r) = g.at (a :: r)) →
    makeTreeBody shape F fuel pre (some ('/' :: join q)) (level + 1) = headLine pre g ++ branches shape pre false (g.names.length = 1) g := by
  intro fuel
  induction fuel with
  | zero =>
    intro level g q pre _ _ _ _ _ hd _
    cases g with
    | nil => rfl
    | group => simp [depth] at hd
    | dataset => simp [depth] at hd
    | link => simp [depth] at hd
  | succ fuel ih =>
    intro level g q pre hq hgood hat hw ho hd hF
    have hk : getSubgroups F (some ('/' :: join q)) = (sortNames g.names, '/' :: join q) := by
      unfold getSubgroups
      dsimp only
      rw [openKey_some F q hgood _ hat]
      rfl
    rw [body_step shape F fuel q hgood (level + 1) pre _ g _ hk (by unfold keyOf; rw [if_neg (by omega), if_neg hq])
      (ih (level + 1)) hw ho hd hF]
    rfl

/-- C102: the code prints what the recursion on the tree prints: `tree_lines`, `tree_injective`, `tree_paths` and `tree_count` hold for it. -/
theorem tree_code (shape : D → Option Name) (f : Forest D) (hf : WF f) (ho : Ordered f) (fuel : ℕ) (hd : depth f ≤ fuel) :
    treeOf shape f fuel = getHdfTree shape f := by
  unfold treeOf getHdfTree
  cases fuel with
  | zero =>
    cases f with
    | nil => rfl
    | group => simp [depth] at hd
    | dataset => simp [depth] at hd
    | link => simp [depth] at hd
  | succ fuel =>
    have hk : getSubgroups f none = (sortNames f.names, if f.names.length = 1 then f.names.getD 0 [] else []) := rfl
    rw [body_step shape f fuel [] (by simp) 0 [] none f _ hk (by
        rw [if_pos rfl]
        by_cases h : f.names.length = 1
        · rw [if_pos h]; rfl
        · rw [if_neg h, if_neg h]; rfl) (body_eq shape f fuel 0) hf ho hd (fun a r _ => rfl)]
    rfl

/-- A file that meets the hypotheses: `a` (empty group), `b/c`, `b/d` (shape `(3,)`), `e` (dangling link). -/
example : let f : Forest Unit := .group ['a'] .nil (.group ['b'] (.dataset ['c'] () (.dataset ['d'] () .nil)) (.link ['e'] .nil))
    WF f ∧ Ordered f ∧ depth f ≤ 2 := by
  refine ⟨?_, ?_, by decide⟩
  · simp [WF, GoodName, Forest.names]
  · simp only [Ordered, Forest.names]
    decide

end Verif.Hdf
