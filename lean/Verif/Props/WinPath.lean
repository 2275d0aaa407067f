import Verif.Model.WinPath

/-! C134 — Windows paths written as ordinary Python strings. -/

set_option linter.unusedSectionVars false
set_option linter.unusedSimpArgs false

namespace Verif.WinPath
open Verif.Io

/-! ### specification -/

/-- What Python makes of the text between the quotes of an ordinary string literal, as far as one-letter escapes, `\\`, `\'` and `\"` go; a backslash
before any other character stays.  Octal, `\x`, `\N`, `\u`, `\U` escapes are outside (see `Plain`). -/
def literal : Name → Name
  | [] => []
  | [c] => [c]
  | c :: d :: t =>
    if c = '\\' then
      if d = 'a' then Char.ofNat 7 :: literal t
      else if d = 'b' then Char.ofNat 8 :: literal t
      else if d = 'f' then Char.ofNat 12 :: literal t
      else if d = 'n' then Char.ofNat 10 :: literal t
      else if d = 'r' then Char.ofNat 13 :: literal t
      else if d = 't' then Char.ofNat 9 :: literal t
      else if d = 'v' then Char.ofNat 11 :: literal t
      else if d = '\\' ∨ d = '\'' ∨ d = '"' then d :: literal t
      else if '0' ≤ d ∧ d ≤ '7' then Char.ofNat (d.toNat - 48) :: literal t
      else c :: literal (d :: t)
    else c :: literal (d :: t)
  termination_by s => s.length

/-- A path as the user means it: printable characters, single backslashes as separators, and no name that starts with `0`-`7`, `x`, `N`, `u`, `U` or a quote
(these letters after a backslash mean something else in Python). -/
def Plain : Name → Prop
  | [] => True
  | [c] => 32 ≤ c.toNat
  | c :: d :: t => 32 ≤ c.toNat ∧ (c = '\\' → d ≠ '\\' ∧ d ≠ '\'' ∧ d ≠ '"' ∧ ¬ ('0' ≤ d ∧ d ≤ '7') ∧ d ≠ 'x' ∧ d ≠ 'N' ∧ d ≠ 'u' ∧ d ≠ 'U') ∧ Plain (d :: t)

/-- Forward slashes. -/
def slashes (s : Name) : Name := s.map fun c => if c = '\\' then '/' else c

/-! ### the replacements in one pass -/

/-- The image of one character. -/
def expand (c : Char) : Name :=
  match table.find? (fun e => e.1 == c) with
  | some e => ['/', e.2]
  | none => [if c = '\\' then '/' else c]

theorem replace_mem (ch l : Char) (s : Name) : (if ch ∈ s then replaceEsc ch l s else s) = replaceEsc ch l s := by
  by_cases h : ch ∈ s
  · rw [if_pos h]
  · rw [if_neg h]
    unfold replaceEsc
    induction s with
    | nil => rfl
    | cons c s ih =>
      rw [List.mem_cons, not_or] at h
      rw [List.flatMap_cons, if_neg (fun e => h.1 e.symm), ← ih h.2]
      rfl

/-- All replacements at once. -/
theorem correct_flat (s : Name) : correctPath s = s.flatMap expand := by
  have key : ∀ (s : Name), correctPath s = ((table.foldl (fun acc e => replaceEsc e.1 e.2 acc) s).map fun c => if c = '\\' then '/' else c) := by
    intro s
    unfold correctPath
    congr 2
    funext acc e
    exact replace_mem e.1 e.2 acc
  rw [key]
  have app : ∀ (l : List (Char × Char)) (s t : Name), l.foldl (fun acc e => replaceEsc e.1 e.2 acc) (s ++ t) =
      l.foldl (fun acc e => replaceEsc e.1 e.2 acc) s ++ l.foldl (fun acc e => replaceEsc e.1 e.2 acc) t := by
    intro l
    induction l with
    | nil => intro s t; rfl
    | cons e l ih =>
      intro s t
      rw [List.foldl_cons, List.foldl_cons, List.foldl_cons, ← ih]
      congr 1
      unfold replaceEsc
      rw [List.flatMap_append]
  have one : ∀ c : Char, ((table.foldl (fun acc e => replaceEsc e.1 e.2 acc) [c]).map fun c => if c = '\\' then '/' else c) = expand c := by
    intro c
    by_cases h7 : c = Char.ofNat 7
    · subst h7; decide
    by_cases h8 : c = Char.ofNat 8
    · subst h8; decide
    by_cases h12 : c = Char.ofNat 12
    · subst h12; decide
    by_cases h10 : c = Char.ofNat 10
    · subst h10; decide
    by_cases h13 : c = Char.ofNat 13
    · subst h13; decide
    by_cases h9 : c = Char.ofNat 9
    · subst h9; decide
    by_cases h11 : c = Char.ofNat 11
    · subst h11; decide
    have hf : table.find? (fun e => e.1 == c) = none := by
      rw [List.find?_eq_none]
      intro e he
      simp only [table, List.mem_cons, List.not_mem_nil, or_false] at he
      rcases he with rfl | rfl | rfl | rfl | rfl | rfl | rfl <;> simp only [beq_iff_eq] <;> exact fun h => by first | exact h7 h.symm | exact h8 h.symm | exact h12 h.symm | exact h10 h.symm | exact h13 h.symm | exact h9 h.symm | exact h11 h.symm
    have h1 : table.foldl (fun acc e => replaceEsc e.1 e.2 acc) [c] = [c] := by
      simp only [table, List.foldl_cons, List.foldl_nil, replaceEsc, List.flatMap_cons, List.flatMap_nil, List.append_nil, h7, h8, h12, h10, h13, h9, h11, if_false]
    rw [h1]
    unfold expand
    rw [hf]
    rfl
  induction s with
  | nil => rfl
  | cons c s ih =>
    have h2 := app table [c] s
    rw [List.flatMap_cons, ← ih, ← one c, ← List.map_append, ← h2]
    rfl

theorem expand_plain (c : Char) (h : 32 ≤ c.toNat) : expand c = [if c = '\\' then '/' else c] := by
  have hf : table.find? (fun e => e.1 == c) = none := by
    rw [List.find?_eq_none]
    intro e he
    simp only [table, List.mem_cons, List.not_mem_nil, or_false] at he
    rcases he with rfl | rfl | rfl | rfl | rfl | rfl | rfl <;> simp only [beq_iff_eq] <;>
      (intro e; subst e; revert h; decide)
  unfold expand
  rw [hf]

/-- **C134** (partial): a Windows path written with single backslashes in an ordinary string is understood as the user means it, with forward slashes, whenever no
name in it starts with a digit 0-7, `x`, `N`, `u`, `U` or a quote. -/
theorem correct_literal_partial (s : Name) (h : Plain s) : correctPath (literal s) = slashes s := by
  rw [correct_flat]
  have key : ∀ n (s : Name), s.length ≤ n → Plain s → (literal s).flatMap expand = slashes s := by
    intro n
    induction n with
    | zero =>
      intro s hs _
      rw [List.length_eq_zero_iff.1 (Nat.le_zero.1 hs)]
      rw [literal]
      rfl
    | succ n ih =>
      intro s hs h
      match s, hs, h with
      | [], _, _ => rw [literal]; rfl
      | [c], _, h =>
        rw [literal]
        unfold slashes
        rw [List.flatMap_singleton, expand_plain c h]
        rfl
      | c :: d :: t, hs, h =>
        have hlen : (d :: t).length ≤ n := by simp only [List.length_cons] at hs ⊢; omega
        have hlent : t.length ≤ n := by simp only [List.length_cons] at hs ⊢; omega
        obtain ⟨h1, h2, h3⟩ := h
        have ht : Plain t := by
          match t, h3 with
          | [], _ => trivial
          | _ :: _, h3 => exact h3.2.2
        have e1 : slashes (c :: d :: t) = (if c = '\\' then '/' else c) :: (if d = '\\' then '/' else d) :: slashes t := rfl
        have e2 : slashes (c :: d :: t) = (if c = '\\' then '/' else c) :: slashes (d :: t) := rfl
        rw [literal]
        by_cases hc : c = '\\'
        · obtain ⟨g1, g2, g3, g4, -⟩ := h2 hc
          rw [if_pos hc]
          by_cases q : d = 'a'
          · rw [if_pos q, List.flatMap_cons, ih t hlent ht, e1, hc, q]; rfl
          rw [if_neg q]; clear q
          by_cases q : d = 'b'
          · rw [if_pos q, List.flatMap_cons, ih t hlent ht, e1, hc, q]; rfl
          rw [if_neg q]; clear q
          by_cases q : d = 'f'
          · rw [if_pos q, List.flatMap_cons, ih t hlent ht, e1, hc, q]; rfl
          rw [if_neg q]; clear q
          by_cases q : d = 'n'
          · rw [if_pos q, List.flatMap_cons, ih t hlent ht, e1, hc, q]; rfl
          rw [if_neg q]; clear q
          by_cases q : d = 'r'
          · rw [if_pos q, List.flatMap_cons, ih t hlent ht, e1, hc, q]; rfl
          rw [if_neg q]; clear q
          by_cases q : d = 't'
          · rw [if_pos q, List.flatMap_cons, ih t hlent ht, e1, hc, q]; rfl
          rw [if_neg q]; clear q
          by_cases q : d = 'v'
          · rw [if_pos q, List.flatMap_cons, ih t hlent ht, e1, hc, q]; rfl
          rw [if_neg q]; clear q
          rw [if_neg (by simp [g1, g2, g3]), if_neg g4, List.flatMap_cons, ih _ hlen h3, e2, expand_plain c h1]
          rfl
        · rw [if_neg hc, List.flatMap_cons, ih _ hlen h3, e2, expand_plain c h1]
          rfl
  exact key _ s (le_refl _) h

/-- **C134.** Paths without control characters (raw strings, forward slashes) only get forward slashes; and correcting twice is correcting once. -/
theorem correct_raw (s : Name) : ((∀ c ∈ s, 32 ≤ c.toNat) → correctPath s = slashes s) ∧ correctPath (correctPath s) = correctPath s := by
  have h1 : ∀ s : Name, (∀ c ∈ s, 32 ≤ c.toNat) → correctPath s = slashes s := by
    intro s
    rw [correct_flat]
    induction s with
    | nil => intro _; rfl
    | cons c s ih =>
      intro h
      rw [List.flatMap_cons, ih fun x hx => h x (by simp [hx]), expand_plain c (h c (by simp))]
      rfl
  refine ⟨h1 s, ?_⟩
  rw [correct_flat (correctPath s), correct_flat s]
  induction s with
  | nil => rfl
  | cons c s ih =>
    rw [List.flatMap_cons, List.flatMap_append, ih]
    congr 1
    unfold expand
    cases hf : table.find? (fun e => e.1 == c) with
    | none =>
      dsimp only
      rw [List.flatMap_singleton]
      by_cases hc : c = '\\'
      · rw [if_pos hc]; decide
      · rw [if_neg hc, hf]
        dsimp only
        rw [if_neg hc]
    | some e =>
      have he := List.mem_of_find?_eq_some hf
      dsimp only
      simp only [table, List.mem_cons, List.not_mem_nil, or_false] at he
      rcases he with rfl | rfl | rfl | rfl | rfl | rfl | rfl <;> decide

/-- What a user expects: every path of printable characters written in an ordinary string is understood. -/
def AlwaysUnderstood : Prop := ∀ s : Name, (∀ c ∈ s, 32 ≤ c.toNat) → correctPath (literal s) = slashes s

/-- **C134** is false of the code for names that start with a digit: the folder `C:\0deg` becomes a path with a NUL character. -/
theorem correct_literal_refuted : ¬ AlwaysUnderstood := by
  intro h
  have := h "C:\\0deg".toList (by decide)
  revert this
  have e : literal "C:\\0deg".toList = ['C', ':', Char.ofNat 0, 'd', 'e', 'g'] := by
    show literal ['C', ':', '\\', '0', 'd', 'e', 'g'] = _
    simp [literal]
  rw [e]
  decide

/-- **C134.** On other systems the path is used as it is; where existence is required, a missing file is a ValueError and nothing else fails. -/
theorem get_path_spec (windows : Bool) (exist : Name → Bool) (check : Bool) (s : Name) :
    getPath windows exist check s = (if check = true ∧ exist (if windows then correctPath s else s) = false then .error .valueError
      else .ok (if windows then correctPath s else s)) := by
  unfold getPath
  dsimp only
  cases check <;> cases exist (if windows = true then correctPath s else s) <;> rfl

/-- Non-vacuity: the path `C:\tomo\new` contains `\t` and `\n`. -/
example : Plain "C:\\tomo\\new".toList ∧ correctPath ['C', ':', Char.ofNat 9, 'o', 'm', 'o', Char.ofNat 10, 'e', 'w'] = "C:/tomo/new".toList := by
  constructor
  · simp only [show "C:\\tomo\\new".toList = ['C', ':', '\\', 't', 'o', 'm', 'o', '\\', 'n', 'e', 'w'] from rfl, Plain]
    simp (decide := true)
  · decide

end Verif.WinPath
