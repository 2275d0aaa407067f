import Verif.Model.External
import Verif.Props.Recon
import Verif.Props.Center

/-! C129 — reconstruction by gridrec (tomopy).  C130 — reconstruction by astra. -/

set_option linter.unusedSectionVars false
set_option linter.unusedSimpArgs false

namespace Verif.External
open Verif.Fourier Verif.BackProj Verif.Simulation Verif.Recon

/-! ### Specification -/

/-- Arguments that are accepted: as many angles as rows, center inside the sinogram. -/
def Common.Good (a : Common) (nrow ncol : ℕ) : Prop :=
  (∀ l, a.angles = some l → l.length = nrow) ∧ 0 ≤ a.center ∧ a.center < ncol

open Classical in
/-- The value at `(y, x)` after the circle mask: `ratio` None keeps everything; 0 means the largest circle around the centre of the image
whose radius is the distance of `center` to the nearer side of the sinogram. -/
noncomputable def Common.inCircle (a : Common) (ncol : ℕ) (v : ℝ) (y x : ℕ) : ℝ :=
  match a.ratio with
  | none => v
  | some r =>
    if (dist2 ncol y x : ℝ) ≤ ((if r = 0 then min a.center (ncol - a.center) / (0.5 * ncol) else r) * ((ncol / 2 : ℕ) : ℝ)) ^ 2 then v else 0

/-- **C129, C130.** Angles: the given ones, or evenly spaced from 0 to 180 degrees, both included. -/
theorem angle_spec (a : Common) (nrow : ℕ) :
    (∀ l, a.angles = some l → ∀ (i : ℕ) (h : i < l.length), a.angle nrow i = l[i]) ∧
    (a.angles = none → 2 ≤ nrow → a.angle nrow 0 = 0 ∧ a.angle nrow (nrow - 1) = Real.pi ∧
      ∀ i, a.angle nrow (i + 1) - a.angle nrow i = a.angle nrow 1) := by
  constructor
  · intro l hl i hi
    simp only [Common.angle, hl]
    rw [List.getD_eq_getElem?_getD, List.getElem?_eq_getElem hi]
    rfl
  · intro hl hn
    have h1 : (nrow : ℝ) - 1 ≠ 0 := by
      have : (2 : ℝ) ≤ nrow := by exact_mod_cast hn
      linarith
    simp only [Common.angle, hl]
    refine ⟨by simp, ?_, fun i => ?_⟩
    · rw [Nat.cast_sub (by omega)]
      push_cast
      field_simp
    · push_cast
      ring

/-- The logarithm of an intensity; values that have none count as 1. -/
noncomputable def Common.logv (a : Common) (v : ℝ) : ℝ :=
  if a.applyLog then (if 0 < v then -Real.log v else 0) else v

/-- `n` is the least power of two that is at least `v`. -/
def LeastPow2 (n v : ℕ) : Prop := (∃ k, n = 2 ^ k) ∧ v ≤ n ∧ ∀ k, v ≤ 2 ^ k → n ≤ 2 ^ k

/-- `P` is `m` with every value replaced by `f` of it and every row continued by its first value `l` times and by its last `r` times. -/
def Widened (P m : Mat ℝ) (f : ℝ → ℝ) (l r : ℕ) : Prop :=
  P.h = m.h ∧ P.w = l + m.w + r ∧ ∀ i < m.h,
    (∀ j < l, P.get i j = f (m.get i 0)) ∧ (∀ j < m.w, P.get i (l + j) = f (m.get i j)) ∧
    ∀ j < r, P.get i (l + m.w + j) = f (m.get i (m.w - 1))

/-! ### Lemmas -/

theorem bad_iff' (a : Common) (nrow ncol : ℕ) : a.bad nrow ncol ↔ ¬ a.Good nrow ncol := by
  unfold Common.bad Common.Good
  constructor
  · rintro (⟨l, h1, h2⟩ | h | h) ⟨h3, h4, h5⟩
    · exact h2 (h3 l h1)
    · exact absurd h4 (not_le.2 h)
    · exact absurd h5 (not_lt.2 h)
  · intro h
    by_contra hc
    push Not at hc
    exact h ⟨fun l hl => by_contra fun hn => absurd (hc.1 l hl) hn, hc.2.1, hc.2.2⟩

theorem masked_get (a : Common) (ncol : ℕ) (img : Mat ℝ) (y x : ℕ) :
    (a.masked ncol img).h = img.h ∧ (a.masked ncol img).w = img.w ∧
      (a.masked ncol img).get y x = a.inCircle ncol (img.get y x) y x := by
  unfold Common.masked Common.inCircle
  cases a.ratio with
  | none => exact ⟨rfl, rfl, rfl⟩
  | some r =>
    refine ⟨rfl, rfl, ?_⟩
    dsimp only
    rw [(circle_mask_spec ncol _ y x).2.2]
    split <;> simp

theorem logm_get (a : Common) (m : Mat ℝ) (i j : ℕ) : (a.logm m).get i j = a.logv (m.get i j) := by
  unfold Common.logm Common.logv
  dsimp only
  by_cases h : a.applyLog = true
  · rw [if_pos h, if_pos h]
    by_cases h0 : 0 < m.get i j
    · rw [if_pos h0, if_neg (not_le.2 h0)]
    · rw [if_neg h0, if_pos (not_lt.1 h0), Real.log_one, neg_zero]
  · rw [if_neg h, if_neg h]

theorem widened (a : Common) (m : Mat ℝ) (l r : ℕ) (hm : 0 < m.w) : Widened (padEdge (a.logm m) l r) m a.logv l r := by
  refine ⟨rfl, rfl, fun i _ => ⟨fun j hj => ?_, fun j hj => ?_, fun j hj => ?_⟩⟩
  all_goals
    show (a.logm m).get i (edgeIdx m.w l _) = _
    rw [logm_get]
    congr 2
    unfold edgeIdx
    omega

theorem leastPow2_clog (v : ℕ) (hv : 0 < v) : LeastPow2 (2 ^ Nat.clog 2 v) v :=
  ⟨⟨_, rfl⟩, Nat.le_pow_clog (by norm_num) v, fun k hk => Nat.pow_le_pow_right (by norm_num) (Nat.clog_le_of_le_pow hk)⟩

/-- The two widths: which ones are refused, and what the others are. -/
theorem pads_spec (ncol : ℕ) (hn : 0 < ncol) (pad : GPad) :
    ((∃ p, gridPads ncol pad = .ok p) ↔
      ∀ p, pad = .int p → 0 < (ncol : ℤ) + 2 * p ∧ ∀ k : ℕ, (ncol : ℤ) + 2 * p ≤ 2 ^ k → ncol ≤ 2 ^ k) ∧
    ((∃ e, gridPads ncol pad = .error e) → gridPads ncol pad = .error .valueError) ∧
    ∀ l r, gridPads ncol pad = .ok (l, r) → l ≤ r ∧ r ≤ l + 1 ∧
      (pad = .flag false → l = 0 ∧ r = 0) ∧ (pad = .flag true → LeastPow2 (l + ncol + r) ncol) ∧
      ∀ p, pad = .int p → LeastPow2 (l + ncol + r) ((ncol : ℤ) + 2 * p).toNat := by
  cases pad with
  | flag b =>
    refine ⟨⟨fun _ p h => (nomatch h), fun _ => (by cases b <;> exact ⟨_, rfl⟩)⟩, fun ⟨e, h⟩ => (by cases b <;> cases h), fun l r h => ?_⟩
    cases b with
    | false => cases h; exact ⟨le_refl _, by omega, fun _ => ⟨rfl, rfl⟩, fun h => (nomatch h), fun p h => (nomatch h)⟩
    | true =>
      have hl := leastPow2_clog ncol hn
      simp only [gridPads] at h
      generalize 2 ^ Nat.clog 2 ncol = np at *
      cases h
      have := hl.2.1
      refine ⟨by omega, by omega, fun h => (nomatch h), fun _ => ?_, fun p h => (nomatch h)⟩
      have e : (np - ncol) / 2 + ncol + (np - ncol - (np - ncol) / 2) = np := by omega
      rw [e]
      exact hl
  | int p =>
    simp only [gridPads]
    by_cases h0 : (ncol : ℤ) + 2 * p < 0
    · rw [if_pos h0]
      refine ⟨⟨fun ⟨e, h⟩ => (nomatch h), fun h => ?_⟩, fun _ => rfl, fun l r h => (nomatch h)⟩
      have := (h p rfl).1
      omega
    rw [if_neg h0]
    by_cases h1 : (ncol : ℤ) + 2 * p = 0
    · rw [if_pos h1, if_pos hn]
      refine ⟨⟨fun ⟨e, h⟩ => (nomatch h), fun h => ?_⟩, fun _ => rfl, fun l r h => (nomatch h)⟩
      have := (h p rfl).1
      omega
    rw [if_neg h1]
    have hv : 0 < ((ncol : ℤ) + 2 * p).toNat := by omega
    have hl := leastPow2_clog _ hv
    generalize h2 : 2 ^ Nat.clog 2 ((ncol : ℤ) + 2 * p).toNat = np at *
    by_cases h3 : np < ncol
    · rw [if_pos h3]
      refine ⟨⟨fun ⟨e, h⟩ => (nomatch h), fun h => ?_⟩, fun _ => rfl, fun l r h => (nomatch h)⟩
      obtain ⟨k, hk⟩ := hl.1
      have h5 := hl.2.1
      have := (h p rfl).2 k (by
        have : ((2 ^ k : ℕ) : ℤ) = (2 : ℤ) ^ k := by push_cast; rfl
        rw [← this, ← hk]
        omega)
      omega
    · rw [if_neg h3]
      refine ⟨⟨fun _ q hq => ?_, fun _ => ⟨_, rfl⟩⟩, fun ⟨e, h⟩ => (nomatch h), fun l r h => ?_⟩
      · cases hq
        refine ⟨by omega, fun k hk => ?_⟩
        have : ((2 ^ k : ℕ) : ℤ) = (2 : ℤ) ^ k := by push_cast; rfl
        rw [← this] at hk
        have := hl.2.2 k (by omega)
        omega
      · cases h
        refine ⟨by omega, by omega, fun h => (nomatch h), fun h => (nomatch h), fun q hq => ?_⟩
        cases hq
        have e : (np - ncol) / 2 + ncol + (np - ncol - (np - ncol) / 2) = np := by omega
        rw [e]
        exact hl

theorem cropSq_shape (img : Mat ℝ) (lo n r : ℕ) (hh : img.h = lo + n + r) (hw : img.w = lo + n + r) :
    (cropSq img lo n).h = n ∧ (cropSq img lo n).w = n := by
  unfold cropSq
  dsimp only
  omega

/-! ### C129: gridrec -/

/-- C129: which calls are accepted: as many angles as rows, a center inside the sinogram, and a `pad` that leaves the padded width not below
the width of the sinogram (every pad that is not negative does). -/
theorem gridrec_error_iff (R : Gridrec) (a : GArgs) (x : Arr) :
    ((∃ out, gridrec R a x = .ok out) ↔ a.Good x.nrow x.ncol ∧
      ∀ p, a.pad = .int p → 0 < (x.ncol : ℤ) + 2 * p ∧ ∀ k : ℕ, (x.ncol : ℤ) + 2 * p ≤ 2 ^ k → x.ncol ≤ 2 ^ k) ∧
    ((∃ e, gridrec R a x = .error e) → gridrec R a x = .error .valueError) ∧
    (a.Good x.nrow x.ncol → (∀ p, a.pad = .int p → 0 ≤ p) → ∃ out, gridrec R a x = .ok out) := by
  have main : ((∃ out, gridrec R a x = .ok out) ↔ a.Good x.nrow x.ncol ∧
      ∀ p, a.pad = .int p → 0 < (x.ncol : ℤ) + 2 * p ∧ ∀ k : ℕ, (x.ncol : ℤ) + 2 * p ≤ 2 ^ k → x.ncol ≤ 2 ^ k) ∧
      ((∃ e, gridrec R a x = .error e) → gridrec R a x = .error .valueError) := by
    unfold gridrec
    by_cases hb : a.bad x.nrow x.ncol
    · rw [if_pos hb]
      exact ⟨⟨fun ⟨o, ho⟩ => (nomatch ho), fun h => absurd h.1 ((bad_iff' _ _ _).1 hb)⟩, fun _ => rfl⟩
    · rw [if_neg hb]
      have hg : a.Good x.nrow x.ncol := not_not.1 (mt (bad_iff' _ _ _).2 hb)
      have hn : 0 < x.ncol := by
        have := lt_of_le_of_lt hg.2.1 hg.2.2
        exact_mod_cast this
      obtain ⟨p1, p2, -⟩ := pads_spec x.ncol hn a.pad
      cases hp : gridPads x.ncol a.pad with
      | error e =>
        rw [hp] at p1 p2
        refine ⟨⟨fun ⟨o, ho⟩ => (nomatch ho), fun h => ?_⟩, fun _ => ?_⟩
        · obtain ⟨q, hq⟩ := p1.2 h.2
          exact (nomatch hq)
        · cases p2 ⟨e, rfl⟩
          rfl
      | ok q =>
        have := p1.1 ⟨q, hp⟩
        refine ⟨⟨fun _ => ⟨hg, this⟩, fun _ => ?_⟩, fun ⟨e, he⟩ => ?_⟩
        · cases x <;> exact ⟨_, rfl⟩
        · cases x <;> exact (nomatch he)
  refine ⟨main.1, main.2, fun hg hp => main.1.2 ⟨hg, fun p h => ?_⟩⟩
  have hn : 0 < x.ncol := by
    have := lt_of_le_of_lt hg.2.1 hg.2.2
    exact_mod_cast this
  have h0 := hp p h
  refine ⟨by omega, fun k hk => ?_⟩
  have : ((2 ^ k : ℕ) : ℤ) = (2 : ℤ) ^ k := by push_cast; rfl
  rw [← this] at hk
  omega

/-- C129: the result.  A sinogram gives an image and a chunk as many images; image `j` is, inside the circle, the middle part of what the
routine gives for sinogram `j` alone, continued on both sides by its edge values to a width that is a power of two (the smallest that leaves
`pad` columns on each side; not continued at all with pad=False), with the centre of rotation at the same place of the data. -/
theorem gridrec_spec (R : Gridrec) (a : GArgs) (x out : Arr) (hR : ∀ m g c f p, (R m g c f p).h = m.w ∧ (R m g c f p).w = m.w)
    (h : gridrec R a x = .ok out) :
    out.nrow = x.ncol ∧ out.ncol = x.ncol ∧ out.num = x.num ∧ ((∃ m, x = .one m) ↔ ∃ m, out = .one m) ∧
    ∃ l r, l ≤ r ∧ r ≤ l + 1 ∧ (a.pad = .flag false → l = 0 ∧ r = 0) ∧ (a.pad = .flag true → LeastPow2 (l + x.ncol + r) x.ncol) ∧
      (∀ p, a.pad = .int p → LeastPow2 (l + x.ncol + r) ((x.ncol : ℤ) + 2 * p).toNat ∧ p ≤ l) ∧
      ∀ j < x.num, ∃ P, Widened P (x.slice j) a.logv l r ∧ ∀ y k,
        (out.slice j).get y k =
          a.inCircle x.ncol ((R P (a.angle x.nrow) (a.center + l) a.filter a.filterPar).get (l + y) (l + k)) y k := by
  have hok := (gridrec_error_iff R a x).1.1 ⟨out, h⟩
  have hn : 0 < x.ncol := by
    have := lt_of_le_of_lt hok.1.2.1 hok.1.2.2
    exact_mod_cast this
  obtain ⟨p1, p2, p3⟩ := pads_spec x.ncol hn a.pad
  unfold gridrec at h
  rw [if_neg (mt (bad_iff' _ _ _).1 (not_not.2 hok.1))] at h
  cases hp : gridPads x.ncol a.pad with
  | error e => rw [hp] at h; exact (nomatch h)
  | ok q =>
    obtain ⟨l, r⟩ := q
    rw [hp] at h
    obtain ⟨h1, h2, h3, h4, h5⟩ := p3 l r hp
    have h6 : ∀ p, a.pad = .int p → LeastPow2 (l + x.ncol + r) ((x.ncol : ℤ) + 2 * p).toNat ∧ p ≤ l := by
      intro p hp
      have := h5 p hp
      refine ⟨this, ?_⟩
      have := this.2.1
      omega
    have hsq : ∀ m : Mat ℝ, m.w = x.ncol → (gridSlice R a x.nrow x.ncol l r m).h = x.ncol ∧
        (gridSlice R a x.nrow x.ncol l r m).w = x.ncol := by
      intro m hm
      have e := hR (padEdge (a.logm m) l r) (a.angle x.nrow) (a.center + l) a.filter a.filterPar
      have e2 : (padEdge (a.logm m) l r).w = l + x.ncol + r := by
        show l + m.w + r = _
        rw [hm]
      have := cropSq_shape _ l x.ncol r (e.1.trans e2) (e.2.trans e2)
      unfold gridSlice
      dsimp only
      rw [(masked_get a.toCommon x.ncol _ 0 0).1, (masked_get a.toCommon x.ncol _ 0 0).2.1]
      exact this
    have hval : ∀ (j y k : ℕ), (gridSlice R a x.nrow x.ncol l r (x.slice j)).get y k =
        a.inCircle x.ncol ((R (padEdge (a.logm (x.slice j)) l r) (a.angle x.nrow) (a.center + l) a.filter a.filterPar).get (l + y) (l + k))
          y k := fun j y k => (masked_get a.toCommon x.ncol _ y k).2.2
    have hw : ∀ j, Widened (padEdge (a.logm (x.slice j)) l r) (x.slice j) a.logv l r := fun j =>
      widened _ _ _ _ (by rw [(slice_shape x j).2]; exact hn)
    cases x with
    | one m =>
      cases h
      exact ⟨(hsq m rfl).1, (hsq m rfl).2, rfl, by simp, l, r, h1, h2, h3, h4, h6, fun j hj => ⟨_, hw j, fun y k => hval j y k⟩⟩
    | chunk s =>
      cases h
      refine ⟨rfl, rfl, by simp [Arr.num, stack], by simp, l, r, h1, h2, h3, h4, h6, fun j hj => ⟨_, hw j, fun y k => ?_⟩⟩
      show (stack s.w _).get y j k = _
      rw [stack_slice _ _ _ _ (show j < s.h from hj)]
      exact hval j y k

/-- C129: a chunk is reconstructed slice by slice. -/
theorem gridrec_chunk_eq_slices (R : Gridrec) (a : GArgs) (s : Arr3 ℝ) (out : Arr)
    (hR : ∀ m g c f p, (R m g c f p).h = m.w ∧ (R m g c f p).w = m.w) (h : gridrec R a (.chunk s) = .ok out) (j : ℕ) (hj : j < s.h) :
    ∃ m, gridrec R a (.one (sinogramOf s j)) = .ok (.one m) ∧ m.Eqv (out.slice j) := by
  rw [show sinogramOf s j = chunkSino s j from rfl]
  have hok := (gridrec_error_iff R a (.chunk s)).1.1 ⟨out, h⟩
  obtain ⟨o, ho⟩ := (gridrec_error_iff R a (.one (chunkSino s j))).1.2 hok
  have hs := gridrec_spec R a _ out hR h
  have hs1 := gridrec_spec R a _ o hR ho
  obtain ⟨m, rfl⟩ := hs1.2.2.2.1.1 ⟨_, rfl⟩
  refine ⟨m, ho, hs1.1.trans (hs.1.symm.trans (slice_shape out j).1.symm), hs1.2.1.trans (hs.2.1.symm.trans (slice_shape out j).2.symm),
    fun y hy x hx => ?_⟩
  unfold gridrec at h ho
  rw [if_neg (mt (bad_iff' _ _ _).1 (not_not.2 hok.1))] at h
  rw [if_neg (mt (bad_iff' _ _ _).1 (not_not.2 (by exact hok.1)))] at ho
  cases hp : gridPads s.w a.pad with
  | error e =>
    have hp' : gridPads (Arr.chunk s).ncol a.pad = .error e := hp
    rw [hp'] at h
    exact (nomatch h)
  | ok q =>
    have hp' : gridPads (Arr.chunk s).ncol a.pad = .ok q := hp
    have hp'' : gridPads (Arr.one (chunkSino s j)).ncol a.pad = .ok q := hp
    rw [hp'] at h
    rw [hp''] at ho
    cases h
    cases ho
    show _ = (stack s.w _).get y j x
    rw [stack_slice _ _ _ _ hj]
    rfl

/-- C129: outside the circle the image is zero. -/
theorem gridrec_outside_zero (R : Gridrec) (a : GArgs) (x out : Arr) (hR : ∀ m g c f p, (R m g c f p).h = m.w ∧ (R m g c f p).w = m.w)
    (h : gridrec R a x = .ok out) (r : ℝ) (hr : a.ratio = some r) (hr0 : r ≠ 0) (j y k : ℕ) (hj : j < x.num)
    (hout : (r * ((x.ncol / 2 : ℕ) : ℝ)) ^ 2 < (dist2 x.ncol y k : ℝ)) : (out.slice j).get y k = 0 := by
  obtain ⟨-, -, -, -, l, r', -, -, -, -, -, hs⟩ := gridrec_spec R a x out hR h
  obtain ⟨P, -, hP⟩ := hs j hj
  rw [hP y k]
  unfold Common.inCircle
  rw [hr]
  dsimp only
  rw [if_neg hr0, if_neg (not_le.2 hout)]

/-! ### C130: astra -/

/-- C130: the choice of the method.  With a GPU exactly the listed methods are accepted, and used as given.  Without a GPU the name of a CPU
method is used as given, also if "_CUDA" is appended to it, and EM is refused; other names without "CUDA" in them are refused. -/
theorem method_spec (m : List Char) :
    (selectMethod true m = if m ∈ gpuMethods then .ok (true, m) else if m ∈ cpuMethods then .ok (false, m) else .error .valueError) ∧
    (m ∈ cpuMethods → selectMethod false m = .ok (false, m) ∧ selectMethod false (m ++ "_CUDA".toList) = .ok (false, m)) ∧
    selectMethod false "EM_CUDA".toList = .error .valueError ∧
    (m ∉ cpuMethods → ¬ "CUDA".toList <:+: m → selectMethod false m = .error .valueError) := by
  have e : "CUDA".toList = ['C', 'U', 'D', 'A'] := by decide
  have hc : ∀ m ∈ cpuMethods, ¬ ['C', 'U', 'D', 'A'] <:+: m ∧ m ∉ gpuMethods := by decide +kernel
  have hg : ∀ m ∈ gpuMethods, ['C', 'U', 'D', 'A'] <:+: m := by decide +kernel
  refine ⟨?_, ?_, by decide +kernel, ?_⟩
  · unfold selectMethod
    by_cases h1 : ['C', 'U', 'D', 'A'] <:+: m
    · rw [if_pos h1, if_pos rfl]
      by_cases h2 : m ∈ gpuMethods
      · rw [if_pos h2, if_pos h2]
      · rw [if_neg h2, if_neg h2, if_neg fun h3 => (hc m h3).1 h1]
    · rw [if_neg h1, if_neg fun h2 => h1 (hg m h2)]
  · intro h
    have : ∀ m ∈ cpuMethods, (match selectMethod false m with | .ok b => decide (b = (false, m)) | .error _ => false) = true ∧
        (match selectMethod false (m ++ "_CUDA".toList) with | .ok b => decide (b = (false, m)) | .error _ => false) = true := by
      decide +kernel
    obtain ⟨h1, h2⟩ := this m h
    constructor
    · cases h3 : selectMethod false m with
      | error e => rw [h3] at h1; cases h1
      | ok b => rw [h3] at h1; rw [of_decide_eq_true h1]
    · cases h3 : selectMethod false (m ++ "_CUDA".toList) with
      | error e => rw [h3] at h2; cases h2
      | ok b => rw [h3] at h2; rw [of_decide_eq_true h2]
  · intro h1 h2
    rw [e] at h2
    unfold selectMethod
    rw [if_neg h2, if_neg h1]

/-- C130 is false of the code in this respect: whether a name is accepted depends on the GPU in both directions, and without a GPU names
are accepted that are no methods at all. -/
theorem method_refuted :
    selectMethod true "ART_CUDA".toList = .error .valueError ∧ selectMethod false "ART_CUDA".toList = .ok (false, "ART".toList) ∧
    selectMethod true "F_CUDABP".toList = .error .valueError ∧ selectMethod false "F_CUDABP".toList = .ok (false, "FBP".toList) ∧
    selectMethod true "EM_CUDA".toList = .ok (true, "EM_CUDA".toList) ∧ selectMethod false "EM_CUDA".toList = .error .valueError := by
  decide +kernel

/-- C130: which calls are accepted (`none`: the schedule is not that of a complete run). -/
theorem astra_error_iff (A : Astra) (S : ShiftCols) (cuda : Bool) (a : AArgs) (x : Arr) (out : Py Arr) (h : astra A S cuda a x = some out) :
    ((∃ o, out = .ok o) ↔ a.Good x.nrow x.ncol ∧ (∃ r, selectMethod cuda a.method = .ok r) ∧ 0 < x.num) ∧
    ((∃ e, out = .error e) → out = .error .valueError) := by
  have hsel : ∀ e, selectMethod cuda a.method = .error e → e = .valueError := by
    intro e he
    unfold selectMethod at he
    dsimp only at he
    split at he
    · split at he
      · split at he <;> cases he; rfl
      · split at he
        · cases he; rfl
        · split at he <;> cases he; rfl
    · split at he <;> cases he; rfl
  unfold astra at h
  by_cases hb : a.bad x.nrow x.ncol
  · rw [if_pos hb] at h
    cases h
    exact ⟨⟨fun ⟨o, ho⟩ => (nomatch ho), fun h => absurd h.1 ((bad_iff' _ _ _).1 hb)⟩, fun _ => rfl⟩
  rw [if_neg hb] at h
  have hg : a.Good x.nrow x.ncol := not_not.1 (mt (bad_iff' _ _ _).2 hb)
  cases hm : selectMethod cuda a.method with
  | error e =>
    rw [hm] at h
    cases h
    exact ⟨⟨fun ⟨o, ho⟩ => (nomatch ho), fun ⟨_, ⟨r, hr⟩, _⟩ => (nomatch hr)⟩, fun _ => by rw [hsel e hm]⟩
  | ok r =>
    obtain ⟨gpu, me⟩ := r
    rw [hm] at h
    dsimp only at h
    cases x with
    | one m =>
      cases h
      exact ⟨⟨fun _ => ⟨hg, ⟨_, rfl⟩, Nat.one_pos⟩, fun _ => ⟨_, rfl⟩⟩, fun ⟨e, he⟩ => (nomatch he)⟩
    | chunk s =>
      dsimp only at h
      by_cases h0 : s.h = 0
      · rw [if_pos h0] at h
        cases h
        exact ⟨⟨fun ⟨o, ho⟩ => (nomatch ho), fun ⟨_, _, h3⟩ => absurd (h0 ▸ h3 : 0 < 0) (lt_irrefl _)⟩, fun _ => rfl⟩
      · rw [if_neg h0] at h
        split at h
        · exact (nomatch h)
        · cases h
          exact ⟨⟨fun _ => ⟨hg, ⟨_, rfl⟩, Nat.pos_of_ne_zero h0⟩, fun _ => ⟨_, rfl⟩⟩, fun ⟨e, he⟩ => (nomatch he)⟩

theorem astraSino_eq (S : ShiftCols) (m : Mat ℝ) (c : ℝ) (pad : ℕ) :
    astraSino S m c pad = S (padEdge m pad pad) (((m.w : ℝ) - 1) / 2 - c) := by
  unfold astraSino padEdge
  dsimp only
  congr 1
  push_cast
  ring

/-- What astra is asked to compute for one sinogram. -/
noncomputable def AArgs.run (A : Astra) (a : AArgs) (nrow : ℕ) (gpu : Bool) (me : List Char) (P : Mat ℝ) : Mat ℝ :=
  A me (!gpu) (if me = "FBP_CUDA".toList ∨ me = "FBP".toList then some a.filter else none) a.numIter (a.angle nrow) P

theorem line_eq (cuda gpu : Bool) (m me : List Char) (h : selectMethod cuda m = .ok (gpu, me)) :
    decide (¬ ['C', 'U', 'D', 'A'] <:+: me) = !gpu := by
  have hc : ∀ m ∈ cpuMethods, ¬ ['C', 'U', 'D', 'A'] <:+: m := by decide +kernel
  have hg : ∀ m ∈ gpuMethods, ['C', 'U', 'D', 'A'] <:+: m := by decide +kernel
  unfold selectMethod at h
  dsimp only at h
  split at h
  · split at h
    · split at h
      · cases h
        simpa using hg m ‹_›
      · exact (nomatch h)
    · split at h
      · exact (nomatch h)
      · split at h
        · cases h
          simpa using hc _ ‹_›
        · exact (nomatch h)
  · split at h
    · cases h
      simpa using hc m ‹_›
    · exact (nomatch h)

/-- C130: the result, for any number of threads and any order in which they work.  Image `j` is, inside the circle, the middle part of what
the algorithm gives for sinogram `j` alone, continued on both sides by `pad` copies of its edge values and shifted by
`(ncol - 1) / 2 - center` columns. -/
theorem astra_spec (A : Astra) (S : ShiftCols) (cuda : Bool) (a : AArgs) (x out : Arr)
    (hA : ∀ me l f n g m, (A me l f n g m).h = m.w ∧ (A me l f n g m).w = m.w) (hS : ∀ m s, (S m s).h = m.h ∧ (S m s).w = m.w)
    (h : astra A S cuda a x = some (.ok out)) :
    out.nrow = x.ncol ∧ out.ncol = x.ncol ∧ out.num = x.num ∧ ((∃ m, x = .one m) ↔ ∃ m, out = .one m) ∧
    ∃ (gpu : Bool) (me : List Char) (pad : ℕ), selectMethod cuda a.method = .ok (gpu, me) ∧
      (a.pad = none → (pad : ℝ) ≤ 0.15 * x.ncol ∧ pad ≤ 150 ∧ (pad < 150 → 0.15 * (x.ncol : ℝ) < pad + 1)) ∧
      (∀ p, a.pad = some p → (pad : ℤ) = max p 0) ∧
      ∀ j < x.num, ∃ P, Widened P (x.slice j) a.logv pad pad ∧ ∀ y k,
        (out.slice j).get y k =
          a.inCircle x.ncol ((a.run A x.nrow gpu me (S P (((x.ncol : ℝ) - 1) / 2 - a.center))).get (pad + y) (pad + k)) y k := by
  obtain ⟨hg, -, -⟩ := (astra_error_iff A S cuda a x _ h).1.1 ⟨out, rfl⟩
  have hn : 0 < x.ncol := by
    have := lt_of_le_of_lt hg.2.1 hg.2.2
    exact_mod_cast this
  unfold astra at h
  rw [if_neg (mt (bad_iff' _ _ _).1 (not_not.2 hg))] at h
  cases hm : selectMethod cuda a.method with
  | error e => rw [hm] at h; exact (nomatch h)
  | ok r =>
    obtain ⟨gpu, me⟩ := r
    rw [hm] at h
    dsimp only at h
    have hp1 : a.pad = none → ((astraPad x.ncol a.pad : ℕ) : ℝ) ≤ 0.15 * x.ncol ∧ astraPad x.ncol a.pad ≤ 150 ∧
        (astraPad x.ncol a.pad < 150 → 0.15 * (x.ncol : ℝ) < (astraPad x.ncol a.pad : ℕ) + 1) := by
      intro hp
      rw [hp]
      show ((min (3 * x.ncol / 20) 150 : ℕ) : ℝ) ≤ _ ∧ min (3 * x.ncol / 20) 150 ≤ 150 ∧ (min (3 * x.ncol / 20) 150 < 150 → _ < ((min (3 * x.ncol / 20) 150 : ℕ) : ℝ) + 1)
      generalize hv : min (3 * x.ncol / 20) 150 = v
      have h1 : 20 * v ≤ 3 * x.ncol := by omega
      have h1' : (20 : ℝ) * v ≤ 3 * x.ncol := by exact_mod_cast h1
      refine ⟨by linarith, by omega, fun h => ?_⟩
      have h2 : 3 * x.ncol < 20 * (v + 1) := by omega
      have h2' : (3 : ℝ) * x.ncol < 20 * (v + 1) := by exact_mod_cast h2
      linarith
    have hp2 : ∀ p, a.pad = some p → ((astraPad x.ncol a.pad : ℕ) : ℤ) = max p 0 := by
      intro p hp
      rw [hp]
      show (p.toNat : ℤ) = _
      omega
    generalize astraPad x.ncol a.pad = pad at *
    have hone : ∀ j y k, (a.masked x.ncol (astraSingle A S (a.logm (x.slice j)) a.center (a.angle x.nrow) pad me a.filter a.numIter)).get y k =
        a.inCircle x.ncol ((a.run A x.nrow gpu me (S (padEdge (a.logm (x.slice j)) pad pad)
          (((x.ncol : ℝ) - 1) / 2 - a.center))).get (pad + y) (pad + k)) y k := by
      intro j y k
      rw [(masked_get a.toCommon x.ncol _ y k).2.2]
      congr 1
      unfold astraSingle AArgs.run
      dsimp only
      rw [line_eq cuda gpu _ me hm, astraSino_eq, show (a.logm (x.slice j)).w = x.ncol from (slice_shape x j).2]
      rfl
    have hw : ∀ j, Widened (padEdge (a.logm (x.slice j)) pad pad) (x.slice j) a.logv pad pad := fun j =>
      widened _ _ _ _ (by rw [(slice_shape x j).2]; exact hn)
    cases x with
    | one m =>
      cases h
      have hsq : (astraSingle A S (a.logm m) a.center (a.angle m.h) pad me a.filter a.numIter).h = m.w ∧
          (astraSingle A S (a.logm m) a.center (a.angle m.h) pad me a.filter a.numIter).w = m.w := by
        unfold astraSingle
        dsimp only
        rw [astraSino_eq]
        have e1 := hS (padEdge (a.logm m) pad pad) ((((a.logm m).w : ℝ) - 1) / 2 - a.center)
        have e2 : (padEdge (a.logm m) pad pad).w = pad + m.w + pad := rfl
        have e3 : (a.logm m).w + 2 * pad - pad - pad = m.w := by
          show m.w + 2 * pad - pad - pad = m.w
          omega
        rw [e3]
        exact cropSq_shape _ pad m.w pad ((hA _ _ _ _ _ _).1.trans (e1.2.trans e2)) ((hA _ _ _ _ _ _).2.trans (e1.2.trans e2))
      refine ⟨?_, ?_, rfl, by simp, gpu, me, pad, rfl, hp1, hp2, fun j hj => ⟨_, hw j, fun y k => hone j y k⟩⟩
      · exact (masked_get a.toCommon m.w _ 0 0).1.trans hsq.1
      · exact (masked_get a.toCommon m.w _ 0 0).2.1.trans hsq.2
    | chunk s =>
      dsimp only at h
      by_cases h0 : s.h = 0
      · rw [if_pos h0] at h
        exact (nomatch h)
      rw [if_neg h0] at h
      have hmap : ∀ l, (astraChunk gpu a.ncore a.sched s.h fun j => astraSingle A S (a.logm (chunkSino s j)) a.center (a.angle s.d) pad me
          a.filter a.numIter) = some l → l = (List.range s.h).map fun j => astraSingle A S (a.logm (chunkSino s j)) a.center
          (a.angle s.d) pad me a.filter a.numIter := by
        intro l hl
        unfold astraChunk at hl
        split at hl
        · exact (Option.some.inj hl).symm
        · exact Center.parMap_eq _ _ _ _ _ hl
      split at h
      · exact (nomatch h)
      · rename_i l hl
        rw [hmap l hl] at h
        cases h
        refine ⟨rfl, rfl, by simp [Arr.num, stack], by simp, gpu, me, pad, rfl, hp1, hp2, fun j hj => ⟨_, hw j, fun y k => ?_⟩⟩
        show (stack s.w _).get y j k = _
        rw [List.map_map, stack_slice _ _ _ _ (show j < s.h from hj)]
        exact hone j y k

/-- C130: a chunk is reconstructed slice by slice, whatever the number of threads and their schedule. -/
theorem astra_chunk_eq_slices (A : Astra) (S : ShiftCols) (cuda : Bool) (a : AArgs) (s : Arr3 ℝ) (out : Arr)
    (hA : ∀ me l f n g m, (A me l f n g m).h = m.w ∧ (A me l f n g m).w = m.w) (hS : ∀ m s, (S m s).h = m.h ∧ (S m s).w = m.w)
    (h : astra A S cuda a (.chunk s) = some (.ok out)) (j : ℕ) (hj : j < s.h) (ncore : ℕ) (sched : List Sched.Ev) :
    ∃ m, astra A S cuda { a with ncore := ncore, sched := sched } (.one (sinogramOf s j)) = some (.ok (.one m)) ∧ m.Eqv (out.slice j) := by
  rw [show sinogramOf s j = chunkSino s j from rfl]
  obtain ⟨hg, ⟨⟨gpu, me⟩, hm⟩, -⟩ := (astra_error_iff A S cuda a _ _ h).1.1 ⟨out, rfl⟩
  have h1 := astra_spec A S cuda a _ out hA hS h
  have hone : astra A S cuda { a with ncore := ncore, sched := sched } (.one (chunkSino s j)) = some (.ok (.one (a.masked s.w
      (astraSingle A S (a.logm (chunkSino s j)) a.center (a.angle s.d) (astraPad s.w a.pad) me a.filter a.numIter)))) := by
    unfold astra
    rw [if_neg (mt (bad_iff' _ _ _).1 (not_not.2 (by exact hg)))]
    dsimp only
    rw [hm]
    rfl
  have h2 := astra_spec A S cuda _ _ _ hA hS hone
  refine ⟨_, hone, h2.1.trans (h1.1.symm.trans (slice_shape out j).1.symm), h2.2.1.trans (h1.2.1.symm.trans (slice_shape out j).2.symm),
    fun y hy x hx => ?_⟩
  unfold astra at h
  rw [if_neg (mt (bad_iff' _ _ _).1 (not_not.2 hg)), hm] at h
  dsimp only at h
  rw [if_neg (by omega)] at h
  split at h
  · exact (nomatch h)
  · rename_i l hl
    have hl' : l = (List.range s.h).map fun j => astraSingle A S (a.logm (chunkSino s j)) a.center
          (a.angle s.d) (astraPad s.w a.pad) me a.filter a.numIter := by
      unfold astraChunk at hl
      split at hl
      · exact (Option.some.inj hl).symm
      · exact Center.parMap_eq _ _ _ _ _ hl
    rw [hl'] at h
    cases h
    show _ = (stack s.w _).get y j x
    rw [List.map_map, stack_slice _ _ _ _ hj]
    rfl

/-- C130: the shift puts the centre of rotation into the middle of the array handed to astra: if it is a whole number `k` of columns (and
`scipy.ndimage.shift` moves whole columns exactly), column `j` of the sinogram becomes column `pad + j + k`, and column `center` the
middle one. -/
theorem astra_center (S : ShiftCols) (m P : Mat ℝ) (f : ℝ → ℝ) (center : ℝ) (pad : ℕ) (k : ℤ) (hP : Widened P m f pad pad)
    (hS : ∀ (m : Mat ℝ) (k : ℤ), (S m k).w = m.w ∧ ∀ i < m.h, ∀ j < m.w,
      (S m k).get i j = m.get i (max 0 (min ((j : ℤ) - k) (m.w - 1))).toNat)
    (hk : ((m.w : ℝ) - 1) / 2 - center = k) (i j : ℕ) (hi : i < m.h) (hj : j < m.w) (h0 : 0 ≤ (pad : ℤ) + j + k)
    (h1 : (pad : ℤ) + j + k < m.w + 2 * pad) :
    (S P (((m.w : ℝ) - 1) / 2 - center)).get i ((pad : ℤ) + j + k).toNat = f (m.get i j) ∧
    ((pad : ℝ) + center + k) = (((S P (((m.w : ℝ) - 1) / 2 - center)).w : ℝ) - 1) / 2 := by
  obtain ⟨p1, p2, p3⟩ := hP
  rw [hk]
  constructor
  · rw [(hS P k).2 i (by omega) _ (by omega), ← (p3 i hi).2.1 j hj]
    congr 1
    omega
  · rw [(hS P k).1, p2]
    push_cast
    linarith

/-! ### Instances -/

/-- A routine with square results. -/
def exR : Gridrec := fun m _ _ _ _ => ⟨m.w, m.w, fun _ j => m.get 0 j⟩

noncomputable def exG : GArgs := { center := 1, angles := none, ratio := some 1, applyLog := false, pad := .int 1, filter := "shepp", filterPar := 0.9 }

def exM : Mat ℝ := ⟨2, 3, fun _ j => j⟩

theorem exGood : Common.Good exG.toCommon 2 3 := ⟨fun l h => (by simp [exG] at h), by norm_num [exG], by norm_num [exG]⟩

/-- An accepted call: a sinogram of width 3 with pad=1 is widened to 8 columns. -/
example : ∃ out, gridrec exR exG (.one exM) = .ok out ∧ gridPads 3 (.int 1) = .ok (2, 3) := by
  obtain ⟨o, ho⟩ := (gridrec_error_iff exR exG (.one exM)).2.2 exGood (fun p h => by cases h; norm_num)
  refine ⟨o, ho, ?_⟩
  decide +kernel

/-- A refused call: pad = -1 would need 1 column for 3. -/
example : gridrec exR { exG with pad := .int (-1) } (.one exM) = .error .valueError := by
  have h := gridrec_error_iff exR { exG with pad := .int (-1) } (.one exM)
  cases hr : gridrec exR { exG with pad := .int (-1) } (.one exM) with
  | error e => rw [hr] at h; exact h.2.1 ⟨e, rfl⟩
  | ok o =>
    have := ((h.1.1 ⟨o, hr⟩).2 (-1) rfl).2 0 (by norm_num [Arr.ncol, exM])
    norm_num [Arr.ncol, exM] at this

noncomputable def exA : AArgs :=
  { center := 1, angles := none, ratio := some 0, applyLog := false, method := "SIRT_CUDA".toList, numIter := 5, filter := "hann", pad := some 2,
    ncore := 1, sched := [] }

/-- An accepted call: three sinograms on the GPU, with the mean of the columns as the routine. -/
example : ∃ out, astra (fun _ _ _ _ _ m => ⟨m.w, m.w, fun _ j => m.get 0 j⟩) (fun m _ => m) true exA (.chunk ⟨2, 3, 3, fun _ _ c => c⟩)
    = some (.ok out) := by
  have hm : selectMethod true exA.method = .ok (true, "SIRT_CUDA".toList) := by
    have := (method_spec "SIRT_CUDA".toList).1
    rw [if_pos (by decide +kernel)] at this
    exact this
  unfold astra
  rw [if_neg (mt (bad_iff' _ _ _).1 (not_not.2 ⟨fun l h => (by simp [exA] at h), by norm_num [exA], by norm_num [exA, Arr.ncol]⟩)), hm]
  dsimp only
  rw [if_neg (by norm_num)]
  exact ⟨_, rfl⟩

end Verif.External
