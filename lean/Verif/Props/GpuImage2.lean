import Verif.Props.GpuImage
import Mathlib.Data.Rat.BigOperators

/-!
**C161**, default normalisation: the GPU search of two single images normalises each chunk by its own sums, so the result depends on `chunk_size` and
differs from the CPU search by more than sub-pixel refinement.
-/

set_option linter.unusedSectionVars false
set_option linter.unusedSimpArgs false

namespace Verif.GpuImage
open Finset Verif.Correlation Verif.LocalShifts Verif.GpuShifts Verif.GlobalShift Verif.Sched

/-! ### Normalisation up to brightness and contrast -/

/-- An image divided by its column and row sums. -/
noncomputable def divImage (m : Mat ℝ) : Mat ℝ := ⟨m.h, m.w, divSums m.h m.w m.get⟩

theorem normImage_affine {m : Mat ℝ} {i i' j j' : ℕ} (hi : i < m.h) (hi' : i' < m.h) (hj : j < m.w) (hj' : j' < m.w)
    (hne : (divImage m).get i j ≠ (divImage m).get i' j') : ∃ a b : ℝ, 0 < a ∧ ∀ p q, (normImage m).get p q = a * (divImage m).get p q + b := by
  have hs := std_pos (d := 1) (n := m.h) (w := m.w) (rows := fun k _ i => divSums m.h m.w m.get k i)
    ⟨0, by norm_num, i, hi, j, hj, 0, by norm_num, i', hi', j', hj', hne⟩
  unfold stdRows at hs
  dsimp only at hs
  refine ⟨_, -(mean3 1 m.h m.w fun _ k i => divSums m.h m.w m.get k i) /
    Real.sqrt (mean3 1 m.h m.w fun _ k i => (divSums m.h m.w m.get k i - mean3 1 m.h m.w fun _ k i => divSums m.h m.w m.get k i) ^ 2),
    one_div_pos.2 hs, fun p q => ?_⟩
  unfold normImage normalize2 divImage
  dsimp only
  ring

/-- The coefficients of the normalised images are those of the images divided by their sums. -/
theorem coefs_norm {ref mat : Mat ℝ} {radi margin i j : ℕ} (h1 : ∃ i < ref.h, ∃ i' < ref.h, ∃ j < ref.w, ∃ j' < ref.w, (divImage ref).get i j ≠ (divImage ref).get i' j')
    (h2 : ∃ i < mat.h, ∃ i' < mat.h, ∃ j < mat.w, ∃ j' < mat.w, (divImage mat).get i j ≠ (divImage mat).get i' j') :
    coefs (normImage ref) (normImage mat) radi margin i j = coefs (divImage ref) (divImage mat) radi margin i j := by
  obtain ⟨p, hp, p', hp', q, hq, q', hq', hne⟩ := h1
  obtain ⟨a, b, ha, hab⟩ := normImage_affine hp hp' hq hq' hne
  obtain ⟨p, hp, p', hp', q, hq, q', hq', hne⟩ := h2
  obtain ⟨a', b', ha', hab'⟩ := normImage_affine hp hp' hq hq' hne
  unfold coefs
  exact cellMap_affine (a := a) (b := b) (a' := a') (b' := b') (by show 2 * radi + 1 ≤ 2 * (margin + radi) + 1; omega)
    (by show 2 * radi + 1 ≤ 2 * (margin + radi) + 1; omega) rfl ha ha' ⟨rfl, rfl, rfl⟩ ⟨rfl, rfl, rfl⟩ (fun k p q => hab _ _) (fun k p q => hab' _ _)

/-! ### An example: 6 x 5 pixels, window 3, margin 1 -/

/-- The images, as rationals. -/
def exRefQ (i j : ℕ) : ℚ := (([[1, 0, 0, 0, 0], [1, 2, 1, 1, 1], [0, 0, 1, 1, 1], [1, 0, 0, 0, 1], [2, 0, 0, 1, 0], [10, 0, 10, 0, 10]] : List (List ℚ)).getD i []).getD j 0
def exMatQ (i j : ℕ) : ℚ := (([[0, 0, 0, 0, 1], [2, 1, 1, 1, 1], [0, 1, 1, 1, 0], [0, 0, 0, 1, 1], [0, 0, 1, 0, 2], [0, 0, 10, 0, 0]] : List (List ℚ)).getD i []).getD j 0

/-- The images. -/
def exGRef : Mat ℝ := ⟨6, 5, fun i j => exRefQ i j⟩
def exGMat : Mat ℝ := ⟨6, 5, fun i j => exMatQ i j⟩

/-- `divSums` over the rationals. -/
def divQ (h : ℕ) (x : ℕ → ℕ → ℚ) (k i : ℕ) : ℚ := x k i / (∑ p ∈ range h, x p i) / ∑ q ∈ range 5, x k q

theorem divQ_cast (h : ℕ) (x : ℕ → ℕ → ℚ) (k i : ℕ) : divSums h 5 (fun i j => (x i j : ℝ)) k i = ((divQ h x k i : ℚ) : ℝ) := by
  unfold divSums divQ
  push_cast
  rfl

/-- The covariance of two 3 x 3 windows. -/
def covQ (f g : ℕ → ℕ → ℚ) : ℚ :=
  let fm := (∑ i ∈ range 3, ∑ j ∈ range 3, f i j) / 9
  let gm := (∑ i ∈ range 3, ∑ j ∈ range 3, g i j) / 9
  ∑ i ∈ range 3, ∑ j ∈ range 3, (g i j - gm) * (f i j - fm)

theorem cell_sign {f g : ℕ → ℕ → ℚ} {F G : ℕ → ℕ → ℕ → ℝ} (hF : ∀ k i j, F k i j = f i j) (hG : ∀ k i j, G k i j = g i j) :
    (covQ f g ≤ 0 → (cell 1 3 3 F G).getD 0 ≤ 0) ∧ (0 < covQ f g → 0 < covQ f f → 0 < covQ g g → 0 < (cell 1 3 3 F G).getD 0) := by
  have hm : mean3 1 3 3 F = (((∑ i ∈ range 3, ∑ j ∈ range 3, f i j) / 9 : ℚ) : ℝ) := by
    unfold mean3 sum3
    simp only [hF]
    push_cast
    norm_num
  have hm' : mean3 1 3 3 G = (((∑ i ∈ range 3, ∑ j ∈ range 3, g i j) / 9 : ℚ) : ℝ) := by
    unfold mean3 sum3
    simp only [hG]
    push_cast
    norm_num
  have e1 : sum3 1 3 3 (fun i j k => (G i j k - mean3 1 3 3 G) * (F i j k - mean3 1 3 3 F)) = ((covQ f g : ℚ) : ℝ) := by
    rw [hm, hm']
    unfold covQ sum3
    simp only [hF, hG]
    push_cast
    norm_num
  have e2 : sum3 1 3 3 (fun i j k => (F i j k - mean3 1 3 3 F) * (F i j k - mean3 1 3 3 F)) = ((covQ f f : ℚ) : ℝ) := by
    rw [hm]
    unfold covQ sum3
    simp only [hF, hG]
    push_cast
    norm_num
  have e3 : sum3 1 3 3 (fun i j k => (G i j k - mean3 1 3 3 G) * (G i j k - mean3 1 3 3 G)) = ((covQ g g : ℚ) : ℝ) := by
    rw [hm']
    unfold covQ sum3
    simp only [hF, hG]
    push_cast
    norm_num
  unfold cell
  dsimp only
  rw [e1, e2, e3]
  constructor
  · intro h
    by_cases h0 : √(((covQ g g : ℚ) : ℝ) * ((covQ f f : ℚ) : ℝ)) ≠ 0
    · rw [if_pos h0]
      exact div_nonpos_of_nonpos_of_nonneg (by exact_mod_cast h) (Real.sqrt_nonneg _)
    · rw [if_neg h0]; exact le_refl _
  · intro h h1 h2
    have h0 : 0 < √(((covQ g g : ℚ) : ℝ) * ((covQ f f : ℚ) : ℝ)) := Real.sqrt_pos.2 (mul_pos (by exact_mod_cast h2) (by exact_mod_cast h1))
    rw [if_pos h0.ne']
    exact div_pos (by exact_mod_cast h) h0

/-- Windows of the example. -/
def winQ (h : ℕ) (x : ℕ → ℕ → ℚ) (y z : ℕ) : ℕ → ℕ → ℚ := fun p q => divQ h x (y + p) (z + q)

theorem ex_cov : (covQ (winQ 6 exMatQ 1 1) (winQ 6 exRefQ 1 2) ≤ 0) ∧ 0 < covQ (winQ 6 exMatQ 1 1) (winQ 6 exRefQ 0 1) ∧
    0 < covQ (winQ 6 exMatQ 1 1) (winQ 6 exMatQ 1 1) ∧ 0 < covQ (winQ 6 exRefQ 0 1) (winQ 6 exRefQ 0 1) := by
  decide +kernel

theorem ex_div (h : ℕ) : divImage (rowsFrom exGRef 0 h) = ⟨h, 5, fun i j => ((divQ h exRefQ i j : ℚ) : ℝ)⟩ ∧
    divImage (rowsFrom exGMat 0 h) = ⟨h, 5, fun i j => ((divQ h exMatQ i j : ℚ) : ℝ)⟩ := by
  unfold divImage rowsFrom exGRef exGMat
  simp only [Nat.zero_add]
  constructor <;> (congr 1; funext i j; exact divQ_cast _ _ _ _)

/-- In the first five rows the sample is the reference displaced by one column, and by nothing else. -/
theorem ex_copy : ∀ p < 3, ∀ q < 3, winQ 5 exMatQ 1 1 p q = winQ 5 exRefQ 1 2 p q := by decide +kernel

theorem ex_unique : ∀ y < 3, ∀ x < 3, (y ≠ 1 ∨ x ≠ 2) → ∃ p < 3, ∃ q < 3, ∃ p' < 3, ∃ q' < 3, ∃ p'' < 3, ∃ q'' < 3,
    (winQ 5 exMatQ 1 1 p q - winQ 5 exMatQ 1 1 p' q') * (winQ 5 exRefQ y x p q - winQ 5 exRefQ y x p'' q'') ≠
    (winQ 5 exMatQ 1 1 p q - winQ 5 exMatQ 1 1 p'' q'') * (winQ 5 exRefQ y x p q - winQ 5 exRefQ y x p' q') := by decide +kernel

/-- Three points of an affine copy are collinear with those of the original. -/
theorem ex_shift : WindowShift (divImage (rowsFrom exGRef 0 5)) (divImage (rowsFrom exGMat 0 5)) 2 2 1 1 0 1 := by
  rw [(ex_div 5).1, (ex_div 5).2]
  have key : ∀ p q : ℕ, 2 ≤ p + 1 → p ≤ 2 + 1 → 2 ≤ q + 1 → q ≤ 2 + 1 → divQ 5 exMatQ p q = divQ 5 exRefQ p (q + 1) := by
    intro p q h1 h2 h3 h4
    have := ex_copy (p - 1) (by omega) (q - 1) (by omega)
    unfold winQ at this
    rwa [show 1 + (p - 1) = p by omega, show 1 + (q - 1) = q by omega, show 2 + (q - 1) = q + 1 by omega] at this
  refine ⟨⟨1, 0, one_pos, ?_⟩, ?_, ?_⟩
  · intro p q h1 h2 h3 h4
    dsimp only
    rw [one_mul, add_zero, key p q h1 h2 h3 h4, show ((p : ℤ) + 0).toNat = p by omega, show ((q : ℤ) + 1).toNat = q + 1 by omega]
  · refine ⟨1, 1, 3, 1, by omega, by omega, ?_⟩
    have : divQ 5 exMatQ 1 1 ≠ divQ 5 exMatQ 3 1 := by decide +kernel
    dsimp only
    exact_mod_cast this
  · rintro ey ex hy hx ⟨a, b, -, hc⟩
    rw [abs_le] at hy hx
    by_contra hne
    obtain ⟨p, hp, q, hq, p', hp', q', hq', p'', hp'', q'', hq'', h⟩ := ex_unique (ey + 1).toNat (by omega) (ex + 1).toNat (by omega) (by omega)
    have hw : ∀ p < 3, ∀ q < 3, ((winQ 5 exMatQ 1 1 p q : ℚ) : ℝ) = a * ((winQ 5 exRefQ (ey + 1).toNat (ex + 1).toNat p q : ℚ) : ℝ) + b := by
      intro p hp q hq
      have := hc (1 + p) (1 + q) (by omega) (by omega) (by omega) (by omega)
      unfold winQ
      rw [show (((1 + p : ℕ) : ℤ) + ey).toNat = (ey + 1).toNat + p by omega, show (((1 + q : ℕ) : ℤ) + ex).toNat = (ex + 1).toNat + q by omega] at this
      exact this
    apply h
    have e1 := hw p hp q hq
    have e2 := hw p' hp' q' hq'
    have e3 := hw p'' hp'' q'' hq''
    have : (((winQ 5 exMatQ 1 1 p q - winQ 5 exMatQ 1 1 p' q') * (winQ 5 exRefQ (ey + 1).toNat (ex + 1).toNat p q - winQ 5 exRefQ (ey + 1).toNat (ex + 1).toNat p'' q'') : ℚ) : ℝ) =
      (((winQ 5 exMatQ 1 1 p q - winQ 5 exMatQ 1 1 p'' q'') * (winQ 5 exRefQ (ey + 1).toNat (ex + 1).toNat p q - winQ 5 exRefQ (ey + 1).toNat (ex + 1).toNat p' q') : ℚ) : ℝ) := by
      push_cast
      rw [e1, e2, e3]
      ring
    exact_mod_cast this

theorem exG_varied (h : ℕ) (hh : h = 5 ∨ h = 6) :
    (∃ i < (rowsFrom exGRef 0 h).h, ∃ i' < (rowsFrom exGRef 0 h).h, ∃ j < (rowsFrom exGRef 0 h).w, ∃ j' < (rowsFrom exGRef 0 h).w,
      (divImage (rowsFrom exGRef 0 h)).get i j ≠ (divImage (rowsFrom exGRef 0 h)).get i' j') ∧
    ∃ i < (rowsFrom exGMat 0 h).h, ∃ i' < (rowsFrom exGMat 0 h).h, ∃ j < (rowsFrom exGMat 0 h).w, ∃ j' < (rowsFrom exGMat 0 h).w,
      (divImage (rowsFrom exGMat 0 h)).get i j ≠ (divImage (rowsFrom exGMat 0 h)).get i' j' := by
  rw [(ex_div h).1, (ex_div h).2]
  have h1 : ∀ h, h = 5 ∨ h = 6 → divQ h exRefQ 0 0 ≠ divQ h exRefQ 0 1 := by rintro h (rfl | rfl) <;> decide +kernel
  have h2 : ∀ h, h = 5 ∨ h = 6 → divQ h exMatQ 0 4 ≠ divQ h exMatQ 0 1 := by rintro h (rfl | rfl) <;> decide +kernel
  refine ⟨⟨0, by show 0 < h; omega, 0, by show 0 < h; omega, 0, by show 0 < 5; omega, 1, by show 1 < 5; omega, ?_⟩,
    ⟨0, by show 0 < h; omega, 0, by show 0 < h; omega, 4, by show 4 < 5; omega, 1, by show 1 < 5; omega, ?_⟩⟩
  · dsimp only; exact_mod_cast h1 h hh
  · dsimp only; exact_mod_cast h2 h hh

/-- The position of the largest coefficient of the whole images is not that of the first five rows. -/
theorem ex_other {y x : ℕ} (hp : FirstMax2 (coefs (divImage (rowsFrom exGRef 0 6)) (divImage (rowsFrom exGMat 0 6)) 1 1 2 2) y x) : ¬ (y = 1 ∧ x = 2) := by
  rintro ⟨rfl, rfl⟩
  rw [(ex_div 6).1, (ex_div 6).2] at hp
  obtain ⟨c1, c2, c3, c4⟩ := ex_cov
  have s1 : (coefs ⟨6, 5, fun i j => ((divQ 6 exRefQ i j : ℚ) : ℝ)⟩ ⟨6, 5, fun i j => ((divQ 6 exMatQ i j : ℚ) : ℝ)⟩ 1 1 2 2).get 1 2 ≤ 0 :=
    (cell_sign (f := winQ 6 exMatQ 1 1) (g := winQ 6 exRefQ 1 2) (fun k i j => rfl) (fun k i j => by
      show ((divQ 6 exRefQ (0 + (1 + i)) (0 + (2 + j)) : ℚ) : ℝ) = _
      rw [Nat.zero_add, Nat.zero_add]; rfl)).1 c1
  have s2 : 0 < (coefs ⟨6, 5, fun i j => ((divQ 6 exRefQ i j : ℚ) : ℝ)⟩ ⟨6, 5, fun i j => ((divQ 6 exMatQ i j : ℚ) : ℝ)⟩ 1 1 2 2).get 0 1 :=
    (cell_sign (f := winQ 6 exMatQ 1 1) (g := winQ 6 exRefQ 0 1) (fun k i j => rfl) (fun k i j => by
      show ((divQ 6 exRefQ (0 + (0 + i)) (0 + (1 + j)) : ℚ) : ℝ) = ((divQ 6 exRefQ (0 + i) (1 + j) : ℚ) : ℝ)
      simp only [Nat.zero_add])).2 c2 c3 c4
  have := hp.2.2.1 0 (by rw [(coefs_size _ _ _ _ _ _).1]; omega) 1 (by rw [(coefs_size _ _ _ _ _ _).2]; omega)
  linarith

/-- The sub-pixel correction of the GPU is less than one pixel. -/
theorem peak2_fst_lt (m : Mat ℝ) (y0 x0 : ℕ) : (peak2 m y0 x0).1 < x0 + 1 := by
  unfold peak2
  extract_lets xIn yIn xEdge yEdge d1fy d2fy d1fx d2fx d1fxy num xOff yOff
  by_cases h : num ≠ 0
  · rw [if_pos h]
    by_cases h2 : |xOff| < 1 ∧ 0 < |xOff|
    · show (if |xOff| < 1 ∧ 0 < |xOff| then (x0 : ℝ) + xOff else x0) < x0 + 1
      rw [if_pos h2]
      linarith [(abs_lt.1 h2.1).2]
    · show (if |xOff| < 1 ∧ 0 < |xOff| then (x0 : ℝ) + xOff else x0) < x0 + 1
      rw [if_neg h2]
      linarith
  · rw [if_neg h]
    show (x0 : ℝ) < x0 + 1
    linarith

/-- **C161 refuted for `norm=True`.** On the images above (6 x 5 pixels, `win_size=3`, `margin=1`) the shift at pixel (2, 2) is exactly `(1, 0)` with
`chunk_size=4` and something else with `chunk_size=None`. -/
theorem image_norm_refuted {block : ℕ × ℕ} (hb : 0 < block.1 ∧ 0 < block.2) :
    ∃ x y x' y', shiftsImage exGRef exGMat 3 1 (some 4) block true = .ok (x, y) ∧ shiftsImage exGRef exGMat 3 1 none block true = .ok (x', y') ∧
      (x.get 2 2 = 1 ∧ y.get 2 2 = 0) ∧ ¬ (x'.get 2 2 = 1 ∧ y'.get 2 2 = 0) := by
  have hS : SpeckleTracking.Searched exGRef.h exGRef.w (3 / 2 + 1) 2 2 := ⟨⟨by norm_num, by norm_num [exGRef]⟩, by norm_num, by norm_num [exGRef]⟩
  obtain ⟨x, y, bs, h1, -, h2, h3, -⟩ := image_spec (ref := exGRef) (mat := exGMat) (winSize := 3) (margin := 1) (chunkSize := some 4) (block := block)
    (norm := true) ⟨rfl, rfl⟩ (by norm_num) ⟨by norm_num [exGRef], by norm_num [exGRef]⟩ hb (by decide)
  obtain ⟨x', y', g1, -, g3, -⟩ := image_whole (ref := exGRef) (mat := exGMat) (winSize := 3) (margin := 1) (chunkSize := none) (block := block)
    (norm := true) ⟨rfl, rfl⟩ (by norm_num) ⟨by norm_num [exGRef], by norm_num [exGRef]⟩ hb (by decide) (Or.inr rfl)
  have hbs : bs = [(2, 3), (3, 4)] := (Except.ok.inj h2).symm
  refine ⟨x, y, x', y', h1, g1, ?_, ?_⟩
  · obtain ⟨b, n, hm, hbn, hf⟩ := h3 2 2 hS
    have hbn : b + 2 ≤ 2 ∧ 2 + 2 < b + n ∧ b + n ≤ 6 := hbn
    have hm : (b + 2, b + n - 2) ∈ bs := hm
    rw [hbs] at hm
    simp only [List.mem_cons, Prod.mk.injEq, List.not_mem_nil, or_false] at hm
    have hb0 : b = 0 := by omega
    have hn0 : n = 5 := by omega
    subst hb0 hn0
    have hf : finishGpu 1 true (coefs (normImage (rowsFrom exGRef 0 5)) (normImage (rowsFrom exGMat 0 5)) 1 1 2 2) = .ok (x.get 2 2, y.get 2 2) := hf
    obtain ⟨v1, v2⟩ := exG_varied 5 (Or.inl rfl)
    rw [coefs_norm v1 v2] at hf
    obtain ⟨v, hv, -, he⟩ := finish_recovers (ref := divImage (rowsFrom exGRef 0 5)) (mat := divImage (rowsFrom exGMat 0 5)) (i := 2) (j := 2) (radi := 1)
      (margin := 1) rfl rfl le_rfl (by norm_num) (by show 2 + (1 + 1) < 5; norm_num) (by norm_num) (by show 2 + (1 + 1) < 5; norm_num) (by norm_num)
      (by norm_num) ex_shift
    rw [hf] at hv
    have hv := Except.ok.inj hv
    have he := he (Or.inr (by norm_num))
    rw [← hv] at he
    exact ⟨by simpa using congrArg Prod.fst he, by simpa using congrArg Prod.snd he⟩
  · rintro ⟨e1, e2⟩
    have hf : finishGpu 1 true (coefs (normImage (rowsFrom exGRef 0 6)) (normImage (rowsFrom exGMat 0 6)) 1 1 2 2) = .ok (x'.get 2 2, y'.get 2 2) := by
      have := g3 2 2 hS
      have r1 : rowsFrom exGRef 0 6 = exGRef := by unfold rowsFrom exGRef; simp only [Nat.zero_add]
      have r2 : rowsFrom exGMat 0 6 = exGMat := by unfold rowsFrom exGMat; simp only [Nat.zero_add]
      rw [r1, r2]
      exact this
    obtain ⟨v1, v2⟩ := exG_varied 6 (Or.inr rfl)
    rw [coefs_norm v1 v2, e1, e2] at hf
    obtain ⟨c1, c2⟩ := coefs_size (divImage (rowsFrom exGRef 0 6)) (divImage (rowsFrom exGMat 0 6)) 1 1 2 2
    obtain ⟨p, q, -, hp⟩ := argmax2_spec (m := coefs (divImage (rowsFrom exGRef 0 6)) (divImage (rowsFrom exGMat 0 6)) 1 1 2 2) (by omega) (by omega)
    have hne := ex_other hp
    have hlt := hp.1
    have hlt2 := hp.2.1
    rw [c1] at hlt
    rw [c2] at hlt2
    rw [finish_eq (by omega) (by omega) hp] at hf
    have hf := Except.ok.inj hf
    have f1 := congrArg Prod.fst hf
    have f2 := congrArg Prod.snd hf
    dsimp only at f1 f2
    generalize coefs (divImage (rowsFrom exGRef 0 6)) (divImage (rowsFrom exGMat 0 6)) 1 1 2 2 = m at *
    by_cases hin : (0 < p ∧ p + 1 < m.h) ∧ 0 < q ∧ q + 1 < m.w
    · have hq : q = 1 := by omega
      have hx : (peak2 m p q).1 < 2 := by
        have := peak2_fst_lt m p q
        have hq' : (q : ℝ) = 1 := by exact_mod_cast hq
        linarith
      push_cast at f1
      linarith
    · rw [peak2_edge hin] at f1 f2
      dsimp only at f1 f2
      have q2 : (q : ℝ) = 2 := by push_cast at f1; linarith
      have p1 : (p : ℝ) = 1 := by push_cast at f2; linarith
      exact hne ⟨by exact_mod_cast p1, by exact_mod_cast q2⟩

/-- **C161.** `find_local_shifts` on two single images with `norm=False`: whatever `gpu`, number of cores, schedule, chunk size and thread block of the two
calls, and whether a GPU is present, both succeed and their shifts differ by at most half a pixel in each direction. -/
theorem find_local_shifts_gpu {ref mat : Mat ℝ} {winSize margin : ℕ} {g1 g2 : Gpu} {v1 v2 : Bool} {c1 c2 : Option ℤ} {b1 b2 : ℕ × ℕ} {size : ℤ} {n1 n2 : ℕ}
    {s1 s2 : List Ev} {r1 r2 : Py (Mat ℝ × Mat ℝ)} (hs : ref.h = mat.h ∧ ref.w = mat.w)
    (hm : 1 ≤ margin) (hz : 2 * (winSize / 2 + margin) + 1 ≤ ref.h ∧ 2 * (winSize / 2 + margin) + 1 ≤ ref.w)
    (hb1 : 0 < b1.1 ∧ 0 < b1.2) (hb2 : 0 < b2.1 ∧ 0 < b2.2)
    (hn1 : numChunk ref.h c1 ≤ ref.h - 2 * (winSize / 2 + margin)) (hn2 : numChunk ref.h c2 ≤ ref.h - 2 * (winSize / 2 + margin))
    (h1 : findLocalShifts g1 v1 ref mat winSize margin .diff size b1 n1 false c1 s1 = some r1)
    (h2 : findLocalShifts g2 v2 ref mat winSize margin .diff size b2 n2 false c2 s2 = some r2) :
    ∃ x y x' y', r1 = .ok (x, y) ∧ r2 = .ok (x', y') ∧
      ∀ i < ref.h, ∀ j < ref.w, |x.get i j - x'.get i j| ≤ 1 / 2 ∧ |y.get i j - y'.get i j| ≤ 1 / 2 := by
  unfold findLocalShifts at h1 h2
  have same : ∀ x y : Mat ℝ, ∀ i j, |x.get i j - x.get i j| ≤ 1 / 2 ∧ |y.get i j - y.get i j| ≤ 1 / 2 := by
    intro x y i j; rw [sub_self, sub_self, abs_zero]; norm_num
  by_cases u1 : useGpu g1 v1 = true <;> by_cases u2 : useGpu g2 v2 = true
  · rw [if_pos u1] at h1
    rw [if_pos u2] at h2
    obtain ⟨x, y, x', y', k1, k2, k3, k4⟩ := image_chunk_free (c1 := c1) (c2 := c2) hs (by omega) hz hb1 hb2 hn1 hn2
    obtain ⟨xx, yy, q1, q2, -, -⟩ := image_whole (chunkSize := c1) (norm := false) hs (by omega) hz hb1 hn1 (Or.inl rfl)
    rw [k1] at q1
    have q1 := Except.ok.inj q1
    rw [Prod.mk.injEq] at q1
    obtain ⟨rfl, rfl⟩ := q1
    refine ⟨x, y, x', y', by rw [← Option.some.inj h1, k1], by rw [← Option.some.inj h2, k2], fun i hi j hj => ?_⟩
    rw [k3.2.2 i (by omega) j (by omega), k4.2.2 i (by omega) j (by omega)]
    exact same x' y' i j
  · rw [if_pos u1] at h1
    rw [if_neg u2] at h2
    obtain ⟨x, y, x', y', k1, k2, k3, -⟩ := image_close (chunkSize := c1) (norm := false) hs hm hz hb1 hn1 (Or.inl rfl) h2
    refine ⟨x, y, x', y', by rw [← Option.some.inj h1, k1], k2, fun i hi j hj => ?_⟩
    rw [abs_sub_comm, abs_sub_comm (y.get i j)]
    exact k3 i hi j hj
  · rw [if_neg u1] at h1
    rw [if_pos u2] at h2
    obtain ⟨x, y, x', y', k1, k2, k3, -⟩ := image_close (chunkSize := c2) (norm := false) hs hm hz hb2 hn2 (Or.inl rfl) h1
    exact ⟨x', y', x, y, k2, by rw [← Option.some.inj h2, k1], k3⟩
  · rw [if_neg u1] at h1
    rw [if_neg u2] at h2
    obtain ⟨x, y, x', y', k1, k2, k3, -⟩ := image_close (chunkSize := c2) (norm := false) hs hm hz hb2 hn2 (Or.inl rfl) h1
    have := SpeckleTracking.shifts2d_schedule h1 h2
    exact ⟨x', y', x', y', k2, by rw [← this, k2], fun i _ j _ => same x' y' i j⟩

/-- **C161.** Which search runs: `gpu=False` the CPU, `gpu=True` the GPU if there is one and the CPU otherwise; `gpu="hybrid"` is the GPU search (the
`method` and `size` arguments are ignored there), also without a GPU. -/
theorem dispatch {ref mat : Mat ℝ} {winSize margin : ℕ} {available : Bool} {c : Option ℤ} {b : ℕ × ℕ} {method : Method ℝ} {size : ℤ} {n : ℕ} {norm : Bool}
    {s : List Ev} : findLocalShifts .off available ref mat winSize margin method size b n norm c s =
        SpeckleTracking.shifts2d ref mat winSize margin true method size n norm s ∧
      findLocalShifts .on false ref mat winSize margin method size b n norm c s =
        findLocalShifts .off available ref mat winSize margin method size b n norm c s ∧
      findLocalShifts .on true ref mat winSize margin method size b n norm c s = some (shiftsImage ref mat winSize margin c b norm) ∧
      findLocalShifts .hybrid available ref mat winSize margin method size b n norm c s = some (shiftsImage ref mat winSize margin c b norm) :=
  ⟨rfl, rfl, rfl, rfl⟩

/-- The hypotheses of `find_local_shifts_gpu` on the images above: a GPU call with two chunks and a serial CPU call. -/
example : ∃ x y x' y', findLocalShifts .on true exGRef exGMat 3 1 .diff 3 (16, 16) 1 false (some 4) [] = some (.ok (x, y)) ∧
    findLocalShifts .off true exGRef exGMat 3 1 .diff 3 (16, 16) 1 false none [] = some (.ok (x', y')) ∧
    |x.get 2 2 - x'.get 2 2| ≤ 1 / 2 := by
  obtain ⟨x, y, x', y', h1, h2, h3⟩ := find_local_shifts_gpu (ref := exGRef) (mat := exGMat) (winSize := 3) (margin := 1) (g1 := .on) (g2 := .off)
    (v1 := true) (v2 := true) (c1 := some 4) (c2 := none) (b1 := (16, 16)) (b2 := (16, 16)) (size := 3) (n1 := 1) (n2 := 1) (s1 := []) (s2 := [])
    ⟨rfl, rfl⟩ le_rfl ⟨by norm_num [exGRef], by norm_num [exGRef]⟩ ⟨by norm_num, by norm_num⟩ ⟨by norm_num, by norm_num⟩ (by decide) (by decide) rfl rfl
  exact ⟨x, y, x', y', congrArg some h1, congrArg some h2, (h3 2 (by norm_num [exGRef]) 2 (by norm_num [exGRef])).1⟩

end Verif.GpuImage
