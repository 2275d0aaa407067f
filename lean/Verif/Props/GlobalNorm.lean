import Verif.Props.GpuImage2
import Verif.Props.LineRecover
import Verif.Props.GlobalShift

/-!
**C73** with the default normalisation (`norm=True`): recovery of a translation with wrap-around, and an example where the windows are translated but the
content elsewhere in the images changes the answer.
-/

set_option linter.unusedSectionVars false
set_option linter.unusedSimpArgs false

namespace Verif.GlobalShift
open Finset Verif.Correlation Verif.LocalShifts Verif.Post Verif.Sched Verif.GpuImage Verif.GpuShifts

/-! ### Normalisation of a rolled image -/

theorem divSums_T (h w : ℕ) (x : ℕ → ℕ → ℝ) (k i : ℕ) : divSums h w x k i = divSums w h (fun a b => x b a) i k := by
  unfold divSums
  rw [div_div, div_div, mul_comm]

theorem sum3_T (h w : ℕ) (g : ℕ → ℕ → ℝ) : sum3 1 h w (fun _ k i => g k i) = sum3 1 w h fun _ i k => g k i := by
  unfold sum3
  refine Finset.sum_congr rfl fun _ _ => ?_
  rw [Finset.sum_comm]

theorem mean3_T (h w : ℕ) (g : ℕ → ℕ → ℝ) : mean3 1 h w (fun _ k i => g k i) = mean3 1 w h fun _ i k => g k i := by
  unfold mean3
  rw [sum3_T]
  ring

/-- Rows and columns play the same part in the normalisation. -/
theorem normalize2_T (h w : ℕ) (x : ℕ → ℕ → ℝ) (k i : ℕ) : normalize2 h w x k i = normalize2 w h (fun a b => x b a) i k := by
  unfold normalize2
  dsimp only
  rw [divSums_T h w x k i, mean3_T h w fun k i => divSums h w x k i]
  have e : (mean3 1 w h fun _ i k => divSums h w x k i) = mean3 1 w h fun _ k i => divSums w h (fun a b => x b a) k i := by
    congr 1
    funext _ i k
    exact divSums_T h w x k i
  rw [e, mean3_T h w fun k i => (divSums h w x k i - mean3 1 w h fun _ k i => divSums w h (fun a b => x b a) k i) ^ 2]
  simp only [divSums_T h w x]

/-- The normalisation commutes with rolling an image around in both directions, and a positive factor is lost. -/
theorem normImage_roll {ref mat : Mat ℝ} {dy dx : ℤ} {a : ℝ} (ha : 0 < a) (hh : mat.h = ref.h) (hw : mat.w = ref.w)
    (h : ∀ i < ref.h, ∀ j < ref.w, mat.get i j = a * ref.get (((i : ℤ) + dy) % ref.h).toNat (((j : ℤ) + dx) % ref.w).toNat) (i j : ℕ)
    (hi : i < ref.h) (hj : j < ref.w) :
    (normImage mat).get i j = (normImage ref).get (((i : ℤ) + dy) % ref.h).toNat (((j : ℤ) + dx) % ref.w).toNat := by
  unfold normImage
  dsimp only
  rw [hh, hw]
  set z : ℕ → ℕ → ℝ := fun k q => a * ref.get k (((q : ℤ) + dx) % ref.w).toNat with hz
  have hm : (((i : ℤ) + dy) % ref.h).toNat < ref.h := by
    have := Int.emod_lt_of_pos ((i : ℤ) + dy) (by omega : (0 : ℤ) < ref.h)
    have := Int.emod_nonneg ((i : ℤ) + dy) (by omega : (ref.h : ℤ) ≠ 0)
    omega
  rw [← normalize2_roll (x := ref.get) (y := z) (by omega) ha (fun n _ k _ => rfl) _ j hm hj, normalize2_T, normalize2_T _ _ z]
  exact normalize2_roll (x := fun q k => z k q) (y := fun q k => mat.get k q) (d := ref.w) (w := ref.h) (a := 1) (by omega) one_pos
    (fun n hn k hk => by rw [one_mul, hz]; exact h k hk n hn) j i hj hi

/-! ### Recovery -/

/-- With `norm=True` the search is the one without normalisation on the normalised images. -/
theorem globalShift_norm (ref mat : Mat ℝ) (winSize margin : ℕ) (points : Option Points) (rnd : List (ℕ × ℕ)) (agg : Agg) (subPixel : Bool)
    (method : Method ℝ) (size : ℤ) (ncore : ℕ) (sched : List Ev) :
    globalShift ref mat winSize margin points rnd agg subPixel method size ncore true sched =
      globalShift (normImage ref) (normImage mat) winSize margin points rnd agg subPixel method size ncore false sched := rfl

/-- **C73.** With the default normalisation, along every schedule of the pool and for every aggregation: if the second image is the reference rolled around by
`(dy, dx)` and multiplied by a positive factor, and in the normalised reference the windows of the chosen points are not constant and match nowhere else within
the margin, the global shift is `(dy, dx)` - exactly without sub-pixel search, to less than one pixel with method "diff". -/
theorem global_shift_norm_recovers {ref mat : Mat ℝ} {winSize margin : ℕ} {points : Option Points} {rnd : List (ℕ × ℕ)}
    {dy dx : ℤ} {a : ℝ} (ha : 0 < a) (hh : mat.h = ref.h) (hw : mat.w = ref.w) (hm : 1 ≤ margin)
    (hsz : 2 * (winSize / 2 + margin) + 1 ≤ ref.h ∧ 2 * (winSize / 2 + margin) + 1 ≤ ref.w)
    (hpts : PointsOk points rnd ref.h ref.w (winSize / 2 + margin)) (hy : |dy| ≤ margin) (hx : |dx| ≤ margin)
    (hroll : ∀ i < ref.h, ∀ j < ref.w, mat.get i j = a * ref.get (((i : ℤ) + dy) % ref.h).toNat (((j : ℤ) + dx) % ref.w).toNat)
    (htex : ∀ i j, Chosen points rnd i j → winSize / 2 + margin ≤ i → i + (winSize / 2 + margin) < ref.h →
      winSize / 2 + margin ≤ j → j + (winSize / 2 + margin) < ref.w →
      ∃ p q p' q' : ℕ, (i ≤ p + winSize / 2 ∧ p ≤ i + winSize / 2 ∧ j ≤ q + winSize / 2 ∧ q ≤ j + winSize / 2) ∧
        (i ≤ p' + winSize / 2 ∧ p' ≤ i + winSize / 2 ∧ j ≤ q' + winSize / 2 ∧ q' ≤ j + winSize / 2) ∧
        (normImage ref).get (p + dy).toNat (q + dx).toNat ≠ (normImage ref).get (p' + dy).toNat (q' + dx).toNat)
    (huniq : ∀ i j, Chosen points rnd i j → winSize / 2 + margin ≤ i → i + (winSize / 2 + margin) < ref.h →
      winSize / 2 + margin ≤ j → j + (winSize / 2 + margin) < ref.w → ∀ ey ex : ℤ, |ey| ≤ margin → |ex| ≤ margin →
      (∃ α β : ℝ, 0 < α ∧ ∀ p q : ℕ, i ≤ p + winSize / 2 → p ≤ i + winSize / 2 → j ≤ q + winSize / 2 → q ≤ j + winSize / 2 →
        (normImage ref).get (p + dy).toNat (q + dx).toNat = α * (normImage ref).get (p + ey).toNat (q + ex).toNat + β) → ey = dy ∧ ex = dx)
    (agg : Agg) (subPixel : Bool) (method : Method ℝ) (size : ℤ) (ncore : ℕ) (sched : List Ev)
    (r : Py (ℝ × ℝ)) (hr : globalShift ref mat winSize margin points rnd agg subPixel method size ncore true sched = some r) :
    ∃ v, r = .ok v ∧ Recovered subPixel method 2 dy dx v := by
  rw [globalShift_norm] at hr
  refine global_shift_recovers_partial (ref := normImage ref) (mat := normImage mat) hh.symm hw.symm hm hsz hpts hy hx
    (fun i j hc h1 h2 h3 h4 => ?_) agg subPixel method size ncore sched r hr
  have h2 : i + (winSize / 2 + margin) < ref.h := h2
  have h4 : j + (winSize / 2 + margin) < ref.w := h4
  have hy' := abs_le.1 hy
  have hx' := abs_le.1 hx
  generalize hR : winSize / 2 = R at *
  have key : ∀ p q : ℕ, i ≤ p + R → p ≤ i + R → j ≤ q + R → q ≤ j + R →
      (normImage mat).get p q = (normImage ref).get (p + dy).toNat (q + dx).toNat := by
    intro p q a1 a2 a3 a4
    have := normImage_roll ha hh hw hroll p q (by omega) (by omega)
    rw [Int.emod_eq_of_lt (by omega) (by omega), Int.emod_eq_of_lt (by omega) (by omega)] at this
    exact this
  refine ⟨⟨1, 0, one_pos, fun p q a1 a2 a3 a4 => ?_⟩, ?_, ?_⟩
  · rw [key p q a1 a2 a3 a4, one_mul, add_zero]
  · obtain ⟨p, q, p', q', b1, b2, hne⟩ := htex i j hc h1 h2 h3 h4
    refine ⟨p, q, p', q', b1, b2, ?_⟩
    rw [key p q b1.1 b1.2.1 b1.2.2.1 b1.2.2.2, key p' q' b2.1 b2.2.1 b2.2.2.1 b2.2.2.2]
    exact hne
  · rintro ey ex e1 e2 ⟨α, β, hα, hc'⟩
    exact huniq i j hc h1 h2 h3 h4 ey ex e1 e2 ⟨α, β, hα, fun p q a1 a2 a3 a4 => by
      rw [← key p q a1 a2 a3 a4]; exact hc' p q a1 a2 a3 a4⟩

/-! ### The normalisation looks at the whole image -/

theorem raw_copy : ∀ p < 3, ∀ q < 3, exMatQ (1 + p) (1 + q) = exRefQ (1 + p) (2 + q) := by decide +kernel

theorem raw_unique : ∀ y < 3, ∀ x < 3, (y ≠ 1 ∨ x ≠ 2) → ∃ p < 3, ∃ q < 3, ∃ p' < 3, ∃ q' < 3, ∃ p'' < 3, ∃ q'' < 3,
    (exMatQ (1 + p) (1 + q) - exMatQ (1 + p') (1 + q')) * (exRefQ (y + p) (x + q) - exRefQ (y + p'') (x + q'')) ≠
    (exMatQ (1 + p) (1 + q) - exMatQ (1 + p'') (1 + q'')) * (exRefQ (y + p) (x + q) - exRefQ (y + p') (x + q')) := by decide +kernel

/-- In the example of C161 the window of the pixel (2, 2) is that of the reference displaced by one column, and by nothing else. -/
theorem raw_shift : WindowShift exGRef exGMat 2 2 1 1 0 1 := by
  have key : ∀ p q : ℕ, 2 ≤ p + 1 → p ≤ 2 + 1 → 2 ≤ q + 1 → q ≤ 2 + 1 → exMatQ p q = exRefQ p (q + 1) := by
    intro p q h1 h2 h3 h4
    have := raw_copy (p - 1) (by omega) (q - 1) (by omega)
    rwa [show 1 + (p - 1) = p by omega, show 1 + (q - 1) = q by omega, show 2 + (q - 1) = q + 1 by omega] at this
  refine ⟨⟨1, 0, one_pos, ?_⟩, ?_, ?_⟩
  · intro p q h1 h2 h3 h4
    show ((exMatQ p q : ℚ) : ℝ) = 1 * ((exRefQ ((p : ℤ) + 0).toNat ((q : ℤ) + 1).toNat : ℚ) : ℝ) + 0
    rw [one_mul, add_zero, key p q h1 h2 h3 h4, show ((p : ℤ) + 0).toNat = p by omega, show ((q : ℤ) + 1).toNat = q + 1 by omega]
  · refine ⟨1, 1, 3, 1, by omega, by omega, ?_⟩
    have : exMatQ 1 1 ≠ exMatQ 3 1 := by decide +kernel
    show ((exMatQ 1 1 : ℚ) : ℝ) ≠ ((exMatQ 3 1 : ℚ) : ℝ)
    exact_mod_cast this
  · rintro ey ex hy hx ⟨a, b, -, hc⟩
    rw [abs_le] at hy hx
    by_contra hne
    obtain ⟨p, hp, q, hq, p', hp', q', hq', p'', hp'', q'', hq'', h⟩ := raw_unique (ey + 1).toNat (by omega) (ex + 1).toNat (by omega) (by omega)
    have hw : ∀ p < 3, ∀ q < 3, ((exMatQ (1 + p) (1 + q) : ℚ) : ℝ) = a * ((exRefQ ((ey + 1).toNat + p) ((ex + 1).toNat + q) : ℚ) : ℝ) + b := by
      intro p hp q hq
      have := hc (1 + p) (1 + q) (by omega) (by omega) (by omega) (by omega)
      rw [show (((1 + p : ℕ) : ℤ) + ey).toNat = (ey + 1).toNat + p by omega, show (((1 + q : ℕ) : ℤ) + ex).toNat = (ex + 1).toNat + q by omega] at this
      exact this
    apply h
    have e1 := hw p hp q hq
    have e2 := hw p' hp' q' hq'
    have e3 := hw p'' hp'' q'' hq''
    generalize (ey + 1).toNat = Y at *
    generalize (ex + 1).toNat = X at *
    have : (((exMatQ (1 + p) (1 + q) - exMatQ (1 + p') (1 + q')) * (exRefQ (Y + p) (X + q) - exRefQ (Y + p'') (X + q'')) : ℚ) : ℝ) =
      (((exMatQ (1 + p) (1 + q) - exMatQ (1 + p'') (1 + q'')) * (exRefQ (Y + p) (X + q) - exRefQ (Y + p') (X + q')) : ℚ) : ℝ) := by
      push_cast
      rw [e1, e2, e3]
      ring
    exact_mod_cast this

/-- **C73 refuted for `norm=True`.** In the images of C161 (6 x 5 pixels, `win_size=3`, `margin=1`, the point (2, 2)) the window is translated by one column and by
nothing else, without normalisation this is what is found, and with the default normalisation something else is returned: the sums by which the images are divided
depend on what lies outside the windows. -/
theorem global_norm_refuted (agg : Agg) (method : Method ℝ) (size : ℤ) : WindowShift exGRef exGMat 2 2 1 1 0 1 ∧
    globalShift exGRef exGMat 3 1 none [(2, 2)] agg false method size 1 false [] = some (.ok (1, 0)) ∧
    ∃ v, globalShift exGRef exGMat 3 1 none [(2, 2)] agg false method size 1 true [] = some (.ok v) ∧ v ≠ (1, 0) := by
  have hone : ∀ (ref mat : Mat ℝ) (v : ℝ × ℝ), ref.h = 6 → ref.w = 5 → mat.h = 6 → mat.w = 5 →
      pointShift ref mat 1 1 false method size ((2 : ℕ) : ℤ) ((2 : ℕ) : ℤ) = .ok v →
      globalShift ref mat 3 1 none [(2, 2)] agg false method size 1 false [] = some (.ok v) := by
    intro ref mat v h1 h2 h3 h4 hp
    have hl : localList ref mat 3 1 none [(2, 2)] false method size 1 false [] = some (.ok ([v.1], [v.2])) := by
      unfold localList
      rw [if_neg (by omega)]
      dsimp only
      rw [if_neg (by omega)]
      simp only [Bool.false_eq_true, if_false]
      show ((allShifts 1 1 _ []).map _) = _
      have : allShifts 1 1 (fun k => pointShift ref mat ((2 * (3 / 2) + 1) / 2) 1 false method size
          ((List.map (fun p : ℕ × ℕ => (p.1 : ℤ)) [(2, 2)]).getD k 0) ((List.map (fun p : ℕ × ℕ => (p.2 : ℤ)) [(2, 2)]).getD k 0)) [] = some (.ok [v]) := by
        unfold allShifts
        rw [if_pos rfl]
        show some (List.mapM _ [0]) = _
        rw [List.mapM_cons]
        show some ((pointShift ref mat 1 1 false method size ((2 : ℕ) : ℤ) ((2 : ℕ) : ℤ)).bind _) = _
        rw [hp]
        rfl
      refine (congrArg (Option.map _) this).trans ?_
      rfl
    unfold globalShift
    rw [hl]
    show some (Except.ok (agg.value [v.1], agg.value [v.2])) = _
    rw [global_value_const agg [v.1] (by simp) v.1 (by simp), global_value_const agg [v.2] (by simp) v.2 (by simp)]
  have hloc : ∀ m : Mat ℝ, m.h = 3 → m.w = 3 → ∃ y x, FirstMax2 m y x ∧ locatePeak m false method 2 size true = .ok ((x : ℝ), (y : ℝ)) := by
    intro m h1 h2
    obtain ⟨y, x, he, hp⟩ := argmax2_spec (m := m) (by omega) (by omega)
    refine ⟨y, x, hp, ?_⟩
    unfold locatePeak
    show (flipPeak m true).bind _ = _
    show (argmax2 m).bind _ = _
    rw [he]
    rfl
  refine ⟨raw_shift, ?_, ?_⟩
  · obtain ⟨v, hv, hr⟩ := point_shift (ref := exGRef) (mat := exGMat) (i := 2) (j := 2) (radi := 1) (margin := 1) rfl rfl le_rfl (by norm_num)
      (by show 2 + (1 + 1) < 6; norm_num) (by norm_num) (by show 2 + (1 + 1) < 5; norm_num) (by norm_num) (by norm_num) raw_shift false method size
    rw [hone exGRef exGMat v rfl rfl rfl rfl hv, hr.1 rfl]
    norm_num
  · obtain ⟨s1, s2⟩ := coefs_size (normImage exGRef) (normImage exGMat) 1 1 2 2
    obtain ⟨y, x, hp, he⟩ := hloc _ s1 s2
    have hv := pointShift_eq (ref := normImage exGRef) (mat := normImage exGMat) (i := 2) (j := 2) (radi := 1) (margin := 1) rfl rfl le_rfl (by norm_num)
      (by show 2 + (1 + 1) < 6; norm_num) (by norm_num) (by show 2 + (1 + 1) < 5; norm_num) false method size
    rw [he] at hv
    refine ⟨((x : ℝ) - ((1 : ℕ) : ℝ), (y : ℝ) - ((1 : ℕ) : ℝ)), hone (normImage exGRef) (normImage exGMat) _ rfl rfl rfl rfl hv, fun h => ?_⟩
    have r1 : rowsFrom exGRef 0 6 = exGRef := by unfold rowsFrom exGRef; simp only [Nat.zero_add]
    have r2 : rowsFrom exGMat 0 6 = exGMat := by unfold rowsFrom exGMat; simp only [Nat.zero_add]
    obtain ⟨v1, v2⟩ := exG_varied 6 (Or.inr rfl)
    have hp' := hp
    rw [r1] at v1
    rw [r2] at v2
    rw [coefs_norm v1 v2, ← r1, ← r2] at hp'
    apply ex_other hp'
    have f1 : (x : ℝ) = 2 := by have := congrArg Prod.fst h; push_cast at this; linarith
    have f2 : (y : ℝ) = 1 := by have := congrArg Prod.snd h; push_cast at this; linarith
    exact ⟨by exact_mod_cast f2, by exact_mod_cast f1⟩

/-- Non-vacuity: the first five rows of the images of C161 are rolled around by one column; all hypotheses of `global_shift_norm_recovers` hold and the shift is found. -/
example (agg : Agg) (method : Method ℝ) (size : ℤ) (ncore : ℕ) (sched : List Ev) (r : Py (ℝ × ℝ))
    (hr : globalShift (rowsFrom exGRef 0 5) (rowsFrom exGMat 0 5) 3 1 none [(2, 2)] agg false method size ncore true sched = some r) : r = .ok (1, 0) := by
  obtain ⟨⟨i, hi, i', hi', j, hj, j', hj', hne⟩, -⟩ := exG_varied 5 (Or.inl rfl)
  obtain ⟨α, β, hα, hab⟩ := normImage_affine hi hi' hj hj' hne
  have hroll : ∀ i < 5, ∀ j < 5, exMatQ i j = exRefQ i ((j + 1) % 5) := by decide +kernel
  have hcopy : ∀ p q : ℕ, 2 ≤ p + 1 → p ≤ 2 + 1 → 2 ≤ q + 1 → q ≤ 2 + 1 →
      (divImage (rowsFrom exGMat 0 5)).get p q = (divImage (rowsFrom exGRef 0 5)).get (p + (0 : ℤ)).toNat (q + (1 : ℤ)).toNat := by
    intro p q h1 h2 h3 h4
    rw [(ex_div 5).1, (ex_div 5).2]
    have := ex_copy (p - 1) (by omega) (q - 1) (by omega)
    unfold winQ at this
    rw [show 1 + (p - 1) = p by omega, show 1 + (q - 1) = q by omega, show 2 + (q - 1) = q + 1 by omega] at this
    show ((divQ 5 exMatQ p q : ℚ) : ℝ) = ((divQ 5 exRefQ ((p : ℤ) + 0).toNat ((q : ℤ) + 1).toNat : ℚ) : ℝ)
    rw [this, show ((p : ℤ) + 0).toNat = p by omega, show ((q : ℤ) + 1).toNat = q + 1 by omega]
  have hone : ∀ i j, Chosen none [(2, 2)] i j → i = 2 ∧ j = 2 := by
    intro i j h
    have h : (i, j) ∈ [(2, 2)] := h
    simpa using h
  obtain ⟨v, hv, hrec⟩ := global_shift_norm_recovers (ref := rowsFrom exGRef 0 5) (mat := rowsFrom exGMat 0 5) (winSize := 3) (margin := 1) (points := none)
    (rnd := [(2, 2)]) (dy := 0) (dx := 1) (a := 1) one_pos rfl rfl le_rfl ⟨by show 5 ≤ 5; norm_num, by show 5 ≤ 5; norm_num⟩
    ⟨by simp, by intro c hc; simp only [List.mem_singleton] at hc; subst hc; exact ⟨by norm_num, by show 2 + 2 < 5; norm_num, by norm_num, by show 2 + 2 < 5; norm_num⟩⟩
    (by norm_num) (by norm_num)
    (fun i hi j hj => by
      have hi : i < 5 := hi
      have hj : j < 5 := hj
      show ((exMatQ (0 + i) j : ℚ) : ℝ) = 1 * ((exRefQ (0 + (((i : ℤ) + 0) % ((5 : ℕ) : ℤ)).toNat) (((j : ℤ) + 1) % ((5 : ℕ) : ℤ)).toNat : ℚ) : ℝ)
      rw [Nat.zero_add, Nat.zero_add, one_mul, hroll i hi j hj, show (((i : ℤ) + 0) % ((5 : ℕ) : ℤ)).toNat = i by omega,
        show (((j : ℤ) + 1) % ((5 : ℕ) : ℤ)).toNat = (j + 1) % 5 by omega])
    (fun i j hc _ _ _ _ => by
      obtain ⟨rfl, rfl⟩ := hone i j hc
      refine ⟨1, 1, 3, 1, by norm_num, by norm_num, ?_⟩
      rw [hab, hab, ← hcopy 1 1 (by norm_num) (by norm_num) (by norm_num) (by norm_num), ← hcopy 3 1 (by norm_num) (by norm_num) (by norm_num) (by norm_num), (ex_div 5).2]
      have : divQ 5 exMatQ 1 1 ≠ divQ 5 exMatQ 3 1 := by decide +kernel
      intro e
      have e2 : ((divQ 5 exMatQ 1 1 : ℚ) : ℝ) = ((divQ 5 exMatQ 3 1 : ℚ) : ℝ) := mul_left_cancel₀ hα.ne' (add_right_cancel e)
      exact this (by exact_mod_cast e2))
    (fun i j hc _ _ _ _ ey ex e1 e2 ⟨a, b, ha, h⟩ => by
      obtain ⟨rfl, rfl⟩ := hone i j hc
      refine ex_shift.2.2 ey ex e1 e2 ⟨a, (a * β + b - β) / α, ha, fun p q a1 a2 a3 a4 => ?_⟩
      have := h p q a1 a2 a3 a4
      rw [hab, hab, ← hcopy p q a1 a2 a3 a4] at this
      have hα0 := hα.ne'
      field_simp
      linarith)
    agg false method size ncore sched r hr
  rw [hv, hrec.1 rfl]
  norm_num

end Verif.GlobalShift
