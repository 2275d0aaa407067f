import Verif.Props.UmpaFull

/-!
C137, C138: the results of the UMPA driver, pixel by pixel.
-/

set_option linter.unusedSectionVars false
set_option linter.unusedSimpArgs false

namespace Verif.UmpaFull
open Finset Verif.Correlation Verif.LocalShifts Verif.GpuShifts Verif.Umpa
open Verif.Fourier (edgeIdx)

/-- All pixels, for every chunk size: the CPU or the GPU search on the terms of the whole images. -/
theorem pixels_spec (o : Opts) (f : Recon.Filter) {ref mat : Arr3 ℝ} {r m : ℕ} {chunkSize : Option ℤ} (dark : Bool) (h : Fits ref mat r m chunkSize)
    (hb : o.gpu = true → o.cuda = true → 0 < o.block.1 ∧ 0 < o.block.2) :
    ∃ out, pixels o f ref mat r m chunkSize dark = .ok out ∧
      (∀ i j, Interior ref r m i j → out i j = if (o.gpu && o.cuda) = true then .ok (gpuPixel m dark (terms ref mat r m (window f r) i j))
        else cpuPixel m dark o.method o.size (terms ref mat r m (window f r) i j)) ∧
      ∀ i j, ¬ Interior ref r m i j → out i j = .ok ⟨0, 0, 1, 1⟩ := by
  obtain ⟨hd, hh, hw, he, hhi, hwi, hn⟩ := h
  have ecomm : r + m = m + r := Nat.add_comm _ _
  obtain ⟨out, g1, g2, g3⟩ := chunkLoop_ok (a := m + r) (n := ref.h - 2 * (m + r)) (k := numChunk ref.h chunkSize) (edge := m + r)
    (F := fun n s => if o.gpu && o.cuda then gpuChunk ref.d ref.w r m (window f r) (imMean ref ^ 2 * ref.d) dark o.block n s
      else cpuChunk ref.d ref.w r m (window f r) (imMean ref ^ 2 * ref.d) dark o.method o.size n s)
    (rows := lineOf ref mat r (window f r)) (zero := fun _ => (.ok ⟨0, 0, 1, 1⟩ : Py Out)) (numChunk_pos (by omega) _) hn
    (fun b e y j => if m + r ≤ j ∧ j < ref.w - (m + r) ∧ m + r ≠ 0 then
        if (o.gpu && o.cuda) = true then
          .ok (if launched (e + (m + r) - (b - (m + r)) - 2 * (m + r)) (ref.w - 2 * (m + r)) o.block y (j - (m + r)) then
            gpuPixel m dark (gpuTerms ref.d r m (window f r) (imMean ref ^ 2 * ref.d) (fun t => lineOf ref mat r (window f r) (b - (m + r) + t)) y (j - (r + m)))
            else ⟨0, 0, 1, 1⟩)
        else cpuPixel m dark o.method o.size
          (cpuTerms ref.d r m (window f r) (imMean ref ^ 2 * ref.d) (fun t => lineOf ref mat r (window f r) (b - (m + r) + t)) (r + m + y) (r + m + (j - (r + m))))
      else .ok ⟨0, 0, 1, 1⟩)
    (fun b e hb1 hbe hz => by
      by_cases hg : (o.gpu && o.cuda) = true
      · rw [if_pos hg]
        unfold gpuChunk
        dsimp only
        rw [ecomm, if_neg (by omega), if_neg (by omega)]
        simp only [if_pos hg]
      · rw [if_neg hg]
        unfold cpuChunk
        dsimp only
        rw [ecomm, if_neg (by omega)]
        simp only [if_neg hg])
  refine ⟨out, ?_, ?_, ?_⟩
  · unfold pixels
    dsimp only
    rw [if_neg (by omega), if_neg (by omega)]
    exact g1
  · rintro i j ⟨hi, hi1, hj, hj1⟩
    obtain ⟨b, e, k1, k2, k3, k4, ho⟩ := g2 i hi (by omega)
    rw [ho]
    dsimp only
    rw [if_pos ⟨hj, by omega, by omega⟩]
    by_cases hg : (o.gpu && o.cuda) = true
    · rw [if_pos hg, if_pos hg]
      have hg' := hg
      rw [Bool.and_eq_true] at hg'
      rw [launched_of (hb hg'.1 hg'.2) (by omega) (by omega), if_pos rfl]
      congr 2
      funext p q
      exact gpuTerms_eq (window f r) k1 k2 hj p q
    · rw [if_neg hg, if_neg hg]
      congr 1
      funext p q
      exact cpuTerms_eq (window f r) k1 k2 hj p q
  · intro i j hij
    by_cases hi : m + r ≤ i ∧ i + (m + r) < ref.h
    · obtain ⟨b, e, -, -, -, -, ho⟩ := g2 i hi.1 (by omega)
      rw [ho]
      dsimp only
      rw [if_neg]
      rintro ⟨q1, q2, -⟩
      exact hij ⟨hi.1, hi.2, q1, by omega⟩
    · rw [g3 i (by omega)]

theorem round_index {m : ℕ} {v : ℝ} (h0 : 0 ≤ v) (h1 : v ≤ ((2 * m + 1 : ℕ) : ℝ) - 1) :
    ∃ a : ℕ, npRound v = (a : ℤ) ∧ pyIndex (2 * m + 1) (npRound v) = .ok a ∧ a ≤ 2 * m ∧ |(a : ℝ) - v| ≤ 1 / 2 := by
  have hr := npRound_abs v
  rw [abs_le] at hr
  push_cast at h1
  have a0 : (-1 : ℝ) < npRound v := by linarith [hr.1]
  have a1 : (npRound v : ℝ) < 2 * m + 1 := by linarith [hr.2]
  have b0 : (-1 : ℤ) < npRound v := by exact_mod_cast a0
  have b1 : npRound v < 2 * m + 1 := by exact_mod_cast a1
  refine ⟨(npRound v).toNat, by omega, ?_, by omega, ?_⟩
  · unfold pyIndex
    rw [if_pos ⟨by omega, by push_cast; omega⟩]
  · have : (((npRound v).toNat : ℕ) : ℝ) = (npRound v : ℝ) := by
      rw [← Int.cast_natCast, Int.toNat_of_nonneg (by omega)]
    rw [this]
    exact npRound_abs v

/-- One pixel on the CPU: the search never fails, the shift stays within the margin, and transmission and dark signal are those of the fit at the map
entry nearest to the position found. -/
theorem cpuPixel_spec (ref mat : Arr3 ℝ) (r m : ℕ) (win : ℕ → ℕ → ℝ) (dark : Bool) (method : Method ℝ) (size : Int) (i j : ℕ) :
    ∃ x y a b, shiftAt ref mat r m win dark method size i j = .ok (x, y) ∧ |x| ≤ m ∧ |y| ≤ m ∧ Nearest m a b (x + m) (y + m) ∧
      cpuPixel m dark method size (terms ref mat r m win i j) =
        .ok ⟨x, y, if dark then (transDark (terms ref mat r m win i j a b)).1 else 1, if dark then (transDark (terms ref mat r m win i j a b)).2 else 1⟩ := by
  obtain ⟨y0, -, x0, -, -, q, hq, hok⟩ := locate_peak_min (m := costMap ref mat r m win dark i j)
    (by show 0 < 2 * m + 1; omega) (by show 0 < 2 * m + 1; omega) true method 2 size
  obtain ⟨o1, o2, o3, o4, -⟩ := hok
  obtain ⟨a, a1, a2, a3, a4⟩ := round_index (m := m) o3 o4
  obtain ⟨b, b1, b2, b3, b4⟩ := round_index (m := m) o1 o2
  have o2' : q.1 ≤ ((2 * m + 1 : ℕ) : ℝ) - 1 := o2
  have o4' : q.2 ≤ ((2 * m + 1 : ℕ) : ℝ) - 1 := o4
  push_cast at o2' o4'
  refine ⟨q.1 - m, q.2 - m, a, b, ?_, ?_, ?_, ⟨a3, b3, by rwa [sub_add_cancel], by rwa [sub_add_cancel]⟩, ?_⟩
  · unfold shiftAt
    simp only [bind, Except.bind, hq]
  · rw [abs_le]; constructor <;> linarith
  · rw [abs_le]; constructor <;> linarith
  · unfold costMap at hq
    unfold cpuPixel
    simp only [bind, Except.bind, hq]
    cases dark
    · simp
    · simp only [if_true, a2, b2]

/-- Clamping to the interior: the source of a border pixel of the padded images. -/
def clampTo (e n i : ℕ) : ℕ := max e (min i (n - e - 1))

theorem padded_eq {α : Type} {e h w : ℕ} (hh : 2 * e + 1 ≤ h) (hw : 2 * e + 1 ≤ w) (a : ℕ → ℕ → α) (i j : ℕ) :
    padded e h w a i j = a (clampTo e h i) (clampTo e w j) := by
  unfold padded clampTo edgeIdx
  dsimp only
  congr 1 <;> omega

/-- **C137.** `find_local_shifts_umpa` on the CPU (`gpu=False`, or no CUDA device), for every chunk size with at most as many chunks as full windows:
the shift of every interior pixel is the one of the per-pixel search on the whole images, within the margin, and never an error; the outer border of
`margin + win_size // 2` pixels is zero.  With `dark_signal`, transmission and dark signal are the fit at the map entry nearest to the shift, and
border pixels repeat the nearest interior pixel. -/
theorem umpa_full (o : Opts) (f : Recon.Filter) {ref mat : Arr3 ℝ} {r m : ℕ} {chunkSize : Option ℤ} (dark : Bool) (h : Fits ref mat r m chunkSize)
    (hc : o.gpu = false ∨ o.cuda = false) :
    ∃ xy td, findUmpa o f ref mat r m chunkSize dark = .ok (xy, td) ∧
      (∀ i j, ¬ Interior ref r m i j → xy i j = .ok (0, 0)) ∧
      (∀ i j, Interior ref r m i j → ∃ x y, shiftAt ref mat r m (window f r) dark o.method o.size i j = .ok (x, y) ∧ xy i j = .ok (x, y) ∧
        |x| ≤ m ∧ |y| ≤ m) ∧
      (dark = false → td = none) ∧
      (dark = true → ∃ g, td = some g ∧
        (∀ i j, g i j = g (clampTo (m + r) ref.h i) (clampTo (m + r) ref.w j)) ∧
        ∀ i j, Interior ref r m i j → ∃ x y a b, xy i j = .ok (x, y) ∧ Nearest m a b (x + m) (y + m) ∧
          g i j = .ok (transDark (terms ref mat r m (window f r) i j a b))) := by
  have hg : ¬ (o.gpu && o.cuda) = true := by rcases hc with hc | hc <;> simp [hc]
  obtain ⟨p, p1, p2, p3⟩ := pixels_spec o f dark h (fun h1 h2 => by simp [h1, h2] at hg)
  have hxy : ∀ i j, Interior ref r m i j → ∃ x y a b, shiftAt ref mat r m (window f r) dark o.method o.size i j = .ok (x, y) ∧ |x| ≤ m ∧ |y| ≤ m ∧
      Nearest m a b (x + m) (y + m) ∧ p i j = .ok ⟨x, y, if dark then (transDark (terms ref mat r m (window f r) i j a b)).1 else 1,
        if dark then (transDark (terms ref mat r m (window f r) i j a b)).2 else 1⟩ := by
    intro i j hij
    rw [p2 i j hij, if_neg hg]
    exact cpuPixel_spec ref mat r m (window f r) dark o.method o.size i j
  refine ⟨fun i j => (p i j).map fun q => (q.x, q.y),
    if dark then some (padded (m + r) ref.h ref.w fun i j => (p i j).map fun q => (q.trans, q.dark)) else none, ?_, ?_, ?_, ?_, ?_⟩
  · unfold findUmpa
    rw [p1]
    cases dark <;> rfl
  · intro i j hij
    dsimp only
    rw [p3 i j hij]; rfl
  · intro i j hij
    obtain ⟨x, y, a, b, h1, h2, h3, -, h5⟩ := hxy i j hij
    exact ⟨x, y, h1, by dsimp only; rw [h5]; rfl, h2, h3⟩
  · intro hdk; subst hdk; rfl
  · intro hdk; subst hdk
    refine ⟨_, rfl, ?_, ?_⟩
    · intro i j
      rw [padded_eq h.high h.wide, padded_eq h.high h.wide]
      have e1 : clampTo (m + r) ref.h (clampTo (m + r) ref.h i) = clampTo (m + r) ref.h i := by unfold clampTo; omega
      have e2 : clampTo (m + r) ref.w (clampTo (m + r) ref.w j) = clampTo (m + r) ref.w j := by unfold clampTo; omega
      rw [e1, e2]
    · intro i j hij
      obtain ⟨x, y, a, b, h1, h2, h3, h4, h5⟩ := hxy i j hij
      refine ⟨x, y, a, b, by dsimp only; rw [h5]; rfl, h4, ?_⟩
      obtain ⟨q1, q2, q3, q4⟩ := hij
      have e1 : clampTo (m + r) ref.h i = i := by unfold clampTo; omega
      have e2 : clampTo (m + r) ref.w j = j := by unfold clampTo; omega
      rw [padded_eq h.high h.wide, e1, e2, h5]
      rfl

/-- The result does not depend on the chunk size, on `block` or, without a GPU, on `gpu`. -/
theorem umpa_chunk_independent (o o' : Opts) (f : Recon.Filter) {ref mat : Arr3 ℝ} {r m : ℕ} {cs cs' : Option ℤ} (dark : Bool)
    (h : Fits ref mat r m cs) (h' : Fits ref mat r m cs') (ho : (o.gpu && o.cuda) = (o'.gpu && o'.cuda))
    (hm : (o.gpu && o.cuda) = false → o.method = o'.method ∧ o.size = o'.size)
    (hb : o.gpu = true → o.cuda = true → 0 < o.block.1 ∧ 0 < o.block.2) (hb' : o'.gpu = true → o'.cuda = true → 0 < o'.block.1 ∧ 0 < o'.block.2) :
    findUmpa o f ref mat r m cs dark = findUmpa o' f ref mat r m cs' dark := by
  obtain ⟨p, p1, p2, p3⟩ := pixels_spec o f dark h hb
  obtain ⟨q, q1, q2, q3⟩ := pixels_spec o' f dark h' hb'
  have e : p = q := by
    funext i j
    by_cases hij : Interior ref r m i j
    · rw [p2 i j hij, q2 i j hij, ← ho]
      by_cases hg : (o.gpu && o.cuda) = true
      · rw [if_pos hg, if_pos hg]
      · rw [if_neg hg, if_neg hg]
        obtain ⟨e1, e2⟩ := hm (by simpa using hg)
        rw [e1, e2]
    · rw [p3 i j hij, q3 i j hij]
  unfold findUmpa
  rw [p1, q1, e]

/-! ### Errors -/

theorem chunkLoop_index {α β : Type _} {a n k edge : ℕ} {F : ℕ → (ℕ → α) → Py (ℕ → β)} {rows : ℕ → α} {zero : β} (hkn : n < k)
    (hF : ∀ b e, a ≤ b → b < e → e ≤ a + n → ∃ g, F (e + edge - (b - edge)) (fun t => rows (b - edge + t)) = .ok g) :
    chunkLoop a n k edge F rows zero = .error .indexError := by
  have hb := chunkBounds_error a n k hkn
  unfold chunkBounds at hb
  rw [chunkLoop_def]
  cases hcs : arraySplit (List.range' a n) k with
  | error e => rw [hcs] at hb; exact congrArg Except.error (Except.error.inj hb)
  | ok cs =>
    rw [hcs] at hb
    have hb : cs.mapM chunkEnds = .error .indexError := hb
    have hbd := chunkEnds_bounds hcs
    have key : ∀ cs : List (List ℕ), (∀ pos ∈ cs, ∀ p, chunkEnds pos = .ok p → a ≤ p.1 ∧ p.1 < p.2 ∧ p.2 ≤ a + n) →
        cs.mapM chunkEnds = .error .indexError → cs.mapM (pass edge F rows) = .error .indexError := by
      intro cs
      induction cs with
      | nil => intro _ h; exact (nomatch h)
      | cons pos cs ih =>
        intro h1 h2
        rw [List.mapM_cons] at h2 ⊢
        cases hp : chunkEnds pos with
        | error e =>
          rw [hp] at h2
          have : e = .indexError := Except.error.inj h2
          subst this
          unfold pass
          rw [hp]; rfl
        | ok p =>
          rw [hp] at h2
          obtain ⟨q1, q2, q3⟩ := h1 pos (by simp) p hp
          obtain ⟨g, hg⟩ := hF p.1 p.2 q1 q2 q3
          have h3 : cs.mapM chunkEnds = .error .indexError := by
            cases hr : cs.mapM chunkEnds with
            | error e => rw [hr] at h2; exact congrArg Except.error (Except.error.inj h2)
            | ok v => rw [hr] at h2; exact (nomatch h2)
          have h4 := ih (fun x hx => h1 x (by simp [hx])) h3
          unfold pass
          simp only [bind, Except.bind, hp, hg]
          unfold pass at h4
          simp only [bind, Except.bind] at h4
          rw [h4]
    have := key cs hbd hb
    simp only [bind, Except.bind, this]

/-- **C137.** Stacks of different shape, or smaller than one window with its margins, are refused with a `ValueError`; so many chunks that one would be
empty end with an `IndexError`. -/
theorem umpa_errors (o : Opts) (f : Recon.Filter) (ref mat : Arr3 ℝ) (r m : ℕ) (chunkSize : Option ℤ) (dark : Bool) :
    (¬ (ref.d = mat.d ∧ ref.h = mat.h ∧ ref.w = mat.w) → findUmpa o f ref mat r m chunkSize dark = .error .valueError) ∧
    (ref.w < 2 * r + 1 + 2 * m ∨ ref.h < 2 * r + 1 + 2 * m → findUmpa o f ref mat r m chunkSize dark = .error .valueError) ∧
    (ref.d = mat.d ∧ ref.h = mat.h ∧ ref.w = mat.w → 1 ≤ m + r → 2 * (m + r) + 1 ≤ ref.h → 2 * (m + r) + 1 ≤ ref.w →
      ref.h - 2 * (m + r) < numChunk ref.h chunkSize → findUmpa o f ref mat r m chunkSize dark = .error .indexError) := by
  refine ⟨fun h => ?_, fun h => ?_, fun hs he hh hw hn => ?_⟩
  · unfold findUmpa pixels
    dsimp only
    rw [if_pos (by omega)]
    rfl
  · unfold findUmpa pixels
    dsimp only
    by_cases hs : ref.d ≠ mat.d ∨ ref.h ≠ mat.h ∨ ref.w ≠ mat.w
    · rw [if_pos hs]; rfl
    · rw [if_neg hs, if_pos h]; rfl
  · have : pixels o f ref mat r m chunkSize dark = .error .indexError := by
      unfold pixels
      dsimp only
      rw [if_neg (by omega), if_neg (by omega)]
      refine chunkLoop_index hn fun b e hb hbe hz => ?_
      by_cases hg : (o.gpu && o.cuda) = true
      · rw [if_pos hg]
        unfold gpuChunk
        dsimp only
        rw [if_neg (by omega), if_neg (by omega)]
        exact ⟨_, rfl⟩
      · rw [if_neg hg]
        unfold cpuChunk
        dsimp only
        rw [if_neg (by omega)]
        exact ⟨_, rfl⟩
    unfold findUmpa
    rw [this]; rfl

/-- **C137 refuted.** `chunk_size=1` fails for every input, on the CPU and on the GPU; and the default `chunk_size=100` fails on stacks of exactly the
documented minimum height `win_size + 2*margin`. -/
theorem umpa_chunk_refuted (o : Opts) (f : Recon.Filter) {ref mat : Arr3 ℝ} {r m : ℕ} (dark : Bool)
    (hs : ref.d = mat.d ∧ ref.h = mat.h ∧ ref.w = mat.w) (he : 1 ≤ m + r) (hh : 2 * (m + r) + 1 ≤ ref.h) (hw : 2 * (m + r) + 1 ≤ ref.w) :
    findUmpa o f ref mat r m (some 1) dark = .error .indexError ∧
    (ref.h = 2 * r + 1 + 2 * m → findUmpa o f ref mat r m (some 100) dark = .error .indexError) := by
  constructor
  · refine (umpa_errors o f ref mat r m _ dark).2.2 hs he hh hw ?_
    have := numChunk_some (height := ref.h) (c := 1) (by omega) (le_refl _)
    simp only [Nat.cast_one] at this
    rw [this, show min 1 ref.h = 1 by omega, Nat.div_one]
    omega
  · intro hmin
    refine (umpa_errors o f ref mat r m _ dark).2.2 hs he hh hw ?_
    have := numChunk_some (height := ref.h) (c := 100) (by omega) (by norm_num)
    simp only [Nat.cast_ofNat] at this
    rw [this]
    have : 1 ≤ ref.h / min 100 ref.h := (Nat.one_le_div_iff (by omega)).2 (min_le_right _ _)
    omega

end Verif.UmpaFull
