import Verif.Model.GpuImage
import Verif.Props.GpuRecover
import Verif.Props.SpeckleTracking

/-!
**C161.** Local shifts of two single images on the GPU (algotom/util/correlation.py:1889-1902, 1942-1970, 2014-2044, 2527-2542).
-/

set_option linter.unusedSectionVars false
set_option linter.unusedSimpArgs false

namespace Verif.LocalShifts

/-- More chunks than rows: if every chunk can be computed, the loop ends with `IndexError`. -/
theorem chunkLoop_index {α β : Type _} {a n k edge : ℕ} {F : ℕ → (ℕ → α) → Py (ℕ → β)} {rows : ℕ → α} {zero : β} (hkn : n < k)
    (hF : ∀ b e, a ≤ b → b < e → e ≤ a + n → ∃ g, F (e + edge - (b - edge)) (fun t => rows (b - edge + t)) = .ok g) :
    chunkLoop a n k edge F rows zero = .error .indexError := by
  have hb := chunkBounds_error a n k hkn
  unfold chunkBounds at hb
  cases hcs : arraySplit (List.range' a n) k with
  | error e =>
    rw [hcs] at hb
    have h' : e = .indexError := Except.error.inj hb
    rw [chunkLoop_def, hcs, h']
    rfl
  | ok cs =>
    rw [hcs] at hb
    have hb : cs.mapM chunkEnds = .error .indexError := hb
    have key : ∀ (cs' : List (List ℕ)), (∀ pos ∈ cs', pos ∈ cs) → cs'.mapM chunkEnds = .error .indexError →
        cs'.mapM (pass edge F rows) = .error .indexError := by
      intro cs'
      induction cs' with
      | nil => intro _ h; exact (nomatch h)
      | cons pos cs' ih =>
        intro hsub h
        rw [List.mapM_cons] at h ⊢
        cases hp : chunkEnds pos with
        | error e =>
          rw [hp] at h
          have h' : e = .indexError := Except.error.inj h
          have e1 : pass edge F rows pos = .error .indexError := by
            unfold pass
            rw [hp, h']
            rfl
          rw [e1]
          rfl
        | ok p =>
          obtain ⟨h1, h2, h3⟩ := chunkEnds_bounds hcs pos (hsub pos (List.mem_cons_self ..)) p hp
          obtain ⟨g, hg⟩ := hF p.1 p.2 h1 h2 h3
          have e1 : pass edge F rows pos = .ok (p, g) := by
            unfold pass
            rw [hp]
            simp only [bind, Except.bind]
            rw [hg]
          cases hr : cs'.mapM chunkEnds with
          | ok bs => rw [hp, hr] at h; exact (nomatch h)
          | error e =>
            rw [hp, hr] at h
            have h' : e = .indexError := Except.error.inj h
            rw [e1, ih (fun q hq => hsub q (List.mem_cons_of_mem _ hq)) (by rw [hr, h'])]
            rfl
    rw [chunkLoop_def, hcs]
    show (cs.mapM (pass edge F rows)).bind _ = _
    rw [key cs (fun _ h => h) hb]
    rfl

/-- If no chunk can be computed the loop fails. -/
theorem chunkLoop_fails {α β : Type _} {a n k edge : ℕ} {F : ℕ → (ℕ → α) → Py (ℕ → β)} {rows : ℕ → α} {zero : β} {e : PyErr} (hk : 0 < k)
    (hF : ∀ m r, F m r = .error e) : ∃ e', chunkLoop a n k edge F rows zero = .error e' := by
  rw [chunkLoop_def]
  cases hcs : arraySplit (List.range' a n) k with
  | error e => exact ⟨e, rfl⟩
  | ok cs =>
    cases cs with
    | nil =>
      exfalso
      by_cases hn : k ≤ n
      · obtain ⟨bs, h1, -, h2, -⟩ := chunkBounds_ok a n k hk hn
        unfold chunkBounds at h1
        rw [hcs] at h1
        have : bs = [] := (Except.ok.inj h1).symm
        subst this
        simp at h2
        omega
      · have h1 := chunkBounds_error a n k (by omega)
        unfold chunkBounds at h1
        rw [hcs] at h1
        exact (nomatch h1)
    | cons pos cs =>
      show ∃ e', (List.mapM (pass edge F rows) (pos :: cs)).bind _ = _
      rw [List.mapM_cons]
      unfold pass
      cases hp : chunkEnds pos with
      | error e' => exact ⟨e', rfl⟩
      | ok p =>
        refine ⟨e, ?_⟩
        simp only [bind, Except.bind, hF]

end Verif.LocalShifts

namespace Verif.GpuImage
open Verif.Correlation Verif.LocalShifts Verif.GpuShifts Verif.GlobalShift Verif.Sched

/-- An image as the stack of one image. -/
def stack (m : Mat ℝ) : Arr3 ℝ := ⟨1, m.h, m.w, fun _ i j => m.get i j⟩

/-- The correlation coefficients of the window of half size `radi` around pixel `(i, j)` of `mat` with the windows of `ref` displaced by up to `margin`. -/
noncomputable def coefs (ref mat : Mat ℝ) (radi margin i j : ℕ) : Mat ℝ := cellMap (refWin (stack ref) radi margin i j) (matWin (stack mat) radi i j)

theorem coefs_size (ref mat : Mat ℝ) (radi margin i j : ℕ) : (coefs ref mat radi margin i j).h = 2 * margin + 1 ∧
    (coefs ref mat radi margin i j).w = 2 * margin + 1 := by
  constructor <;> (show 2 * (margin + radi) + 1 - (2 * radi + 1) + 1 = 2 * margin + 1; omega)

/-! ### One pixel -/

theorem finish_eq {m : Mat ℝ} {margin y x : ℕ} (hh : 0 < m.h) (hw : 0 < m.w) (hp : FirstMax2 m y x) :
    finishGpu margin true m = .ok ((peak2 m y x).1 - margin, (peak2 m y x).2 - margin) := by
  have hs := scan2_spec (m := m) hh hw
  have e' : scan2 m = (y, x) := Except.ok.inj ((argmax2_eq hs).symm.trans (argmax2_eq hp))
  unfold finishGpu
  rw [if_pos rfl, e']

/-- The sub-pixel search of the GPU compared with that of the CPU ("diff"). -/
theorem finish_close {m : Mat ℝ} {margin : ℕ} (hh : m.h = 2 * margin + 1) (hw : m.w = 2 * margin + 1) (size : ℤ) : ∃ rc rg : ℝ × ℝ,
    ((locatePeak m true .diff 2 size true).map fun r => (r.1 - (margin : ℝ), r.2 - (margin : ℝ))) = .ok rc ∧ finishGpu margin true m = .ok rg ∧
    (|rc.1 - rg.1| ≤ 1 / 2 ∧ |rc.2 - rg.2| ≤ 1 / 2) ∧
    ∀ y x, FirstMax2 m y x → ((0 < y ∧ y < 2 * margin) ∧ 0 < x ∧ x < 2 * margin → rg = rc) ∧
      (¬ ((0 < y ∧ y < 2 * margin) ∧ 0 < x ∧ x < 2 * margin) → rg = ((x : ℝ) - margin, (y : ℝ) - margin)) := by
  obtain ⟨y, x, -, hp⟩ := argmax2_spec (m := m) (by omega) (by omega)
  have huniq : ∀ y' x', FirstMax2 m y' x' → y' = y ∧ x' = x := by
    intro y' x' hp'
    have := Except.ok.inj ((argmax2_eq hp').symm.trans (argmax2_eq hp))
    exact ⟨congrArg Prod.fst this, congrArg Prod.snd this⟩
  have hg := finish_eq (margin := margin) (by omega) (by omega) hp
  by_cases hi : (0 < y ∧ y + 1 < m.h) ∧ 0 < x ∧ x + 1 < m.w
  · have e := peak2_interior hp hi.1 hi.2 size
    refine ⟨((peak2 m y x).1 - margin, (peak2 m y x).2 - margin), _, ?_, hg, ?_, fun y' x' hp' => ?_⟩
    · rw [e]; rfl
    · constructor <;> (rw [sub_self, abs_zero]; norm_num)
    · obtain ⟨rfl, rfl⟩ := huniq y' x' hp'
      exact ⟨fun _ => rfl, fun h => absurd ⟨⟨hi.1.1, by omega⟩, hi.2.1, by omega⟩ h⟩
  · obtain ⟨r, hr, b1, b2⟩ := peak_edge_half hp hi size
    rw [peak2_edge hi] at hg
    refine ⟨(r.1 - margin, r.2 - margin), _, ?_, hg, ?_, fun y' x' hp' => ?_⟩
    · rw [hr]; rfl
    · constructor
      · show |r.1 - (margin : ℝ) - ((x : ℝ) - margin)| ≤ 1 / 2
        rwa [show r.1 - (margin : ℝ) - ((x : ℝ) - margin) = r.1 - x by ring]
      · show |r.2 - (margin : ℝ) - ((y : ℝ) - margin)| ≤ 1 / 2
        rwa [show r.2 - (margin : ℝ) - ((y : ℝ) - margin) = r.2 - y by ring]
    · obtain ⟨rfl, rfl⟩ := huniq y' x' hp'
      exact ⟨fun h => absurd ⟨⟨h.1.1, by omega⟩, h.2.1, by omega⟩ hi, fun _ => rfl⟩

/-- The search of the CPU at one pixel. -/
theorem pointShift_eq {ref mat : Mat ℝ} {i j radi margin : ℕ} (hh : ref.h = mat.h) (hw : ref.w = mat.w)
    (hm : 1 ≤ margin) (hi : radi + margin ≤ i) (hi' : i + (radi + margin) < ref.h) (hj : radi + margin ≤ j)
    (hj' : j + (radi + margin) < ref.w) (subPixel : Bool) (method : Method ℝ) (size : ℤ) :
    pointShift ref mat radi margin subPixel method size i j =
      (locatePeak (coefs ref mat radi margin i j) subPixel method 2 size true).map fun r => (r.1 - (margin : ℝ), r.2 - (margin : ℝ)) := by
  have c1 : crop ref ((i : ℤ) - ((radi : ℤ) + margin)) ((i : ℤ) + (((radi : ℤ) + margin) + 1)) ((j : ℤ) - ((radi : ℤ) + margin))
      ((j : ℤ) + (((radi : ℤ) + margin) + 1)) = refWin (stack ref) radi margin i j := by
    unfold crop pyBound
    rw [if_neg (by omega), if_neg (by omega), if_neg (by omega), if_neg (by omega),
      show min ((i : ℤ) - ((radi : ℤ) + margin)).toNat ref.h = i - (margin + radi) by omega,
      show min ((j : ℤ) - ((radi : ℤ) + margin)).toNat ref.w = j - (margin + radi) by omega,
      show min ((i : ℤ) + (((radi : ℤ) + margin) + 1)).toNat ref.h - (i - (margin + radi)) = 2 * (margin + radi) + 1 by omega,
      show min ((j : ℤ) + (((radi : ℤ) + margin) + 1)).toNat ref.w - (j - (margin + radi)) = 2 * (margin + radi) + 1 by omega]
    rfl
  have c2 : crop mat ((i : ℤ) - radi) ((i : ℤ) + ((radi : ℤ) + 1)) ((j : ℤ) - radi) ((j : ℤ) + ((radi : ℤ) + 1))
      = matWin (stack mat) radi i j := by
    unfold crop pyBound
    rw [if_neg (by omega), if_neg (by omega), if_neg (by omega), if_neg (by omega),
      show min ((i : ℤ) - radi).toNat mat.h = i - radi by omega,
      show min ((j : ℤ) - radi).toNat mat.w = j - radi by omega,
      show min ((i : ℤ) + ((radi : ℤ) + 1)).toNat mat.h - (i - radi) = 2 * radi + 1 by omega,
      show min ((j : ℤ) + ((radi : ℤ) + 1)).toNat mat.w - (j - radi) = 2 * radi + 1 by omega]
    rfl
  unfold pointShift
  dsimp only
  rw [c1, c2]
  exact findShift_window (ref := refWin (stack ref) radi margin i j) (t := matWin (stack mat) radi i j) hm rfl
    (by show 2 * (margin + radi) + 1 = 2 * radi + 1 + 2 * margin; omega) (by show 2 * (margin + radi) + 1 = 2 * radi + 1 + 2 * margin; omega) _ _ _ _

/-! ### Whole images -/

/-- Rows `b .. b + n - 1` of an image. -/
def rowsFrom (m : Mat ℝ) (b n : ℕ) : Mat ℝ := ⟨n, m.w, fun i j => m.get (b + i) j⟩

/-- **C161.** Images of different shapes, or with fewer rows than `win_size + 2*margin`, are refused; so are narrower ones. -/
theorem image_refused {ref mat : Mat ℝ} {winSize margin : ℕ} {chunkSize : Option ℤ} {block : ℕ × ℕ} {norm : Bool} :
    (ref.h ≠ mat.h ∨ ref.w ≠ mat.w ∨ ref.h < 2 * (winSize / 2 + margin) + 1 → shiftsImage ref mat winSize margin chunkSize block norm = .error .valueError) ∧
    (ref.w < 2 * (winSize / 2 + margin) + 1 → ∃ e, shiftsImage ref mat winSize margin chunkSize block norm = .error e) := by
  constructor
  · intro h
    unfold shiftsImage
    dsimp only
    by_cases h1 : ref.h ≠ mat.h ∨ ref.w ≠ mat.w
    · rw [if_pos h1]
    · rw [if_neg h1, if_pos (by omega)]
  · intro h
    unfold shiftsImage
    dsimp only
    by_cases h1 : ref.h ≠ mat.h ∨ ref.w ≠ mat.w
    · rw [if_pos h1]; exact ⟨_, rfl⟩
    rw [if_neg h1]
    by_cases h2 : ref.h < 2 * (margin + winSize / 2) + 1
    · rw [if_pos h2]; exact ⟨_, rfl⟩
    rw [if_neg h2]
    obtain ⟨e, he⟩ := chunkLoop_fails (a := margin + winSize / 2) (n := ref.h - 2 * (margin + winSize / 2)) (edge := margin + winSize / 2)
      (k := numChunk ref.h chunkSize) (rows := imageRows ref mat) (zero := fun _ => (.ok (0, 0) : Py (ℝ × ℝ))) (e := .valueError)
      (F := fun n rows => multi2d (finishGpu margin) 1 ref.w (winSize / 2) margin block false n (chunkImage norm ref.w n rows))
      (numChunk_pos (by omega) _) (fun m r => by
        unfold multi2d
        dsimp only
        rw [if_pos (by omega)])
    rw [he]
    exact ⟨e, rfl⟩

theorem coefs_rows (ref mat : Mat ℝ) (b n radi margin i j : ℕ) (hi : margin + radi ≤ i) :
    coefs (rowsFrom ref b n) (rowsFrom mat b n) radi margin i j = coefs ref mat radi margin (b + i) j := by
  unfold coefs
  congr 1
  · unfold refWin stack rowsFrom
    congr 1
    funext k p q
    dsimp only
    congr 1; omega
  · unfold matWin stack rowsFrom
    congr 1
    funext k p q
    dsimp only
    congr 1; omega

/-- What the GPU search computes for every pixel: each row belongs to a block of consecutive rows (all rows, if `chunk_size=None`) that is normalised
separately with `norm=True`. -/
theorem image_spec {ref mat : Mat ℝ} {winSize margin : ℕ} {chunkSize : Option ℤ} {block : ℕ × ℕ} {norm : Bool} (hs : ref.h = mat.h ∧ ref.w = mat.w)
    (he : 1 ≤ winSize / 2 + margin) (hz : 2 * (winSize / 2 + margin) + 1 ≤ ref.h ∧ 2 * (winSize / 2 + margin) + 1 ≤ ref.w) (hb : 0 < block.1 ∧ 0 < block.2)
    (hn : numChunk ref.h chunkSize ≤ ref.h - 2 * (winSize / 2 + margin)) :
    ∃ x y bs, shiftsImage ref mat winSize margin chunkSize block norm = .ok (x, y) ∧ (x.h = ref.h ∧ x.w = ref.w ∧ y.h = ref.h ∧ y.w = ref.w) ∧
      chunkBounds (winSize / 2 + margin) (ref.h - 2 * (winSize / 2 + margin)) (numChunk ref.h chunkSize) = .ok bs ∧
      (∀ i j, SpeckleTracking.Searched ref.h ref.w (winSize / 2 + margin) i j → ∃ b n, (b + (winSize / 2 + margin), b + n - (winSize / 2 + margin)) ∈ bs ∧ (b + (winSize / 2 + margin) ≤ i ∧ i + (winSize / 2 + margin) < b + n ∧
          b + n ≤ ref.h) ∧
        finishGpu margin true (coefs (SpeckleTracking.prep norm (rowsFrom ref b n)) (SpeckleTracking.prep norm (rowsFrom mat b n)) (winSize / 2) margin (i - b) j) =
          .ok (x.get i j, y.get i j)) ∧
      ∀ i j, ¬ SpeckleTracking.Searched ref.h ref.w (winSize / 2 + margin) i j → x.get i j = 0 ∧ y.get i j = 0 := by
  generalize hr : winSize / 2 = radi at *
  have ecomm : radi + margin = margin + radi := Nat.add_comm _ _
  obtain ⟨out, bs, g1, g0, g2, g3⟩ := chunkLoop_bounds (a := margin + radi) (n := ref.h - 2 * (margin + radi)) (k := numChunk ref.h chunkSize)
    (edge := margin + radi) (F := fun n rows => multi2d (finishGpu margin) 1 ref.w radi margin block false n (chunkImage norm ref.w n rows))
    (rows := imageRows ref mat) (zero := fun _ => (.ok (0, 0) : Py (ℝ × ℝ))) (numChunk_pos (by omega) _) (by omega)
    (fun b e y j => if margin + radi ≤ j ∧ j < ref.w - (margin + radi) ∧ margin + radi ≠ 0 then
        finishGpu margin (launched (e + (margin + radi) - (b - (margin + radi)) - 2 * (margin + radi)) (ref.w - 2 * (margin + radi)) block y (j - (margin + radi)))
          (cellMap
          ⟨1, 2 * (margin + radi) + 1, 2 * (margin + radi) + 1, fun k p q =>
            (chunkImage norm ref.w (e + (margin + radi) - (b - (margin + radi))) (fun t => imageRows ref mat (b - (margin + radi) + t)) (y + p)).1 k
              (j - (margin + radi) + q)⟩
          ⟨1, 2 * radi + 1, 2 * radi + 1, fun k p q =>
            (chunkImage norm ref.w (e + (margin + radi) - (b - (margin + radi))) (fun t => imageRows ref mat (b - (margin + radi) + t))
              (y + (margin + radi) - radi + p)).2 k (j - (margin + radi) + (margin + radi) - radi + q)⟩)
      else .ok (0, 0))
    (fun b e hb1 hbe hz => by
      unfold multi2d chunkNorm
      dsimp only
      rw [ecomm, if_neg (by omega), if_neg (by omega), if_neg (by simp)])
  refine ⟨⟨ref.h, ref.w, fun i j => (value (out i j)).1⟩, ⟨ref.h, ref.w, fun i j => (value (out i j)).2⟩, bs, ?_, ⟨rfl, rfl, rfl, rfl⟩, ?_, ?_, ?_⟩
  · unfold shiftsImage
    dsimp only
    rw [hr, if_neg (by omega), if_neg (by omega), g1]
    rfl
  · rw [ecomm]; exact g0
  · rintro i j ⟨⟨hi, hi1⟩, hj, hj1⟩
    obtain ⟨b, e, k0, k1, k2, k3, k4, ho⟩ := g2 i (by omega) (by omega)
    refine ⟨b - (margin + radi), e + (margin + radi) - (b - (margin + radi)), ?_, ⟨by omega, by omega, by omega⟩, ?_⟩
    · rw [show b - (margin + radi) + (radi + margin) = b by omega,
        show b - (margin + radi) + (e + (margin + radi) - (b - (margin + radi))) - (radi + margin) = e by omega]
      exact k0
    dsimp only
    rw [ho]
    dsimp only
    rw [if_pos ⟨by omega, by omega, by omega⟩, launched_of hb (by omega) (by omega)]
    set n := e + (margin + radi) - (b - (margin + radi)) with hn'
    have hmat : (⟨1, 2 * (margin + radi) + 1, 2 * (margin + radi) + 1, fun k p q =>
            (chunkImage norm ref.w n (fun t => imageRows ref mat (b - (margin + radi) + t)) (i - b + p)).1 k
              (j - (margin + radi) + q)⟩ : Arr3 ℝ) = refWin (stack (SpeckleTracking.prep norm (rowsFrom ref (b - (margin + radi)) n))) radi margin (i - (b - (margin + radi))) j := by
      unfold refWin
      cases norm
      · unfold stack
        congr 1
        funext k p q
        show ref.get (b - (margin + radi) + (i - b + p)) (j - (margin + radi) + q) =
          ref.get (b - (margin + radi) + (i - (b - (margin + radi)) - (margin + radi) + p)) (j - (margin + radi) + q)
        congr 1; omega
      · unfold stack
        congr 1
        funext k p q
        show normalize2 n ref.w (fun p q => ref.get (b - (margin + radi) + p) q) (i - b + p) (j - (margin + radi) + q) =
          normalize2 n ref.w (fun p q => ref.get (b - (margin + radi) + p) q) (i - (b - (margin + radi)) - (margin + radi) + p) (j - (margin + radi) + q)
        congr 1; omega
    have hmat2 : (⟨1, 2 * radi + 1, 2 * radi + 1, fun k p q =>
            (chunkImage norm ref.w n (fun t => imageRows ref mat (b - (margin + radi) + t))
              (i - b + (margin + radi) - radi + p)).2 k (j - (margin + radi) + (margin + radi) - radi + q)⟩ : Arr3 ℝ) =
        matWin (stack (SpeckleTracking.prep norm (rowsFrom mat (b - (margin + radi)) n))) radi (i - (b - (margin + radi))) j := by
      unfold matWin
      cases norm
      · unfold stack
        congr 1
        funext k p q
        show mat.get (b - (margin + radi) + (i - b + (margin + radi) - radi + p)) (j - (margin + radi) + (margin + radi) - radi + q) =
          mat.get (b - (margin + radi) + (i - (b - (margin + radi)) - radi + p)) (j - radi + q)
        congr 1 <;> omega
      · unfold stack
        congr 1
        funext k p q
        show normalize2 n ref.w (fun p q => mat.get (b - (margin + radi) + p) q) (i - b + (margin + radi) - radi + p) (j - (margin + radi) + (margin + radi) - radi + q) =
          normalize2 n mat.w (fun p q => mat.get (b - (margin + radi) + p) q) (i - (b - (margin + radi)) - radi + p) (j - radi + q)
        rw [hs.2]
        congr 1 <;> omega
    rw [hmat, hmat2]
    unfold coefs
    obtain ⟨_, rg, _, hg, _⟩ := finish_close (m := cellMap (refWin (stack (SpeckleTracking.prep norm (rowsFrom ref (b - (margin + radi)) n))) radi margin (i - (b - (margin + radi))) j)
      (matWin (stack (SpeckleTracking.prep norm (rowsFrom mat (b - (margin + radi)) n))) radi (i - (b - (margin + radi))) j)) (margin := margin)
      (coefs_size _ _ _ _ _ _).1 (coefs_size _ _ _ _ _ _).2 3
    rw [hg]
    rfl
  · intro i j hij
    by_cases hi : i < margin + radi ∨ ref.h ≤ i + (margin + radi)
    · dsimp only
      rw [g3 i (by omega)]
      exact ⟨rfl, rfl⟩
    · obtain ⟨b, e, -, k1, k2, k3, k4, ho⟩ := g2 i (by omega) (by omega)
      dsimp only
      rw [ho]
      dsimp only
      rw [if_neg]
      · exact ⟨rfl, rfl⟩
      · rintro ⟨h1, h2, -⟩
        exact hij ⟨⟨by omega, by omega⟩, by omega, by omega⟩

/-- **C161.** More chunks than rows with a full window: `IndexError`. -/
theorem image_index_error {ref mat : Mat ℝ} {winSize margin : ℕ} {chunkSize : Option ℤ} {block : ℕ × ℕ} {norm : Bool} (hs : ref.h = mat.h ∧ ref.w = mat.w)
    (he : 1 ≤ winSize / 2 + margin) (hz : 2 * (winSize / 2 + margin) + 1 ≤ ref.h ∧ 2 * (winSize / 2 + margin) + 1 ≤ ref.w)
    (hn : ref.h - 2 * (winSize / 2 + margin) < numChunk ref.h chunkSize) :
    shiftsImage ref mat winSize margin chunkSize block norm = .error .indexError := by
  unfold shiftsImage
  dsimp only
  rw [if_neg (by omega), if_neg (by omega), chunkLoop_index (by omega)]
  · rfl
  · intro b e h1 h2 h3
    unfold multi2d
    dsimp only
    rw [if_neg (by omega), if_neg (by omega)]
    exact ⟨_, rfl⟩

/-- **C161.** Whatever the chunk size (even the documented minimum height with the default chunk size 100): every explicit chunk size fails on images of exactly
`win_size + 2*margin` rows, and `chunk_size=1` always does. -/
theorem image_chunk_refuted {ref mat : Mat ℝ} {winSize margin c : ℕ} {block : ℕ × ℕ} {norm : Bool} (hs : ref.h = mat.h ∧ ref.w = mat.w)
    (he : 1 ≤ winSize / 2 + margin) (hz : 2 * (winSize / 2 + margin) + 1 ≤ ref.h ∧ 2 * (winSize / 2 + margin) + 1 ≤ ref.w) (hc : 1 ≤ c)
    (h : ref.h = 2 * (winSize / 2 + margin) + 1 ∨ c = 1) : shiftsImage ref mat winSize margin (some c) block norm = .error .indexError := by
  apply image_index_error hs he hz
  rw [numChunk_some (by omega) hc]
  rcases h with h | rfl
  · have : 1 ≤ ref.h / min c ref.h := (Nat.one_le_div_iff (by omega)).2 (min_le_right _ _)
    omega
  · rw [show min 1 ref.h = 1 by omega, Nat.div_one]
    omega

/-- The images the two searches compare: as given, or normalised as a whole. -/
theorem image_whole {ref mat : Mat ℝ} {winSize margin : ℕ} {chunkSize : Option ℤ} {block : ℕ × ℕ} {norm : Bool} (hs : ref.h = mat.h ∧ ref.w = mat.w)
    (he : 1 ≤ winSize / 2 + margin) (hz : 2 * (winSize / 2 + margin) + 1 ≤ ref.h ∧ 2 * (winSize / 2 + margin) + 1 ≤ ref.w) (hb : 0 < block.1 ∧ 0 < block.2)
    (hn : numChunk ref.h chunkSize ≤ ref.h - 2 * (winSize / 2 + margin)) (hc : norm = false ∨ chunkSize = none) :
    ∃ x y, shiftsImage ref mat winSize margin chunkSize block norm = .ok (x, y) ∧ (x.h = ref.h ∧ x.w = ref.w ∧ y.h = ref.h ∧ y.w = ref.w) ∧
      (∀ i j, SpeckleTracking.Searched ref.h ref.w (winSize / 2 + margin) i j →
        finishGpu margin true (coefs (SpeckleTracking.prep norm ref) (SpeckleTracking.prep norm mat) (winSize / 2) margin i j) =
          .ok (x.get i j, y.get i j)) ∧
      ∀ i j, ¬ SpeckleTracking.Searched ref.h ref.w (winSize / 2 + margin) i j → x.get i j = 0 ∧ y.get i j = 0 := by
  obtain ⟨x, y, bs, h1, h2, h0, h3, h4⟩ := image_spec (chunkSize := chunkSize) (norm := norm) hs he hz hb hn
  refine ⟨x, y, h1, h2, fun i j hij => ?_, h4⟩
  obtain ⟨b, n, hm, hbn, h⟩ := h3 i j hij
  rcases hc with rfl | rfl
  · rw [← h]
    show finishGpu margin true (coefs ref mat (winSize / 2) margin i j) =
      finishGpu margin true (coefs (rowsFrom ref b n) (rowsFrom mat b n) (winSize / 2) margin (i - b) j)
    rw [coefs_rows _ _ _ _ _ _ _ _ (by omega), show b + (i - b) = i by omega]
  · rw [numChunk_none (by omega)] at h0
    obtain ⟨bs', e1, e2, e3, -⟩ := chunkBounds_ok (winSize / 2 + margin) (ref.h - 2 * (winSize / 2 + margin)) 1 one_pos (by omega)
    rw [h0] at e1
    have e1' := Except.ok.inj e1
    subst e1'
    obtain ⟨p, rfl⟩ := List.length_eq_one_iff.1 e3
    rw [List.mem_singleton] at hm
    obtain ⟨c1, -, c2⟩ := e2
    have c2 : p.2 = winSize / 2 + margin + (ref.h - 2 * (winSize / 2 + margin)) := c2
    rw [← hm] at c1 c2
    dsimp only at c1 c2
    have hb0 : b = 0 := by omega
    have hn0 : n = ref.h := by omega
    subst hb0 hn0
    rw [← h, Nat.sub_zero]
    congr 1
    unfold rowsFrom
    simp only [Nat.zero_add]
    rw [show (⟨ref.h, mat.w, fun i j => mat.get i j⟩ : Mat ℝ) = mat by rw [hs.1]]

/-- **C161.** Without normalisation the result does not depend on the chunk size or the thread block. -/
theorem image_chunk_free {ref mat : Mat ℝ} {winSize margin : ℕ} {c1 c2 : Option ℤ} {b1 b2 : ℕ × ℕ} (hs : ref.h = mat.h ∧ ref.w = mat.w)
    (he : 1 ≤ winSize / 2 + margin) (hz : 2 * (winSize / 2 + margin) + 1 ≤ ref.h ∧ 2 * (winSize / 2 + margin) + 1 ≤ ref.w)
    (hb1 : 0 < b1.1 ∧ 0 < b1.2) (hb2 : 0 < b2.1 ∧ 0 < b2.2)
    (hn1 : numChunk ref.h c1 ≤ ref.h - 2 * (winSize / 2 + margin)) (hn2 : numChunk ref.h c2 ≤ ref.h - 2 * (winSize / 2 + margin)) :
    ∃ x y x' y', shiftsImage ref mat winSize margin c1 b1 false = .ok (x, y) ∧ shiftsImage ref mat winSize margin c2 b2 false = .ok (x', y') ∧
      x.Eqv x' ∧ y.Eqv y' := by
  obtain ⟨x, y, g1, g2, g3, g4⟩ := image_whole (chunkSize := c1) (norm := false) hs he hz hb1 hn1 (Or.inl rfl)
  obtain ⟨x', y', g1', g2', g3', g4'⟩ := image_whole (chunkSize := c2) (norm := false) hs he hz hb2 hn2 (Or.inl rfl)
  have key : ∀ i j, x.get i j = x'.get i j ∧ y.get i j = y'.get i j := by
    intro i j
    by_cases hij : SpeckleTracking.Searched ref.h ref.w (winSize / 2 + margin) i j
    · have := (g3 i j hij).symm.trans (g3' i j hij)
      have := Except.ok.inj this
      exact ⟨congrArg Prod.fst this, congrArg Prod.snd this⟩
    · rw [(g4 i j hij).1, (g4 i j hij).2, (g4' i j hij).1, (g4' i j hij).2]
      exact ⟨rfl, rfl⟩
  refine ⟨x, y, x', y', g1, g1', ⟨by omega, by omega, fun i _ j _ => (key i j).1⟩, ⟨by omega, by omega, fun i _ j _ => (key i j).2⟩⟩

/-- **C161.** The GPU compared with the CPU ("diff", any number of cores and schedule), as given or normalised as a whole: within half a pixel in each
direction, equal where the largest coefficient is not at the edge of the searched area, the whole-pixel shift where it is. -/
theorem image_close {ref mat : Mat ℝ} {winSize margin : ℕ} {chunkSize : Option ℤ} {block : ℕ × ℕ} {norm : Bool} {size : ℤ} {ncore : ℕ} {sched : List Ev}
    {r : Py (Mat ℝ × Mat ℝ)} (hs : ref.h = mat.h ∧ ref.w = mat.w)
    (hm : 1 ≤ margin) (hz : 2 * (winSize / 2 + margin) + 1 ≤ ref.h ∧ 2 * (winSize / 2 + margin) + 1 ≤ ref.w) (hb : 0 < block.1 ∧ 0 < block.2)
    (hn : numChunk ref.h chunkSize ≤ ref.h - 2 * (winSize / 2 + margin)) (hc : norm = false ∨ chunkSize = none)
    (hr : SpeckleTracking.shifts2d ref mat winSize margin true .diff size ncore norm sched = some r) :
    ∃ x y x' y', shiftsImage ref mat winSize margin chunkSize block norm = .ok (x, y) ∧ r = .ok (x', y') ∧
      (∀ i < ref.h, ∀ j < ref.w, |x'.get i j - x.get i j| ≤ 1 / 2 ∧ |y'.get i j - y.get i j| ≤ 1 / 2) ∧
      ∀ i j p q, SpeckleTracking.Searched ref.h ref.w (winSize / 2 + margin) i j →
        FirstMax2 (coefs (SpeckleTracking.prep norm ref) (SpeckleTracking.prep norm mat) (winSize / 2) margin i j) p q →
        ((0 < p ∧ p < 2 * margin) ∧ 0 < q ∧ q < 2 * margin → x.get i j = x'.get i j ∧ y.get i j = y'.get i j) ∧
        (¬ ((0 < p ∧ p < 2 * margin) ∧ 0 < q ∧ q < 2 * margin) → x.get i j = (q : ℝ) - margin ∧ y.get i j = (p : ℝ) - margin) := by
  obtain ⟨x, y, g1, g2, g3, g4⟩ := image_whole (chunkSize := chunkSize) (norm := norm) hs (by omega) hz hb hn hc
  obtain ⟨k1, k2⟩ := SpeckleTracking.shifts2d_spec hs hz hr
  have e1 : (SpeckleTracking.prep norm ref).h = ref.h ∧ (SpeckleTracking.prep norm ref).w = ref.w := by cases norm <;> exact ⟨rfl, rfl⟩
  have e2 : (SpeckleTracking.prep norm mat).h = mat.h ∧ (SpeckleTracking.prep norm mat).w = mat.w := by cases norm <;> exact ⟨rfl, rfl⟩
  have hp : ∀ i j, SpeckleTracking.Searched ref.h ref.w (winSize / 2 + margin) i j →
      pointShift (SpeckleTracking.prep norm ref) (SpeckleTracking.prep norm mat) (winSize / 2) margin true .diff size i j =
        (locatePeak (coefs (SpeckleTracking.prep norm ref) (SpeckleTracking.prep norm mat) (winSize / 2) margin i j) true .diff 2 size true).map
          fun r => (r.1 - (margin : ℝ), r.2 - (margin : ℝ)) := by
    rintro i j ⟨⟨a1, a2⟩, a3, a4⟩
    exact pointShift_eq (by rw [e1.1, e2.1, hs.1]) (by rw [e1.2, e2.2, hs.2]) hm a1 (by rw [e1.1]; exact a2) a3 (by rw [e1.2]; exact a4) _ _ _
  have hf := fun i j => finish_close (m := coefs (SpeckleTracking.prep norm ref) (SpeckleTracking.prep norm mat) (winSize / 2) margin i j) (margin := margin)
    (coefs_size _ _ _ _ _ _).1 (coefs_size _ _ _ _ _ _).2 size
  obtain ⟨⟨x', y'⟩, hxy⟩ := k1.2 fun i j hij => by
    obtain ⟨rc, -, h, -⟩ := hf i j
    exact ⟨rc, by rw [hp i j hij, h]⟩
  obtain ⟨-, k3, k4⟩ := k2 x' y' hxy
  have key : ∀ i j, SpeckleTracking.Searched ref.h ref.w (winSize / 2 + margin) i j →
      (|x'.get i j - x.get i j| ≤ 1 / 2 ∧ |y'.get i j - y.get i j| ≤ 1 / 2) ∧
      ∀ p q, FirstMax2 (coefs (SpeckleTracking.prep norm ref) (SpeckleTracking.prep norm mat) (winSize / 2) margin i j) p q →
        ((0 < p ∧ p < 2 * margin) ∧ 0 < q ∧ q < 2 * margin → x.get i j = x'.get i j ∧ y.get i j = y'.get i j) ∧
        (¬ ((0 < p ∧ p < 2 * margin) ∧ 0 < q ∧ q < 2 * margin) → x.get i j = (q : ℝ) - margin ∧ y.get i j = (p : ℝ) - margin) := by
    intro i j hij
    obtain ⟨rc, rg, h1, h2, h3, h4⟩ := hf i j
    have c1 := k3 i j hij
    rw [hp i j hij, h1] at c1
    have c1 := Except.ok.inj c1
    have c2 := g3 i j hij
    rw [h2] at c2
    have c2 := Except.ok.inj c2
    rw [c1, c2] at h3
    refine ⟨h3, fun p q hpq => ⟨fun hin => ?_, fun hin => ?_⟩⟩
    · have := (h4 p q hpq).1 hin
      rw [c1, c2] at this
      exact ⟨congrArg Prod.fst this, congrArg Prod.snd this⟩
    · have := (h4 p q hpq).2 hin
      rw [c2] at this
      exact ⟨congrArg Prod.fst this, congrArg Prod.snd this⟩
  refine ⟨x, y, x', y', g1, hxy, fun i _ j _ => ?_, fun i j p q hij hpq => (key i j hij).2 p q hpq⟩
  by_cases hij : SpeckleTracking.Searched ref.h ref.w (winSize / 2 + margin) i j
  · exact (key i j hij).1
  · rw [(g4 i j hij).1, (g4 i j hij).2, (k4 i j hij).1, (k4 i j hij).2]
    norm_num

/-- The GPU search at one pixel whose window is translated. -/
theorem finish_recovers {ref mat : Mat ℝ} {i j radi margin : ℕ} {dy dx : ℤ} (hh : ref.h = mat.h) (hw : ref.w = mat.w)
    (hm : 1 ≤ margin) (hi : radi + margin ≤ i) (hi' : i + (radi + margin) < ref.h) (hj : radi + margin ≤ j)
    (hj' : j + (radi + margin) < ref.w) (hy : |dy| ≤ margin) (hx : |dx| ≤ margin) (hs : WindowShift ref mat i j radi margin dy dx) :
    ∃ v : ℝ × ℝ, finishGpu margin true (coefs ref mat radi margin i j) = .ok v ∧ (|v.1 - dx| < 1 ∧ |v.2 - dy| < 1) ∧
      ((|dy| = margin ∨ |dx| = margin) → v = ((dx : ℝ), (dy : ℝ))) := by
  obtain ⟨u, u1, -, u2, -⟩ := point_shift hh hw hm hi hi' hj hj' hy hx hs true .diff 3
  obtain ⟨w, w1, w2, -⟩ := point_shift hh hw hm hi hi' hj hj' hy hx hs false .diff 3
  have w2 := w2 rfl
  have u2 := u2 rfl
  rw [pointShift_eq hh hw hm hi hi' hj hj'] at u1 w1
  obtain ⟨c1, c2⟩ := coefs_size ref mat radi margin i j
  generalize coefs ref mat radi margin i j = m at *
  obtain ⟨rc, rg, h1, h2, -, h4⟩ := finish_close (m := m) (margin := margin) c1 c2 3
  rw [h1] at u1
  have u1 := Except.ok.inj u1
  subst u1
  obtain ⟨y, x, -, hp⟩ := argmax2_spec (m := m) (by omega) (by omega)
  have hl : locatePeak m false .diff 2 3 true = .ok ((x : ℝ), (y : ℝ)) := by
    unfold locatePeak flipPeak
    simp only [bind, Except.bind, if_true, argmax2_eq hp]
  rw [hl, except_map_ok] at w1
  have w1 := Except.ok.inj w1
  rw [w2] at w1
  have ex : (x : ℝ) - margin = dx := congrArg Prod.fst w1
  have ey : (y : ℝ) - margin = dy := congrArg Prod.snd w1
  have ex' : (x : ℤ) - margin = dx := by exact_mod_cast ex
  have ey' : (y : ℤ) - margin = dy := by exact_mod_cast ey
  have hlt := hp.1
  have hlt2 := hp.2.1
  by_cases hin : (0 < y ∧ y < 2 * margin) ∧ 0 < x ∧ x < 2 * margin
  · refine ⟨rg, h2, ?_, fun hedge => ?_⟩
    · rw [(h4 y x hp).1 hin]; exact u2
    · exfalso
      rcases hedge with he | he
      · rcases abs_eq (Int.natCast_nonneg margin) |>.1 he with h1 | h1 <;> omega
      · rcases abs_eq (Int.natCast_nonneg margin) |>.1 he with h1 | h1 <;> omega
  · have e := (h4 y x hp).2 hin
    rw [ex, ey] at e
    refine ⟨rg, h2, ?_, fun _ => e⟩
    rw [e]
    dsimp only
    rw [sub_self, sub_self, abs_zero]
    exact ⟨one_pos, one_pos⟩

/-- **C161.** At each searched pixel whose window (in the images that are compared) is translated by a whole `(dy, dx)` within the margin, and by no other,
the GPU finds it to less than one pixel, and exactly where it reaches the margin. -/
theorem image_recovers {ref mat : Mat ℝ} {winSize margin : ℕ} {chunkSize : Option ℤ} {block : ℕ × ℕ} {norm : Bool}
    (hs : ref.h = mat.h ∧ ref.w = mat.w)
    (hm : 1 ≤ margin) (hz : 2 * (winSize / 2 + margin) + 1 ≤ ref.h ∧ 2 * (winSize / 2 + margin) + 1 ≤ ref.w) (hb : 0 < block.1 ∧ 0 < block.2)
    (hn : numChunk ref.h chunkSize ≤ ref.h - 2 * (winSize / 2 + margin)) (hc : norm = false ∨ chunkSize = none) :
    ∃ x y, shiftsImage ref mat winSize margin chunkSize block norm = .ok (x, y) ∧
      ∀ (i j : ℕ) (dy dx : ℤ), SpeckleTracking.Searched ref.h ref.w (winSize / 2 + margin) i j → |dy| ≤ margin → |dx| ≤ margin →
        WindowShift (SpeckleTracking.prep norm ref) (SpeckleTracking.prep norm mat) i j (winSize / 2) margin dy dx →
        (|x.get i j - dx| < 1 ∧ |y.get i j - dy| < 1) ∧ ((|dy| = margin ∨ |dx| = margin) → x.get i j = dx ∧ y.get i j = dy) := by
  obtain ⟨x, y, g1, g2, g3, g4⟩ := image_whole (chunkSize := chunkSize) (norm := norm) hs (by omega) hz hb hn hc
  have e1 : (SpeckleTracking.prep norm ref).h = ref.h ∧ (SpeckleTracking.prep norm ref).w = ref.w := by cases norm <;> exact ⟨rfl, rfl⟩
  have e2 : (SpeckleTracking.prep norm mat).h = mat.h ∧ (SpeckleTracking.prep norm mat).w = mat.w := by cases norm <;> exact ⟨rfl, rfl⟩
  refine ⟨x, y, g1, fun i j dy dx hij hy hx hw => ?_⟩
  obtain ⟨v, v1, v2, v3⟩ := finish_recovers (by rw [e1.1, e2.1, hs.1]) (by rw [e1.2, e2.2, hs.2]) hm hij.1.1 (by rw [e1.1]; exact hij.1.2) hij.2.1
    (by rw [e1.2]; exact hij.2.2) hy hx hw
  rw [g3 i j hij] at v1
  have v1 := Except.ok.inj v1
  subst v1
  exact ⟨v2, fun h => ⟨congrArg Prod.fst (v3 h), congrArg Prod.snd (v3 h)⟩⟩

end Verif.GpuImage
