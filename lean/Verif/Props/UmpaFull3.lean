import Verif.Props.UmpaFull2

/-!
C138: the UMPA search on the GPU compared with the CPU; recovery of a known shift by both.
-/

set_option linter.unusedSectionVars false
set_option linter.unusedSimpArgs false

namespace Verif.UmpaFull
open Finset Verif.Correlation Verif.LocalShifts Verif.GpuShifts Verif.Umpa
open Verif.Fourier (edgeIdx)

/-- Specification: `(y, x)` is the first smallest entry (row by row) of the `(2m+1) x (2m+1)` map `c`. -/
def FirstMin (m : ℕ) (c : ℕ → ℕ → ℝ) (y x : ℕ) : Prop :=
  y ≤ 2 * m ∧ x ≤ 2 * m ∧ (∀ a ≤ 2 * m, ∀ b ≤ 2 * m, c y x ≤ c a b) ∧
    ∀ a ≤ 2 * m, ∀ b ≤ 2 * m, (a < y ∨ a = y ∧ b < x) → c y x < c a b

/-- Not on the edge of the map. -/
def Inner (m y x : ℕ) : Prop := (0 < y ∧ y < 2 * m) ∧ 0 < x ∧ x < 2 * m

theorem firstMin_iff {m : ℕ} {c : ℕ → ℕ → ℝ} {y x : ℕ} :
    FirstMax2 (inverse ⟨2 * m + 1, 2 * m + 1, c⟩) y x ↔ FirstMin m c y x := by
  unfold FirstMax2 FirstMin inverse
  dsimp only
  constructor
  · rintro ⟨h1, h2, h3, h4⟩
    refine ⟨by omega, by omega, fun a ha b hb => ?_, fun a ha b hb hlt => ?_⟩
    · have := h3 a (by omega) b (by omega); linarith
    · have := h4 a (by omega) b (by omega) hlt; linarith
  · rintro ⟨h1, h2, h3, h4⟩
    refine ⟨by omega, by omega, fun a ha b hb => ?_, fun a ha b hb hlt => ?_⟩
    · have := h3 a (by omega) b (by omega); linarith
    · have := h4 a (by omega) b (by omega) hlt; linarith

theorem gpuPixel_eq {m : ℕ} (dark : Bool) (T : ℕ → ℕ → Terms) {y x : ℕ} (h : FirstMin m (fun a b => cost dark (T a b)) y x) :
    let q := peak2 (inverse ⟨2 * m + 1, 2 * m + 1, fun a b => cost dark (T a b)⟩) y x
    let t := transDark (T (npRound q.2).toNat (npRound q.1).toNat)
    gpuPixel m dark T = ⟨q.1 - m, q.2 - m, if dark then t.1 else 1, if dark then t.2 else 1⟩ := by
  have hD : (fun a b => gpuCost dark (T a b)) = fun a b => cost dark (T a b) := by
    funext a b; exact gpuCost_eq dark (T a b)
  have hs := scan2_spec (m := inverse ⟨2 * m + 1, 2 * m + 1, fun a b => cost dark (T a b)⟩)
    (by show 0 < 2 * m + 1; omega) (by show 0 < 2 * m + 1; omega)
  have e : scan2 (inverse ⟨2 * m + 1, 2 * m + 1, fun a b => cost dark (T a b)⟩) = (y, x) :=
    Except.ok.inj ((argmax2_eq hs).symm.trans (argmax2_eq (firstMin_iff.2 h)))
  unfold gpuPixel
  dsimp only
  rw [hD, e]
  dsimp only
  rw [← gpuAV_eq]

theorem npRound_nat (n : ℕ) : npRound (n : ℝ) = (n : ℤ) := by
  have := npRound_int (K := ℝ) (n : ℤ)
  rwa [Int.cast_natCast] at this

/-- At the edge of the map the GPU returns the whole-pixel position and the fit there. -/
theorem gpuPixel_edge {m : ℕ} (dark : Bool) (T : ℕ → ℕ → Terms) {y x : ℕ} (h : FirstMin m (fun a b => cost dark (T a b)) y x) (hn : ¬ Inner m y x) :
    gpuPixel m dark T = ⟨(x : ℝ) - m, (y : ℝ) - m, if dark then (transDark (T y x)).1 else 1, if dark then (transDark (T y x)).2 else 1⟩ := by
  have e := peak2_edge (m := inverse ⟨2 * m + 1, 2 * m + 1, fun a b => cost dark (T a b)⟩) (y := y) (x := x) (by
    rintro ⟨⟨a1, a2⟩, a3, a4⟩
    have a2 : y + 1 < 2 * m + 1 := a2
    have a4 : x + 1 < 2 * m + 1 := a4
    exact hn ⟨⟨a1, by omega⟩, a3, by omega⟩)
  have g := gpuPixel_eq dark T h
  dsimp only at g
  rw [e] at g
  dsimp only at g
  rw [npRound_nat, npRound_nat, Int.toNat_natCast, Int.toNat_natCast] at g
  exact g

/-- Inside the map, GPU and CPU give the same pixel. -/
theorem gpuPixel_inner {m : ℕ} (dark : Bool) (T : ℕ → ℕ → Terms) {y x : ℕ} (h : FirstMin m (fun a b => cost dark (T a b)) y x) (hn : Inner m y x)
    (size : Int) : cpuPixel m dark .diff size T = .ok (gpuPixel m dark T) := by
  have hp := firstMin_iff.2 h
  have hl := locate_inverse (m := ⟨2 * m + 1, 2 * m + 1, fun a b => cost dark (T a b)⟩)
    (by show 0 < 2 * m + 1; omega) (by show 0 < 2 * m + 1; omega) .diff 2 size
  rw [peak2_interior hp ⟨hn.1.1, by show y + 1 < 2 * m + 1; have := hn.1.2; omega⟩ ⟨hn.2.1, by show x + 1 < 2 * m + 1; have := hn.2.2; omega⟩] at hl
  obtain ⟨-, -, -, -, -, q, hq, o1, o2, o3, o4, -⟩ := locate_peak_min (m := ⟨2 * m + 1, 2 * m + 1, fun a b => cost dark (T a b)⟩)
    (by show 0 < 2 * m + 1; omega) (by show 0 < 2 * m + 1; omega) true (.diff : Method ℝ) 2 size
  rw [hl] at hq
  have e := Except.ok.inj hq
  subst e
  obtain ⟨a, a1, a2, a3, a4⟩ := round_index (m := m) o3 o4
  obtain ⟨b, b1, b2, b3, b4⟩ := round_index (m := m) o1 o2
  have g := gpuPixel_eq dark T h
  dsimp only at g
  rw [a1, b1, Int.toNat_natCast, Int.toNat_natCast] at g
  rw [g]
  unfold cpuPixel
  simp only [bind, Except.bind, hl]
  cases dark
  · simp
  · simp only [if_true, a2, b2]

theorem cpuPixel_edge {m : ℕ} (dark : Bool) (T : ℕ → ℕ → Terms) {y x : ℕ} (h : FirstMin m (fun a b => cost dark (T a b)) y x) (hn : ¬ Inner m y x)
    (size : Int) : ∃ r, cpuPixel m dark .diff size T = .ok r ∧ |r.x - ((x : ℝ) - m)| ≤ 1 / 2 ∧ |r.y - ((y : ℝ) - m)| ≤ 1 / 2 := by
  have hp := firstMin_iff.2 h
  have hl := locate_inverse (m := ⟨2 * m + 1, 2 * m + 1, fun a b => cost dark (T a b)⟩)
    (by show 0 < 2 * m + 1; omega) (by show 0 < 2 * m + 1; omega) .diff 2 size
  obtain ⟨r, hr, d1, d2⟩ := peak_edge_half hp (by
    rintro ⟨⟨a1, a2⟩, a3, a4⟩
    have a2 : y + 1 < 2 * m + 1 := a2
    have a4 : x + 1 < 2 * m + 1 := a4
    exact hn ⟨⟨a1, by omega⟩, a3, by omega⟩) size
  obtain ⟨-, -, -, -, -, q, hq, o1, o2, o3, o4, -⟩ := locate_peak_min (m := ⟨2 * m + 1, 2 * m + 1, fun a b => cost dark (T a b)⟩)
    (by show 0 < 2 * m + 1; omega) (by show 0 < 2 * m + 1; omega) true (.diff : Method ℝ) 2 size
  rw [hl, hr] at hq
  have e := Except.ok.inj hq
  subst e
  obtain ⟨a, a1, a2, a3, a4⟩ := round_index (m := m) o3 o4
  obtain ⟨b, b1, b2, b3, b4⟩ := round_index (m := m) o1 o2
  have f1 : |r.1 - (m : ℝ) - ((x : ℝ) - m)| ≤ 1 / 2 := by rwa [show r.1 - (m : ℝ) - ((x : ℝ) - m) = r.1 - x by ring]
  have f2 : |r.2 - (m : ℝ) - ((y : ℝ) - m)| ≤ 1 / 2 := by rwa [show r.2 - (m : ℝ) - ((y : ℝ) - m) = r.2 - y by ring]
  unfold cpuPixel
  simp only [bind, Except.bind, hl, hr]
  cases dark
  · exact ⟨_, rfl, f1, f2⟩
  · simp only [if_true, a2, b2]
    exact ⟨_, rfl, f1, f2⟩

theorem exists_firstMin (m : ℕ) (c : ℕ → ℕ → ℝ) : ∃ y x, FirstMin m c y x := by
  have hs := scan2_spec (m := inverse ⟨2 * m + 1, 2 * m + 1, c⟩) (by show 0 < 2 * m + 1; omega) (by show 0 < 2 * m + 1; omega)
  exact ⟨_, _, firstMin_iff.1 hs⟩

/-- What the caller gets, for interior and border pixels, from the images before padding. -/
theorem findUmpa_of_pixels {o : Opts} {f : Recon.Filter} {ref mat : Arr3 ℝ} {r m : ℕ} {chunkSize : Option ℤ} {dark : Bool} {p : ℕ → ℕ → Py Out}
    (h : Fits ref mat r m chunkSize) (hp : pixels o f ref mat r m chunkSize dark = .ok p) :
    ∃ xy td, findUmpa o f ref mat r m chunkSize dark = .ok (xy, td) ∧ (∀ i j, xy i j = (p i j).map fun q => (q.x, q.y)) ∧
      (dark = false → td = none) ∧ (dark = true → ∃ g, td = some g ∧
        ∀ i j, g i j = (p (clampTo (m + r) ref.h i) (clampTo (m + r) ref.w j)).map fun q => (q.trans, q.dark)) := by
  refine ⟨fun i j => (p i j).map fun q => (q.x, q.y),
    if dark then some (padded (m + r) ref.h ref.w fun i j => (p i j).map fun q => (q.trans, q.dark)) else none, ?_, fun _ _ => rfl, ?_, ?_⟩
  · unfold findUmpa
    rw [hp]
    cases dark <;> rfl
  · intro hdk; subst hdk; rfl
  · intro hdk; subst hdk
    exact ⟨_, rfl, fun i j => padded_eq h.high h.wide _ i j⟩

/-- **C138.** `find_local_shifts_umpa` on the GPU (any thread block, any chunk size) and on the CPU with `method="diff"` (any chunk size): all shifts
agree to half a pixel; pixels whose smallest cost is not at the edge of the searched area get the same shift, transmission and dark signal; at the
edge the GPU returns the whole-pixel shift and the fit there.  (`A = 0` gives `inf` or `nan` on the CPU and is excluded by `hA`.) -/
theorem umpa_gpu_close (oc og : Opts) (f : Recon.Filter) {ref mat : Arr3 ℝ} {r m : ℕ} {csC csG : Option ℤ} (dark : Bool) (hC : Fits ref mat r m csC)
    (hG : Fits ref mat r m csG) (hc : oc.gpu = false ∨ oc.cuda = false) (hm : oc.method = .diff) (hg : og.gpu = true ∧ og.cuda = true)
    (hb : 0 < og.block.1 ∧ 0 < og.block.2)
    (_hA : dark = true → ∀ i j, Interior ref r m i j → ∀ a ≤ 2 * m, ∀ b ≤ 2 * m, (transDark (terms ref mat r m (window f r) i j a b)).1 ≠ 0) :
    ∃ xy td gxy gtd, findUmpa oc f ref mat r m csC dark = .ok (xy, td) ∧ findUmpa og f ref mat r m csG dark = .ok (gxy, gtd) ∧
      (∀ i j, ∃ rc rg : ℝ × ℝ, xy i j = .ok rc ∧ gxy i j = .ok rg ∧ |rc.1 - rg.1| ≤ 1 / 2 ∧ |rc.2 - rg.2| ≤ 1 / 2) ∧
      ∀ i j, Interior ref r m i j → ∀ y x, FirstMin m (fun a b => cost dark (terms ref mat r m (window f r) i j a b)) y x →
        (Inner m y x → gxy i j = xy i j ∧ gtd.map (fun g => g i j) = td.map (fun g => g i j)) ∧
        (¬ Inner m y x → gxy i j = .ok ((x : ℝ) - m, (y : ℝ) - m) ∧
          (dark = true → gtd.map (fun g => g i j) = some (.ok (transDark (terms ref mat r m (window f r) i j y x))))) := by
  have hc' : ¬ (oc.gpu && oc.cuda) = true := by rcases hc with hc | hc <;> simp [hc]
  have hg' : (og.gpu && og.cuda) = true := by simp [hg.1, hg.2]
  obtain ⟨p, p1, p2, p3⟩ := pixels_spec oc f dark hC (fun h1 h2 => by simp [h1, h2] at hc')
  obtain ⟨q, q1, q2, q3⟩ := pixels_spec og f dark hG (fun _ _ => hb)
  obtain ⟨xy, td, e1, e2, e3, e4⟩ := findUmpa_of_pixels hC p1
  obtain ⟨gxy, gtd, k1, k2, k3, k4⟩ := findUmpa_of_pixels hG q1
  have p2' : ∀ i j, Interior ref r m i j → p i j = cpuPixel m dark .diff oc.size (terms ref mat r m (window f r) i j) := by
    intro i j hij; rw [p2 i j hij, if_neg hc', hm]
  have q2' : ∀ i j, Interior ref r m i j → q i j = .ok (gpuPixel m dark (terms ref mat r m (window f r) i j)) := by
    intro i j hij; rw [q2 i j hij, if_pos hg']
  have hcl : ∀ i j, Interior ref r m i j → clampTo (m + r) ref.h i = i ∧ clampTo (m + r) ref.w j = j := by
    rintro i j ⟨a1, a2, a3, a4⟩
    unfold clampTo
    constructor <;> omega
  refine ⟨xy, td, gxy, gtd, e1, k1, fun i j => ?_, fun i j hij y x hmin => ⟨fun hin => ?_, fun hin => ?_⟩⟩
  · by_cases hij : Interior ref r m i j
    · obtain ⟨y, x, hmin⟩ := exists_firstMin m (fun a b => cost dark (terms ref mat r m (window f r) i j a b))
      rw [e2, k2, p2' i j hij, q2' i j hij]
      by_cases hin : Inner m y x
      · rw [gpuPixel_inner dark _ hmin hin]
        refine ⟨_, _, rfl, rfl, ?_, ?_⟩ <;> (rw [sub_self, abs_zero]; norm_num)
      · obtain ⟨rc, hrc, d1, d2⟩ := cpuPixel_edge dark _ hmin hin oc.size
        rw [hrc, gpuPixel_edge dark _ hmin hin]
        exact ⟨_, _, rfl, rfl, d1, d2⟩
    · rw [e2, k2, p3 i j hij, q3 i j hij]
      refine ⟨_, _, rfl, rfl, ?_, ?_⟩ <;> norm_num
  · refine ⟨?_, ?_⟩
    · rw [e2, k2, p2' i j hij, q2' i j hij, gpuPixel_inner dark _ hmin hin]
    · cases dark with
      | false => rw [e3 rfl, k3 rfl]
      | true =>
        obtain ⟨g, rfl, hg1⟩ := e4 rfl
        obtain ⟨g', rfl, hg2⟩ := k4 rfl
        rw [Option.map_some, Option.map_some, hg1, hg2, (hcl i j hij).1, (hcl i j hij).2, p2' i j hij, q2' i j hij, gpuPixel_inner true _ hmin hin]
  · refine ⟨?_, ?_⟩
    · rw [k2, q2' i j hij, gpuPixel_edge dark _ hmin hin]; rfl
    · intro hdk; subst hdk
      obtain ⟨g', rfl, hg2⟩ := k4 rfl
      rw [Option.map_some, hg2, (hcl i j hij).1, (hcl i j hij).2, q2' i j hij, gpuPixel_edge true _ hmin hin]
      rfl

/-- **C138.** Recovery, on the GPU and on the CPU with `method="diff"`: if around an interior pixel the sample is `beta * mean + K * reference` displaced
by the whole-pixel shift `(b - m, a - m)` (`beta = 0` without dark signal), the fit is well posed there and no other shift of the searched area has
cost zero, then the returned shift is less than one pixel from the true one, and transmission and dark signal are exact if it is less than half a
pixel away. -/
theorem umpa_recovers (o : Opts) (f : Recon.Filter) {ref mat : Arr3 ℝ} {r m : ℕ} {chunkSize : Option ℤ} (dark : Bool) (h : Fits ref mat r m chunkSize)
    (ho : o.method = .diff) (hb : 0 < o.block.1 ∧ 0 < o.block.2) {i j a b : ℕ} (hij : Interior ref r m i j) (ha : a ≤ 2 * m) (hbb : b ≤ 2 * m)
    {beta K : ℝ} (hbeta : dark = false → beta = 0)
    (hwell : if dark then imMean ref ≠ 0 ∧ Varied ref r m (window f r) i j a b else NonZero ref r m (window f r) i j a b)
    (hdata : ∀ k < ref.d, ∀ u ≤ 2 * r, ∀ v ≤ 2 * r, mat.get k (i - r + u) (j - r + v)
      = beta * imMean ref + K * ref.get k (i - m + a - r + u) (j - m + b - r + v))
    (honly : ∀ a' ≤ 2 * m, ∀ b' ≤ 2 * m, cost dark (terms ref mat r m (window f r) i j a' b') = 0 → a' = a ∧ b' = b) :
    ∃ xy td x y, findUmpa o f ref mat r m chunkSize dark = .ok (xy, td) ∧ xy i j = .ok (x, y) ∧
      |x - ((b : ℝ) - m)| < 1 ∧ |y - ((a : ℝ) - m)| < 1 ∧
      (dark = true → |x - ((b : ℝ) - m)| < 1 / 2 → |y - ((a : ℝ) - m)| < 1 / 2 →
        td.map (fun g => g i j) = some (.ok (|beta + K|, |K / (beta + K)|))) := by
  obtain ⟨p, p1, p2, p3⟩ := pixels_spec o f dark h (fun _ _ => hb)
  obtain ⟨xy, td, e1, e2, e3, e4⟩ := findUmpa_of_pixels h p1
  have hin : ∀ a' ≤ 2 * m, ∀ b' ≤ 2 * m, Inside ref mat r m i j a' b' := by
    intro a' ha' b' hb'
    obtain ⟨q1, q2, q3, q4⟩ := hij
    exact ⟨h.d, h.h, h.w, by omega, by omega, by omega, by omega, ha', hb'⟩
  have hzero : cost dark (terms ref mat r m (window f r) i j a b) = 0 := by
    cases dark with
    | true => exact (umpa_dark_exact (window_good f r) (hin a ha b hbb) hwell.1 hwell.2 hdata).1
    | false =>
      have hw : NonZero ref r m (window f r) i j a b := hwell
      exact umpa_exact (window_good f r) (hin a ha b hbb) hw (K := K) fun k hk u hu v hv => by
        rw [hdata k hk u hu v hv, hbeta rfl]; ring
  have hmin : FirstMin m (fun a b => cost dark (terms ref mat r m (window f r) i j a b)) a b := by
    refine ⟨ha, hbb, fun a' ha' b' hb' => ?_, fun a' ha' b' hb' hlt => ?_⟩
    · dsimp only
      rw [hzero]
      exact umpa_cost_nonneg (window_good f r) (hin a' ha' b' hb') dark
    · dsimp only
      rw [hzero]
      refine lt_of_le_of_ne (umpa_cost_nonneg (window_good f r) (hin a' ha' b' hb') dark) fun hz => ?_
      obtain ⟨rfl, rfl⟩ := honly a' ha' b' hb' hz.symm
      omega
  -- one pixel
  have key : ∃ q, p i j = .ok q ∧ |q.x - ((b : ℝ) - m)| < 1 ∧ |q.y - ((a : ℝ) - m)| < 1 ∧
      (dark = true → |q.x - ((b : ℝ) - m)| < 1 / 2 → |q.y - ((a : ℝ) - m)| < 1 / 2 →
        (q.trans, q.dark) = transDark (terms ref mat r m (window f r) i j a b)) := by
    obtain ⟨x, y, hs, hx, hy⟩ := umpa_shift (window_good f r) hin ha hbb dark hzero honly o.size
    obtain ⟨x', y', a', b', c1, -, -, c4, c5⟩ := cpuPixel_spec ref mat r m (window f r) dark .diff o.size i j
    rw [hs] at c1
    have c1 := Except.ok.inj c1
    have cx : x = x' := congrArg Prod.fst c1
    have cy : y = y' := congrArg Prod.snd c1
    subst cx; subst cy
    have hcpu : ∃ q, cpuPixel m dark .diff o.size (terms ref mat r m (window f r) i j) = .ok q ∧ |q.x - ((b : ℝ) - m)| < 1 ∧ |q.y - ((a : ℝ) - m)| < 1 ∧
        (dark = true → |q.x - ((b : ℝ) - m)| < 1 / 2 → |q.y - ((a : ℝ) - m)| < 1 / 2 →
          (q.trans, q.dark) = transDark (terms ref mat r m (window f r) i j a b)) := by
      refine ⟨_, c5, hx, hy, fun hdk g1 g2 => ?_⟩
      subst hdk
      obtain ⟨n1, n2, n3, n4⟩ := c4
      have near : ∀ (s t : ℕ) (v : ℝ), |(s : ℝ) - (v + m)| ≤ 1 / 2 → |v - ((t : ℝ) - m)| < 1 / 2 → s = t := by
        intro s t v hs ht
        rw [abs_le] at hs
        rw [abs_lt] at ht
        have u1 : (s : ℝ) < t + 1 := by linarith
        have u2 : (t : ℝ) < s + 1 := by linarith
        have v1 : s < t + 1 := by exact_mod_cast u1
        have v2 : t < s + 1 := by exact_mod_cast u2
        omega
      obtain rfl := near a' a y n3 g2
      obtain rfl := near b' b x n4 g1
      simp
    by_cases hg : (o.gpu && o.cuda) = true
    · by_cases hinn : Inner m a b
      · obtain ⟨q, hq, r1⟩ := hcpu
        refine ⟨q, ?_, r1⟩
        rw [p2 i j hij, if_pos hg, ← gpuPixel_inner dark _ hmin hinn o.size, hq]
      · refine ⟨_, by rw [p2 i j hij, if_pos hg, gpuPixel_edge dark _ hmin hinn], ?_, ?_, fun hdk _ _ => ?_⟩
        · dsimp only; rw [sub_self, abs_zero]; norm_num
        · dsimp only; rw [sub_self, abs_zero]; norm_num
        · subst hdk; simp
    · rw [p2 i j hij, if_neg hg, ho]
      exact hcpu
  obtain ⟨q, hq, hx, hy, ht⟩ := key
  refine ⟨xy, td, q.x, q.y, e1, by rw [e2, hq]; rfl, hx, hy, fun hdk g1 g2 => ?_⟩
  subst hdk
  obtain ⟨g, rfl, hg⟩ := e4 rfl
  obtain ⟨a1, a2, a3, a4⟩ := hij
  have c1 : clampTo (m + r) ref.h i = i := by unfold clampTo; omega
  have c2 : clampTo (m + r) ref.w j = j := by unfold clampTo; omega
  rw [Option.map_some, hg, c1, c2, hq]
  have := ht rfl g1 g2
  rw [(umpa_dark_exact (window_good f r) (hin a ha b hbb) hwell.1 hwell.2 hdata).2] at this
  exact congrArg (fun z => some (Except.ok z)) this

end Verif.UmpaFull
