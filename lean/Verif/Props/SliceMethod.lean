import Verif.Model.SliceMethod
import Verif.Props.SliceMetric3
import Verif.Props.VisualCenter
import Verif.Props.External
import Verif.Props.Dfi3

/-! C162 — the reconstruction methods of the centre searches. -/

set_option linter.unusedSectionVars false
set_option linter.unusedSimpArgs false

namespace Verif.SliceMethod
open Verif.Recon Verif.External Verif.Dfi Verif.SliceMetric Verif.Simulation

/-! ### Specification -/

/-- The documented methods. -/
def Documented (s : String) : Prop := s = "dfi" ∨ s = "gridrec" ∨ s = "fbp" ∨ s = "bpf" ∨ s = "astra"

/-- The launched GPU grid covers an image of `w` columns. -/
def Engines.Covers (E : Engines) (w : ℕ) : Prop :=
  0 < E.bx ∧ ∃ bY, 0 < bY ∧ ∀ t < (BackProj.gridDim w E.bx * E.bx) * (BackProj.gridDim w bY * bY), t ∈ E.order

/-- The external programs and routines return arrays of the expected size. -/
def Engines.Sized (E : Engines) : Prop :=
  (∀ m g c f p, (E.R m g c f p).h = m.w ∧ (E.R m g c f p).w = m.w) ∧
  (∀ me l f n g m, (E.A me l f n g m).h = m.w ∧ (E.A me l f n g m).w = m.w) ∧
  ∀ m s, (E.S m s).h = m.h ∧ (E.S m s).w = m.w

/-- The external programs and routines scale with their input. -/
def Engines.Scales (E : Engines) (a : ℝ) : Prop :=
  (∀ m g c f p, E.R (m.map fun v => a * v) g c f p = (E.R m g c f p).map fun v => a * v) ∧
  (∀ me l f n g m, E.A me l f n g (m.map fun v => a * v) = (E.A me l f n g m).map fun v => a * v) ∧
  (∀ m s, E.S (m.map fun v => a * v) s = (E.S m s).map fun v => a * v) ∧ E.I.Linear

/-- The smoothing window a filter name stands for; every other name and None: no window. -/
inductive NamedWindow : Option String → Filter → Prop
  | hann : NamedWindow (some "hann") .hann
  | bartlett : NamedWindow (some "bartlett") .bartlett
  | blackman : NamedWindow (some "blackman") .blackman
  | hamming : NamedWindow (some "hamming") .hamming
  | nuttall : NamedWindow (some "nuttall") .nuttall
  | parzen : NamedWindow (some "parzen") .parzen
  | triang : NamedWindow (some "triang") .triang
  | other (f : Option String) (h : ∀ s ∈ ["hann", "bartlett", "blackman", "hamming", "nuttall", "parzen", "triang"], f ≠ some s) :
      NamedWindow f .other

/-- The arguments of `fbp_reconstruction` or `bpf_reconstruction`: those of the search, for the rest the defaults ramp_win=None, pad=None,
pad_mode="edge". -/
def PassedBp {W : Type} (q : Req) (c : ℝ) (a : Args W) : Prop :=
  a.center = c ∧ a.angles = q.angles ∧ a.ratio = q.ratio ∧ NamedWindow q.filter a.filter ∧ a.applyLog = q.applyLog ∧ a.rampWin = none ∧
    a.pad = none ∧ ∀ n p j, a.padIdx n p j = if j < p then 0 else min (j - p) (n - 1)

/-- The arguments of both external methods that are those of the search. -/
def PassedCommon (q : Req) (c : ℝ) (a : Common) : Prop :=
  a.center = c ∧ a.angles = q.angles ∧ a.ratio = q.ratio ∧ a.applyLog = q.applyLog

/-- What a call of the public function named `s` with the arguments passed on gives. -/
inductive Calls (E : Engines) (q : Req) (m : Mat ℝ) (c : ℝ) : String → Py Arr → Prop
  | fbp (a : Args (Mat ℂ)) : PassedBp q c a → a.bx = E.bx → a.order = E.order → Calls E q m c "fbp" (Recon.fbp a (.one m))
  | bpf (a : Args (Mat ℝ)) : PassedBp q c a → a.bx = E.bx → a.order = E.order → Calls E q m c "bpf" (Recon.bpf a (.one m))
  | astra (a : AArgs) (r : Py Arr) : PassedCommon q c a.toCommon → a.method = (if q.gpu then "FBP_CUDA".toList else "FBP".toList) →
      a.numIter = 1 → (q.filter = none → a.filter = "ram-lak") → (∀ f, q.filter = some f → a.filter = f) → a.pad = none →
      External.astra E.A E.S E.cuda a (.one m) = some r → Calls E q m c "astra" r
  | gridrec (a : GArgs) : PassedCommon q c a.toCommon → a.pad = .int 100 → a.filterPar = 0.9 → (q.filter = none → a.filter = "shepp") →
      (∀ f, q.filter = some f → a.filter = f) → Calls E q m c "gridrec" (External.gridrec E.R a (.one m))
  | dfi (a : DArgs) : a.center = c → a.angles = q.angles → a.ratio = q.ratio → NamedWindow q.filter a.filter → a.applyLog = q.applyLog →
      a.padRate = 1 / 4 → (∀ n p j, a.padIdx n p j = if j < p then 0 else min (j - p) (n - 1)) →
      Calls E q m c "dfi" (Dfi.dfi E.I a (.one m))

/-! ### The method in use -/

theorem astra_one (A : Astra) (S : ShiftCols) (cuda : Bool) (a : AArgs) (m : Mat ℝ) : ∃ r, astra A S cuda a (.one m) = some r := by
  classical
  unfold astra
  by_cases hb : a.bad (Arr.one m).nrow (Arr.one m).ncol
  · exact ⟨_, if_pos hb⟩
  · rw [if_neg hb]
    cases selectMethod cuda a.method with
    | error e => exact ⟨_, rfl⟩
    | ok r => exact ⟨_, rfl⟩

/-- The five branches. -/
theorem reconstruct_eq (E : Engines) (q : Req) (m : Mat ℝ) (c : ℝ) :
    reconstructSlice E q "fbp" m c = (fbp (bpArgs (Mat ℂ) E q c) (.one m)).bind (fun out => .ok (out.slice 0)) ∧
    reconstructSlice E q "bpf" m c = (bpf (bpArgs (Mat ℝ) E q c) (.one m)).bind (fun out => .ok (out.slice 0)) ∧
    reconstructSlice E q "astra" m c =
      ((astra E.A E.S E.cuda (astraArgs q c) (.one m)).getD (.error .typeError)).bind (fun out => .ok (out.slice 0)) ∧
    reconstructSlice E q "gridrec" m c = (gridrec E.R (gridArgs q c) (.one m)).bind (fun out => .ok (out.slice 0)) ∧
    ∀ s, s ≠ "fbp" → s ≠ "bpf" → s ≠ "astra" → s ≠ "gridrec" →
      reconstructSlice E q s m c = (dfi E.I (dfiArgs q c) (.one m)).bind (fun out => .ok (out.slice 0)) := by
  refine ⟨?_, ?_, ?_, ?_, ?_⟩
  · unfold reconstructSlice; rw [if_pos rfl]
  · unfold reconstructSlice; rw [if_neg (by decide), if_pos rfl]
  · unfold reconstructSlice; rw [if_neg (by decide), if_neg (by decide), if_pos rfl]
  · unfold reconstructSlice; rw [if_neg (by decide), if_neg (by decide), if_neg (by decide), if_pos rfl]
  · intro s h1 h2 h3 h4
    unfold reconstructSlice
    rw [if_neg h1, if_neg h2, if_neg h3, if_neg h4]

theorem windowOf_spec (f : Option String) : NamedWindow f (windowOf f) := by
  unfold windowOf
  split
  · subst f; exact .hann
  split
  · subst f; exact .bartlett
  split
  · subst f; exact .blackman
  split
  · subst f; exact .hamming
  split
  · subst f; exact .nuttall
  split
  · subst f; exact .parzen
  split
  · subst f; exact .triang
  · refine .other f fun s hs => ?_
    simp only [List.mem_cons, List.not_mem_nil, or_false] at hs
    rcases hs with rfl | rfl | rfl | rfl | rfl | rfl | rfl <;> assumption

theorem edge_spec (n p j : ℕ) : Fourier.edgeIdx n p j = if j < p then 0 else min (j - p) (n - 1) := by
  unfold Fourier.edgeIdx
  split
  · rw [show j - p = 0 by omega, Nat.zero_min]
  · rfl

theorem passed_bp (W : Type) (E : Engines) (q : Req) (c : ℝ) : PassedBp q c (bpArgs W E q c) :=
  ⟨rfl, rfl, rfl, windowOf_spec _, rfl, rfl, rfl, edge_spec⟩

/-- C162: a candidate is reconstructed by the function the method names, with the centre of the candidate and the caller's angles, ratio,
filter and logarithm. -/
theorem method_used (E : Engines) (q : Req) (s : String) (hs : Documented s) (m : Mat ℝ) (c : ℝ) :
    ∃ r, Calls E q m c s r ∧ reconstructSlice E q s m c = r.bind fun out => .ok (out.slice 0) := by
  obtain ⟨h1, h2, h3, h4, h5⟩ := reconstruct_eq E q m c
  rcases hs with rfl | rfl | rfl | rfl | rfl
  · exact ⟨_, .dfi (dfiArgs q c) rfl rfl rfl (windowOf_spec _) rfl (by show (0.25 : ℝ) = 1 / 4; norm_num) edge_spec, h5 "dfi" (by decide) (by decide) (by decide) (by decide)⟩
  · exact ⟨_, .gridrec (gridArgs q c) ⟨rfl, rfl, rfl, rfl⟩ rfl rfl (fun h => by show q.filter.getD _ = _; rw [h]; rfl)
      (fun f h => by show q.filter.getD _ = _; rw [h]; rfl), h4⟩
  · exact ⟨_, .fbp _ (passed_bp _ E q c) rfl rfl, h1⟩
  · exact ⟨_, .bpf _ (passed_bp _ E q c) rfl rfl, h2⟩
  · obtain ⟨r, hr⟩ := astra_one E.A E.S E.cuda (astraArgs q c) m
    refine ⟨r, .astra (astraArgs q c) r ⟨rfl, rfl, rfl, rfl⟩ rfl rfl (fun h => by show q.filter.getD _ = _; rw [h]; rfl)
      (fun f h => by show q.filter.getD _ = _; rw [h]; rfl) rfl hr, ?_⟩
    rw [h3, hr]
    rfl

/-- C162 is false of the code for other names: they are not refused, the search runs with direct Fourier inversion. -/
theorem unknown_method_refuted (E : Engines) (q : Req) (s : String) (hs : ¬ Documented s) :
    reconstructSlice E q s = reconstructSlice E q "dfi" ∧
    (∀ (o : Opt) (m zm : Mat ℝ) (start stop step radius zoom : ℝ),
      findCenter o (reconstructSlice E q s) (reconstructSlice E q s) m zm start stop step radius zoom =
        findCenter o (reconstructSlice E q "dfi") (reconstructSlice E q "dfi") m zm start stop step radius zoom) ∧
    ∀ (m zm : Mat ℝ) (start stop step zoom : ℝ),
      VisualCenter.visualSlices (reconstructSlice E q s) m zm start stop step zoom =
        VisualCenter.visualSlices (reconstructSlice E q "dfi") m zm start stop step zoom := by
  have h : reconstructSlice E q s = reconstructSlice E q "dfi" := by
    funext m c
    have h5 := (reconstruct_eq E q m c).2.2.2.2
    unfold Documented at hs
    push Not at hs
    rw [h5 s hs.2.2.1 hs.2.2.2.1 hs.2.2.2.2 hs.2.1, h5 "dfi" (by decide) (by decide) (by decide) (by decide)]
  exact ⟨h, fun _ _ _ _ _ _ _ _ => by rw [h], fun _ _ _ _ _ _ => by rw [h]⟩

/-! ### Which candidates are accepted -/

theorem bind_ok_iff (r : Py Arr) : (∃ img, r.bind (fun out => Except.ok (out.slice 0)) = Except.ok (ε := PyErr) img) ↔ ∃ out, r = .ok out := by
  cases r with
  | error e => exact ⟨fun ⟨_, h⟩ => (nomatch h), fun ⟨_, h⟩ => (nomatch h)⟩
  | ok o => exact ⟨fun _ => ⟨o, rfl⟩, fun _ => ⟨_, rfl⟩⟩

/-- The name "FBP", with "_CUDA" or without, is accepted with and without a GPU. -/
theorem astra_method_ok (gpu cuda : Bool) :
    selectMethod cuda (if gpu then "FBP_CUDA".toList else "FBP".toList) =
      .ok (gpu && cuda, if gpu && cuda then "FBP_CUDA".toList else "FBP".toList) := by
  cases gpu <;> cases cuda <;> decide +kernel

/-- C162: all methods accept the same candidates: for a sinogram of at least two rows and columns, exactly the centres on the detector, if there are
as many angles as rows. -/
theorem accepted_iff (E : Engines) (q : Req) (s : String) (m : Mat ℝ) (h2 : 2 ≤ m.h) (w2 : 2 ≤ m.w) (hE : E.Covers m.w) (c : ℝ) :
    (∃ img, reconstructSlice E q s m c = .ok img) ↔ 0 ≤ c ∧ c < m.w ∧ ∀ l, q.angles = some l → l.length = m.h := by
  obtain ⟨e1, e2, e3, e4, e5⟩ := reconstruct_eq E q m c
  by_cases hs : s = "fbp"
  · subst hs
    rw [e1, bind_ok_iff, (fbp_error_iff (bpArgs (Mat ℂ) E q c) (.one m) hE).1]
    exact ⟨fun h => ⟨h.1, h.2.1, h.2.2.1⟩, fun h => ⟨h.1, h.2.1, h.2.2, fun _ => ⟨by show m.h ≠ 1; omega, by show m.w ≠ 1; omega⟩⟩⟩
  by_cases hs2 : s = "bpf"
  · subst hs2
    rw [e2, bind_ok_iff, bpf_error_iff (bpArgs (Mat ℝ) E q c) (.one m) hE]
    exact ⟨fun h => ⟨h.1, h.2.1, h.2.2.1⟩, fun h => ⟨h.1, h.2.1, h.2.2, fun _ => ⟨by show m.h ≠ 1; omega, by show m.w ≠ 1; omega⟩⟩⟩
  by_cases hs3 : s = "astra"
  · subst hs3
    obtain ⟨r, hr⟩ := astra_one E.A E.S E.cuda (astraArgs q c) m
    rw [e3, bind_ok_iff, hr, Option.getD_some, (astra_error_iff _ _ _ _ _ _ hr).1]
    exact ⟨fun h => ⟨h.1.2.1, h.1.2.2, h.1.1⟩,
      fun h => ⟨⟨h.2.2, h.1, h.2.1⟩, ⟨_, astra_method_ok q.gpu E.cuda⟩, Nat.one_pos⟩⟩
  by_cases hs4 : s = "gridrec"
  · subst hs4
    have hg := gridrec_error_iff E.R (gridArgs q c) (.one m)
    rw [e4, bind_ok_iff]
    constructor
    · intro h
      have := hg.1.1 h
      exact ⟨this.1.2.1, this.1.2.2, this.1.1⟩
    · intro h
      refine hg.2.2 ⟨h.2.2, h.1, h.2.1⟩ fun p hp => ?_
      have hp : GPad.int 100 = GPad.int p := hp
      cases hp
      decide
  · rw [e5 s hs hs2 hs3 hs4, bind_ok_iff, (dfi_error_iff E.I (dfiArgs q c) (.one m) h2 w2 le_rfl).1]
    refine ⟨fun h => ⟨h.1, h.2.1, h.2.2.1⟩, fun h => ⟨h.1, h.2.1, h.2.2, ?_⟩⟩
    have : (0 : ℝ) ≤ (0.25 : ℝ) * ((2 * ((Arr.one m).ncol / 2) + 1 : ℕ) : ℝ) := by positivity
    exact lt_of_lt_of_le (by norm_num) this

/-- C162: every accepted candidate gives a square image as wide as the sinogram, zero outside the circle. -/
theorem image_shape (E : Engines) (q : Req) (s : String) (m img : Mat ℝ) (h2 : 2 ≤ m.h) (w2 : 2 ≤ m.w) (hE : E.Covers m.w) (hZ : E.Sized) (c : ℝ)
    (h : reconstructSlice E q s m c = .ok img) :
    img.h = m.w ∧ img.w = m.w ∧
    ∀ r, q.ratio = some r → r ≠ 0 → ∀ y < m.w, ∀ x < m.w, (r * ((m.w / 2 : ℕ) : ℝ)) ^ 2 < (dist2 m.w y x : ℝ) → img.get y x = 0 := by
  have fin : ∀ out : Arr, out.nrow = m.w → out.ncol = m.w → (∃ k, out = .one k) → img = out.slice 0 → img.h = m.w ∧ img.w = m.w := by
    rintro out h1 h3 ⟨k, rfl⟩ rfl
    exact ⟨h1, h3⟩
  have key : ∀ r : Py Arr, r.bind (fun out => Except.ok (out.slice 0)) = Except.ok (ε := PyErr) img → ∃ out, r = .ok out ∧ img = out.slice 0 := by
    intro r hr
    cases r with
    | error e => exact (nomatch hr)
    | ok o => exact ⟨o, rfl, (Except.ok.inj hr).symm⟩
  obtain ⟨e1, e2, e3, e4, e5⟩ := reconstruct_eq E q m c
  by_cases hs : s = "fbp"
  · subst hs
    obtain ⟨out, ho, rfl⟩ := key _ (e1 ▸ h)
    have sp := fbp_spec (bpArgs (Mat ℂ) E q c) (.one m) out hE ho (.inl rfl)
    refine ⟨(fin out sp.1 sp.2.1 (sp.2.2.2.1.1 ⟨_, rfl⟩) rfl).1, (fin out sp.1 sp.2.1 (sp.2.2.2.1.1 ⟨_, rfl⟩) rfl).2, fun r hr hr0 y hy x hx ho' => ?_⟩
    exact fbp_outside_zero (bpArgs (Mat ℂ) E q c) (.one m) out hE ho (.inl rfl) r hr hr0 0 y x Nat.one_pos hy hx ho'
  by_cases hs2 : s = "bpf"
  · subst hs2
    obtain ⟨out, ho, rfl⟩ := key _ (e2 ▸ h)
    have sp := bpf_spec (bpArgs (Mat ℝ) E q c) (.one m) out hE ho
    refine ⟨(fin out sp.1 sp.2.1 (sp.2.2.2.1.1 ⟨_, rfl⟩) rfl).1, (fin out sp.1 sp.2.1 (sp.2.2.2.1.1 ⟨_, rfl⟩) rfl).2, fun r hr hr0 y hy x hx ho' => ?_⟩
    exact bpf_outside_zero (bpArgs (Mat ℝ) E q c) (.one m) out hE ho r hr hr0 0 y x Nat.one_pos hy hx ho'
  by_cases hs3 : s = "astra"
  · subst hs3
    obtain ⟨r0, hr0⟩ := astra_one E.A E.S E.cuda (astraArgs q c) m
    rw [e3, hr0, Option.getD_some] at h
    obtain ⟨out, rfl, rfl⟩ := key _ h
    have sp := astra_spec _ _ _ _ (.one m) out hZ.2.1 hZ.2.2 hr0
    refine ⟨(fin out sp.1 sp.2.1 (sp.2.2.2.1.1 ⟨_, rfl⟩) rfl).1, (fin out sp.1 sp.2.1 (sp.2.2.2.1.1 ⟨_, rfl⟩) rfl).2, fun r hr hr0 y hy x hx ho' => ?_⟩
    obtain ⟨gpu, me, pad, -, -, -, hj⟩ := sp.2.2.2.2
    obtain ⟨P, -, hP⟩ := hj 0 Nat.one_pos
    rw [hP y x]
    have hr : (astraArgs q c).ratio = some r := hr
    unfold Common.inCircle
    rw [hr]
    dsimp only
    rw [if_neg hr0]
    exact if_neg (not_le.2 ho')
  by_cases hs4 : s = "gridrec"
  · subst hs4
    obtain ⟨out, ho, rfl⟩ := key _ (e4 ▸ h)
    have sp := gridrec_spec _ _ (.one m) out hZ.1 ho
    refine ⟨(fin out sp.1 sp.2.1 (sp.2.2.2.1.1 ⟨_, rfl⟩) rfl).1, (fin out sp.1 sp.2.1 (sp.2.2.2.1.1 ⟨_, rfl⟩) rfl).2, fun r hr hr0 y hy x hx ho' => ?_⟩
    exact gridrec_outside_zero _ _ (.one m) out hZ.1 ho r hr hr0 0 y x Nat.one_pos ho'
  · obtain ⟨out, ho, rfl⟩ := key _ (e5 s hs hs2 hs3 hs4 ▸ h)
    have sp := dfi_spec _ _ (.one m) out h2 w2 le_rfl ho
    refine ⟨(fin out sp.1 sp.2.1 (sp.2.2.2.1.1 ⟨_, rfl⟩) rfl).1, (fin out sp.1 sp.2.1 (sp.2.2.2.1.1 ⟨_, rfl⟩) rfl).2, fun r hr hr0 y hy x hx ho' => ?_⟩
    exact dfi_outside_zero _ _ (.one m) out h2 w2 le_rfl ho r hr hr0 0 y x Nat.one_pos ho'

/-- C162 (C110 for every method): no method accepts a centre off the detector, so `find_center_edge` and its refutation hold for all of them. -/
theorem on_detector (E : Engines) (q : Req) (s : String) (o : Opt) (m : Mat ℝ) (h2 : 2 ≤ (prepare o m).h) (w2 : 2 ≤ m.w)
    (hw : (prepare o m).w = m.w) (hE : E.Covers m.w) : OnDetector (reconstructSlice E q s) o m m.w := by
  intro c img h
  have := (accepted_iff E q s (prepare o m) h2 (hw ▸ w2) (hw ▸ hE) c).1 ⟨img, h⟩
  rw [hw] at this
  exact ⟨this.1, this.2.1⟩

/-- C162: with the sinogram not resized, the visual search writes an image for every candidate whatever the method: a square one, as wide as the
sinogram. -/
theorem visual_complete (E : Engines) (q : Req) (s : String) (m : Mat ℝ) (h2 : 2 ≤ m.h) (w2 : 2 ≤ m.w) (hE : E.Covers m.w) (hZ : E.Sized)
    (ha : ∀ l, q.angles = some l → l.length = m.h) (start stop step : ℝ) :
    (VisualCenter.visualSlices (reconstructSlice E q s) m m start stop step 1).2 = none ∧
    (VisualCenter.visualSlices (reconstructSlice E q s) m m start stop step 1).1.length = (VisualCenter.grid m.w start stop step).length ∧
    ∀ p ∈ (VisualCenter.visualSlices (reconstructSlice E q s) m m start stop step 1).1, p.2.h = m.w ∧ p.2.w = m.w := by
  have hsp := VisualCenter.visual_slices_spec (reconstructSlice E q s) m m w2 start stop step 1 one_pos
  dsimp only at hsp
  rw [if_neg (by simp)] at hsp
  obtain ⟨a1, a2, a3, a4⟩ := hsp
  have hnone : (VisualCenter.visualSlices (reconstructSlice E q s) m m start stop step 1).2 = none := by
    cases hr : (VisualCenter.visualSlices (reconstructSlice E q s) m m start stop step 1).2 with
    | none => rfl
    | some e =>
      exfalso
      obtain ⟨hlt, he⟩ := a4 e hr
      obtain ⟨b1, b2⟩ := VisualCenter.visual_candidates_inside m.w w2 start stop step _ (List.getElem_mem hlt)
      obtain ⟨img, hi⟩ := (accepted_iff E q s m h2 w2 hE ((VisualCenter.grid m.w start stop step)[
        (VisualCenter.visualSlices (reconstructSlice E q s) m m start stop step 1).1.length]'hlt * 1)).2
        ⟨by rw [mul_one]; exact b1, by rw [mul_one]; linarith, ha⟩
      rw [hi] at he
      exact (nomatch he)
  refine ⟨hnone, a3 hnone, fun p hp => ?_⟩
  obtain ⟨i, hi, rfl⟩ := List.mem_iff_getElem.1 hp
  have := (a2 i hi (by rw [← a3 hnone]; exact hi)).2
  have h := image_shape E q s m _ h2 w2 hE hZ _ this
  exact ⟨h.1, h.2.1⟩

/-! ### Scaling -/

theorem lin_scale (a : ℝ) (m : Mat ℝ) : (m.map fun v => a * v) = lin a 0 m m := by
  unfold Recon.lin Mat.map
  congr 1
  funext i j
  ring

theorem logm_off (a : Common) (ha : a.applyLog = false) (m : Mat ℝ) : a.logm m = m := by
  unfold Common.logm
  rw [ha]
  rfl

theorem masked_scale (a : Common) (n : ℕ) (m : Mat ℝ) (k : ℝ) : a.masked n (m.map fun v => k * v) = (a.masked n m).map fun v => k * v := by
  unfold Common.masked
  cases a.ratio with
  | none => rfl
  | some r =>
    unfold Mat.map
    dsimp only
    congr 1
    funext i j
    ring

/-- C162: without logarithm, what a method gives for a sinogram multiplied by a factor is the image multiplied by the factor (external programs and
interpolation assumed to do so). -/
theorem reconstruct_affine (E : Engines) (q : Req) (hq : q.applyLog = false) (s : String) (m : Mat ℝ) (h2 : 2 ≤ m.h) (w2 : 2 ≤ m.w)
    (hE : E.Covers m.w) (a : ℝ) (hS : E.Scales a) : Affine (reconstructSlice E q s) a 0 m (m.map fun v => a * v) := by
  intro c
  obtain ⟨e1, e2, e3, e4, e5⟩ := reconstruct_eq E q m c
  obtain ⟨g1, g2, g3, g4, g5⟩ := reconstruct_eq E q (m.map fun v => a * v) c
  have key : ∀ (img : Mat ℝ) (r : Py Arr), r.bind (fun out => Except.ok (out.slice 0)) = Except.ok (ε := PyErr) img →
      ∃ out, r = .ok out ∧ img = out.slice 0 := by
    intro img r hr
    cases r with
    | error e => exact (nomatch hr)
    | ok o => exact ⟨o, rfl, (Except.ok.inj hr).symm⟩
  have hlin : ∀ o img : Mat ℝ, o.Eqv (lin a 0 img img) → o.Eqv (img.map fun v => a * v + 0) := by
    intro o img h
    refine ⟨h.1, h.2.1, fun i hi j hj => ?_⟩
    rw [h.2.2 i hi j hj]
    show a * img.get i j + 0 * img.get i j = a * img.get i j + 0
    ring
  have hmap : ∀ img : Mat ℝ, (img.map fun v => a * v).Eqv (img.map fun v => a * v + 0) := by
    intro img
    refine ⟨rfl, rfl, fun i hi j hj => ?_⟩
    show a * img.get i j = a * img.get i j + 0
    ring
  refine ⟨fun img h => ?_, fun ⟨e, h⟩ => ?_⟩
  · by_cases hs : s = "fbp"
    · subst hs
      obtain ⟨out, ho, rfl⟩ := key _ _ (e1 ▸ h)
      obtain ⟨o1, rfl⟩ := (fbp_spec (bpArgs (Mat ℂ) E q c) (.one m) out hE ho (.inl rfl)).2.2.2.1.1 ⟨_, rfl⟩
      obtain ⟨o2, h3, h4⟩ := fbp_linear (bpArgs (Mat ℂ) E q c) a 0 m m o1 o1 rfl rfl hq hE ho ho
      refine ⟨o2, ?_, hlin _ _ h4⟩
      rw [g1, lin_scale, h3]
      rfl
    by_cases hs2 : s = "bpf"
    · subst hs2
      obtain ⟨out, ho, rfl⟩ := key _ _ (e2 ▸ h)
      obtain ⟨o1, rfl⟩ := (bpf_spec (bpArgs (Mat ℝ) E q c) (.one m) out hE ho).2.2.2.1.1 ⟨_, rfl⟩
      obtain ⟨o2, h3, h4⟩ := bpf_linear (bpArgs (Mat ℝ) E q c) a 0 m m o1 o1 rfl rfl hq hE ho ho
      refine ⟨o2, ?_, hlin _ _ h4⟩
      rw [g2, lin_scale, h3]
      rfl
    by_cases hs3 : s = "astra"
    · subst hs3
      have hg : Common.Good (astraArgs q c).toCommon m.h m.w := by
        obtain ⟨p1, p2, p3⟩ := (accepted_iff E q "astra" m h2 w2 hE c).1 ⟨img, h⟩
        exact ⟨p3, p1, p2⟩
      have hx : ∀ k : Mat ℝ, k.h = m.h → k.w = m.w → astra E.A E.S E.cuda (astraArgs q c) (.one k) =
          some (.ok (.one ((astraArgs q c).masked k.w (astraSingle E.A E.S ((astraArgs q c).logm k) c ((astraArgs q c).angle k.h)
            (astraPad k.w none) (if q.gpu && E.cuda then "FBP_CUDA".toList else "FBP".toList) (q.filter.getD "ram-lak") 1)))) := by
        intro k hk1 hk2
        unfold astra
        rw [if_neg (mt (bad_iff' _ _ _).1 (not_not.2 (by show Common.Good _ k.h k.w; rw [hk1, hk2]; exact hg)))]
        rw [show selectMethod E.cuda (astraArgs q c).method = _ from astra_method_ok q.gpu E.cuda]
        rfl
      rw [e3, hx m rfl rfl, Option.getD_some] at h
      cases h
      refine ⟨_, by rw [g3, hx (m.map fun v => a * v) rfl rfl, Option.getD_some]; rfl, ?_⟩
      have hs : astraSingle E.A E.S ((astraArgs q c).logm (m.map fun v => a * v)) c ((astraArgs q c).angle (m.map fun v => a * v).h)
            (astraPad (m.map fun v => a * v).w none) (if q.gpu && E.cuda then "FBP_CUDA".toList else "FBP".toList) (q.filter.getD "ram-lak") 1 =
          (astraSingle E.A E.S ((astraArgs q c).logm m) c ((astraArgs q c).angle m.h)
            (astraPad m.w none) (if q.gpu && E.cuda then "FBP_CUDA".toList else "FBP".toList) (q.filter.getD "ram-lak") 1).map fun v => a * v := by
        rw [logm_off _ hq, logm_off _ hq]
        unfold astraSingle astraSino
        dsimp only
        rw [show padEdge (m.map fun v => a * v) (astraPad (m.map fun v => a * v).w none) (astraPad (m.map fun v => a * v).w none) =
          (padEdge m (astraPad m.w none) (astraPad m.w none)).map fun v => a * v from rfl, hS.2.2.1, hS.2.1]
        rfl
      show (Common.masked _ _ _).Eqv _
      rw [hs, masked_scale]
      exact hmap _
    by_cases hs4 : s = "gridrec"
    · subst hs4
      have hg : Common.Good (gridArgs q c).toCommon m.h m.w := by
        obtain ⟨p1, p2, p3⟩ := (accepted_iff E q "gridrec" m h2 w2 hE c).1 ⟨img, h⟩
        exact ⟨p3, p1, p2⟩
      have hx : ∀ k : Mat ℝ, k.h = m.h → k.w = m.w → gridrec E.R (gridArgs q c) (.one k) =
          (gridPads m.w (gridArgs q c).pad).bind fun p => .ok (.one (gridSlice E.R (gridArgs q c) m.h m.w p.1 p.2 k)) := by
        intro k hk1 hk2
        unfold gridrec
        rw [if_neg (mt (bad_iff' _ _ _).1 (not_not.2 (by show Common.Good _ k.h k.w; rw [hk1, hk2]; exact hg)))]
        show (gridPads k.w _).bind (fun p => Except.ok (Arr.one (gridSlice E.R (gridArgs q c) k.h k.w p.1 p.2 k))) = _
        rw [hk1, hk2]
      rw [e4, hx m rfl rfl] at h
      rw [g4, hx (m.map fun v => a * v) rfl rfl]
      cases hp : gridPads m.w (gridArgs q c).pad with
      | error e => rw [hp] at h; exact (nomatch h)
      | ok p =>
        rw [hp] at h
        cases h
        refine ⟨_, rfl, ?_⟩
        show (gridSlice E.R (gridArgs q c) m.h m.w p.1 p.2 (m.map fun v => a * v)).Eqv
          ((gridSlice E.R (gridArgs q c) m.h m.w p.1 p.2 m).map fun v => a * v + 0)
        have : gridSlice E.R (gridArgs q c) m.h m.w p.1 p.2 (m.map fun v => a * v) =
            (gridSlice E.R (gridArgs q c) m.h m.w p.1 p.2 m).map fun v => a * v := by
          unfold gridSlice
          dsimp only
          rw [logm_off _ hq, logm_off _ hq, show padEdge (m.map fun v => a * v) p.1 p.2 = (padEdge m p.1 p.2).map fun v => a * v from rfl, hS.1,
            ← masked_scale]
          rfl
        rw [this]
        exact hmap _
    · obtain ⟨out, ho, rfl⟩ := key _ _ (e5 s hs hs2 hs3 hs4 ▸ h)
      obtain ⟨o1, rfl⟩ := (dfi_spec E.I (dfiArgs q c) (.one m) out h2 w2 le_rfl ho).2.2.2.1.1 ⟨_, rfl⟩
      obtain ⟨o2, h3, h4⟩ := dfi_linear E.I hS.2.2.2 (dfiArgs q c) a 0 m m o1 o1 h2 w2 rfl rfl hq ho ho
      refine ⟨o2, ?_, hlin _ _ h4⟩
      rw [g5 s hs hs2 hs3 hs4, lin_scale, h3]
      rfl
  · cases hr : reconstructSlice E q s (m.map fun v => a * v) c with
    | error e => exact ⟨e, rfl⟩
    | ok img =>
      have := (accepted_iff E q s (m.map fun v => a * v) h2 w2 hE c).1 ⟨img, hr⟩
      obtain ⟨img', h'⟩ := (accepted_iff E q s m h2 w2 hE c).2 this
      rw [h'] at h
      exact (nomatch h)

/-- C162 (C110 for every method): with any method, entropy or sharpness, and without logarithm, the centre found does not change when the sinogram
and its resized copy are multiplied by a positive factor. -/
theorem find_center_scale (E : Engines) (q qz : Req) (hq : q.applyLog = false) (hqz : qz.applyLog = false) (s : String) (o : Opt)
    (hm : o.metric = .entropy ∨ o.metric = .sharpness) (hlog : o.applyLog = false) (a : ℝ) (ha : 0 < a) (hS : E.Scales a) (m zm : Mat ℝ)
    (hsm : ∀ g, o.smooth = some g → ∀ k, (g k).h = k.h ∧ (g k).w = k.w ∧ g (k.map fun v => a * v) = (g k).map fun v => a * v)
    (h2 : 2 ≤ m.h) (w2 : 2 ≤ m.w) (hz2 : 2 ≤ zm.h) (wz2 : 2 ≤ zm.w) (hE : E.Covers m.w) (hEz : E.Covers zm.w)
    (start stop step radius zoom c : ℝ) (hs : 0 < step)
    (h : findCenter o (reconstructSlice E q s) (reconstructSlice E qz s) m zm start stop step radius zoom = .ok c) :
    findCenter o (reconstructSlice E q s) (reconstructSlice E qz s) (m.map fun v => a * v) (zm.map fun v => a * v) start stop step radius zoom =
      .ok c := by
  have hp : ∀ k : Mat ℝ, prepare o (k.map fun v => a * v) = (prepare o k).map (fun v => a * v) ∧ (prepare o k).h = k.h ∧ (prepare o k).w = k.w := by
    intro k
    unfold prepare
    rw [hlog]
    cases hg : o.smooth with
    | none => exact ⟨rfl, rfl, rfl⟩
    | some g =>
      obtain ⟨s1, s2, s3⟩ := hsm g hg k
      exact ⟨s3, s1, s2⟩
  refine find_center_affine o hm _ _ a 0 ha m _ zm _ ?_ ?_ start stop step radius zoom c hs h
  · rw [(hp m).1]
    exact reconstruct_affine E q hq s (prepare o m) ((hp m).2.1 ▸ h2) ((hp m).2.2 ▸ w2) ((hp m).2.2 ▸ hE) a hS
  · rw [(hp zm).1]
    exact reconstruct_affine E qz hqz s (prepare o zm) ((hp zm).2.1 ▸ hz2) ((hp zm).2.2 ▸ wz2) ((hp zm).2.2 ▸ hEz) a hS

/-! ### Concrete instance -/

/-- External programs that add up the columns, a shift and an interpolation that do nothing; GPU blocks of one thread in order. -/
noncomputable def exE : Engines :=
  ⟨1, List.range 9, fun m _ _ _ _ => ⟨m.w, m.w, fun _ x => ∑ i ∈ Finset.range m.h, m.get i x⟩,
    fun _ _ _ _ _ m => ⟨m.w, m.w, fun _ x => ∑ i ∈ Finset.range m.h, m.get i x⟩, fun m _ => m, leftSample, false⟩

/-- The assumptions on the engines are met. -/
theorem exE_ok (a : ℝ) : exE.Covers 3 ∧ exE.Sized ∧ exE.Scales a := by
  refine ⟨⟨Nat.one_pos, 1, Nat.one_pos, fun t ht => List.mem_range.2 ?_⟩, ⟨fun _ _ _ _ _ => ⟨rfl, rfl⟩, fun _ _ _ _ _ _ => ⟨rfl, rfl⟩,
    fun _ _ => ⟨rfl, rfl⟩⟩, fun m _ _ _ _ => ?_, fun _ _ _ _ _ m => ?_, fun _ _ => rfl, leftSample_linear⟩
  · have e : BackProj.gridDim 3 1 = 3 := by decide
    have ht : t < BackProj.gridDim 3 1 * 1 * (BackProj.gridDim 3 1 * 1) := ht
    rw [e] at ht
    exact ht
  · unfold exE Mat.map
    dsimp only
    congr 1
    funext i j
    rw [Finset.mul_sum]
  · unfold exE Mat.map
    dsimp only
    congr 1
    funext i j
    rw [Finset.mul_sum]

/-- Every documented method reconstructs a sinogram of 2 x 3 about the centre 1. -/
example (s : String) : ∃ img, reconstructSlice exE ⟨some [0, 1], some 1, some "hann", true, true⟩ s ⟨2, 3, fun i j => (i : ℝ) + j⟩ 1 = .ok img :=
  (accepted_iff exE _ s _ (by decide) (by decide) (exE_ok 1).1 1).2 ⟨by norm_num, by show (1 : ℝ) < ((3 : ℕ) : ℝ); norm_num, fun l h => by
    cases h; rfl⟩

example : ¬ Documented "FBP" := by unfold Documented; decide

end Verif.SliceMethod
