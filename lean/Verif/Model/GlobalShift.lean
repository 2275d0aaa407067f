import Verif.Model.LocalShifts
import Verif.Model.Post
import Verif.Model.Sched

/-!
Model of `find_global_shift_based_local_shifts`, CPU branch: algotom/util/correlation.py:2596-2641, 2703-2772, 2991-3006.
Exact arithmetic.  The random points (2723-2724) are a parameter.
-/

namespace Verif.GlobalShift
open Verif.Correlation Verif.LocalShifts Verif.Post Verif.Sched

/-! ### From local values to the global value -/

/-- `global_value`; every string other than "median" and "mixed" means "mean" (correlation.py:2752-2771). -/
inductive Agg where
  | median | mixed | mean

/-- The global value of one list of local shifts (correlation.py:2752-2771). -/
def Agg.value {K : Type _} [Field K] [LinearOrder K] : Agg → List K → K
  | .median, l => npMedian l
  | .mixed, l =>
    let n : ℤ := l.length
    let mid := n / 2
    let begin_ := max (mid - 3) 0
    let end_ := npClip (mid + 3) mid n
    if end_ > begin_ then npMean (pySlice (sorted l) begin_ end_) else npMedian l
  | .mean, l => if l.length > 7 then npMean (pySlice (sorted l) 2 (-2)) else npMean l

/-! ### The points -/

/-- The argument `list_ij`: not given, a pair of integers, a pair of lists, or anything else. -/
inductive Points where
  | point (i j : ℤ)
  | lists (li lj : List ℤ)
  | other

/-- `__get_input_list` (correlation.py:2596-2641). -/
def getInputList (p : Points) (height width gap : ℤ) : Py (List ℤ × List ℤ) :=
  match p with
  | .other => .error .valueError
  | .point i j =>
    if (height - gap > i ∧ i > gap) ∧ (width - gap > j ∧ j > gap) then .ok ([i], [j]) else .error .valueError
  | .lists li lj =>
    if li.length ≠ lj.length then .error .valueError
    else
      let kept := (li.zip lj).filter fun c =>
        decide ((height - gap > c.1 ∧ c.1 > gap) ∧ (width - gap > c.2 ∧ c.2 > gap))
      if kept.length = 0 then .error .valueError else .ok (kept.map Prod.fst, kept.map Prod.snd)

/-- The points that are used (correlation.py:2722-2727). -/
def usedPoints (points : Option Points) (rnd : List (ℕ × ℕ)) (height width start : ℕ) : Py (List ℤ × List ℤ) :=
  match points with
  | none => .ok (rnd.map fun p => (p.1 : ℤ), rnd.map fun p => (p.2 : ℤ))
  | some p => getInputList p height width start

/-! ### The local searches -/

/-- `m[a:b, c:d]` of a 2D array, as a 3D array with one image. -/
def crop (m : Mat ℝ) (a b c d : ℤ) : Arr3 ℝ :=
  ⟨1, pyBound m.h b - pyBound m.h a, pyBound m.w d - pyBound m.w c,
    fun _ i j => m.get (pyBound m.h a + i) (pyBound m.w c + j)⟩

/-- One local search (correlation.py:2730-2735, 2741-2746). -/
noncomputable def pointShift (ref mat : Mat ℝ) (radi margin : ℕ) (subPixel : Bool) (method : Method ℝ) (size : ℤ)
    (i j : ℤ) : Py (ℝ × ℝ) :=
  let start : ℤ := radi + margin
  findShift (crop ref (i - start) (i + (start + 1)) (j - start) (j + (start + 1)))
    (crop mat (i - radi) (i + (radi + 1)) (j - radi) (j + (radi + 1))) margin none subPixel method 2 size

/-- All local searches: in order if `ncore == 1`, by a joblib pool otherwise (correlation.py:2729-2747).  `none`: the
schedule is not a complete execution of the pool. -/
noncomputable def allShifts (n ncore : ℕ) (f : ℕ → Py (ℝ × ℝ)) (sched : List Ev) : Option (Py (List (ℝ × ℝ))) :=
  if ncore = 1 then some ((List.range n).mapM f)
  else (parMap n ncore f sched).map fun l => l.mapM id

/-- `normalize_image` of a 2D array (correlation.py:62-65). -/
noncomputable def normImage (m : Mat ℝ) : Mat ℝ := ⟨m.h, m.w, normalize2 m.h m.w m.get⟩

/-- The local shifts, `return_list=True` (correlation.py:2703-2750): `(x_shifts, y_shifts)`.  `points = none` uses the
random points `rnd`. -/
noncomputable def localList (ref mat : Mat ℝ) (winSize margin : ℕ) (points : Option Points) (rnd : List (ℕ × ℕ))
    (subPixel : Bool) (method : Method ℝ) (size : ℤ) (ncore : ℕ) (norm : Bool) (sched : List Ev) :
    Option (Py (List ℝ × List ℝ)) :=
  if ref.h ≠ mat.h ∨ ref.w ≠ mat.w then some (.error .valueError)
  else
    let winSize := 2 * (winSize / 2) + 1
    let radi := winSize / 2
    let start := radi + margin
    let alsSize := winSize + 2 * margin
    if ref.w < alsSize ∨ ref.h < alsSize then some (.error .valueError)
    else
      let ref := if norm then normImage ref else ref
      let mat := if norm then normImage mat else mat
      match usedPoints points rnd ref.h ref.w start with
      | .error e => some (.error e)
      | .ok (li, lj) =>
        (allShifts li.length ncore (fun k => pointShift ref mat radi margin subPixel method size (li.getD k 0) (lj.getD k 0))
          sched).map fun r => r.bind fun s =>
            -- `np.asarray([])[:, 0]` raises IndexError
            if s.length = 0 then .error .indexError else .ok (s.map Prod.fst, s.map Prod.snd)

/-- `find_global_shift_based_local_shifts(…, return_list=False)` (correlation.py:2751-2772). -/
noncomputable def globalShift (ref mat : Mat ℝ) (winSize margin : ℕ) (points : Option Points) (rnd : List (ℕ × ℕ))
    (agg : Agg) (subPixel : Bool) (method : Method ℝ) (size : ℤ) (ncore : ℕ) (norm : Bool) (sched : List Ev) :
    Option (Py (ℝ × ℝ)) :=
  (localList ref mat winSize margin points rnd subPixel method size ncore norm sched).map fun r =>
    r.map fun p => (agg.value p.1, agg.value p.2)

end Verif.GlobalShift
