import Verif.Np
import Mathlib.Analysis.SpecialFunctions.Log.Base

/-!
Wavelet helpers of algotom/util/utility.py:480-614.  PyWavelets itself is a parameter: a decomposition is an approximation
component and, per level (coarsest first), three detail components.
-/

namespace Verif.Wavelet

/-- The value of the `level` argument (utility.py:542-557). -/
inductive LevelArg where
  | none
  | int (i : Int)
  | list (l : List Int)
  | other

/-- `check_level(level, n_level)` (utility.py:537-558). -/
def checkLevel : LevelArg → Nat → Py (List Int)
  | .none, n => .ok ((List.range n).map fun k : Nat => (k : Int) + 1)
  | .int i, n => if 0 < i ∧ i ≤ n then .ok [i] else .error .valueError
  | .list l, n =>
    let l' := l.map fun i => if 0 < i ∧ i ≤ (n : Int) then i else 0
    if l'.contains 0 then .error .valueError else .ok l'
  | .other, _ => .error .valueError

/-- Output of `pywt.wavedec2`: `data[0]` and `data[1:]` (coarsest level first). -/
structure WData (A : Type _) where
  approx : A
  details : List (Nat → A)

/-- Replace component `order` of level `i` (1-based): `data[i][order] = v`. -/
def WData.set {A : Type _} (d : WData A) (i order : Nat) (v : A) : WData A :=
  ⟨d.approx, d.details.modify (i - 1) fun t => fun c => if c = order then v else t c⟩

/-- Component `order` of level `i` (1-based). -/
def WData.get {A : Type _} [Inhabited A] (d : WData A) (i order : Nat) : A := d.details.getD (i - 1) (fun _ => default) order

/-- `apply_filter_to_wavelet_component(data, level, order, method, para)` (utility.py:589-614); `method = none` is a name found neither in
scipy.ndimage nor in the module — this is noticed only inside the loop.  A method may raise. -/
def applyFilter {A : Type _} [Inhabited A] (data : WData A) (level : LevelArg) (order : Int) (method : Option (A → Py A)) : Py (WData A) := do
  let levels ← checkLevel level data.details.length
  let order := (npClip order 0 2).toNat
  levels.foldlM (init := data) fun d i =>
    match method with
    | some f => do
      let v ← f (d.get i.toNat order)
      .ok (d.set i.toNat order v)
    | none => .error .valueError

/-- `max_level` (utility.py:502-503). -/
noncomputable def maxLevel (nrow ncol : Nat) : Int := min ⌊Real.logb 2 ((nrow : ℝ) / 16)⌋ ⌊Real.logb 2 ((ncol : ℝ) / 16)⌋

/-- The level handed to `pywt.wavedec2` (utility.py:504-506), which rejects negative levels with `ValueError`. -/
noncomputable def levelUsed (nrow ncol : Nat) (level : Option Int) : Py Nat :=
  let m := maxLevel nrow ncol
  let l := match level with
    | none => m
    | some l => if l > m ∨ l < 1 then m else l
  if l < 0 then .error .valueError else .ok l.toNat

/-- `apply_wavelet_reconstruction(data, wavelet, ignore_level)` (utility.py:529-534): `zero` is `np.zeros_like`, `waverec` is
`pywt.waverec2`.  Returns (result, the caller's data afterwards): the caller's list is modified in place. -/
def reconstruct {A B : Type _} (zero : A → A) (waverec : WData A → B) (data : WData A) (ignore : Option Int) : B × WData A :=
  match ignore with
  | none => (waverec data, data)
  | some k =>
    if 0 < k ∧ k ≤ data.details.length then
      let d : WData A := ⟨data.approx, data.details.modify (data.details.length - k.toNat) fun t => fun c => zero (t c)⟩
      (waverec d, d)
    else (waverec data, data)

end Verif.Wavelet
