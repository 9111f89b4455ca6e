import Verif.Model.Time
import Verif.Model.Snapshots
import Mathlib.Algebra.Field.Basic
import Mathlib.Algebra.BigOperators.Group.List.Basic

/-!
# Model of delay embedding: `pseudo_hankel_matrix`, Hankel pre/post-processing, `HankelDMD`

Sources: `/repo/pydmd/utils.py` L271-303, `/repo/pydmd/preprocessing/hankel.py`,
`/repo/pydmd/hankeldmd.py`.

A two-dimensional array (space x time) is the list of its columns, oldest first; a column is a
list. Arithmetic is exact, and `NaN` inside the data is not modelled (`NaN` marks missing versions
in the code; here they are `none`).
-/

set_option autoImplicit false

namespace Verif.Hankel

open Verif

variable {K : Type}

/-- `pseudo_hankel_matrix(X, d)`, utils.py L299-303. `sliding_window_view(X.T, (d, rows))[:, 0]`
has entry `(c, j, i)` equal to `X.T[c + j, i]`; `reshape(cols - d + 1, -1)` concatenates the `d`
windows; the result is transposed, so each entry of the outer list is a column. A window larger
than the array raises `ValueError`. -/
def pseudoHankel (X : List (List K)) (d : ℕ) : Except PyErr (List (List K)) :=
  if X.length < d then .error .valueError
  else .ok ((List.range (X.length - d + 1)).map fun c => ((X.drop c).take d).flatten)

/-- `np.split(column, d)[j]` for a column of `d * space` elements, hankel.py L74. -/
def block (space : ℕ) (col : List K) (j : ℕ) : List K := (col.drop (j * space)).take space

/-- `_reconstructions`, hankel.py L48-78: for every time instant `t` and every `j < d` the version
of snapshot `t` found in block `j` of column `t - j`, if that column exists. (The code fills an
array with `NaN` and assigns the entries `[c + j, j]`, L66-77.) -/
def versions (rec : List (List K)) (d : ℕ) : List (List (Option (List K))) :=
  let space := (rec.headD []).length / d
  (List.range (rec.length + d - 1)).map fun t =>
    (List.range d).map fun j =>
      if j ≤ t then (rec[t - j]?).map fun col => block space col j else none

/-- The argument `reconstruction_method`. -/
inductive Method (K : Type)
  | first
  | mean
  | weights (w : List K)
  | otherStr      -- any other string
  | other         -- neither string nor array, list or tuple

/-- `_first_reconstructions`, hankel.py L81-96: version `min(t, d - 1)` of snapshot `t`. -/
def firstVersion (d t : ℕ) (vs : List (Option (List K))) : List K :=
  ((vs[min t (d - 1)]?).join).getD []

/-- `vectors` added and scaled: `sum(w_j * v_j)` over the available versions, elementwise, for
vectors of length `n`. -/
def wsum [Field K] (n : ℕ) (w : List K) (vs : List (Option (List K))) : List K :=
  (List.range n).map fun i =>
    (List.zipWith (fun a v => v.elim 0 fun x => a * x.getD i 0) w vs).sum

/-- Total weight of the available versions. -/
def wtotal [Field K] (w : List K) (vs : List (Option (List K))) : K :=
  (List.zipWith (fun a v => v.elim 0 fun _ => a) w vs).sum

/-- `np.ma.average(..., weights=w)` along the versions followed by `filled(0)`, hankel.py L123-129.
An average with total weight zero is masked, so filled with 0. `np.nanmean` is the average with
weights 1. -/
def average [Field K] [DecidableEq K] (n : ℕ) (w : List K) (vs : List (Option (List K))) : List K :=
  if wtotal w vs = 0 then List.replicate n 0
  else (wsum n w vs).map (· / wtotal w vs)

/-- `_HankelPrePostProcessing.post_processing`, hankel.py L112-129. An unknown string leaves
`result` unbound; weights of the wrong length are rejected by `np.ma.average`. -/
def post [Field K] [DecidableEq K] (m : Method K) (d : ℕ) (Y : List (List K)) :
    Except PyErr (List (List K)) :=
  let vs := versions Y d
  let space := (Y.headD []).length / d
  match m with
  | .first => .ok (vs.mapIdx fun t v => firstVersion d t v)
  | .mean => .ok (vs.map fun v => average space (List.replicate d 1) v)
  | .weights w =>
      if w.length ≠ d then .error .valueError
      else .ok (vs.map fun v => average space w v)
  | .otherStr => .error .unboundLocalError
  | .other => .error .valueError

/-- `_HankelPrePostProcessing.pre_processing` on the argument of `HankelDMD.fit`, hankel.py
L107-109: the argument itself (not the flattened snapshots) is passed to `pseudo_hankel_matrix`;
a list has no attribute `T`, and `sliding_window_view` with a window of two dimensions requires
a two-dimensional array. Only the outcome class is modelled. -/
def acceptsInput (x : Snap.Input K) : Except PyErr Unit :=
  match x with
  | .list _ => .error .attributeError
  | .array a => if a.shape.length = 2 then .ok () else .error .valueError

/-- The checks of `HankelDMD.__init__` on `reconstruction_method`, hankeldmd.py L88-100 (a list or
a one-dimensional array of weights). -/
def initCheck (m : Method K) (d : ℕ) : Except PyErr Unit :=
  match m with
  | .weights w => if w.length ≠ d then .error .valueError else .ok ()
  | _ => .ok ()

/-- `HankelDMD._hankel_first_occurrence`, hankeldmd.py L117-134 (`//` is floor division). -/
def firstOccurrence (orig dmd : Time.Window) (d : ℕ) (t : ℚ) : ℚ :=
  max 0 ((⌊(t - orig.t0) / dmd.dt⌋ : ℚ) - (orig.t0 + d - 1))

/-- The `dmd_time` of the wrapped DMD after `_update_sub_dmd_time`, hankeldmd.py L136-148 (its `dt`
stays 1). -/
def subWindow (orig dmd : Time.Window) (d : ℕ) : Time.Window :=
  ⟨firstOccurrence orig dmd d dmd.t0, firstOccurrence orig dmd d dmd.tend, 1⟩

/-- `x[:, start : start + n]` on the list of columns with Python's treatment of negative
indices. -/
def pySlice {α : Type} (l : List α) (start stop : ℤ) : List α :=
  let norm (i : ℤ) : ℕ := if i < 0 then (l.length + i).toNat else i.toNat
  (l.take (norm stop)).drop (norm start)

/-- `HankelDMD.reconstructed_data`, hankeldmd.py L150-164; `inner w` is the `reconstructed_data` of
the DMD wrapped by the Hankel pre-processing when its `dmd_time` is `w`. -/
def reconstructedData [Field K] [DecidableEq K] (m : Method K) (d : ℕ) (orig dmd : Time.Window)
    (inner : Time.Window → Except PyErr (List (List K))) : Except PyErr (List (List K)) := do
  let ts ← dmd.timesteps
  let timeIndex : ℤ := min ((d : ℤ) - 1) ⌊(dmd.t0 - orig.t0) / dmd.dt⌋
  let y ← inner (subWindow orig dmd d)
  let r ← post m d y
  pure (pySlice r timeIndex (timeIndex + ts.length))

end Verif.Hankel
