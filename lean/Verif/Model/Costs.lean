import Verif.Model.Py
import Mathlib.Analysis.SpecialFunctions.Log.Basic
import Mathlib.Analysis.SpecialFunctions.Exp
import Mathlib.Algebra.BigOperators.Fin

/-!
# Model of COSTS: windows, reconstruction, clustering

Source: `/repo/pydmd/costs.py`. Arithmetic is exact except where said. Arrays are functions of their
indexes together with their sizes.
-/

set_option autoImplicit false

namespace Verif.Costs

open Verif

/-! ## Windows -/

/-- `_build_windows(..., integer_windows=False)`, L297-307, after `n_steps` is known:
`n_steps = int(window_length * (n / window_length))` is computed in floating point and may be one
less than the number `n` of time steps, so it is a parameter. -/
def buildWindows (nSteps windowLength stepSize : ℤ) : ℤ := (nSteps - windowLength) / stepSize + 1

/-- The window attributes set by `fit`. -/
structure Windows where
  nTime : ℤ
  length : ℤ
  step : ℤ
  nSlides : ℤ
  nonInteger : Bool
  deriving DecidableEq, Repr

/-- The window part of `fit`, L458-489; `nTimeArg` is `time.size`, `nSteps` as in
`buildWindows`. -/
def fitWindows (nTime nTimeArg windowLength stepSize nSteps : ℤ) : Except PyErr Windows :=
  if nTime ≠ nTimeArg then .error .valueError
  else
    let nSlides := buildWindows nSteps windowLength stepSize
    if windowLength > nTime then .error .valueError
    else
      let nSlideLast := nTime - (stepSize * (nSlides - 1) + windowLength)
      if nSlideLast > 0 then .ok ⟨nTime, windowLength, stepSize, nSlides + 1, true⟩
      else .ok ⟨nTime, windowLength, stepSize, nSlides, false⟩

/-- `get_window_indices(k)`, L615-630, as first index and index after the last:
`slice(-window_length, None)` is the end of an axis of length `nTime` (for
`1 ≤ window_length ≤ nTime`). -/
def Windows.indices (w : Windows) (k : ℤ) : ℤ × ℤ :=
  let sampleStart := w.step * k
  if k = w.nSlides - 1 ∧ w.nonInteger = true then (w.nTime - w.length, w.nTime)
  else (sampleStart, sampleStart + w.length)

/-! ## Reconstruction -/

/-- `build_kern(window_length)`, L342-359: entry `i`. -/
noncomputable def kern (windowLength : ℕ) (i : ℕ) : ℝ :=
  Real.exp (-((i - (windowLength - 1) / 2) ^ 2) / (windowLength / 8) ^ 2)

/-- The fit of one window: modes (space × rank), amplitudes, frequencies, class of each frequency,
window mean, and the times of the window shifted to start at 0 (L978-988). -/
structure WindowFit where
  modes : ℕ → ℕ → ℂ
  amplitudes : ℕ → ℂ
  omega : ℕ → ℂ
  classes : ℕ → ℕ
  mean : ℕ → ℝ
  time : ℕ → ℝ

/-- `w[:, class_index] @ diag(b[class_index]) @ exp(omega[class_index] * t)`, L994-1001, at space
index `s` and window index `i`, for modes chosen by `sel`. -/
noncomputable def WindowFit.sumOver (f : WindowFit) (rank : ℕ) (sel : ℕ → Bool) (s i : ℕ) : ℂ :=
  (((List.range rank).filter sel).map fun l =>
    f.modes s l * f.amplitudes l * Complex.exp (f.omega l * f.time i)).sum

/-- `np.unique(self._omega_classes)`: the classes that occur. -/
def occurs (fits : List WindowFit) (rank j : ℕ) : Bool :=
  fits.any fun f => (List.range rank).any fun l => f.classes l == j

/-- `np.argmin(values)`: the first index of the smallest value (0 for no values). -/
noncomputable def argmin : List ℝ → ℕ
  | [] => 0
  | x :: xs => if ∀ y ∈ xs, x ≤ y then 0 else argmin xs + 1

/-- `xr_sep_window[j]` before the filter, L993-1005; 0 for a class that does not occur. -/
noncomputable def windowBand (fits : List WindowFit) (rank : ℕ) (centroids : List ℝ)
    (includeMeans : Bool) (f : WindowFit) (j s i : ℕ) : ℝ :=
  if occurs fits rank j then
    (f.sumOver rank (fun l => f.classes l == j) s i).re +
      (if includeMeans = true ∧ j = argmin centroids then f.mean s else 0)
  else 0

/-- The state of the loop of `scale_reconstruction`: the accumulated bands and `xn`. -/
structure Acc where
  sep : ℕ → ℕ → ℕ → ℝ
  xn : ℕ → ℝ

/-- One iteration of the loop over the windows, L975-1012: the window occupies the indexes
`start, …, start + length - 1`. -/
noncomputable def addWindow (length : ℕ) (band : ℕ → ℕ → ℕ → ℝ) (start : ℕ) (a : Acc) : Acc where
  sep := fun j s t =>
    if start ≤ t ∧ t < start + length then a.sep j s t + band j s (t - start) * kern length (t - start)
    else a.sep j s t
  xn := fun t =>
    if start ≤ t ∧ t < start + length then a.xn t + kern length (t - start) else a.xn t

/-- `scale_reconstruction(include_means)`, L962-1016: band `j`, space index `s`, time `t`.
`wins` lists the windows with their first index. A time step in no window gives `0 / 0`, in the
code `NaN`, here 0. -/
noncomputable def scaleReconstruction (length rank : ℕ) (centroids : List ℝ) (includeMeans : Bool)
    (wins : List (ℕ × WindowFit)) (j s t : ℕ) : ℝ :=
  let fits := wins.map (·.2)
  let acc := wins.foldl
    (fun a w => addWindow length (windowBand fits rank centroids includeMeans w.2) w.1 a)
    ⟨fun _ _ _ => 0, fun _ => 0⟩
  acc.sep j s t / acc.xn t

/-- `global_reconstruction`, L929-942: the sum over the bands. -/
noncomputable def globalReconstruction (length rank nComponents : ℕ) (centroids : List ℝ)
    (includeMeans : Bool) (wins : List (ℕ × WindowFit)) (s t : ℕ) : ℝ :=
  ((List.range nComponents).map fun j =>
    scaleReconstruction length rank centroids includeMeans wins j s t).sum

/-- `scale_separation`, L1018-1045: low and high frequency component. -/
noncomputable def scaleSeparation (length rank nComponents : ℕ) (centroids : List ℝ)
    (includeMeans : Bool) (wins : List (ℕ × WindowFit)) : (ℕ → ℕ → ℝ) × (ℕ → ℕ → ℝ) :=
  (fun s t => scaleReconstruction length rank centroids includeMeans wins 0 s t,
   fun s t => (((List.range nComponents).drop 1).map fun j =>
    scaleReconstruction length rank centroids includeMeans wins j s t).sum)

/-! ## Clustering -/

/-- The argument `transform_method`. -/
inductive Transform
  | absolute
  | squareFrequencies
  | log10
  | period
  | none
  | other
  deriving DecidableEq, Repr

/-- `transform_omega` on one frequency with non-zero imaginary part `w`, L741-783 (the imputation
of `log10(0)` and the division by zero of `period` are not modelled). -/
noncomputable def transformOmega (m : Transform) (w : ℝ) : Except PyErr ℝ :=
  match m with
  | .absolute => .ok |w|
  | .squareFrequencies => .ok (w ^ 2)
  | .log10 => .ok (Real.log |w| / Real.log 10)
  | .period => .ok (1 / |w|)
  | .none => .error .valueError
  | .other => .error .valueError

/-- The default of `transform_method` in `cluster_omega` (L632-638), `_cluster` (L672-678) and
`cluster_hyperparameter_sweep` (L785-791); the docstrings say `"absolute"`. -/
def defaultTransform : Transform := .none

/-- `transform_omega` on the flattened array of imaginary parts, as called by `_cluster` L723-725. -/
noncomputable def transformAll (m : Transform) (ws : List ℝ) : Except PyErr (List ℝ) :=
  ws.mapM (transformOmega m)

/-- `lut` of `_cluster`, L734-735: `lut = zeros; lut[idx] = arange(n)`, written entry by entry in
the order of `idx`. -/
def buildLut (idx : List ℕ) : List ℕ :=
  idx.zipIdx.foldl (fun l p => l.set p.1 p.2) (List.replicate idx.length 0)

/-- The end of `_cluster`, L733-739: `idx` is `np.argsort(cluster_centroids)`. Returns the sorted
centroids and the new classes. -/
def relabel (idx : List ℕ) (centroids : List ℝ) (classes : List ℕ) : List ℝ × List ℕ :=
  let lut := buildLut idx
  (idx.map fun i => centroids.getD i 0, classes.map fun c => lut.getD c 0)

/-- What `np.argsort` is assumed to return: an arrangement of the indexes by increasing value. -/
def IsArgsort (centroids : List ℝ) (idx : List ℕ) : Prop :=
  idx.Perm (List.range centroids.length) ∧
    (idx.map fun i => centroids.getD i 0).Pairwise (· ≤ ·)

end Verif.Costs
