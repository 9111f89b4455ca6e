import Verif.Model.Costs
import Mathlib.Analysis.SpecialFunctions.Log.Base

/-!
# Model of the clustering of COSTS with windows of different ranks

Source: `/repo/pydmd/costs.py`: the arrays of `fit` (L527-534 and L590-596), `_cluster` (L672-739) and
`transform_omega` (L741-783) including frequencies 0. Infinite values are `none`.
-/

set_option autoImplicit false

namespace Verif.CostsPad

open Verif Costs

/-- One row of `_omega_array`, costs.py L528-530 and L592: zeros, overwritten from the left by the eigenvalues
of the window. More eigenvalues than places: `ValueError`. -/
def padRow (alloc : ℕ) (es : List ℂ) : Except PyErr (List ℂ) :=
  if alloc < es.length then .error .valueError
  else .ok (es ++ List.replicate (alloc - es.length) 0)

/-- `_omega_array` after the loop over the windows, L545-596. -/
def omegaArray (alloc : ℕ) (ws : List (List ℂ)) : Except PyErr (List (List ℂ)) :=
  ws.mapM (padRow alloc)

/-- `values[isfinite(values)].min()` on the logarithms, L770: `none` for no values. -/
noncomputable def least : List ℝ → Option ℝ
  | [] => none
  | x :: xs => match least xs with
    | none => some x
    | some y => some (min x y)

/-- `transform_omega` on the imaginary parts, L758-783: the logarithm of 0 is replaced by the smallest
finite one (L769-771; `ValueError` from `min` if there is none), `1 / 0` is infinite. -/
noncomputable def transform (m : Transform) (ws : List ℝ) : Except PyErr (List (Option ℝ)) :=
  match m with
  | .absolute => .ok (ws.map fun w => some |w|)
  | .squareFrequencies => .ok (ws.map fun w => some (w ^ 2))
  | .log10 => match least ((ws.filter fun w => decide (w ≠ 0)).map fun w => Real.logb 10 |w|) with
    | none => .error .valueError
    | some z => .ok (ws.map fun w => if w = 0 then some z else some (Real.logb 10 |w|))
  | .period => .ok (ws.map fun w => if w = 0 then none else some (1 / |w|))
  | .none => .error .valueError
  | .other => .error .valueError

/-- The validation of scikit-learn: an infinite value raises `ValueError`. -/
def finite : List (Option ℝ) → Except PyErr (List ℝ)
  | [] => .ok []
  | none :: _ => .error .valueError
  | some x :: l => (finite l).map (x :: ·)

/-- `reshape(n_slides, svd_rank_pre_allocate)`, L729-731. -/
def reshape {α : Type} (slides alloc : ℕ) (l : List α) : List (List α) :=
  (List.range slides).map fun k => (l.drop (k * alloc)).take alloc

/-- `_cluster`, L704-739. `hasFitPredict`: whether the method has this attribute; if not, the second operand of L711
raises `AttributeError`. `kmeans n values` stands for `fit_predict` and `cluster_centers_`, `argsort` for
`np.argsort`. -/
noncomputable def cluster (hasFitPredict : Bool) (kmeans : ℕ → List ℝ → Except PyErr (List ℕ × List ℝ))
    (argsort : List ℝ → List ℕ) (n alloc : ℕ) (m : Transform) (omega : List (List ℂ)) :
    Except PyErr (List ℝ × List (List ℕ)) :=
  if !hasFitPredict then .error .attributeError
  else do
    let x ← transform m (omega.flatten.map Complex.im)
    let x ← finite x
    let (cls, cen) ← kmeans n x
    let r := relabel (argsort cen) cen cls
    .ok (r.1, reshape omega.length alloc r.2)

end Verif.CostsPad
