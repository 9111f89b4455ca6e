import Verif.Model.Hankel
import Verif.Model.Snapshots

/-!
# Model of `HODMD`

Source: `/repo/pydmd/hodmd.py`, with `/repo/pydmd/hankeldmd.py` and
`/repo/pydmd/preprocessing/svd_projection.py`.

Two-dimensional arrays are lists of columns, as in `Verif.Model.Hankel`. The projection matrix is
what `compute_svd` returned (`U i k` for row `i` and column `k`, `r` columns).
-/

set_option autoImplicit false

namespace Verif.Hodmd

open Verif Verif.Hankel

variable {K : Type} [Field K]

/-- The columns of `snapshots`, snapshots.py L79-84. -/
def columns (s : Snap.Snapshots K) : List (List K) :=
  (List.range s.cols).map fun t => (List.range s.rows).map fun i => s.data.getD (i * s.cols + t) 0

/-- One column of `projection_matrix.T.dot(X)`, svd_projection.py L54. -/
def project (U : ℕ → ℕ → K) (r : ℕ) (col : List K) : List K :=
  (List.range r).map fun k => ((List.range col.length).map fun i => U i k * col.getD i 0).sum

/-- One column of `projection_matrix.dot(Y)`, svd_projection.py L60, for `n` rows. -/
def lift (U : ℕ → ℕ → K) (n : ℕ) (col : List K) : List K :=
  (List.range n).map fun i => ((List.range col.length).map fun k => U i k * col.getD k 0).sum

/-- The data on which `HODMD.fit` fits the innermost DMD, hodmd.py L97-109, hankeldmd.py L210-226
and the two pre-processings (`U` is computed from the snapshots). The wrapped DMD gets the flattened
snapshots, a two-dimensional array. -/
def fitData (d : ℕ) (U : List (List K) → ℕ → ℕ → K) (r : List (List K) → ℕ) (x : Snap.Input K) :
    Except PyErr (List (List K)) := do
  let s ← Snap.init x
  if s.cols < d then .error .valueError
  else
    let X := columns s
    pseudoHankel (X.map (project (U X) (r X))) d

variable [DecidableEq K]

/-- The post-processing of `HODMD` for the reconstruction `Y` of the innermost DMD, hankel.py
L112-129 and svd_projection.py L56-60, before the selection of the columns in hankeldmd.py
L162-164. -/
def post (m : Method K) (d : ℕ) (U : ℕ → ℕ → K) (n : ℕ) (Y : List (List K)) :
    Except PyErr (List (List K)) := do
  let y ← Hankel.post m d Y
  pure (y.map (lift U n))

end Verif.Hodmd
