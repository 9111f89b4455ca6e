import Verif.Model.Py
import Mathlib.Analysis.Complex.Basic

/-!
# Model of `differentiate`

Source: `/repo/pydmd/utils.py` L306-320. Arithmetic is exact.
-/

set_option autoImplicit false

namespace Verif.Differentiate

open Verif

/-- The argument `X`: anything that is not an array, or an array by its number of dimensions;
entries are functions of the indexes. -/
inductive In
  | notArray
  | zeroDim (x : ℂ)
  | oneDim (n : ℕ) (x : ℕ → ℂ)
  | twoDim (rows cols : ℕ) (x : ℕ → ℕ → ℂ)
  | more (ndim : ℕ)

/-- The returned array: its shape after `np.squeeze`, and its entries by row and column before
it (squeezing moves no entry). -/
structure Out where
  shape : List ℕ
  get : ℕ → ℕ → ℝ

/-- The difference formulas L317-319 for one row with `n` entries. -/
noncomputable def formula (dt : ℝ) (n : ℕ) (x : ℕ → ℂ) (j : ℕ) : ℂ :=
  if j = 0 then (-3 * x 0 + 4 * x 1 - x 2) / (2 * dt)
  else if j = n - 1 then (3 * x (n - 1) - 4 * x (n - 2) + x (n - 3)) / (2 * dt)
  else (x (j + 1) - x (j - 1)) / (2 * dt)

/-- The two-dimensional case, L316-320. `X_prime = np.empty(X.shape)` holds floats, so assigning
to it drops imaginary parts (with a `ComplexWarning`). With fewer than three columns `X[:, 2]`
raises `IndexError` (the slice assignment before it is empty). -/
noncomputable def diff2 (dt : ℝ) (rows cols : ℕ) (x : ℕ → ℕ → ℂ) : Except PyErr Out :=
  if cols < 3 then .error .indexError
  else .ok ⟨[rows, cols].filter (· ≠ 1), fun i j => (formula dt cols (x i) j).re⟩

/-- `differentiate(X, dt)`, L306-320. Indexing a 0-dimensional array raises `IndexError`. -/
noncomputable def differentiate (X : In) (dt : ℝ) : Except PyErr Out :=
  match X with
  | .notArray => .error .valueError
  | .more _ => .error .valueError
  | .zeroDim _ => .error .indexError
  | .oneDim n x => diff2 dt 1 n fun _ => x
  | .twoDim r c x => diff2 dt r c x

end Verif.Differentiate
