import Verif.Model.Param
import Mathlib.Analysis.Complex.Basic
import Mathlib.Algebra.BigOperators.Group.Finset.Basic

/-!
# The POD of parametric DMD

`/repo/pydmd/paramdmd.py` L381-389 calls `fit`, `reduce` and L556-558 `expand` of an `ezyrb.POD`. The package is not part of the
repository; modelled is what it documents: `reduce(M) = modes^H M` and `expand(v) = modes v`.
-/

set_option autoImplicit false

namespace Verif.Param

open Verif

/-- A POD with `r` modes of `n` entries, `U a i` entry `a` of mode `i`. -/
noncomputable def podOf (n r : ℕ) (U : ℕ → ℕ → ℂ) : Pod ℂ where
  reduce M := ⟨r, M.cols, fun i j => ∑ a ∈ Finset.range n, star (U a i) * M.get a j⟩
  expand v := (List.range n).map fun a => ∑ i ∈ Finset.range r, U a i * v.getD i 0

end Verif.Param
