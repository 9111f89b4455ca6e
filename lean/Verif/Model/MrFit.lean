import Verif.Model.MrLeaves
import Verif.Model.Operator
import Mathlib.LinearAlgebra.Matrix.Charpoly.Basic
import Mathlib.Algebra.Polynomial.Roots

/-!
# Model of one node of `MrDMD.fit`: a DMD fitted to the columns of a leaf, restricted to its slow modes

Source: `/repo/pydmd/mrdmd.py` L496-510, `/repo/pydmd/dmd.py` L59-82, `/repo/pydmd/dmdbase.py` L327-334.
-/

set_option autoImplicit false

namespace Verif.MrDMD

open Verif Verif.LinAlg Verif.Operator Matrix

variable {m : Type} [Fintype m]

/-- `X` and `Y` of `DMD.fit`, dmd.py L63-65: all columns but the last, and all but the first (`shift` 0 and 1). -/
def shifted (x : List (m → ℂ)) (shift : ℕ) : Matrix m (Fin (x.length - 1)) ℂ :=
  of fun p j => x.getD ((j : ℕ) + shift) 0 p

/-- `y` is a possible value of `reconstructed_data` of a node after `fit(x)` and `select_modes`, mrdmd.py L497-509.
The node is a `DMD` (exact or projected modes, no regularization, no forward-backward) that keeps the nonzero singular
values of its data, and there is at least one (`compute_svd` never returns rank 0; with data that vanish it would divide
by 0). `np.linalg.eig` returns all eigenvalues with multiplicity and a vector of norm one for each. The amplitudes are the
least-squares solution for the first column (dmdbase.py L708-751); the deselected modes are masked, the
amplitudes of the others stay (C32). -/
def IsLeafRec (exact : Bool) (maxCycles : ℕ) (x y : List (m → ℂ)) : Prop :=
  ∃ (q : ℕ) (U : Matrix m (Fin q) ℂ) (s : Fin q → ℝ) (V : Matrix (Fin (x.length - 1)) (Fin q) ℂ)
    (W : Matrix (Fin q) (Fin q) ℂ) (eigs b : Fin q → ℂ),
    0 < q ∧ IsSVD (shifted x 0) U s V ∧ (∀ i, s i ≠ 0) ∧
    leastSquareOperator none U s V (shifted x 1) * W = W * diagonal eigs ∧
    (leastSquareOperator none U s V (shifted x 1)).charpoly.roots = Finset.univ.val.map eigs ∧
    (∀ j, normSq (fun i => W i j) = 1) ∧
    IsLstsq (computeModes exact none (shifted x 1) U s V W) (x.getD 0 0) b ∧
    y = (List.range x.length).map fun t p =>
      ∑ j, if slow ((maxCycles : ℝ) / x.length) (eigs j) then
        computeModes exact none (shifted x 1) U s V W p j * (eigs j ^ t * b j) else 0

end Verif.MrDMD
