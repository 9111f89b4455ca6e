import Verif.Model.HavokSim
import Mathlib.Data.Matrix.Block
import Mathlib.Data.Matrix.ColumnRowPartitioned

/-!
# The matrices of `scipy.signal.lsim`

Source: `/repo/pydmd/havok.py` L780-801 calls `scipy.signal.lsim` with the default `interp=True`. SciPy
is not in the repository; its step is transcribed here from its documentation and assumed (DESIGN.md,
section 3).
-/

set_option autoImplicit false

namespace Verif.HavokSim

open Verif Matrix

variable {p q : ℕ}

/-- The matrix whose exponential `lsim` computes for a step `dt`:
`[[A dt, B dt, 0], [0, 0, I], [0, 0, 0]]`. -/
noncomputable def stepMatrix (A : Matrix (Fin p) (Fin p) ℂ) (B : Matrix (Fin p) (Fin q) ℂ) (dt : ℝ) :
    Matrix (Fin p ⊕ (Fin q ⊕ Fin q)) (Fin p ⊕ (Fin q ⊕ Fin q)) ℂ :=
  fromBlocks ((dt : ℂ) • A) (fromCols ((dt : ℂ) • B) 0) 0 (fromBlocks 0 1 0 0)

/-- The gains of `lsim`: with `E` the exponential, the input at the end of the step has the block
`E[x, u1 - u0]` and the input at its beginning the block `E[x, u0]` minus that. (The state has the
block `E[x, x]`, which is `flow A dt`: `Verif.HavokSim.exp_state`.) -/
noncomputable def scipyGains (A : Matrix (Fin p) (Fin p) ℂ) (B : Matrix (Fin p) (Fin q) ℂ) : Gains p q where
  in0 dt := (NormedSpace.exp (stepMatrix A B dt)).submatrix Sum.inl (Sum.inr ∘ Sum.inl) -
    (NormedSpace.exp (stepMatrix A B dt)).submatrix Sum.inl (Sum.inr ∘ Sum.inr)
  in1 dt := (NormedSpace.exp (stepMatrix A B dt)).submatrix Sum.inl (Sum.inr ∘ Sum.inr)

end Verif.HavokSim
