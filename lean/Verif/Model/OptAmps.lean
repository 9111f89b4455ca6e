import Verif.Model.Operator
import Verif.Model.Time

/-!
# Model of the optimal amplitudes in the subclasses of `DMDBase`

Source: `/repo/pydmd/dmdbase.py` L672-751 and the constructors of the subclasses.
-/

set_option autoImplicit false

namespace Verif.OptAmps

open Verif Verif.LinAlg Verif.Operator Matrix

/-- The classes whose `fit` calls `_compute_amplitudes` of `DMDBase`. `FbDMD` and the
DMD inside `HankelDMD` and `HODMD` pass their argument `exact` on to `DMDBase.__init__` and count as `dmd`; `RDMD` is a
`CDMD` (rdmd.py L14). -/
inductive Cls
  /-- `DMDBase.__init__`, dmdbase.py L167-197. -/
  | dmd (exact : Bool)
  /-- `CDMD.__init__`, cdmd.py L158-182: `self._exact = True`. -/
  | cdmd
  /-- `SubspaceDMD.__init__`, subspacedmd.py L149-170: does not call `DMDBase.__init__` and sets no `_exact`. -/
  | subspace
  /-- `DMDc.__init__`, dmdc.py L199-220: `self._exact = False`. -/
  | dmdc
  /-- `EDMD.__init__`, edmd.py L216-245: `exact=True`. -/
  | edmd
  /-- `PiDMD.__init__`, pidmd.py L302-321: `exact` has the default of `DMDBase`. -/
  | pidmd

/-- The attribute `_exact`; `none` if there is none. -/
def Cls.exactAttr : Cls → Option Bool
  | .dmd e => some e
  | .cdmd => some true
  | .subspace => none
  | .dmdc => some false
  | .edmd => some true
  | .pidmd => some false

variable {m : Type} [Fintype m] {q : ℕ}

/-- `res` is a result of `_compute_amplitudes` with `opt=True`, L735-737, by `_optimal_dmd_matrices`, L672-710: `N` is the
number of timesteps, `c` the number of columns of the matrix `X` of L692-695, `s, VX` its SVD truncated to the number
of modes and `E` the eigenvectors of the operator. `np.linalg.solve` returns the solution of the equations. -/
def IsOptimal (cls : Cls) {N c : ℕ} (modes : Matrix m (Fin q) ℂ) (eigs : Fin q → ℂ) (snaps : Matrix m (Fin N) ℂ)
    (VX : Matrix (Fin c) (Fin q) ℂ) (s : Fin q → ℝ) (E : Matrix (Fin q) (Fin q) ℂ) (res : Except PyErr (Fin q → ℂ)) :
    Prop :=
  match cls.exactAttr with
  | none => res = .error .attributeError
  | some true => ∃ b, res = .ok b ∧ optP modes (vander eigs N) *ᵥ b = optQExact modes (vander eigs N) snaps
  | some false => ∃ b, res = .ok b ∧ optP modes (vander eigs N) *ᵥ b = optQProjected (vander eigs c) VX s E

end Verif.OptAmps
