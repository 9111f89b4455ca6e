import Verif.Model.Py
import Verif.Spec.LinAlg
import Mathlib.Data.Real.Basic

/-!
# Model of `OptDMD`

Source: `/repo/pydmd/optdmd.py`. `compute_svd` and `scipy.linalg.eig` are represented by their
results. Total least squares (`tlsq_rank`) is not applied.
-/

set_option autoImplicit false

namespace Verif.OptDmd

open Verif Verif.LinAlg Matrix

/-- The two precisions known to `pinv_diag`, optdmd.py L29-30 (complex types by their parts). -/
inductive Prec
  | single
  | double
  deriving DecidableEq

/-- `rcond`, optdmd.py L30-31, with `np.finfo(t).eps`. -/
noncomputable def rcond : Prec → ℝ
  | .single => 100 * (1 / 2 ^ 23)
  | .double => 10000 * (1 / 2 ^ 52)

section

variable {m n p r : Type} [Fintype m] [Fintype n] [Fintype p] [Fintype r] [DecidableEq p]
  [DecidableEq r]

open Classical in
/-- `pinv_diag` for a real array, optdmd.py L21-37. -/
noncomputable def pinvDiag (q : Prec) (x : p → ℝ) : Matrix p p ℂ :=
  rdiag fun i => if rcond q < x i then (x i)⁻¹ else 0

/-- `x > rcond` for a complex `x` in numpy: the real parts are compared, then the imaginary ones. -/
def Gt (x : ℂ) (c : ℝ) : Prop := c < x.re ∨ x.re = c ∧ 0 < x.im

open Classical in
/-- `pinv_diag` for a complex array, optdmd.py L21-37: `y` is an array of floats (L33), so the
assignment L35 keeps the real parts of the reciprocals only. -/
noncomputable def pinvDiagC (q : Prec) (x : r → ℂ) : Matrix r r ℂ :=
  rdiag fun i => if Gt (x i) (rcond q) then ((x i)⁻¹).re else 0

/-- `Z`, optdmd.py L89-91; `s` and `V` from `compute_svd(X, -1)`. -/
noncomputable def matZ (q : Prec) (Y : Matrix m n ℂ) (s : p → ℝ) (V : Matrix n p ℂ) : Matrix m n ℂ :=
  Y * V * rdiag s * pinvDiag q s * Vᴴ

/-- `Q`, optdmd.py L95-97; `Uz` from `compute_svd(Z, svd_rank)`. -/
noncomputable def matQ (q : Prec) (Y : Matrix m n ℂ) (U : Matrix m p ℂ) (s : p → ℝ) (V : Matrix n p ℂ)
    (Uz : Matrix m r ℂ) : Matrix m r ℂ :=
  (Uzᴴ * Y * V * pinvDiag q s * Uᴴ)ᴴ

/-- `self._Atilde`, optdmd.py L99. -/
noncomputable def atilde (Q Uz : Matrix m r ℂ) : Matrix r r ℂ := Qᴴ * Uz

/-- `right_vecs`, optdmd.py L117-119: the modes with `factorization="evd"`; `vals` and `W` are the
eigenvalues and right eigenvectors from `eig(Atilde)`. -/
noncomputable def rightVecs (q : Prec) (Uz Q : Matrix m r ℂ) (vals : r → ℂ) (W : Matrix r r ℂ) :
    Matrix m r ℂ :=
  Uz * atilde Q Uz * W * pinvDiagC q vals

/-- `left_vecs`, optdmd.py L122-127; `WL` are the left eigenvectors from `eig`. -/
noncomputable def leftVecs (q : Prec) (Uz Q : Matrix m r ℂ) (vals : r → ℂ) (WL W : Matrix r r ℂ) :
    Matrix m r ℂ :=
  let left := Q * WL * pinvDiagC q vals
  let d : r → ℂ := fun i => (leftᴴ * rightVecs q Uz Q vals W) i i
  left * pinvDiagC q d

/-- The argument `factorization` (not validated by the constructor). -/
inductive Factorization
  | svd
  | evd
  | other
  deriving DecidableEq

/-- The attributes `_output_space` and `_input_space` after `fit`, optdmd.py L212-223, or before it
(L174-175). With `"evd"` the input space is the array of the eigenvalues. -/
inductive Spaces (m r : Type)
  | unset
  | svd (Uz Q : Matrix m r ℂ)
  | evd (modes : Matrix m r ℂ) (eigs : r → ℂ)

/-- The attributes after `fit`, optdmd.py L212-223. -/
noncomputable def fitSpaces (f : Factorization) (q : Prec) (Uz Q : Matrix m r ℂ) (vals : r → ℂ)
    (W : Matrix r r ℂ) : Spaces m r :=
  match f with
  | .svd => .svd Uz Q
  | .evd => .evd (rightVecs q Uz Q vals W) vals
  | .other => .unset

/-- `predict`, optdmd.py L227-249, for a matrix of inputs. `self._eigs` is nowhere assigned
(dmdbase.py L67 is an attribute of another class). With an unknown factorization `Y` is unbound. -/
noncomputable def predict {k : Type} [Fintype k] (f : Factorization) (sp : Spaces m r) (X : Matrix m k ℂ) :
    Except PyErr (Matrix m k ℂ) :=
  match f with
  | .svd => match sp with
    | .svd Uz Q => .ok (Uz * Qᴴ * X)
    | _ => .error .attributeError
  | .evd => .error .attributeError
  | .other => .error .unboundLocalError

/-- `modes`, optdmd.py L183-185; `none` is Python's `None`. -/
def modes (sp : Spaces m r) : Option (Matrix m r ℂ) :=
  match sp with
  | .unset => none
  | .svd Uz _ => some Uz
  | .evd M _ => some M

end

end Verif.OptDmd
