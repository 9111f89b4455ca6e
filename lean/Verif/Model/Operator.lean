import Verif.Model.Py
import Verif.Spec.LinAlg
import Mathlib.Analysis.SpecialFunctions.Pow.Real
import Mathlib.Analysis.Complex.Basic
import Mathlib.Data.Prod.Lex

/-!
# Model of `DMDOperator` (and of the linear-algebra parts of `DMD`)

Source: `/repo/pydmd/dmdoperator.py`, `/repo/pydmd/dmd.py`, `/repo/pydmd/utils.py` L119-152.

Matrices are exact complex matrices. The factors `U, s, V` are whatever `compute_svd` returned
(`V` by columns). `np.reciprocal(0)` is `inf` in numpy and 0 here: theorems using the
reciprocal assume nonzero singular values.
-/

namespace Verif.Operator

open Verif Verif.LinAlg Matrix

variable {m n r : Type} [Fintype m] [Fintype n] [Fintype r] [DecidableEq r] [DecidableEq n]

/-- The Tikhonov-modified singular values `(s**2 + t * norm_X) * reciprocal(s)`,
dmdoperator.py L172-175 and L266-269; `tik` is `(tikhonov_regularization, norm_X)`. -/
noncomputable def tikSigma (tik : Option (ℝ × ℝ)) (s : r → ℝ) : r → ℝ :=
  match tik with
  | none => s
  | some (t, nX) => fun i => (s i ^ 2 + t * nX) * (s i)⁻¹

/-- `_least_square_operator`, dmdoperator.py L151-176:
`multi_dot([U.T.conj(), Y, V]) * reciprocal(s)` (broadcast over columns). -/
noncomputable def leastSquareOperator (tik : Option (ℝ × ℝ)) (U : Matrix m r ℂ) (s : r → ℝ)
    (V : Matrix n r ℂ) (Y : Matrix m n ℂ) : Matrix r r ℂ :=
  Uᴴ * Y * V * rdiag fun i => (tikSigma tik s i)⁻¹

/-- The attribute `_rescale_mode` when `_compute_eigenquantities` runs: `None`, a numpy array, or
anything else (`'auto'` has been replaced by the singular values, dmdoperator.py L93-94). -/
inductive Rescale
  | none
  | array (l : List ℝ)
  | other

/-- `np.diag(np.power(factors, 0.5))` (for non-negative factors). -/
noncomputable def factorsSqrt (r : ℕ) (l : List ℝ) : Matrix (Fin r) (Fin r) ℂ :=
  rdiag fun i => Real.sqrt (l.getD i 0)

/-- `np.diag(np.power(factors, -0.5))` with the rows of zero factors zeroed, L193-199. -/
noncomputable def factorsInvSqrt (r : ℕ) (l : List ℝ) : Matrix (Fin r) (Fin r) ℂ :=
  rdiag fun i => if l.getD i 0 = 0 then 0 else (Real.sqrt (l.getD i 0))⁻¹

/-- The matrix `Ahat` whose eigenvalues are computed, dmdoperator.py L184-212. -/
noncomputable def scaledOperator {r : ℕ} (mode : Rescale) (A : Matrix (Fin r) (Fin r) ℂ) :
    Except PyErr (Matrix (Fin r) (Fin r) ℂ) :=
  match mode with
  | .none => .ok A
  | .array l =>
      if l.length ≠ r then .error .valueError
      else .ok (factorsInvSqrt r l * A * factorsSqrt r l)
  | .other => .error .valueError

/-- The matrix `W` from the eigenvectors `E` of `Ahat` (by columns), dmdoperator.py L258-263. -/
noncomputable def modeCoefficients {r : ℕ} (mode : Rescale) (E : Matrix (Fin r) (Fin r) ℂ) :
    Matrix (Fin r) (Fin r) ℂ :=
  match mode with
  | .array l => factorsSqrt r l * E
  | _ => E

/-- `_compute_modes`, dmdoperator.py L246-281. -/
noncomputable def computeModes (exact : Bool) (tik : Option (ℝ × ℝ)) (Y : Matrix m n ℂ)
    (U : Matrix m r ℂ) (s : r → ℝ) (V : Matrix n r ℂ) (W : Matrix r r ℂ) : Matrix m r ℂ :=
  if exact then Y * V * (rdiag fun i => (tikSigma tik s i)⁻¹) * W else U * W

/-- The attribute `sorted_eigs`. -/
inductive SortedEigs
  | off        -- `False` or `None`
  | abs
  | real
  | other
  deriving DecidableEq

/-- The key of `sorted_eigs='real'`, dmdoperator.py L222-226: compared lexicographically. -/
def realKey (z : ℂ) : ℝ ×ₗ ℝ := toLex (z.re, z.im)

/-- The sorting step, dmdoperator.py L214-244: Python's stable `sorted` on pairs (eigenvalue,
eigenvector). -/
noncomputable def sortEigs {E : Type} (mode : SortedEigs) (pairs : List (ℂ × E)) :
    Except PyErr (List (ℂ × E)) :=
  match mode with
  | .off => .ok pairs
  | .abs => .ok (pairs.mergeSort fun a b => decide (‖a.1‖ ≤ ‖b.1‖))
  | .real => .ok (pairs.mergeSort fun a b => decide (realKey a.1 ≤ realKey b.1))
  | .other => .error .valueError

/-- The projection `V[:rank].conj().T.dot(V[:rank])` of `compute_tlsq`, utils.py L148-150, where
`V` (here by columns) are the right singular vectors. -/
def tlsqProj {k rank : ℕ} (V : Matrix n (Fin k) ℂ) (h : rank ≤ k) : Matrix n n ℂ :=
  let Vr : Matrix n (Fin rank) ℂ := V.submatrix id (Fin.castLE h)
  Vr * Vrᴴ

/-- `compute_tlsq`, utils.py L119-152; `V` are the right singular vectors of the stacked matrix.
`tlsq_rank` is a natural number (documented: zero or positive). -/
def computeTlsq {k : ℕ} (V : Matrix n (Fin k) ℂ) (X Y : Matrix m n ℂ)
    (tlsqRank : ℕ) : Matrix m n ℂ × Matrix m n ℂ :=
  if tlsqRank = 0 then (X, Y)
  else
    let P := tlsqProj V (min_le_right tlsqRank k)
    (X * P, Y * P)

/-- `DMD.predict`, dmd.py L84-94; `P` is `pinv(modes)`. -/
def predict (modes : Matrix m r ℂ) (eigs : r → ℂ) (P : Matrix r m ℂ) (X : Matrix m n ℂ) :
    Matrix m n ℂ := modes * diagonal eigs * P * X

/-- `np.vander(eigs, N, increasing=True)`, dmdbase.py L674. -/
def vander (eigs : r → ℂ) (N : ℕ) : Matrix r (Fin N) ℂ := fun i j => eigs i ^ (j : ℕ)

/-- `P` of `_optimal_dmd_matrices`, dmdbase.py L676-679. -/
def optP (modes : Matrix m r ℂ) (V : Matrix r n ℂ) : Matrix r r ℂ :=
  fun i j => (modesᴴ * modes) i j * star ((V * Vᴴ) i j)

/-- `q` of `_optimal_dmd_matrices` with `exact=True`, dmdbase.py L681-688. -/
def optQExact (modes : Matrix m r ℂ) (V : Matrix r n ℂ) (snaps : Matrix m n ℂ) : r → ℂ :=
  fun i => star ((V * snapsᴴ * modes) i i)

/-- `q` of `_optimal_dmd_matrices` with `exact=False`, dmdbase.py L689-708; `V'` is the
Vandermonde matrix cut to the columns of the matrix `X` whose truncated SVD is `s, VX`; `E` are
the eigenvectors of the operator. -/
def optQProjected {p : Type} [Fintype p] (V' : Matrix r p ℂ) (VX : Matrix p r ℂ) (s : r → ℝ)
    (E : Matrix r r ℂ) : r → ℂ :=
  fun i => star ((V' * VX * rdiag s * E) i i)

/-- The attribute `_rescale_mode` as stored on the operator (set in dmdoperator.py L58). -/
inductive RescaleAttr
  | none
  | auto
  | array (l : List ℝ)
  | other

/-- `if self._rescale_mode == "auto": self._rescale_mode = s`, dmdoperator.py L93-94. -/
def RescaleAttr.resolve (a : RescaleAttr) (s : List ℝ) : RescaleAttr :=
  match a with
  | .auto => .array s
  | a => a

/-- The attribute as `_compute_eigenquantities` sees it, dmdoperator.py L184-212. -/
def RescaleAttr.mode : RescaleAttr → Rescale
  | .none => .none
  | .array l => .array l
  | .auto => .other
  | .other => .other

/-- The scaling part of `compute_operator`, dmdoperator.py L93-98: the matrix passed to `eig` and
the stored attribute afterwards. -/
noncomputable def fitScaled {r : ℕ} (a : RescaleAttr) (s : Fin r → ℝ)
    (A : Matrix (Fin r) (Fin r) ℂ) : Except PyErr (Matrix (Fin r) (Fin r) ℂ) × RescaleAttr :=
  let a' := a.resolve (List.ofFn s)
  (scaledOperator a'.mode A, a')

/-- The backward operator of `forward_backward=True`, dmdoperator.py L84-87: the same
least-squares formula with the roles of `X` and `Y` exchanged and the SVD of `Y`. -/
noncomputable def backwardOperator (tik : Option (ℝ × ℝ)) (bU : Matrix m r ℂ) (bs : r → ℝ)
    (bV : Matrix n r ℂ) (X : Matrix m n ℂ) : Matrix r r ℂ := leastSquareOperator tik bU bs bV X

/-- `S` is a result of `sqrtm(atilde.dot(inv(atilde_back)))`, dmdoperator.py L88; `sqrtm` returns
some square root of its argument. -/
def IsForwardBackward (Af Ab S : Matrix r r ℂ) : Prop := S * S = Af * Ab⁻¹

end Verif.Operator
