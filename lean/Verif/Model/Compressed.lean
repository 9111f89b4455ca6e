import Verif.Model.Operator
import Verif.Model.Rank

/-!
# Model of `CDMD` and `RDMD`

Source: `/repo/pydmd/cdmd.py`, `/repo/pydmd/rdmd.py`, `/repo/pydmd/utils.py` L194-268.

Snapshots are a complex matrix with one column per instant. Random numbers are parameters
(`Draws`), `np.linalg.qr` is a parameter (`QrFun`). `compute_svd` is represented by its result.
-/

set_option autoImplicit false

namespace Verif.Compressed

open Verif Verif.LinAlg Matrix

/-- The argument `compression_matrix` of `CDMD`, cdmd.py L103-107: a numpy array (2-D, with its
shape), one of the strings, or anything else. -/
inductive Compression
  | array (rows cols : ℕ) (C : ℕ → ℕ → ℂ)
  | uniform
  | sparse
  | normal
  | sample
  | other

/-- What the random generator returns in cdmd.py L201-211 for `t` snapshots of `n` values: the
three random matrices of shape `(t, n)`, and the `t` indices of `np.random.choice`. -/
structure Draws (t n : ℕ) where
  uniform : Matrix (Fin t) (Fin n) ℂ
  sparse : Matrix (Fin t) (Fin n) ℂ
  normal : Matrix (Fin t) (Fin n) ℂ
  choice : Fin t → Fin n

/-- `C = np.zeros(C_shape); C[np.arange(t), choice] = 1.0`, cdmd.py L208-212. -/
def sampleMatrix {t n : ℕ} (choice : Fin t → Fin n) : Matrix (Fin t) (Fin n) ℂ :=
  Matrix.of fun i j => if j = choice i then 1 else 0

/-- `_compress_snapshots`, cdmd.py L189-217: the number of rows and the compressed snapshots.
A wrong number of columns makes `C.dot` raise `ValueError`. `np.random.choice` without
replacement raises `ValueError` when more indices than rows are wanted (always so here when `n`
is 0 and `t` is not). With any other value no branch assigns `C`. -/
def compressSnapshots {n t : ℕ} (c : Compression) (g : Draws t n) (S : Matrix (Fin n) (Fin t) ℂ) :
    Except PyErr (Σ k, Matrix (Fin k) (Fin t) ℂ) :=
  match c with
  | .array rows cols C =>
    if cols ≠ n then .error .valueError
    else .ok ⟨rows, (Matrix.of fun (i : Fin rows) (j : Fin n) => C i j) * S⟩
  | .uniform => .ok ⟨t, g.uniform * S⟩
  | .sparse => .ok ⟨t, g.sparse * S⟩
  | .normal => .ok ⟨t, g.normal * S⟩
  | .sample => if n < t then .error .valueError else .ok ⟨t, sampleMatrix g.choice * S⟩
  | .other => .error .unboundLocalError

/-- `snapshots[:, :-1]`, cdmd.py L232. -/
def init {a : Type} {t : ℕ} (S : Matrix a (Fin (t + 1)) ℂ) : Matrix a (Fin t) ℂ :=
  S.submatrix id Fin.castSucc

/-- `snapshots[:, 1:]`, cdmd.py L233 and L236. -/
def tail {a : Type} {t : ℕ} (S : Matrix a (Fin (t + 1)) ℂ) : Matrix a (Fin t) ℂ :=
  S.submatrix id Fin.succ

section Operator

variable {m n k : Type} [Fintype m] [Fintype n] [Fintype k] {r : ℕ}

/-- The part of `CDMDOperator.compute_operator` before the eigenvalues, cdmd.py L80-92 (without
`forward_backward`): the matrix passed to `eig`. `_norm_X` stays `None` (dmdoperator.py L61), so
the Tikhonov branch of `_least_square_operator` (dmdoperator.py L171-175) multiplies a number
with `None`. `rescale_mode` is passed on as it is, `'auto'` included. -/
noncomputable def computeOperator (tik : Option ℝ) (mode : Operator.RescaleAttr)
    (U : Matrix k (Fin r) ℂ) (s : Fin r → ℝ) (V : Matrix n (Fin r) ℂ) (cY : Matrix k n ℂ) :
    Except PyErr (Matrix (Fin r) (Fin r) ℂ) :=
  match tik with
  | some _ => .error .typeError
  | none => Operator.scaledOperator mode.mode (Operator.leastSquareOperator none U s V cY)

/-- `_compute_modes(nonCompressedY, U, s, V)`, cdmd.py L92 with `exact=True` and no Tikhonov
regularisation, dmdoperator.py L258-281; `W` as in `Operator.modeCoefficients`. -/
noncomputable def computeModes (Y : Matrix m n ℂ) (s : Fin r → ℝ) (V : Matrix n (Fin r) ℂ)
    (W : Matrix (Fin r) (Fin r) ℂ) : Matrix m (Fin r) ℂ :=
  Y * V * (rdiag fun i => (s i)⁻¹) * W

end Operator

/-- The first result of `np.linalg.qr` (mode `reduced`): a matrix with `min(a, b)` columns. -/
abbrev QrFun := (a b : ℕ) → Matrix (Fin a) (Fin b) ℂ → Matrix (Fin a) (Fin (min a b)) ℂ

/-- The power iterations of `compute_rqb`, utils.py L256-260: the sampling matrix `Y` after `p`
rounds (number of columns and entries). -/
noncomputable def powerIterations (qr : QrFun) {n t : ℕ} (X : Matrix (Fin n) (Fin t) ℂ) :
    ℕ → (Σ l, Matrix (Fin n) (Fin l) ℂ) → Σ l, Matrix (Fin n) (Fin l) ℂ
  | 0, Y => Y
  | p + 1, Y =>
    let Q := qr n Y.1 Y.2
    let Z := qr t (min n Y.1) (Xᴴ * Q)
    powerIterations qr X p ⟨min t (min n Y.1), X * Z⟩

/-- `compute_rqb` with the test matrix `T` of `l` columns, utils.py L253-268: the orthonormal
basis `Q`. -/
noncomputable def rqbQ (qr : QrFun) {n t l : ℕ} (X : Matrix (Fin n) (Fin t) ℂ)
    (T : Matrix (Fin t) (Fin l) ℂ) (powerIters : ℕ) : Σ l', Matrix (Fin n) (Fin l') ℂ :=
  let Y := powerIterations qr X powerIters ⟨l, X * T⟩
  ⟨min n Y.1, qr n Y.1 Y.2⟩

/-- The compressed snapshots `B = Q.conj().T.dot(X)`, utils.py L266. -/
noncomputable def rqbB (qr : QrFun) {n t l : ℕ} (X : Matrix (Fin n) (Fin t) ℂ)
    (T : Matrix (Fin t) (Fin l) ℂ) (powerIters : ℕ) : Matrix (Fin (rqbQ qr X T powerIters).1) (Fin t) ℂ :=
  (rqbQ qr X T powerIters).2ᴴ * X

end Verif.Compressed
