import Verif.Model.Py
import Verif.Spec.LinAlg
import Mathlib.Data.Real.Basic

/-!
# Model of physics-informed DMD: unitary, symmetric, triangular, banded and tridiagonal manifolds

Sources: `/repo/pydmd/pidmd_utils.py` L18-127, L217-269 and `/repo/pydmd/pidmd.py` L98-232.
Exact arithmetic. The results of `svd`, `eig`, `pinv`, `rq`, `lstsq` and `lsqr` are parameters,
described by their specifications in the theorems. Row and column indexes are `Fin p` where the
code uses their order.
-/

set_option autoImplicit false

namespace Verif.Pidmd

open Matrix LinAlg Verif

variable {n m r k : Type} [Fintype n] [Fintype m] [Fintype r] [Fintype k] [DecidableEq n]
  [DecidableEq m] [DecidableEq r] [DecidableEq k]

/-- `Uyx, _, Vyx = compute_svd(Yproj Xproj^H, -1)`; `atilde = Uyx Vyx^H`, pidmd_utils.py L27-28.
The matrix that is decomposed, L25-27. -/
def crossCov (U : Matrix n r ℂ) (X Y : Matrix n m ℂ) : Matrix r r ℂ := (Uᴴ * Y) * (Uᴴ * X)ᴴ

/-- `atilde` of `compute_unitary`, pidmd_utils.py L28, from the SVD of `crossCov`. -/
def unitaryAtilde (P Q : Matrix r r ℂ) : Matrix r r ℂ := P * Qᴴ

/-- The full operator from `atilde`, pidmd.py L203-213 (case 1): the modes are `U W` with `W` the
eigenvectors of `atilde`, and `A = modes diag(eigs) pinv(modes)`. -/
def fullOperator (U : Matrix n r ℂ) (W : Matrix r r ℂ) (eigs : r → ℂ) (P : Matrix r n ℂ) :
    Matrix n n ℂ := U * W * diagonal eigs * P

/-- `C = U^H Y V`, pidmd_utils.py L111. -/
def coeffs (U : Matrix n k ℂ) (Y : Matrix n m ℂ) (V : Matrix m k ℂ) : Matrix k k ℂ := Uᴴ * Y * V

/-- The upper triangle filled by the loops for the symmetric manifold, pidmd_utils.py L120-125,
for the leading `r` rows and columns. `np.diag` of a real array has a real dtype: numpy drops the
imaginary part of what is stored into it (with a `ComplexWarning`). The code divides by zero
(giving `NaN`) where Lean's `/` gives 0; theorems assume positive singular values. -/
noncomputable def symUpper {q : ℕ} (s : Fin q → ℝ) (C : Matrix (Fin q) (Fin q) ℂ) :
    Matrix (Fin q) (Fin q) ℂ :=
  Matrix.of fun i j =>
    if i = j then (((C i i).re / s i : ℝ) : ℂ)
    else if i < j then
      ((((s i * star (C j i) + s j * C i j) / ((s i : ℂ) ^ 2 + (s j : ℂ) ^ 2) : ℂ).re : ℝ) : ℂ)
    else 0

/-- `atilde += atilde.conj().T - np.diag(np.diag(atilde.real))`, pidmd_utils.py L126. -/
noncomputable def symAtilde {q : ℕ} (s : Fin q → ℝ) (C : Matrix (Fin q) (Fin q) ℂ) :
    Matrix (Fin q) (Fin q) ℂ :=
  symUpper s C + ((symUpper s C)ᴴ - diagonal fun i => (((symUpper s C) i i).re : ℂ))

/-- The upper triangle for the skew-symmetric manifold, pidmd_utils.py L113-118 (the dtype is
complex because of the factor `1j`). -/
noncomputable def skewUpper {q : ℕ} (s : Fin q → ℝ) (C : Matrix (Fin q) (Fin q) ℂ) :
    Matrix (Fin q) (Fin q) ℂ :=
  Matrix.of fun i j =>
    if i = j then Complex.I * (((C i i).im / s i : ℝ) : ℂ)
    else if i < j then
      (-(s i : ℂ) * star (C j i) + s j * C i j) / ((s i : ℂ) ^ 2 + (s j : ℂ) ^ 2)
    else 0

/-- `atilde += -atilde.conj().T - 1j * np.diag(np.diag(atilde.imag))`, pidmd_utils.py L119. -/
noncomputable def skewAtilde {q : ℕ} (s : Fin q → ℝ) (C : Matrix (Fin q) (Fin q) ℂ) :
    Matrix (Fin q) (Fin q) ℂ :=
  skewUpper s C + (-(skewUpper s C)ᴴ - diagonal fun i => Complex.I * (((skewUpper s C) i i).im : ℂ))

/-- `compute_symmetric` with `r = q`, pidmd_utils.py L110-127: only the leading `q` rows and columns
are kept (`[:r, :r]` and the ranges of the loops). -/
noncomputable def computeSymmetric {p : ℕ} (skew : Bool) (q : ℕ) (hq : q ≤ p)
    (U : Matrix n (Fin p) ℂ) (s : Fin p → ℝ) (V : Matrix m (Fin p) ℂ) (Y : Matrix n m ℂ) :
    Matrix (Fin q) (Fin q) ℂ :=
  let C := (coeffs U Y V).submatrix (Fin.castLE hq) (Fin.castLE hq)
  if skew then skewAtilde (s ∘ Fin.castLE hq) C else symAtilde (s ∘ Fin.castLE hq) C

/-- `np.triu`. -/
def triu {p q : ℕ} (M : Matrix (Fin p) (Fin q) ℂ) : Matrix (Fin p) (Fin q) ℂ :=
  Matrix.of fun i j => if (i : ℕ) ≤ (j : ℕ) then M i j else 0

/-- `compute_uppertriangular`, pidmd_utils.py L38-40, from the factors of `rq(X)` (`X = R Q`) and
the pseudo-inverse of `R`: `lstsq(R.T, Ut.T).T` is the minimal-norm solution `Ut pinv(R)`. -/
def upperTriangular {p q : ℕ} (Y : Matrix (Fin p) m ℂ) (Q : Matrix (Fin q) m ℂ)
    (Rinv : Matrix (Fin q) (Fin p) ℂ) : Matrix (Fin p) (Fin p) ℂ := triu (Y * Qᴴ) * Rinv

/-- `np.flipud`. -/
def flipud {p : ℕ} {m : Type} (M : Matrix (Fin p) m ℂ) : Matrix (Fin p) m ℂ :=
  Matrix.of fun i j => M (Fin.rev i) j

/-- `np.rot90(M, 2)`. -/
def rot180 {p q : ℕ} (M : Matrix (Fin p) (Fin q) ℂ) : Matrix (Fin p) (Fin q) ℂ :=
  Matrix.of fun i j => M (Fin.rev i) (Fin.rev j)

/-- The argument `manifold_opt` of the diagonal manifold. `arr` is an array of shape `(nx, 2)`;
`other` is anything else (among others arrays of other shapes). -/
inductive Opt (p : ℕ)
  | none
  | int (k : ℤ)
  | pair (a b : ℤ)
  | arr (f : Fin p → ℤ × ℤ)
  | other

/-- The widths `ind_mat`, pidmd_utils.py L52-75. -/
def widths {p : ℕ} (o : Opt p) : Except PyErr (Fin p → ℤ × ℤ) :=
  match o with
  | .none => .ok fun _ => (1, 1)
  | .int k => if 0 < k then .ok fun _ => (k, k) else .error .valueError
  | .pair a b => if 0 < a ∧ 0 < b then .ok fun _ => (a, b) else .error .valueError
  | .arr f => if ∀ i, 0 < (f i).1 ∧ 0 < (f i).2 then .ok f else .error .valueError
  | .other => .error .valueError

/-- `l1s`, pidmd_utils.py L82. -/
def l1 {p : ℕ} (w : Fin p → ℤ × ℤ) (i : Fin p) : ℤ := max 0 ((i : ℤ) - (w i).1 + 1)

/-- `l2s`, pidmd_utils.py L83. -/
def l2 {p : ℕ} (w : Fin p → ℤ × ℤ) (i : Fin p) : ℤ := min (p : ℤ) ((i : ℤ) + (w i).2)

/-- The columns of row `i` that are fitted: `l1 ≤ j < l2`. -/
def Cols {p : ℕ} (w : Fin p → ℤ × ℤ) (i : Fin p) : Type :=
  {j : Fin p // l1 w i ≤ (j : ℤ) ∧ (j : ℤ) < l2 w i}

instance {p : ℕ} (w : Fin p → ℤ × ℤ) (i : Fin p) : Fintype (Cols w i) :=
  inferInstanceAs (Fintype {j : Fin p // l1 w i ≤ (j : ℤ) ∧ (j : ℤ) < l2 w i})

/-- `C = X[l1:l2].T`, pidmd_utils.py L86. -/
def bandData {p : ℕ} {m : Type} (w : Fin p → ℤ × ℤ) (X : Matrix (Fin p) m ℂ) (i : Fin p) :
    Matrix m (Cols w i) ℂ := Matrix.of fun t j => X j.1 t

/-- `A_sparse.toarray()`, pidmd_utils.py L89-97, from the solutions of the rows. -/
def banded {p : ℕ} (w : Fin p → ℤ × ℤ) (R : (i : Fin p) → Cols w i → ℂ) :
    Matrix (Fin p) (Fin p) ℂ :=
  Matrix.of fun i j =>
    if h : l1 w i ≤ (j : ℤ) ∧ (j : ℤ) < l2 w i then R i ⟨j, h⟩ else 0

/-- Outcome of the last part of `compute_diagonal` (L96-100) and `compute_symtridiagonal`
(L264-268): without `compute_A`, `scipy.sparse.linalg.eigs(A_sparse, k=r)` is called, which
raises `TypeError` for a sparse `p x p` matrix if `k >= p - 1` (documented behaviour of scipy,
assumed). -/
def sparseEigs (computeA : Bool) (p rank : ℕ) : Except PyErr Unit :=
  if computeA then .ok () else if p ≤ rank + 1 then .error .typeError else .ok ()

/-- The full operator for a structured `A` is the one computed, pidmd.py L216-218 (case 2). The
manifolds that need `compute_A`, pidmd.py L87-96 and L111-161. -/
def needsA (manifold : String) : Bool :=
  manifold ∈ ["uppertriangular", "lowertriangular", "toeplitz", "hankel", "BC", "BCTB", "BCCB",
    "BCCBunitary", "BCCBsymmetric", "BCCBskewsymmetric"]

/-- The manifolds that need no `compute_A`. -/
def others : List String :=
  ["unitary", "diagonal", "symmetric", "skewsymmetric", "circulant", "circulant_unitary",
    "circulant_symmetric", "circulant_skewsymmetric", "symmetric_tridiagonal"]

/-- The checks of `_compute_procrustes` before any computation, pidmd.py L109-179, for a
`manifold_opt` that is `None` (0), a tuple of length two (1) or something else (2). -/
def procrustesCheck (manifold : String) (computeA : Bool) (opt : Fin 3) : Except PyErr Unit :=
  if manifold ∈ others then .ok ()
  else if needsA manifold then
    if ¬ computeA then .error .valueError
    else if manifold ∈ ["BC", "BCTB", "BCCB", "BCCBunitary", "BCCBsymmetric", "BCCBskewsymmetric"]
        ∧ opt ≠ 1 then .error .valueError
    else .ok ()
  else .error .valueError

/-! ### symmetric tridiagonal, real data -/

/-- Inner product of two rows. -/
def ip {m : Type} [Fintype m] (x y : m → ℝ) : ℝ := ∑ t, x t * y t

/-- Unknowns: the `p` diagonal and the `p - 1` off-diagonal entries, `c[:nx]` and `c[nx:]`. -/
abbrev Unk (p : ℕ) := Fin p ⊕ Fin (p - 1)

/-- Row `j` of an off-diagonal unknown. -/
def lo {p : ℕ} (j : Fin (p - 1)) : Fin p := ⟨j, by omega⟩

/-- Row `j + 1` of an off-diagonal unknown. -/
def hi {p : ℕ} (j : Fin (p - 1)) : Fin p := ⟨j + 1, by omega⟩

/-- `T2e = np.diag(X[1:].dot(X[:-1].T))`, pidmd_utils.py L230. -/
def T2e {p : ℕ} {m : Type} [Fintype m] (X : Fin p → m → ℝ) (j : Fin (p - 1)) : ℝ :=
  ip (X (hi j)) (X (lo j))

/-- The matrix `T`, pidmd_utils.py L225-246 (`spdiags` aligns the data by columns: entry
`(j + 1, j)` and entry `(j, j)` of `T2` are `T2e[j]`; entry `(j, j + 1)` of `T3_offdiag` is
`T3e[j + 1]`, which is `X[j + 2] . X[j]`). -/
def tridT {p : ℕ} {m : Type} [Fintype m] (X : Fin p → m → ℝ) : Matrix (Unk p) (Unk p) ℝ :=
  Matrix.of fun a b =>
    match a, b with
    | .inl i, .inl j => if i = j then ip (X i) (X i) else 0
    | .inl i, .inr j => if i = lo j ∨ i = hi j then T2e X j else 0
    | .inr j, .inl i => if i = lo j ∨ i = hi j then T2e X j else 0
    | .inr i, .inr j =>
      if i = j then ip (X (lo i)) (X (lo i)) + ip (X (hi i)) (X (hi i))
      else if (i : ℕ) + 1 = j then ip (X (hi j)) (X (lo i))
      else if (j : ℕ) + 1 = i then ip (X (hi i)) (X (lo j))
      else 0

/-- The right-hand side `d`, pidmd_utils.py L247-254. -/
def tridD {p : ℕ} {m : Type} [Fintype m] (X Y : Fin p → m → ℝ) : Unk p → ℝ
  | .inl i => ip (X i) (Y i)
  | .inr j => ip (X (lo j)) (Y (hi j)) + ip (X (hi j)) (Y (lo j))

/-- `A_sparse`, pidmd_utils.py L257-262. -/
def tridA {p : ℕ} (c : Unk p → ℝ) : Matrix (Fin p) (Fin p) ℝ :=
  Matrix.of fun i j =>
    if i = j then c (.inl i)
    else if h : (i : ℕ) + 1 = j then c (.inr ⟨i, by omega⟩)
    else if h : (j : ℕ) + 1 = i then c (.inr ⟨j, by omega⟩)
    else 0

end Verif.Pidmd
