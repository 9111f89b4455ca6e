import Verif.Model.Operator
import Mathlib.Data.Matrix.ColumnRowPartitioned

/-!
# Model of `SubspaceDMD`

Source: `/repo/pydmd/subspacedmd.py`. Snapshots are a complex matrix with `t + 3` columns.
`np.linalg.svd` and `np.linalg.eig` are represented by what they may return (`Fit`). In exact
arithmetic `np.linalg.matrix_rank` is the number of nonzero singular values.
-/

set_option autoImplicit false

namespace Verif.Subspace

open Verif Verif.LinAlg Matrix

variable {n t : ℕ}

/-- `snapshots[:, :-3]`, `[:, 1:-2]`, `[:, 2:-1]`, `[:, 3:]` for `k = 0, 1, 2, 3`, L185-188. -/
def slice (S : Matrix (Fin n) (Fin (t + 3)) ℂ) (k : ℕ) (hk : k ≤ 3) : Matrix (Fin n) (Fin t) ℂ :=
  S.submatrix id fun j => ⟨j + k, by omega⟩

/-- `Yp`, L190. -/
def past (S : Matrix (Fin n) (Fin (t + 3)) ℂ) : Matrix (Fin n ⊕ Fin n) (Fin t) ℂ :=
  fromRows (slice S 0 (by omega)) (slice S 1 (by omega))

/-- `Yf`, L191. -/
def future (S : Matrix (Fin n) (Fin (t + 3)) ℂ) : Matrix (Fin n ⊕ Fin n) (Fin t) ℂ :=
  fromRows (slice S 2 (by omega)) (slice S 3 (by omega))

/-- `O`, L83. -/
def matO {p : ℕ} (S : Matrix (Fin n) (Fin (t + 3)) ℂ) (Vp : Matrix (Fin t) (Fin p) ℂ) :
    Matrix (Fin n ⊕ Fin n) (Fin t) ℂ :=
  future S * Vp * Vpᴴ

/-- `r`, L87-89; `R` is `matrix_rank(O)`. -/
def retained (R n : ℕ) (svdRank : ℤ) : ℕ :=
  let r := min R n
  if svdRank > 0 then min r svdRank.toNat else r

theorem retained_le (R n : ℕ) (svdRank : ℤ) : retained R n svdRank ≤ R := by
  simp only [retained]; split_ifs <;> omega

/-- `Uq1`, L91. -/
def top {R : ℕ} (Uq : Matrix (Fin n ⊕ Fin n) (Fin R) ℂ) (svdRank : ℤ) :
    Matrix (Fin n) (Fin (retained R n svdRank)) ℂ :=
  (Uq.submatrix id (Fin.castLE (retained_le R n svdRank))).toRows₁

/-- `Uq2`, L91. -/
def bottom {R : ℕ} (Uq : Matrix (Fin n ⊕ Fin n) (Fin R) ℂ) (svdRank : ℤ) :
    Matrix (Fin n) (Fin (retained R n svdRank)) ℂ :=
  (Uq.submatrix id (Fin.castLE (retained_le R n svdRank))).toRows₂

section

variable {a : Type} [Fintype a] {k : ℕ}

/-- The matrix passed to `np.linalg.eig`, L95-96: there is no Tikhonov parameter (L61) and
`rescale_mode` is used as it is, `'auto'` included. -/
noncomputable def computeOperator (mode : Operator.RescaleAttr) (U : Matrix (Fin n) (Fin k) ℂ)
    (s : Fin k → ℝ) (V : Matrix a (Fin k) ℂ) (Uq2 : Matrix (Fin n) a ℂ) :
    Except PyErr (Matrix (Fin k) (Fin k) ℂ) :=
  Operator.scaledOperator mode.mode (Operator.leastSquareOperator none U s V Uq2)

open Classical in
/-- `M` and `_compute_modes`, L98-123, with `rescale_mode=None`: a column is divided by its
eigenvalue; division by zero gives infinities and `NaN`s (`none`). -/
noncomputable def computeModes (s : Fin k → ℝ) (V : Matrix a (Fin k) ℂ) (Uq2 : Matrix (Fin n) a ℂ)
    (eigs : Fin k → ℂ) (W : Matrix (Fin k) (Fin k) ℂ) : Matrix (Fin n) (Fin k) (Option ℂ) :=
  Matrix.of fun i j => if eigs j = 0 then none
    else some ((Uq2 * V * (rdiag fun i => (s i)⁻¹) * W) i j * (eigs j)⁻¹)

end

/-- `fit` with `rescale_mode=None`, L173-208 and L66-123: the eigenvalues and modes it may leave,
for any results of the library routines with their guaranteed properties. -/
inductive Fit (S : Matrix (Fin n) (Fin (t + 3)) ℂ) (svdRank : ℤ) :
    (k : ℕ) → (Fin k → ℂ) → Matrix (Fin n) (Fin k) (Option ℂ) → Prop
  | mk {p R k : ℕ} (Up : Matrix (Fin n ⊕ Fin n) (Fin p) ℂ) (sp : Fin p → ℝ)
      (Vp : Matrix (Fin t) (Fin p) ℂ) (hp : IsSVD (past S) Up sp Vp) (hsp : ∀ i, sp i ≠ 0)
      (Uq : Matrix (Fin n ⊕ Fin n) (Fin R) ℂ) (sq : Fin R → ℝ) (Vq : Matrix (Fin t) (Fin R) ℂ)
      (hq : IsSVD (matO S Vp) Uq sq Vq) (hsq : ∀ i, sq i ≠ 0)
      (U : Matrix (Fin n) (Fin k) ℂ) (s : Fin k → ℝ)
      (V : Matrix (Fin (retained R n svdRank)) (Fin k) ℂ) (h : IsSVD (top Uq svdRank) U s V)
      (hs : ∀ i, s i ≠ 0) (At : Matrix (Fin k) (Fin k) ℂ)
      (hAt : computeOperator .none U s V (bottom Uq svdRank) = .ok At)
      (eigs : Fin k → ℂ) (W : Matrix (Fin k) (Fin k) ℂ) (hW : At * W = W * diagonal eigs)
      (hW0 : ∀ i, W.col i ≠ 0) (hall : ∀ l w, At *ᵥ w = l • w → w ≠ 0 → ∃ i, eigs i = l) :
      Fit S svdRank k eigs (computeModes s V (bottom Uq svdRank) eigs W)

end Verif.Subspace
