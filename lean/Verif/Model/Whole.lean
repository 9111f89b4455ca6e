import Verif.Model.Operator
import Verif.Lemmas.LinAlg
import Mathlib.LinearAlgebra.Matrix.Charpoly.Basic
import Mathlib.Algebra.Polynomial.Roots

/-!
# Model of `DMDOperator.compute_operator` as a whole

Source: `/repo/pydmd/dmdoperator.py` L64-100. The factorizations are not unique, so that the result is a relation
between data and results.
-/

set_option autoImplicit false

namespace Verif.Whole

open Verif Verif.LinAlg Verif.Operator Matrix

variable {m n : Type} [Fintype m] [Fintype n]

/-- The options of `DMDOperator.__init__`, L46-61, for `rescale_mode=None` and `sorted_eigs=False` (C17 and C18 are
about these). -/
structure Options where
  exact : Bool
  forwardBackward : Bool
  tikhonov : Option ℝ

/-- `np.linalg.norm(X)`, kept in `_norm_X` when there is a regularization, L79-80. -/
noncomputable def Options.tik (o : Options) (X : Matrix m n ℂ) : Option (ℝ × ℝ) :=
  o.tikhonov.map fun t => (t, Real.sqrt (frobSq X))

/-- `atilde` is a possible value of the reduced operator, L77-91: `U, s, V` is the factorization of `X` and `q` the
rank of the truncation; the backward operator is made with `compute_svd(Y, svd_rank=len(s))` and, as
`_least_square_operator` reads `_norm_X`, with the norm of `X`. -/
def IsAtilde (o : Options) {p q : ℕ} (hq : q ≤ p) (X Y : Matrix m n ℂ) (U : Matrix m (Fin p) ℂ) (s : Fin p → ℝ)
    (V : Matrix n (Fin p) ℂ) (A : Matrix (Fin q) (Fin q) ℂ) : Prop :=
  let Af := leastSquareOperator (o.tik X) (lead q hq U) (s ∘ Fin.castLE hq) (lead q hq V) Y
  if o.forwardBackward then
    ∃ (bU : Matrix m (Fin p) ℂ) (bs : Fin p → ℝ) (bV : Matrix n (Fin p) ℂ), IsSVD Y bU bs bV ∧ Antitone bs ∧
      let Ab := backwardOperator (o.tik X) (lead q hq bU) (bs ∘ Fin.castLE hq) (lead q hq bV) X
      IsUnit Ab.det ∧ IsForwardBackward Af Ab A
  else A = Af

/-- `W`, `eigs`, `modes` is a possible result of `compute_operator(X, Y)` with a truncation to rank `q`, L64-100.
`np.linalg.eig` returns an eigenvector of norm one for each eigenvalue (the columns of `W` for `eigs`), not always
independent. -/
def IsResult (o : Options) {q : ℕ} (X Y : Matrix m n ℂ) (W : Matrix (Fin q) (Fin q) ℂ) (eigs : Fin q → ℂ)
    (modes : Matrix m (Fin q) ℂ) : Prop :=
  ∃ (p : ℕ) (hq : q ≤ p) (U : Matrix m (Fin p) ℂ) (s : Fin p → ℝ) (V : Matrix n (Fin p) ℂ),
    IsSVD X U s V ∧ Antitone s ∧ ∃ A, IsAtilde o hq X Y U s V A ∧ A * W = W * diagonal eigs ∧
      A.charpoly.roots = Finset.univ.val.map eigs ∧ (∀ j, normSq (fun i => W i j) = 1) ∧
      modes = computeModes o.exact (o.tik X) Y (lead q hq U) (s ∘ Fin.castLE hq) (lead q hq V) W

end Verif.Whole
