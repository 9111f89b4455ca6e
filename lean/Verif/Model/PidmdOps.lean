import Verif.Model.Pidmd
import Verif.Model.PidmdFft

/-!
# Model of `PiDMDOperator.compute_operator`: what is stored

Source: `/repo/pydmd/pidmd.py` L176-228.
-/

set_option autoImplicit false

namespace Verif.Pidmd

open Matrix LinAlg Verif

variable {n r k : Type} [Fintype n] [Fintype r] [Fintype k] [DecidableEq n] [DecidableEq r] [DecidableEq k]

/-- The attributes `_A`, `_Atilde`, `_eigenvalues` and `_modes` after `compute_operator`. -/
structure Stored (n r k : Type) where
  A : Option (Matrix n n ℂ)
  atilde : Matrix r r ℂ
  eigs : k → ℂ
  modes : Matrix n k ℂ

/-- Case 1, pidmd.py L200-213: the dictionary holds `atilde`. `W` are the eigenvectors from `np.linalg.eig`. -/
def IsReduced (computeA : Bool) (U : Matrix n r ℂ) (a W : Matrix r r ℂ) (o : Stored n r r) : Prop :=
  a * W = W * diagonal o.eigs ∧ o.atilde = a ∧ o.modes = U * W ∧
    ∃ P, IsPinv o.modes P ∧ o.A = if computeA then some (fullOperator U W o.eigs P) else none

/-- The last statements of cases 2 and 3, pidmd.py L223-229. -/
def IsLifted (U : Matrix n r ℂ) (o : Stored n r k) : Prop :=
  ∃ P, IsPinv (Uᴴ * o.modes) P ∧ o.atilde = Uᴴ * o.modes * diagonal o.eigs * P

/-- Case 2, pidmd.py L215-218: the dictionary holds `A`. -/
def IsFull (U : Matrix n r ℂ) (A : Matrix n n ℂ) (o : Stored n r n) : Prop :=
  o.A = some A ∧ A * o.modes = o.modes * diagonal o.eigs ∧ IsLifted U o

/-- Case 3, pidmd.py L219-222: the dictionary holds eigenvalues and modes. -/
def IsSpectral (U : Matrix n r ℂ) (eigs : k → ℂ) (modes : Matrix n k ℂ) (o : Stored n r k) : Prop :=
  o.A = none ∧ o.eigs = eigs ∧ o.modes = modes ∧ IsLifted U o

/-- `scipy.sparse.linalg.eigs(A_sparse, k=q)`, pidmd_utils.py L99 and L267: `q` eigenvalues of largest modulus (the
default `which="LM"`) with eigenvectors of norm one (documented behaviour, assumed). -/
def IsLargest {q : ℕ} (A : Matrix n n ℂ) (eigs : Fin q → ℂ) (modes : Matrix n (Fin q) ℂ) : Prop :=
  A * modes = modes * diagonal eigs ∧ (∀ j, normSq (fun i => modes i j) = 1) ∧
    ∃ rest : Multiset ℂ, A.charpoly.roots = Finset.univ.val.map eigs + rest ∧ ∀ j, ∀ z ∈ rest, ‖z‖ ≤ ‖eigs j‖

/-- `compute_circulant` without `compute_A`, pidmd_utils.py L212-214: eigenvalues and columns of `fft(np.eye(nx))` that
are not excluded (a `NaN` eigenvalue is 0 here; the theorems are about data without). -/
noncomputable def circSpectral {G m : Type} [Fintype G] [Fintype m] [DecidableEq G] (F : Matrix G G ℂ)
    (X Y : Matrix G m ℂ) (o : CircOpt) (E : Finset G) : ({k // k ∉ E} → ℂ) × Matrix G {k // k ∉ E} ℂ :=
  (fun k => (circEigs F X Y o E k).getD 0, F.submatrix id Subtype.val)

/-- `reconstructed_data` at time `t` from modes, eigenvalues and amplitudes, dmdbase.py L327-334. -/
def reconAt (modes : Matrix n k ℂ) (eigs b : k → ℂ) (t : ℕ) : n → ℂ := modes *ᵥ fun j => eigs j ^ t * b j

end Verif.Pidmd
