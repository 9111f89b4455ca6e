import Mathlib.LinearAlgebra.Matrix.ConjTranspose
import Mathlib.LinearAlgebra.Matrix.Hermitian
import Mathlib.LinearAlgebra.Matrix.NonsingularInverse
import Mathlib.Data.Complex.Basic
import Mathlib.Data.Complex.BigOperators

/-!
# Specification vocabulary for linear algebra

Meaning of the factorizations and optimality notions used by the properties and assumed of
the numpy/scipy routines. Matrices are over ℂ.
-/

namespace Verif.LinAlg

open Matrix

variable {m n k r : Type} [Fintype m] [Fintype n] [Fintype k] [Fintype r] [DecidableEq k]
  [DecidableEq r] [DecidableEq m] [DecidableEq n]

/-- A real vector as complex diagonal matrix. -/
def rdiag (s : k → ℝ) : Matrix k k ℂ := diagonal fun i => (s i : ℂ)

/-- `X = U diag(s) V^H` with orthonormal columns: what `np.linalg.svd(X, full_matrices=False)`
guarantees, apart from the order of the singular values. `V` is by columns (the code's `V` after
`.conj().T`). -/
structure IsSVD (X : Matrix m n ℂ) (U : Matrix m k ℂ) (s : k → ℝ) (V : Matrix n k ℂ) : Prop where
  eq : X = U * rdiag s * Vᴴ
  u : Uᴴ * U = 1
  v : Vᴴ * V = 1
  nonneg : ∀ i, 0 ≤ s i

/-- The Moore–Penrose conditions, assumed of `np.linalg.pinv`. -/
structure IsPinv (A : Matrix m n ℂ) (P : Matrix n m ℂ) : Prop where
  apa : A * P * A = A
  pap : P * A * P = P
  ap : (A * P)ᴴ = A * P
  pa : (P * A)ᴴ = P * A

/-- Sum of squared moduli. -/
def normSq (v : m → ℂ) : ℝ := ∑ i, Complex.normSq (v i)

/-- Squared Frobenius norm. -/
def frobSq (A : Matrix m n ℂ) : ℝ := ∑ i, ∑ j, Complex.normSq (A i j)

/-- `b` is a least-squares solution of `A x ≈ y`: assumed of `np.linalg.lstsq`. -/
def IsLstsq (A : Matrix m n ℂ) (y : m → ℂ) (b : n → ℂ) : Prop :=
  ∀ c, normSq (A *ᵥ b - y) ≤ normSq (A *ᵥ c - y)

/-- Eigenpair in the weak sense (the vector may vanish). -/
def Eig (A : Matrix m m ℂ) (l : ℂ) (w : m → ℂ) : Prop := A *ᵥ w = l • w

end Verif.LinAlg
