import Verif.Model.HavokGains
import Verif.Model.Differentiate
import Verif.Lemmas.LinAlg
import Mathlib.LinearAlgebra.Matrix.Charpoly.Basic
import Mathlib.Algebra.Polynomial.Roots

/-!
# Model of the numbers that `HAVOK.fit` computes

Source: `/repo/pydmd/havok.py` L380-446, without a DMD given to the constructor. The factorizations are not
unique, so that the result is a relation between the Hankel matrix and the results. Arithmetic is exact.
-/

set_option autoImplicit false

namespace Verif.HavokModel

open Verif Verif.LinAlg Verif.Havok Matrix

variable {m : Type} [Fintype m] {k p q r : ℕ}

/-- `differentiate(V.T, dt).T`, L393, with at least three rows. -/
noncomputable def standardDot (dt : ℝ) (V : Matrix (Fin k) (Fin r) ℂ) : Matrix (Fin k) (Fin r) ℂ :=
  of fun t i => ((Differentiate.formula dt k (fun j => if h : j < k then V ⟨j, h⟩ i else 0) t).re : ℂ)

/-- `(V2 - V) / dt`, L387. -/
noncomputable def structuredDot (dt : ℝ) (V V2 : Matrix (Fin k) (Fin r) ℂ) : Matrix (Fin k) (Fin r) ℂ :=
  of fun t i => (V2 t i - V t i) / dt

/-- `U, s, V` is a possible result of `compute_svd(H, svd_rank)` when the rank found is `r`, L384, L391: the
leading columns of a singular value decomposition, in real numbers, since `H` is an array of floats. -/
def IsTruncated (H : Matrix m (Fin k) ℂ) (U : Matrix m (Fin r) ℂ) (s : Fin r → ℝ) (V : Matrix (Fin k) (Fin r) ℂ) :
    Prop :=
  ∃ (N : ℕ) (hr : r ≤ N) (U' : Matrix m (Fin N) ℂ) (s' : Fin N → ℝ) (V' : Matrix (Fin k) (Fin N) ℂ),
    IsSVD H U' s' V' ∧ Antitone s' ∧ (∀ i j, (U' i j).im = 0) ∧ (∀ i j, (V' i j).im = 0) ∧
      U = lead r hr U' ∧ s = s' ∘ Fin.castLE hr ∧ V = lead r hr V'

/-- The HAVOK operator, L405-410, with `lstsq=True` or with `lstsq=False`. -/
def IsOperator (V Vdot : Matrix (Fin k) (Fin (p + q)) ℂ) (op : Matrix (Fin (p + q)) (Fin (p + q)) ℂ) : Prop :=
  (∃ W, (∀ i, IsLstsq V (Vdotᵀ i) (Wᵀ i)) ∧ op = operatorLstsq W) ∨
    ∃ P, IsPinv V P ∧ op = operatorPinv P Vdot

/-- What `fit` stores, L434-446: singular vectors and values, delay embeddings, operator and eigenvalues. -/
structure Result (m : Type) (k p q : ℕ) where
  U : Matrix m (Fin (p + q)) ℂ
  s : Fin (p + q) → ℝ
  V : Matrix (Fin k) (Fin (p + q)) ℂ
  op : Matrix (Fin (p + q)) (Fin (p + q)) ℂ
  eigs : Fin p → ℂ

/-- `R` is a possible result of `fit` with `structured=False` on the Hankel matrix `H`, L389-446. -/
def IsFit (dt : ℝ) (H : Matrix m (Fin k) ℂ) (R : Result m k p q) : Prop :=
  3 ≤ k ∧ IsTruncated H R.U R.s R.V ∧ IsOperator R.V (standardDot dt R.V) R.op ∧
    (blockA R.op).charpoly.roots = Finset.univ.val.map R.eigs

/-- `R` is a possible result of `fit` with `structured=True`, L382-387, L405-446: `V2` comes from a second
decomposition, of the Hankel matrix without its first column. -/
def IsStructured (dt : ℝ) (H : Matrix m (Fin (k + 1)) ℂ) (V2 : Matrix (Fin k) (Fin (p + q)) ℂ)
    (R : Result m k p q) : Prop :=
  IsTruncated (H.submatrix id Fin.castSucc) R.U R.s R.V ∧
    (∃ U2 s2, IsTruncated (H.submatrix id Fin.succ) U2 s2 V2) ∧
    IsOperator R.V (structuredDot dt R.V V2) R.op ∧
    (blockA R.op).charpoly.roots = Finset.univ.val.map R.eigs

/-- The fitted object, for simulations. -/
def Result.fitted {rows : ℕ} (R : Result (Fin rows) k p q) (delays lag : ℕ) (time : List ℝ) : HavokSim.Fitted p q where
  delays := delays
  lag := lag
  rows := rows
  U := fun a j => if h : a < rows then R.U ⟨a, h⟩ j else 0
  s := R.s
  embed := List.ofFn R.V
  time := time
  A := blockA R.op
  B := blockB R.op

/-- `reconstructed_data` of the fitted object, with the gains of SciPy. -/
noncomputable def Result.reconstructedData {rows : ℕ} (R : Result (Fin rows) k p q) (delays lag : ℕ)
    (time : List ℝ) : Except PyErr (List ℕ × Mat) :=
  (R.fitted delays lag time).reconstructedData (HavokSim.scipyGains (blockA R.op) (blockB R.op))

end Verif.HavokModel
