import Verif.Model.VarPro
import Verif.Model.Bop
import Mathlib.Data.Matrix.ColumnRowPartitioned
import Mathlib.Analysis.SpecialFunctions.Pow.Real

/-!
# Model of a step of `BOPDMD._variable_projection`

Source: `/repo/pydmd/bopdmd.py` L556-694, with the exponentials of L358-391. Floats are exact complex
and real numbers. Eigenvalue constraints and `mode_prox` are not applied.
-/

set_option autoImplicit false

namespace Verif.BopStep

open Verif Verif.LinAlg Verif.VarPro Matrix

section

variable {m l n k : ℕ}

/-- The residual of `compute_error`, L560. `B` is the result of `compute_B` (L566-578), that is of
`np.linalg.lstsq(Phi(alpha, t), H)`, for every `alpha`. -/
noncomputable def residual (time : Fin m → ℝ) (H : Matrix (Fin m) (Fin n) ℂ)
    (B : (Fin l → ℂ) → Matrix (Fin l) (Fin n) ℂ) (α : Fin l → ℂ) : Matrix (Fin m) (Fin n) ℂ :=
  H - phi time α * B α

/-- What is assumed of `np.linalg.lstsq` with a matrix on the right: each column is a least-squares
solution. -/
def IsComputeB (time : Fin m → ℝ) (H : Matrix (Fin m) (Fin n) ℂ)
    (B : (Fin l → ℂ) → Matrix (Fin l) (Fin n) ℂ) : Prop :=
  ∀ α c, IsLstsq (phi time α) (fun i => H i c) fun j => B α j c

/-- `djac_matrix`, L600-613 (rows are the pairs of sample and column). -/
noncomputable def djac (fulljac : Bool) (time : Fin m → ℝ) (α : Fin l → ℂ) (U : Matrix (Fin m) (Fin k) ℂ)
    (s : Fin k → ℝ) (V : Matrix (Fin l) (Fin k) ℂ) (B : Matrix (Fin l) (Fin n) ℂ)
    (res : Matrix (Fin m) (Fin n) ℂ) : Matrix (Fin m × Fin n) (Fin l) ℂ :=
  Matrix.of fun p j => bopJac fulljac time α U s V B res j p.1 p.2

/-- `scales`, L615-620. -/
noncomputable def scales (levmarq : Bool) (J : Matrix (Fin m × Fin n) (Fin l) ℂ) : Fin l → ℝ := fun j =>
  if levmarq then max (min (√(normSq (J.col j))) 1) (1 / 10 ^ 6) else 1

/-- What `scipy.linalg.qr(djac_matrix, mode="economic", pivoting=True)` returns, L624-626, if there
are at least as many rows as columns. -/
structure PivQr {P : Type} [Fintype P] (J : Matrix P (Fin l) ℂ) where
  q : Matrix P (Fin l) ℂ
  r : Matrix (Fin l) (Fin l) ℂ
  piv : Equiv.Perm (Fin l)
  orth : qᴴ * q = 1
  upper : ∀ i j, j < i → r i j = 0
  eq : J.submatrix id piv = q * r

/-- `np.triu`, L629. -/
def triu (r : Matrix (Fin l) (Fin l) ℂ) : Matrix (Fin l) (Fin l) ℂ :=
  Matrix.of fun i j => if i ≤ j then r i j else 0

/-- `rjac`, L629 and L642. -/
noncomputable def rjac {P : Type} [Fintype P] {J : Matrix P (Fin l) ℂ} (d : PivQr J) (sc : Fin l → ℝ)
    (lam : ℝ) : Matrix (Fin l ⊕ Fin l) (Fin l) ℂ :=
  fromRows (triu d.r) ((lam : ℂ) • rdiag (sc ∘ d.piv))

/-- `rhs`, L630-634. -/
noncomputable def rhs {P : Type} [Fintype P] {J : Matrix P (Fin l) ℂ} (d : PivQr J) (res : P → ℂ) :
    Fin l ⊕ Fin l → ℂ := Sum.elim (d.qᴴ *ᵥ res) 0

/-- What `np.linalg.lstsq` does with `rjac` and `rhs`. -/
abbrev Lstsq (l : ℕ) := Matrix (Fin l ⊕ Fin l) (Fin l) ℂ → (Fin l ⊕ Fin l → ℂ) → Fin l → ℂ

/-- `delta` of `step`, L641-644: `ij_pvt` is the inverse of the pivoting permutation (L627-628). -/
noncomputable def delta {P : Type} [Fintype P] {J : Matrix P (Fin l) ℂ} (lstsq : Lstsq l) (d : PivQr J)
    (sc : Fin l → ℝ) (res : P → ℂ) (lam : ℝ) : Fin l → ℂ :=
  lstsq (rjac d sc lam) (rhs d res) ∘ d.piv.symm

/-- The results of the library at one `alpha`: the truncated SVD of the exponentials (L393-413; here
without loss) and the pivoted QR of the Jacobian. -/
structure Fact (fulljac : Bool) (time : Fin m → ℝ) (H : Matrix (Fin m) (Fin n) ℂ)
    (B : (Fin l → ℂ) → Matrix (Fin l) (Fin n) ℂ) (α : Fin l → ℂ) where
  k : ℕ
  U : Matrix (Fin m) (Fin k) ℂ
  s : Fin k → ℝ
  V : Matrix (Fin l) (Fin k) ℂ
  isSVD : IsSVD (phi time α) U s V
  qr : PivQr (djac fulljac time α U s V (B α) (residual time H B α))

/-- `alpha_updated` of `step`, L636-650, without constraints. -/
noncomputable def step {fulljac : Bool} {time : Fin m → ℝ} {H : Matrix (Fin m) (Fin n) ℂ}
    {B : (Fin l → ℂ) → Matrix (Fin l) (Fin n) ℂ} {α : Fin l → ℂ} (levmarq : Bool) (lstsq : Lstsq l)
    (f : Fact fulljac time H B α) (lam : ℝ) : Fin l → ℂ :=
  α + delta lstsq f.qr
    (scales levmarq (djac fulljac time α f.U f.s f.V (B α) (residual time H B α)))
    (fun p => residual time H B α p.1 p.2) lam

/-- `error` of `compute_error`, L562. -/
noncomputable def error (time : Fin m → ℝ) (H : Matrix (Fin m) (Fin n) ℂ)
    (B : (Fin l → ℂ) → Matrix (Fin l) (Fin n) ℂ) (α : Fin l → ℂ) : Bop.Flt :=
  Bop.relError (√(frobSq (residual time H B α))) (√(frobSq H))

end

end Verif.BopStep
