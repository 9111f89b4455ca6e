import Verif.Model.Bop
import Verif.Model.Py
import Verif.Spec.LinAlg

/-!
# Model of the operators `atilde` and `A` of `BOPDMD`

Source: `/repo/pydmd/bopdmd.py` L744-786, L910-931, L203-216, L1189-1213. Floats are exact numbers. `w` are the
normalised modes (`Verif.Bop.normalise` models L756-764).
-/

set_option autoImplicit false

namespace Verif.BopOps

open Verif Verif.LinAlg Matrix

/-- `np.linalg.pinv` and the function `mode_prox`, which both take matrices of all shapes. -/
structure Lib where
  pinv : ∀ {a b : ℕ}, Matrix (Fin a) (Fin b) ℂ → Matrix (Fin b) (Fin a) ℂ
  prox : Option (∀ a b : ℕ, Matrix (Fin a) (Fin b) ℂ → Matrix (Fin a) (Fin b) ℂ)

/-- `np.linalg.multi_dot([w, np.diag(e), np.linalg.pinv(w)])`, L768, L776-778, L782, L920-931. -/
def system (N : Lib) {a r : ℕ} (w : Matrix (Fin a) (Fin r) ℂ) (e : Fin r → ℂ) : Matrix (Fin a) (Fin a) ℂ :=
  w * diagonal e * N.pinv w

/-- What the operator stores: the modes, `_Atilde` (whose size is the number of columns of the basis) and `_A`. -/
structure Ops (m q r : ℕ) where
  modes : Matrix (Fin m) (Fin r) ℂ
  atilde : Matrix (Fin q) (Fin q) ℂ
  full : Option (Matrix (Fin m) (Fin m) ℂ)

/-- `if self._compute_A`, L781-784 and L924-931. -/
def fullOp (N : Lib) {m r : ℕ} (computeA : Bool) (modes : Matrix (Fin m) (Fin r) ℂ) (e : Fin r → ℂ) :
    Option (Matrix (Fin m) (Fin m) ℂ) := if computeA then some (system N modes e) else none

/-- The end of `_single_trial_compute_operator` with `use_proj=True`, L766-784: `w` are the modes of the projected
data. -/
def trialProj (N : Lib) {m q r : ℕ} (computeA : Bool) (basis : Matrix (Fin m) (Fin q) ℂ)
    (w : Matrix (Fin q) (Fin r) ℂ) (e : Fin r → ℂ) : Ops m q r :=
  let modes := match N.prox with
    | none => basis * w
    | some f => f m r (basis * w)
  { modes := modes, atilde := system N w e, full := fullOp N computeA modes e }

/-- The same with `use_proj=False`, L774-784. -/
def trialFull (N : Lib) {m q r : ℕ} (computeA : Bool) (basis : Matrix (Fin m) (Fin q) ℂ)
    (w : Matrix (Fin m) (Fin r) ℂ) (e : Fin r → ℂ) : Ops m q r :=
  { modes := w, atilde := system N (basisᴴ * w) e, full := fullOp N computeA w e }

/-- The end of `compute_operator` with bagging, L910-931, for the averages `modes` and `e`. -/
def averaged (N : Lib) {m q r : ℕ} (computeA : Bool) (basis : Matrix (Fin m) (Fin q) ℂ)
    (modes : Matrix (Fin m) (Fin r) ℂ) (e : Fin r → ℂ) : Ops m q r :=
  { modes := modes, atilde := system N (basisᴴ * modes) e, full := fullOp N computeA modes e }

/-- The properties `A` of `BOPDMDOperator` (L203-216) and `BOPDMD` (L1202-1213) on an instance that has been fitted or
not; `computeA` is the argument of the constructor. -/
def getA {m q r : ℕ} (computeA : Bool) (fitted : Option (Ops m q r)) : Except PyErr (Option (Matrix (Fin m) (Fin m) ℂ)) :=
  match fitted with
  | none => .error .valueError
  | some o => if computeA then .ok o.full else .error .valueError

/-- The property `atilde`, L1189-1200. -/
def getAtilde {m q r : ℕ} (fitted : Option (Ops m q r)) : Except PyErr (Matrix (Fin q) (Fin q) ℂ) :=
  match fitted with
  | none => .error .valueError
  | some o => .ok o.atilde

/-- `compute_B`, L566-578, after the least-squares solution: with `use_proj=False` the function `mode_prox` is given the
transposed modes. -/
def proxB (N : Lib) {r s : ℕ} (useProj : Bool) (B : Matrix (Fin r) (Fin s) ℂ) : Matrix (Fin r) (Fin s) ℂ :=
  match N.prox with
  | none => B
  | some f => if useProj then B else f r s B

end Verif.BopOps
