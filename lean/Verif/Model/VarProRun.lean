import Verif.Model.VarPro

/-!
# Model of a whole run of `VarProDMD`

Source: `/repo/pydmd/varprodmd.py` L269-300 and L387-422. `scipy.optimize.least_squares` is a parameter: any deterministic
program that calls the two functions it is given, in any order and number, and returns a point. The two functions share
the object `opthelper`, so that the Jacobian is that of the point at which the residual was evaluated last.
-/

set_option autoImplicit false

namespace Verif.VarPro

open Verif Verif.LinAlg Matrix

variable {m l n q : ℕ}

/-- The real parameters of `l` exponents. -/
abbrev Point (l : ℕ) := Fin l ⊕ Fin l → ℝ

/-- A call of `_compute_dmd_rho` or `_compute_dmd_jac` by the optimizer. -/
inductive Call (l : ℕ)
  | rho (a : Point l)
  | jac (a : Point l)

/-- What the call returns. -/
inductive Answer (m l n : ℕ)
  | rho (v : (Fin m × Fin n) ⊕ (Fin m × Fin n) → ℝ)
  | jac (J : Fin l ⊕ Fin l → (Fin m × Fin n) ⊕ (Fin m × Fin n) → ℝ)

/-- `least_squares(fun, x0, jac, **optargs)`: from the starting point and the answers so far to the next call or to the
result `opt.x`. -/
abbrev Optimizer (m l n : ℕ) := Point l → List (Answer m l n) → Call l ⊕ Point l

/-- The state of a run: the answers given, the points at which the residual was evaluated (the last one is that of
`opthelper`), and the result. -/
structure OState (m l n : ℕ) where
  answers : List (Answer m l n)
  evals : List (Point l)
  result : Option (Point l)

/-- The Jacobian from what `opthelper` holds, L155-218; before the first residual it holds zeros (L80-93). -/
noncomputable def jacAnswer (time : Fin m → ℝ) (data : Matrix (Fin m) (Fin n) ℂ) (lib : ∀ α : Fin l → ℂ, Svd (phi time α))
    (evals : List (Point l)) : Fin l ⊕ Fin l → (Fin m × Fin n) ⊕ (Fin m × Fin n) → ℝ :=
  match evals.getLast? with
  | none => fun _ _ => 0
  | some a => jacobian time (helper time data (complexAlphas a) (lib (complexAlphas a)))

/-- One step of the optimizer, L294-300. -/
noncomputable def OState.step (opt : Optimizer m l n) (time : Fin m → ℝ) (data : Matrix (Fin m) (Fin n) ℂ)
    (lib : ∀ α : Fin l → ℂ, Svd (phi time α)) (x0 : Point l) (st : OState m l n) : OState m l n :=
  match st.result with
  | some _ => st
  | none =>
    match opt x0 st.answers with
    | .inl (.rho a) => { st with answers := st.answers ++ [.rho (residual time data lib a)], evals := st.evals ++ [a] }
    | .inl (.jac _) => { st with answers := st.answers ++ [.jac (jacAnswer time data lib st.evals)] }
    | .inr x => { st with result := some x }

/-- `_compute_dmd_varpro`, L269-300, after `k` steps. -/
noncomputable def optRun (opt : Optimizer m l n) (time : Fin m → ℝ) (data : Matrix (Fin m) (Fin n) ℂ)
    (lib : ∀ α : Fin l → ℂ, Svd (phi time α)) (x0 : Point l) : ℕ → OState m l n
  | 0 => ⟨[], [], none⟩
  | k + 1 => (optRun opt time data lib x0 k).step opt time data lib x0

/-- `compute_varprodmd_any`, L402-422, if the optimizer has ended after at most `k` steps: modes, exponents, amplitudes. `W`
is `u_r` with projection and the identity without; `x0` is the initial guess, L389. -/
noncomputable def fitRun (opt : Optimizer m l q) (time : Fin m → ℝ) (data : Matrix (Fin m) (Fin q) ℂ)
    (lib : ∀ α : Fin l → ℂ, Svd (phi time α)) (x0 : Point l) (W : Matrix (Fin n) (Fin q) ℂ) (k : ℕ) :
    Option ((Fin n → Fin l → Option ℂ) × (Fin l → ℂ) × (Fin l → ℝ)) :=
  match (optRun opt time data lib x0 k).result, (optRun opt time data lib x0 k).evals.getLast? with
  | some x, some a =>
    let X := xi W (helper time data (complexAlphas a) (lib (complexAlphas a))).b
    some (modes X, complexAlphas x, eigenf X)
  | _, _ => none

end Verif.VarPro
