import Verif.Model.Operator
import Mathlib.LinearAlgebra.Matrix.NonsingularInverse

/-!
# Model of sparsity-promoting DMD

Source: `/repo/pydmd/spdmd.py`. Arithmetic is exact. Vectors of the iteration may hold `NaN`,
represented by `none`; all arithmetic with `NaN` gives `NaN` and every comparison with it is false.
-/

set_option autoImplicit false

namespace Verif.SpDmd

open Verif Verif.LinAlg Matrix

/-- One entry of `soft_thresholding_operator(v, k)`, L13-24:
`((1 - k) / |v|) * v * (|v| > k)`. For `v = 0` the quotient is infinite or `NaN`, and its product
with 0 is `NaN`, which the last factor does not change. -/
noncomputable def softThreshold (v : ℂ) (k : ℝ) : Option ℂ :=
  if v = 0 then none
  else some (((1 - k) / ‖v‖ : ℝ) * v * (if ‖v‖ > k then 1 else 0))

variable {r : Type} [Fintype r] [DecidableEq r]

/-- A vector whose entries may be `NaN`. -/
abbrev NVec (r : Type) := r → Option ℂ

/-- A vector without `NaN`. -/
def NVec.ofVec (v : r → ℂ) : NVec r := fun i => some (v i)

/-- The vector, if no entry is `NaN`. -/
def NVec.toVec? (v : NVec r) : Option (r → ℂ) :=
  if ∀ i, (v i).isSome then some fun i => (v i).getD 0 else none

/-- An entrywise operation. -/
def NVec.zip (f : ℂ → ℂ → ℂ) (v w : NVec r) : NVec r := fun i => do f (← v i) (← w i)

/-- The options of `SpDMD.__init__` used here, L82-124. -/
structure Params where
  rho : ℝ
  gamma : ℝ
  absTol : ℝ
  relTol : ℝ
  maxIterations : ℤ
  zeroTol : ℝ
  enforceZero : Bool

/-- The values `alpha, beta, lmbd`. -/
structure Iter (r : Type) where
  alpha : NVec r
  beta : NVec r
  lmbd : NVec r

/-- `_update_alpha`, L159-172, without `NaN`. `L` is the Cholesky factor `self._Plow`. -/
noncomputable def updateAlpha (p : Params) (L : Matrix r r ℂ) (q : r → ℂ) (beta lmbd : r → ℂ) :
    r → ℂ :=
  (Lᴴ)⁻¹ *ᵥ (L⁻¹ *ᵥ fun i => q i + (beta i - lmbd i / p.rho) * p.rho / 2)

/-- `_update_alpha`, L159-172. A linear system with `NaN` in its right-hand side gives `NaN`
everywhere. -/
noncomputable def updateAlphaN (p : Params) (L : Matrix r r ℂ) (q : r → ℂ) (beta lmbd : NVec r) :
    NVec r :=
  match beta.toVec?, lmbd.toVec? with
  | some b, some l => .ofVec (updateAlpha p L q b l)
  | _, _ => fun _ => none

/-- `_update_beta`, L174-186. -/
noncomputable def updateBeta (p : Params) (alpha lmbd : NVec r) : NVec r :=
  fun i => do softThreshold ((← alpha i) + (← lmbd i) / p.rho) (p.gamma / p.rho)

/-- `_update_lagrangian`, L188-200. -/
noncomputable def updateLagrangian (p : Params) (alpha beta lmbd : NVec r) : NVec r :=
  NVec.zip (· + ·) lmbd (NVec.zip (fun a b => (a - b) * p.rho) alpha beta)

/-- `_update`, L202-217. -/
noncomputable def update (p : Params) (L : Matrix r r ℂ) (q : r → ℂ) (beta lmbd : NVec r) :
    Iter r :=
  let a := updateAlphaN p L q beta lmbd
  let b := updateBeta p a lmbd
  ⟨a, b, updateLagrangian p a b lmbd⟩

/-- `np.linalg.norm`. -/
noncomputable def norm2 (v : r → ℂ) : ℝ := Real.sqrt (normSq v)

open Classical in
/-- `_loop_condition`, L219-242; false as soon as a `NaN` is involved. -/
noncomputable def loopCondition (p : Params) (it : Iter r) (oldBeta : NVec r) : Bool :=
  match it.alpha.toVec?, it.beta.toVec?, it.lmbd.toVec?, oldBeta.toVec? with
  | some a, some b, some l, some ob =>
      let c := Real.sqrt (Fintype.card r) * p.absTol
      decide (norm2 (a - b) < c + p.relTol * max (norm2 a) (norm2 b)) &&
        decide (p.rho * norm2 (b - ob) < c + p.relTol * norm2 l)
  | _, _, _, _ => false

/-- The loop of `_find_zero_amplitudes`, L270-277, with the remaining number of iterations. Returns
the final values, `old_beta` and the number of iterations done. -/
def admm (upd : NVec r → NVec r → Iter r) (stop : Iter r → NVec r → Bool) :
    ℕ → Iter r → NVec r → Iter r × NVec r × ℕ
  | 0, it, old => (it, old, 0)
  | k + 1, it, old =>
    if stop it old then (it, old, 0)
    else
      let res := admm upd stop k (upd it.beta it.lmbd) it.beta
      (res.1, res.2.1, res.2.2 + 1)

/-- The run of the loop of `_find_zero_amplitudes` from the first step on, L257-277. -/
noncomputable def run (p : Params) (L : Matrix r r ℂ) (q : r → ℂ) : Iter r × NVec r × ℕ :=
  let zero : NVec r := fun _ => some 0
  admm (update p L q) (loopCondition p) p.maxIterations.toNat (update p L q zero zero) zero

/-- `np.abs(v) < tol`; `NaN` is not below. -/
noncomputable def below (tol : ℝ) (v : NVec r) (i : r) : Prop := ∃ z, v i = some z ∧ ‖z‖ < tol

/-- `_find_zero_amplitudes`, L244-284: the test is on `old_beta`. -/
noncomputable def zeroAmplitudes (p : Params) (L : Matrix r r ℂ) (q : r → ℂ) (i : r) : Prop :=
  below p.zeroTol (run p L q).2.1 i

/-- `E = np.identity(n_amplitudes)[:, zero_amplitudes]`, L300. -/
def unitCols (zero : r → Prop) : Matrix r {i // zero i} ℂ := of fun i k => if i = k.1 then 1 else 0

/-- The matrix `KKT`, L304-316. -/
def kkt (P : Matrix r r ℂ) (zero : r → Prop) : Matrix (r ⊕ {i // zero i}) (r ⊕ {i // zero i}) ℂ :=
  fromBlocks P (unitCols zero) (unitCols zero)ᴴ 0

/-- `rhs`, L319-324. -/
def kktRhs (q : r → ℂ) (zero : r → Prop) : r ⊕ {i // zero i} → ℂ := Sum.elim q 0

open Classical in
/-- `_optimal_amplitudes`, L326-329; `sol` is the result of `spsolve(KKT, rhs)`. -/
noncomputable def optimalAmplitudes (enforceZero : Bool) (zero : r → Prop)
    (sol : r ⊕ {i // zero i} → ℂ) : r → ℂ :=
  fun i => if enforceZero = true ∧ zero i then 0 else sol (Sum.inl i)

/-- `Prho`, L139: `P + np.identity(n) * rho / 2`. -/
noncomputable def prho (p : Params) (P : Matrix r r ℂ) : Matrix r r ℂ :=
  P + ((p.rho / 2 : ℝ) : ℂ) • (1 : Matrix r r ℂ)

end Verif.SpDmd
