import Verif.Model.Lando
import Mathlib.Analysis.Complex.Norm

/-!
# Model of LANDO: the attributes of an instance over its life, and the linear operator

Source: `/repo/pydmd/lando.py`.
-/

set_option autoImplicit false

namespace Verif.Lando

open Matrix Verif

/-- What `compute_operator` learns (dictionary and weights): `_sparse_dictionary`, `_weights`. -/
structure Learnt (n : Type) where
  j : Type
  fin : Fintype j
  D : j → n → ℝ
  W : Matrix n j ℝ

attribute [instance] Learnt.fin

/-- The attributes of a `LANDO` instance concerned with fixed points: operator attributes
L54-59, instance attributes L508-510. `modes` records whether `operator._modes` is set. -/
structure Inst (n : Type) where
  model : Option (Learnt n) := none
  modes : Bool := false
  A : Option (Matrix n n ℝ) := none
  computeA : Bool := false
  fixedPoint : Option (n → ℝ) := none
  bias : Option (n → ℝ) := none

section

variable {n : Type} [Fintype n] (k : Kernel) (rho : n → ℝ)

/-- Model, gradient and bias of a learnt model. -/
noncomputable def Learnt.f (m : Learnt n) (x : n → ℝ) : n → ℝ := Lando.f k rho m.D m.W x
/-- `weights . kernel_grad`, L271-275. -/
noncomputable def Learnt.lin (m : Learnt n) (x : n → ℝ) : Matrix n n ℝ :=
  Lando.linear k rho m.D m.W x

/-- `fit`, L759-791, with the outcome `m` of `compute_operator`. `_reset` (dmdbase.py L630-637)
clears neither the attributes of the operator nor those of the fixed point analysis. -/
def Inst.fit (st : Inst n) (m : Learnt n) : Inst n := { st with model := some m }

/-- `compute_linear_operator`, L253-301: `_A` is only written if `compute_A`. -/
noncomputable def Inst.linOp (st : Inst n) (m : Learnt n) (x : n → ℝ) (computeA : Bool) : Inst n :=
  { st with modes := true, A := if computeA then some (m.lin k rho x) else st.A }

/-- `analyze_fixed_point`, L793-833. -/
noncomputable def Inst.analyze (st : Inst n) (x : n → ℝ) (computeA : Bool) :
    Except PyErr Unit × Inst n :=
  match st.model with
  | none => (.error .valueError, st)
  | some m =>
    (.ok (), Inst.linOp k rho
      { st with computeA := computeA, fixedPoint := some x, bias := some (m.f k rho x) }
      m x computeA)

/-- `update`, L835-886, with the outcome `m` of `compute_operator(updating=True)`, which raises
unless the instance is online (L176-178). -/
noncomputable def Inst.update (st : Inst n) (online : Bool) (m : Learnt n) :
    Except PyErr Unit × Inst n :=
  match st.model with
  | none => (.error .valueError, st)
  | some _ =>
    if online then
      match st.modes, st.fixedPoint with
      | true, some x => (.ok (), Inst.linOp k rho
          { st with model := some m, bias := some (m.f k rho x) } m x st.computeA)
      | _, _ => (.ok (), { st with model := some m })
    else (.error .valueError, st)

/-- `f`, L635-660. -/
noncomputable def Inst.evalF (st : Inst n) (x : n → ℝ) : Except PyErr (n → ℝ) :=
  match st.model with
  | none => .error .valueError
  | some m => .ok (m.f k rho x)

/-- `bias`, L675-690. -/
def Inst.getBias (st : Inst n) : Except PyErr (Option (n → ℝ)) :=
  if st.modes then .ok st.bias else .error .valueError

/-- `linear`, L692-707: `None` (with a warning) if `_A` was never computed. -/
def Inst.getLinear (st : Inst n) : Except PyErr (Option (Matrix n n ℝ)) :=
  if st.modes then .ok st.A else .error .valueError

/-- `nonlinear`, L709-757. -/
noncomputable def Inst.getNonlinear (st : Inst n) (x : n → ℝ) : Except PyErr (n → ℝ) :=
  if st.modes then
    match st.model, st.fixedPoint, st.bias with
    | some m, some xb, some b => .ok (m.f k rho (x + xb) - b - m.lin k rho xb *ᵥ x)
    | _, _, _ => .error .attributeError
  else .error .valueError

/-- The public calls that change an instance. -/
inductive Call (n : Type)
  | fit (m : Learnt n)
  | analyze (x : n → ℝ) (computeA : Bool)
  | update (m : Learnt n)

/-- The instance after a call (also when it raised). -/
noncomputable def Inst.call (online : Bool) (st : Inst n) : Call n → Inst n
  | .fit m => st.fit m
  | .analyze x c => (st.analyze k rho x c).2
  | .update m => (st.update k rho online m).2

/-- A fresh instance after a sequence of calls. -/
noncomputable def Inst.after (online : Bool) (cs : List (Call n)) : Inst n :=
  cs.foldl (Inst.call k rho online) {}

end

/-! ### Eigenvalues and modes of the linear operator -/

section Eig

variable {n j r : Type} [Fintype n] [Fintype j] [Fintype r] [DecidableEq r]

/-- `_Atilde`, L276 or L278-280. -/
noncomputable def atilde (W : Matrix n j ℝ) (G : Matrix j n ℝ) (U : Matrix n r ℝ) : Matrix r r ℝ :=
  Uᵀ * (W * G) * U

/-- The eigenpairs kept, L282-291: those with modulus above `1e-16`, by descending modulus. `pairs`
is the result of `np.linalg.eig`. -/
noncomputable def keepEigs (pairs : List (ℂ × (r → ℂ))) : List (ℂ × (r → ℂ)) :=
  (pairs.filter fun p => decide ((1e-16 : ℝ) < ‖p.1‖)).mergeSort
    fun p q => decide (‖q.1‖ ≤ ‖p.1‖)

/-- The column of `_modes` for an eigenpair, L293-301. -/
noncomputable def modeOf (W : Matrix n j ℝ) (V : Matrix j r ℝ) (s : r → ℝ) (p : ℂ × (r → ℂ)) :
    n → ℂ := (W * V * diagonal s).map Complex.ofReal *ᵥ ((1 / p.1) • p.2)

end Eig

end Verif.Lando
