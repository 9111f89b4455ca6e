import Verif.Model.Prepost
import Mathlib.Analysis.SpecialFunctions.Complex.Log

/-!
# Model of what other parts of the package do with a `PrePostProcessingDMD`

Sources: `/repo/pydmd/preprocessing/pre_post_processing.py`, `/repo/pydmd/dmdbase.py` L639-670,
`/repo/pydmd/mrdmd.py` L208-226, `/repo/pydmd/plotter.py` L716-768.
-/

set_option autoImplicit false

namespace Verif.Wrapped

open Verif Verif.Prepost

variable {D B : Type}

/-- The DMD inside of all wrappers. -/
def inner : Obj D B → B
  | .base b => b
  | .wrap _ _ _ o => inner o

/-- The number of wrappers. -/
def layers : Obj D B → ℕ
  | .base _ => 0
  | .wrap _ _ _ o => layers o + 1

/-- `DMDBase.load(f)` after `obj.save(f)`, dmdbase.py L639-670. `save` is not an attribute of the wrapper,
so pre_post_processing.py L69-74 returns the method bound to the innermost DMD, which pickles `self`.
Pickling is assumed to be faithful. -/
def saveLoad (o : Obj D B) : Obj D B := .base (inner o)

/-- `obj[key]`: special methods are looked up on the type, past `__getattribute__`, and
`PrePostProcessingDMD` has no `__getitem__`: `TypeError`. `get` is `DMDBase.__getitem__`. -/
def getItem {K R : Type} (get : B → K → Except PyErr R) : Obj D B → K → Except PyErr R
  | .base b, k => get b k
  | .wrap _ _ _ _, _ => .error .typeError

/-- The argument `dmd` of MrDMD: an instance, a list or tuple of instances, a function. -/
inductive MrArg (D B : Type)
  | one (o : Obj D B)
  | list (os : List (Obj D B))
  | func (f : ℕ → ℕ → Obj D B)

/-- `MrDMD._dmd_builder`, mrdmd.py L205-226: the DMD of a level and leaf. A wrapper is neither callable nor
a list nor a `DMDBase`, so `builder_func` is never assigned. -/
def builder (maxLevel : ℕ) : MrArg D B → Except PyErr (ℕ → ℕ → Option (Obj D B))
  | .func f => .ok fun level leaf => some (f level leaf)
  | .list os => if os.length ≠ maxLevel + 1 then .error .valueError else .ok fun level _ => os[level]?
  | .one (.base b) => .ok fun _ _ => some (.base b)
  | .one (.wrap _ _ _ _) => .error .unboundLocalError

/-- The discrete-time and continuous-time eigenvalues shown by `plot_summary`, plotter.py L719-766, for equal
time steps `dt`: the test for BOPDMD looks through one wrapper. `isBop` tells whether the innermost DMD is a
BOPDMD. -/
noncomputable def summaryEigs (isBop : Bool) (layers : ℕ) (continuous : Bool) (dt : ℝ) (eigs : List ℂ) :
    List ℂ × List ℂ :=
  if (isBop && decide (layers ≤ 1)) || continuous then (eigs.map fun z => Complex.exp (z * dt), eigs)
  else (eigs, eigs.map fun z => Complex.log z / dt)

end Verif.Wrapped
