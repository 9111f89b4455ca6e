import Verif.Model.Bitmask
import Mathlib.Tactic

/-!
# Model of the standard deviations of BOP-DMD beside the mode selection

Sources: `/repo/pydmd/bopdmd.py` L208-246, L1219-1261, L1577-1630, L1685-1710, L1833-1842. The selection is that of
`Model/Bitmask.lean`. Modelled is which deviation is used with which mode; the values of the forecast are
in `Model/BopSort.lean`.
-/

set_option autoImplicit false

namespace Verif.BopStd

open Verif Bitmask

/-- The deviations recorded by the operator, one per mode of the fit, bopdmd.py L927-934. `MS`: a column
of `_modes_std`. -/
structure Std (MS S : Type) where
  modes : List MS
  eigs : List S
  amps : List S

/-- A `BOPDMD` instance: the part of `DMDBase` and the deviations of its operator (`None` without bagging). -/
structure Bop (M E A MS S : Type) where
  obj : Obj M E A
  std : Option (Std MS S)

variable {M E A MS S : Type}

/-- The getters `modes_std`, `eigenvalues_std`, `amplitudes_std`, L1226-1261: `ValueError` before `fit`,
afterwards what the operator (L220-246) holds. -/
def Bop.getStd (b : Bop M E A MS S) : Except PyErr (Option (Std MS S)) :=
  match b.obj.op with
  | none => .error .valueError
  | some _ => .ok b.std

/-- The circles of `plot_eig_uq`, L1812-1813 and L1836: eigenvalue and radius. `flip_axes` only exchanges the
coordinates of the first. -/
def Bop.circles (b : Bop M E A MS S) : Except PyErr (List (E × S)) := do
  match ← b.getStd with
  | none => .error .valueError
  | some s => match ← b.obj.getEigs with
    | (some es, _) => .ok (es.zip s.eigs)
    | (none, _) => .error .typeError

/-- One column of `modes[:, order]` and of `modes_std[:, order]`, L1709-1710. -/
def pick (ms : List M) (ss : List MS) (k : ℕ) : Except PyErr (M × MS) :=
  match ms[k]?, ss[k]? with
  | some m, some s => .ok (m, s)
  | _, _ => .error .indexError

/-- The modes of `plot_mode_uq` with the deviations shown below them, in the order of decreasing
amplitudes, L1681-1682 and L1708-1710. `argsort` is `np.argsort(-np.abs(amplitudes))`. -/
def Bop.pairs (argsort : List A → List ℕ) (b : Bop M E A MS S) : Except PyErr (List (M × MS)) := do
  match ← b.getStd with
  | none => .error .valueError
  | some s =>
    let (ms, o) ← b.obj.getModes
    let (as, _) ← o.getAmps
    match ms, as with
    | some ms, some as => (argsort as).mapM (pick ms s.modes)
    | _, _ => .error .typeError

/-- numpy broadcasting of one-dimensional arrays: the length of the result. -/
def bcast (a b : ℕ) : Except PyErr ℕ :=
  if a = b then .ok a else if a = 1 then .ok b else if b = 1 then .ok a else .error .valueError

/-- The shapes met by `forecast` with bagging, L1602-1616: the draws for the eigenvalues and the amplitudes,
then `multi_dot` of the modes, the diagonal matrix and the exponentials. Without bagging (L1622-1629) the three
arrays are used as they are. -/
def Bop.forecastShapes (b : Bop M E A MS S) : Except PyErr Unit := do
  let (ms, o) ← b.obj.getModes
  let (es, o) ← o.getEigs
  let (as, _) ← o.getAmps
  match ms, es, as with
  | some ms, some es, some as => match b.std with
    | some s => do
        let e ← bcast es.length (← bcast es.length s.eigs.length)
        let a ← bcast as.length (← bcast as.length s.amps.length)
        if ms.length = a ∧ a = e then .ok () else .error .valueError
    | none => if ms.length = as.length ∧ as.length = es.length then .ok () else .error .valueError
  | _, _, _ => .error .typeError

end Verif.BopStd
