import Verif.Model.Time
import Mathlib.Data.Real.Basic
import Mathlib.Analysis.Complex.Norm

/-!
# Model of what the plotting functions draw

Source: `/repo/pydmd/plotter.py`. Only the numbers handed to matplotlib are modelled (points, values,
colours by index, axis limits), not the drawing.
-/

set_option autoImplicit false

namespace Verif.Plot

open Verif

/-! ## `plot_modes_2D`, `plot_snapshots_2D` -/

/-- The argument `order` (`'A'` is one of the two). -/
inductive Order
  | c
  | f
  deriving DecidableEq

/-- Entry `(a, b)` of `v.reshape((rows, cols), order=order)`. -/
def reshaped {K : Type} (order : Order) (rows cols : ℕ) (v : List K) (a b : ℕ) : Option K :=
  match order with
  | .c => v[a * cols + b]?
  | .f => v[a + b * rows]?

/-- The points of `pcolor(xgrid, ygrid, v.reshape(xgrid.shape, order=order))` with
`xgrid, ygrid = np.meshgrid(x, y)`: the grids have shape `(len(y), len(x))`, and entry `(a, b)` is at
`(x[b], y[a])`. `plot_modes_2D` L390-L410, `plot_snapshots_2D` L502-L520, `plot_summary` L906-L929.
A vector of the wrong length cannot be reshaped. -/
def grid2D {K P : Type} (x y : List P) (order : Order) (v : List K) :
    Except PyErr (List (P × P × Option K)) :=
  if v.length ≠ y.length * x.length then .error .valueError
  else .ok ((List.range y.length).flatMap fun a => (List.range x.length).filterMap fun b => do
    let px ← x[b]?
    let py ← y[a]?
    return (px, py, reshaped order y.length x.length v a b))

/-- `plot_modes_2D` (L370-L410) and `plot_snapshots_2D` (L484-L520) for one mode or snapshot `v`. `arg` is
the argument `snapshots_shape`, `own` the attribute of the DMD, `grid` the arguments `x` and `y` when
both are given. (Calls with only one of them are not modelled.) -/
def plot2D {K : Type} (arg own : Option (List ℕ)) (grid : Option (List ℚ × List ℚ)) (order : Order)
    (v : List K) : Except PyErr (List (ℚ × ℚ × Option K)) :=
  match grid with
  | some (x, y) => grid2D x y order v
  | none =>
    match arg.or own with
    | some [n0, n1] => grid2D ((List.range n0).map fun i : ℕ => (i : ℚ))
        ((List.range n1).map fun j : ℕ => (j : ℚ)) order v
    | _ => .error .valueError

/-! ## `plot_summary` -/

/-- The checks on `index_modes` in `plot_summary`, L686-L707: the indexes that are plotted.
(Negative indexes are not modelled.) -/
def summaryIndexes (rank maxSval : ℕ) (indexes : List ℕ) : Except PyErr (List ℕ) :=
  if indexes.length > 3 then .error .valueError
  else if rank > maxSval then .error .valueError
  else
    let indexes := if rank < 3 then List.range rank else indexes
    if indexes.any fun i => decide (rank ≤ i) then .error .valueError else .ok indexes

/-- The loop that builds `index_modes_cc`, L805-L811, from the pairs `acc` already there. -/
def ccPairs {K : Type} [DecidableEq K] [Inhabited K] (conj : K → K) (eigs : List K) :
    List ℕ → List (ℕ × ℕ) → List (ℕ × ℕ)
  | [], acc => acc
  | idx :: rest, acc =>
    let eig := eigs.getD idx default
    if conj eig ∉ eigs then ccPairs conj eigs rest (acc ++ [(idx, idx)])
    else if ∀ p ∈ acc, idx ≠ p.1 ∧ idx ≠ p.2 then
      ccPairs conj eigs rest (acc ++ [(idx, eigs.idxOf (conj eig))])
    else ccPairs conj eigs rest acc

/-- `other_eigs`, L812. -/
def otherEigs (rank : ℕ) (pairs : List (ℕ × ℕ)) : List ℕ :=
  (List.range rank).filter fun i => decide (∀ p ∈ pairs, i ≠ p.1 ∧ i ≠ p.2)

/-- `s_var`, L795-L797: "the percent of data variance captured by each singular value". -/
noncomputable def sVar (maxSval : ℕ) (s : List ℝ) : List ℝ := (s.map fun x => x * (100 / s.sum)).take maxSval

/-- What is stored as `_original_time`. -/
inductive TimeAttr
  /-- a `DMDTimeDict` -/
  | dict (w : Time.Window)
  /-- an array of times, as in VarProDMD (varprodmd.py L706) -/
  | array
  /-- nothing -/
  | unset

/-- The times on the horizontal axis of the dynamics, L736-L759; `t` is the argument, a time step.
(A vector of times given as `t` is not modelled.) `RuntimeError` and `IndexError` are not caught. -/
def summaryTimes (attr : TimeAttr) (nsnap : ℕ) : Option ℚ → Except PyErr (List ℚ)
  | some t => .ok ((List.range nsnap).map fun i : ℕ => i * t)
  | none =>
    match attr with
    | .dict w => w.timesteps
    | .array => .error .indexError
    | .unset => .error .runtimeError

/-- The points of one of the plots of dynamics, L941-L950: the time drawn and the time at which
`dmd.dynamics` (dmdbase.py L271-L301) was evaluated. matplotlib rejects arrays of different lengths. -/
def summaryDynamics (attr : TimeAttr) (nsnap : ℕ) (dmdTime : Time.Window) (t : Option ℚ) :
    Except PyErr (List (ℚ × ℚ)) := do
  let time ← summaryTimes attr nsnap t
  let steps ← dmdTime.timesteps
  if time.length ≠ steps.length then .error .valueError else .ok (time.zip steps)

/-! ## Axis limits and levels -/

/-- Limits `supx, infx, supy, infy`. -/
structure Limits where
  supx : ℝ
  infx : ℝ
  supy : ℝ
  infy : ℝ

/-- `_enforce_ratio`, L24-L62. -/
noncomputable def enforceRatio (goal : ℝ) (l : Limits) : Limits :=
  let dx := if l.supx - l.infx = 0 then 1 / 10 ^ 16 else l.supx - l.infx
  let dy := if l.supy - l.infy = 0 then 1 / 10 ^ 16 else l.supy - l.infy
  if goal ≤ max dx dy / min dx dy then
    if dx < dy then
      { l with supx := l.supx + (dy / goal - dx) / 2, infx := l.infx - (dy / goal - dx) / 2 }
    else if dy < dx then
      { l with supy := l.supy + (dx / goal - dy) / 2, infy := l.infy - (dx / goal - dy) / 2 }
    else l
  else l

/-- `max` of a non-empty list. -/
noncomputable def maxOf (x : ℝ) (l : List ℝ) : ℝ := l.foldl max x

/-- `min` of a non-empty list. -/
noncomputable def minOf (x : ℝ) (l : List ℝ) : ℝ := l.foldl min x

/-- `_plot_limits` with `narrow_view=True`, L65-L73; `max` of nothing raises. -/
noncomputable def narrowLimits : List ℂ → Except PyErr Limits
  | [] => .error .valueError
  | z :: zs => .ok (enforceRatio 8
      ⟨maxOf z.re (zs.map Complex.re) + 1 / 20, minOf z.re (zs.map Complex.re) - 1 / 20,
        maxOf z.im (zs.map Complex.im) + 1 / 20, minOf z.im (zs.map Complex.im) - 1 / 20⟩)

/-- `_plot_limits` with `narrow_view=False`, L74, and the limit in `plot_eigs_mrdmd`, L269. -/
noncomputable def wideLimit : List ℂ → Except PyErr ℝ
  | [] => .error .valueError
  | z :: zs => .ok (maxOf ⌈‖z‖⌉ (zs.map fun w => (⌈‖w‖⌉ : ℝ)))

/-- The eigenvalues drawn by `plot_eigs_mrdmd`, L240-L266: `partialEigs` is the method of MrDMD. The test
is `if level:`. -/
def mrdmdEigs {K : Type} (levels : ℕ) (partialEigs : ℕ → Option ℕ → Except PyErr (List K))
    (level : Option ℕ) (node : Option ℕ) : Except PyErr (List K) :=
  match level with
  | some (l + 1) => partialEigs (l + 1) node
  | _ => ((List.range levels).mapM fun l => partialEigs l none).map List.flatten

end Verif.Plot
