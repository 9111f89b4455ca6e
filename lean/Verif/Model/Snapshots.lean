import Verif.Model.Py
import Mathlib.Algebra.BigOperators.Group.List.Basic

/-!
# Model of `Snapshots`

Source: `/repo/pydmd/snapshots.py`.

A numpy array is its shape and its elements in C order. The warning about the condition number
is not modelled; that `np.linalg.cond` rejects empty arrays is.
-/

set_option autoImplicit false

namespace Verif.Snap

open Verif

variable {α : Type}

/-- A numpy array: shape and elements in C order. -/
structure Arr (α : Type) where
  shape : List ℕ
  data : List α
  deriving DecidableEq, Repr

/-- The number of elements fits the shape. -/
def Arr.WF (a : Arr α) : Prop := a.data.length = a.shape.prod

/-- The argument of `Snapshots(X)`: something with an attribute `ndim`, or an iterable of
array-likes. -/
inductive Input (α : Type)
  | array (a : Arr α)
  | list (l : List (Arr α))
  deriving DecidableEq, Repr

/-- An instance of `Snapshots`: the two-dimensional array `_snapshots` and `_snapshots_shape`. -/
structure Snapshots (α : Type) where
  rows : ℕ
  cols : ℕ
  data : List α
  shape : List ℕ
  deriving DecidableEq, Repr

/-- `np.moveaxis(np.stack(arrays), 0, -1)` for flat arrays of `n` elements: the C-order data of
the transposed stack, snapshots.py L65. -/
def stackLast (n : ℕ) (arrays : List (List α)) : List α :=
  (List.range n).flatMap fun i => arrays.filterMap fun a => a[i]?

/-- `Snapshots._unroll_space_dimensions`, snapshots.py L42-67.
* `X.shape[-1]` of a 0-dimensional array raises `IndexError`.
* `reshape((-1, 0))` cannot infer the missing dimension: `ValueError`.
* `zip(*[])` on an empty list cannot be unpacked: `ValueError`. -/
def unroll : Input α → Except PyErr (Snapshots α)
  | .array a =>
      if a.shape.length = 1 then .error .valueError
      else match a.shape.getLast? with
        | none => .error .indexError
        | some t =>
            if t = 0 then .error .valueError
            else .ok ⟨a.data.length / t, t, a.data, a.shape.dropLast⟩
  | .list [] => .error .valueError
  | .list (a :: l) =>
      if l.any (fun b => b.shape != a.shape) then .error .valueError
      else if a.shape.length = 0 then .error .valueError
      else .ok ⟨a.data.length, l.length + 1, stackLast a.data.length ((a :: l).map (·.data)),
        a.shape⟩

/-- `Snapshots.__init__`, snapshots.py L25-40 (and L70-77: `np.linalg.cond` of an empty array
raises `LinAlgError`, a subclass of `ValueError`). -/
def init (x : Input α) : Except PyErr (Snapshots α) := do
  let s ← unroll x
  if s.cols = 1 then .error .valueError
  else if s.rows = 0 then .error .valueError
  else pure s

/-- `snapshots[i, t]`. -/
def Snapshots.get (s : Snapshots α) (i t : ℕ) : Option α :=
  if i < s.rows ∧ t < s.cols then s.data[i * s.cols + t]? else none

end Verif.Snap
