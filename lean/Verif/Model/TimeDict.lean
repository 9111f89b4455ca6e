import Verif.Model.Py

/-!
# Model of the time dictionaries of a DMD instance

Source: `/repo/pydmd/dmdbase.py` L541-618 and L759-774. Python dictionaries are mutable objects
shared by reference, so the model has a heap of dictionary cells; a cell remembers whether the
object is a `DMDTimeDict` (guarded item assignment) or a plain `dict`.

Simplification: keys are strings, values come from an arbitrary type `V`.
-/

namespace Verif.TimeDict

open Verif

/-- A Python dictionary as an association list with distinct keys. -/
abbrev Dict (V : Type) := List (String × V)

variable {V : Type}

/-- `d[key]` (missing key: `none`). -/
def Dict.get? (d : Dict V) (k : String) : Option V := d.lookup k

/-- `dict.__setitem__`: replace the value of an existing key or append. -/
def Dict.put : Dict V → String → V → Dict V
  | [], k, v => [(k, v)]
  | (k', v') :: d, k, v => if k' = k then (k, v) :: d else (k', v') :: Dict.put d k v

/-- The keys allowed by `DMDTimeDict.__setitem__`, dmdbase.py L761. -/
def allowed : List String := ["t0", "tend", "dt"]

/-- A dictionary object: its contents and whether it is a `DMDTimeDict`. -/
structure Cell (V : Type) where
  guarded : Bool
  dict : Dict V
  deriving DecidableEq, Repr

/-- Item assignment on a dictionary object; for a `DMDTimeDict` dmdbase.py L760-769. -/
def Cell.setItem (c : Cell V) (k : String) (v : V) : Except PyErr Unit × Cell V :=
  if c.guarded then
    if k ∈ allowed then (.ok (), { c with dict := c.dict.put k v }) else (.error .keyError, c)
  else (.ok (), { c with dict := c.dict.put k v })

/-- `all(map(lambda s: o[s] == self[s], keys))`: stops at the first `False`; a missing key
raises `KeyError`. -/
def eqKeys [DecidableEq V] (self o : Dict V) : List String → Except PyErr Bool
  | [] => .ok true
  | s :: ss =>
    match o.get? s, self.get? s with
    | some a, some b => if a = b then eqKeys self o ss else .ok false
    | _, _ => .error .keyError

/-- `DMDTimeDict.__eq__`, dmdbase.py L771-774, against a dictionary (`some`) or another object
(`none`). -/
def eqDict [DecidableEq V] (self : Dict V) : Option (Dict V) → Except PyErr Bool
  | none => .ok false
  | some o => eqKeys self o ["t0", "tend", "dt"]

/-- The heap and the two attributes `_original_time`, `_dmd_time` of an instance (references),
plus the references held by the user's own variables. -/
structure State (V : Type) where
  heap : List (Cell V)
  orig : Option Nat
  dmd : Option Nat
  user : List Nat
  deriving DecidableEq, Repr

/-- Allocate a new object. -/
def State.alloc (s : State V) (c : Cell V) : Nat × State V :=
  (s.heap.length, { s with heap := s.heap ++ [c] })

/-- `_set_initial_time_dictionary(time_dict)`, dmdbase.py L598-618 (the argument is a dictionary
built by `fit`). -/
def State.setInitial (s : State V) (d : Dict V) : Except PyErr Unit × State V :=
  if (d.get? "t0").isSome && (d.get? "tend").isSome && (d.get? "dt").isSome then
    if d.length > 3 then (.error .valueError, s)
    else
      let (r1, s) := s.alloc ⟨true, d⟩
      let s := { s with orig := some r1 }
      let (r2, s) := s.alloc ⟨true, d⟩
      (.ok (), { s with dmd := some r2 })
  else (.error .valueError, s)

/-- What a user can name: one of their variables, `dmd.original_time`, `dmd.dmd_time`. -/
inductive Src
  | user (i : Nat)
  | originalTime
  | dmdTime
  deriving DecidableEq, Repr

/-- The reference an expression evaluates to; the properties raise `RuntimeError` when unset
(dmdbase.py L560-565, L587-592), an unbound variable is a `NameError` (not modelled: treated
as `none` by the callers below). -/
def State.ref (s : State V) : Src → Option Nat
  | .user i => s.user[i]?
  | .originalTime => s.orig
  | .dmdTime => s.dmd

/-- User actions concerning time dictionaries. -/
inductive Op (V : Type)
  /-- create a plain dictionary held by a new user variable -/
  | newDict (d : Dict V)
  /-- bind a new user variable to the object `dmd.dmd_time` or to the object of another variable -/
  | bind (src : Src)
  /-- `src[k] = v` -/
  | setItem (src : Src) (k : String) (v : V)
  /-- `dmd.dmd_time = src`, dmdbase.py L594-596: a deep copy is stored -/
  | assignDmdTime (src : Src)

/-- Perform one action. -/
def State.step (s : State V) : Op V → Except PyErr Unit × State V
  | .newDict d =>
      let (r, s) := s.alloc ⟨false, d⟩
      (.ok (), { s with user := s.user ++ [r] })
  | .bind src =>
      match s.ref src with
      | some r => (.ok (), { s with user := s.user ++ [r] })
      | none => (.error .runtimeError, s)
  | .setItem src k v =>
      match s.ref src with
      | some r =>
        match s.heap[r]? with
        | some c =>
          let (res, c') := c.setItem k v
          (res, { s with heap := s.heap.set r c' })
        | none => (.error .runtimeError, s)
      | none => (.error .runtimeError, s)
  | .assignDmdTime src =>
      match s.ref src with
      | some r =>
        match s.heap[r]? with
        | some c =>
          let (r', s) := s.alloc c
          (.ok (), { s with dmd := some r' })
        | none => (.error .runtimeError, s)
      | none => (.error .runtimeError, s)

/-- Perform a history of actions, going on after exceptions. -/
def State.run (s : State V) (ops : List (Op V)) : State V :=
  ops.foldl (fun s op => (s.step op).2) s

/-- Contents of the object behind an expression. -/
def State.read (s : State V) (src : Src) : Option (Dict V) :=
  (s.ref src).bind fun r => (s.heap[r]?).map (·.dict)

end Verif.TimeDict
