import Verif.Model.Py

/-!
# Model of `ActivationBitmaskProxy` and of the mode-selection API of `DMDBase`

Source: `/repo/pydmd/dmdbase.py`.

Simplifications: the matrix of modes is a list of columns (type `M` of columns is
arbitrary, so is the type of eigenvalues `E` and amplitudes `A`); dtype coercions
of numpy when writing are not modelled.
-/

namespace Verif.Bitmask

open Verif

/-- numpy `xs[mask]` for a boolean mask of the right length: the selected
entries in order. -/
def gather {α : Type} : List Bool → List α → List α
  | b :: bs, x :: xs => if b then x :: gather bs xs else gather bs xs
  | _, _ => []

/-- numpy `xs[mask] = ys` for matching lengths. -/
def scatter {α : Type} : List Bool → List α → List α → List α
  | true :: bs, _ :: xs, y :: ys => y :: scatter bs xs ys
  | false :: bs, x :: xs, ys => x :: scatter bs xs ys
  | _, xs, _ => xs

/-- numpy boolean-mask read; a mask of the wrong length raises `IndexError`. -/
def maskRead {α : Type} (mask : List Bool) (xs : List α) : Except PyErr (List α) :=
  if mask.length = xs.length then .ok (gather mask xs) else .error .indexError

/-- numpy boolean-mask assignment; wrong mask length raises `IndexError`, wrong
number of values `ValueError` (numpy broadcasts a single value; the length
invariant proved in `Lemmas/Bitmask.lean` shows that neither branch is ever reached). -/
def maskWrite {α : Type} (mask : List Bool) (xs ys : List α) : Except PyErr (List α) :=
  if mask.length = xs.length then
    if ys.length = mask.count true then .ok (scatter mask xs ys) else .error .valueError
  else .error .indexError

/-- The three original arrays a proxy refers to (`operator.modes`,
`operator.eigenvalues`, `_b`), dmdbase.py L40-42. They are aliases of the arrays of the
DMD instance, which is why writes to them are writes to the instance. -/
structure Arrays (M E A : Type) where
  modes : List M
  eigs : List E
  amps : List A
  deriving DecidableEq, Repr

/-- The visible part of `ActivationBitmaskProxy` (dmdbase.py L66-70): filtered copies and
`old_bitmask`. -/
structure View (M E A : Type) where
  mask : List Bool
  modes : List M
  eigs : List E
  amps : List A
  deriving DecidableEq, Repr

variable {M E A : Type}

/-- `ActivationBitmaskProxy.change_bitmask`, dmdbase.py L47-70: write the visible values
back to the originals through the old mask (if there is one), then take fresh filtered
copies through the new mask. Returns the updated originals and the new visible part. -/
def changeBitmask (o : Arrays M E A) (old : Option (View M E A)) (value : List Bool) :
    Except PyErr (Arrays M E A × View M E A) := do
  let o ← match old with
    | none => pure o
    | some v => do
        let ms ← maskWrite v.mask o.modes v.modes
        let es ← maskWrite v.mask o.eigs v.eigs
        let as ← maskWrite v.mask o.amps v.amps
        pure (⟨ms, es, as⟩ : Arrays M E A)
  let ms ← maskRead value o.modes
  let es ← maskRead value o.eigs
  let as ← maskRead value o.amps
  pure (o, ⟨value, ms, es, as⟩)

/-- `ActivationBitmaskProxy.__init__`, dmdbase.py L39-45: `old_bitmask = None`, then
`change_bitmask` with an all-`True` mask of the length of the eigenvalues. -/
def newProxy (o : Arrays M E A) : Except PyErr (Arrays M E A × View M E A) :=
  changeBitmask o none (List.replicate o.eigs.length true)

/-- The part of a `DMDBase` instance concerned with mode selection.
`op` is `(operator.modes, operator.eigenvalues)` (`none` = `fitted` is `False`,
dmdbase.py L407-417), `b` is `_b`, `view` is `_modes_activation_bitmask_proxy`. -/
structure Obj (M E A : Type) where
  op : Option (List M × List E)
  b : Option (List A)
  view : Option (View M E A)
  deriving DecidableEq, Repr

/-- `DMDBase.fitted`, dmdbase.py L407-417. -/
def Obj.fitted (o : Obj M E A) : Bool := o.op.isSome

/-- `DMDBase._allocate_modes_bitmask_proxy`, dmdbase.py L482-491: a fresh proxy when the
amplitudes are set, otherwise nothing. Only called on fitted instances (an unfitted
operator raises `ValueError` from its `modes` getter, dmdoperator.py L131-139). -/
def Obj.allocate (o : Obj M E A) : Except PyErr (Obj M E A) :=
  match o.b with
  | none => .ok o
  | some b =>
    match o.op with
    | none => .error .valueError
    | some (ms, es) => do
        let (arr, v) ← newProxy ⟨ms, es, b⟩
        pure ⟨some (arr.modes, arr.eigs), some arr.amps, some v⟩

/-- `if not self._modes_activation_bitmask_proxy: self._allocate_modes_bitmask_proxy()`,
the lazy allocation at dmdbase.py L236-237, L263-264, L403-404, L452-453. -/
def Obj.ensure (o : Obj M E A) : Except PyErr (Obj M E A) :=
  match o.view with
  | some _ => .ok o
  | none => o.allocate

/-- `DMDBase.modes` getter, dmdbase.py L227-242 (returns `None` if not fitted; falls back
to the operator's modes when no proxy can be built). -/
def Obj.getModes (o : Obj M E A) : Except PyErr (Option (List M) × Obj M E A) :=
  match o.op with
  | none => .ok (none, o)
  | some _ => do
      let o ← o.ensure
      match o.view with
      | some v => pure (some v.modes, o)
      | none => pure (o.op.map (·.1), o)

/-- `DMDBase.eigs` getter, dmdbase.py L254-269. -/
def Obj.getEigs (o : Obj M E A) : Except PyErr (Option (List E) × Obj M E A) :=
  match o.op with
  | none => .ok (none, o)
  | some _ => do
      let o ← o.ensure
      match o.view with
      | some v => pure (some v.eigs, o)
      | none => pure (o.op.map (·.2), o)

/-- `DMDBase.amplitudes` getter, dmdbase.py L392-405 (no fallback: without a proxy
the attribute access on `None` raises `AttributeError`). -/
def Obj.getAmps (o : Obj M E A) : Except PyErr (Option (List A) × Obj M E A) :=
  match o.op with
  | none => .ok (none, o)
  | some _ => do
      let o ← o.ensure
      match o.view with
      | some v => pure (some v.amps, o)
      | none => .error .attributeError

/-- `DMDBase.modes_activation_bitmask` getter, dmdbase.py L448-458. -/
def Obj.getMask (o : Obj M E A) : Except PyErr (List Bool × Obj M E A) :=
  match o.op with
  | none => .error .runtimeError
  | some _ => do
      let o ← o.ensure
      match o.view with
      | some v => pure (v.mask, o)
      | none => .error .attributeError

/-- A value assigned to `modes_activation_bitmask`, after `np.array(value)`:
either not of boolean dtype, or boolean of a shape other than one-dimensional, or a
one-dimensional boolean array. -/
inductive MaskVal
  | nonBool
  | boolNd (shape : List Nat) (h : shape.length ≠ 1)
  | bool1 (l : List Bool)

/-- The shape of a boolean value. -/
def MaskVal.shape : MaskVal → List Nat
  | .nonBool => []
  | .boolNd s _ => s
  | .bool1 l => [l.length]

/-- `DMDBase.modes_activation_bitmask` setter, dmdbase.py L460-480. The object returned
beside an exception is the state the instance is left in. -/
def Obj.setMask (o : Obj M E A) (value : MaskVal) : Except PyErr Unit × Obj M E A :=
  if o.fitted = false then (.error .runtimeError, o)
  else
    match value with
    | .nonBool => (.error .runtimeError, o)
    | value =>
      match o.getMask with
      | .error e => (.error e, o)
      | .ok (cur, o) =>
        if value.shape ≠ [cur.length] then (.error .valueError, o)
        else
          match value, o.op, o.b with
          | .bool1 l, some (ms, es), some b =>
            match changeBitmask ⟨ms, es, b⟩ o.view l with
            | .ok (arr, v) => (.ok (), ⟨some (arr.modes, arr.eigs), some arr.amps, some v⟩)
            | .error e => (.error e, o)
          | _, _, _ => (.error .attributeError, o)

/-- In-place write `dmd.modes[:, k] = x` with `k ≥ 0` on the array returned by the getter
(L227-242). An index out of range raises `IndexError`. -/
def Obj.writeMode (o : Obj M E A) (k : Nat) (x : M) : Except PyErr Unit × Obj M E A :=
  match o.getModes with
  | .error e => (.error e, o)
  | .ok (none, o) => (.error .typeError, o)
  | .ok (some l, o) =>
    if k < l.length then
      match o.view with
      | some v => (.ok (), { o with view := some { v with modes := v.modes.set k x } })
      | none => (.ok (), { o with op := o.op.map fun p => (p.1.set k x, p.2) })
    else (.error .indexError, o)

/-- In-place write `dmd.eigs[k] = x`, on the array returned by the getter (L254-269). -/
def Obj.writeEig (o : Obj M E A) (k : Nat) (x : E) : Except PyErr Unit × Obj M E A :=
  match o.getEigs with
  | .error e => (.error e, o)
  | .ok (none, o) => (.error .typeError, o)
  | .ok (some l, o) =>
    if k < l.length then
      match o.view with
      | some v => (.ok (), { o with view := some { v with eigs := v.eigs.set k x } })
      | none => (.ok (), { o with op := o.op.map fun p => (p.1, p.2.set k x) })
    else (.error .indexError, o)

/-- In-place write `dmd.amplitudes[k] = x`, on the array returned by the getter
(L392-405). -/
def Obj.writeAmp (o : Obj M E A) (k : Nat) (x : A) : Except PyErr Unit × Obj M E A :=
  match o.getAmps with
  | .error e => (.error e, o)
  | .ok (none, o) => (.error .typeError, o)
  | .ok (some l, o) =>
    if k < l.length then
      match o.view with
      | some v => (.ok (), { o with view := some { v with amps := v.amps.set k x } })
      | none => (.error .attributeError, o)
    else (.error .indexError, o)

/-- A user action on a fitted instance. -/
inductive Op (M E A : Type)
  | setMask (v : MaskVal)
  | writeMode (k : Nat) (x : M)
  | writeEig (k : Nat) (x : E)
  | writeAmp (k : Nat) (x : A)

/-- Perform one user action. -/
def Obj.step (o : Obj M E A) : Op M E A → Except PyErr Unit × Obj M E A
  | .setMask v => o.setMask v
  | .writeMode k x => o.writeMode k x
  | .writeEig k x => o.writeEig k x
  | .writeAmp k x => o.writeAmp k x

/-- Perform a history of user actions, going on after exceptions; the outcomes
are collected. -/
def Obj.run (o : Obj M E A) : List (Op M E A) → List (Except PyErr Unit) × Obj M E A
  | [] => ([], o)
  | op :: ops =>
    let r := o.step op
    let rest := Obj.run r.2 ops
    (r.1 :: rest.1, rest.2)

/-- The instance as `fit` leaves it: operator and amplitudes set, `_reset` has dropped the
proxy (dmdbase.py L630-637, dmd.py L49-82). -/
def afterFit (modes : List M) (eigs : List E) (amps : List A) : Obj M E A :=
  ⟨some (modes, eigs), some amps, none⟩

end Verif.Bitmask

namespace Verif.Bitmask

open Verif

variable {M E A : Type}

/-- An element of a list key: a Python `int`, or anything that is not an instance of `int`
(which includes `numpy.int64` entries of an index array). Booleans inside a list are
instances of `int` with their own numpy meaning and are not modelled. -/
inductive KeyElem
  | int (k : Int)
  | nonInt
  deriving DecidableEq, Repr

/-- The integer of a list element. -/
def KeyElem.toInt? : KeyElem → Option Int
  | .int k => some k
  | .nonInt => none

/-- Argument of `DMDBase.__getitem__`, by the `isinstance` test of dmdbase.py L514. -/
inductive Key
  | int (k : Int)
  | slice (start stop step : Option Int)
  | list (ks : List KeyElem)
  | other
  deriving DecidableEq, Repr

/-- Python/numpy integer index resolution for an axis of length `n`. -/
def resolveIdx (n : Nat) (k : Int) : Except PyErr Nat :=
  if 0 ≤ k ∧ k < n then .ok k.toNat
  else if k < 0 ∧ -(n : Int) ≤ k then .ok (k + n).toNat
  else .error .indexError

/-- Resolve all the indexes of a list, failing if one is out of range. -/
def resolveAll (n : Nat) : List Int → Except PyErr (List Nat)
  | [] => .ok []
  | k :: ks =>
    match resolveIdx n k with
    | .error e => .error e
    | .ok i => match resolveAll n ks with
      | .error e => .error e
      | .ok is => .ok (i :: is)

/-- CPython `slice.indices(n)` (PySlice_AdjustIndices) for a nonzero step: the adjusted
start and stop. -/
def sliceBounds (n : Nat) (start stop : Option Int) (step : Int) : Int × Int :=
  let lower : Int := if step < 0 then -1 else 0
  let upper : Int := if step < 0 then n - 1 else n
  let adj (x : Int) : Int := if x < 0 then max (x + n) lower else min x upper
  let s := match start with
    | none => if step < 0 then upper else lower
    | some x => adj x
  let e := match stop with
    | none => if step < 0 then lower else upper
    | some x => adj x
  (s, e)

/-- `range(start, stop, step)` for a nonzero step, as the list of the first `fuel` candidates
still inside the range; `fuel` is the length of the axis, which bounds the number of
elements of an adjusted slice. -/
def rangeFrom (stop step : Int) : Nat → Int → List Nat
  | 0, _ => []
  | fuel + 1, i =>
    if (0 < step ∧ i < stop) ∨ (step < 0 ∧ stop < i) then
      i.toNat :: rangeFrom stop step fuel (i + step)
    else []

/-- The positions a key designates on an axis of length `n`, as numpy resolves
`mask[key]`; the checks of dmdbase.py L514-530 come first. -/
def resolveKey (n : Nat) : Key → Except PyErr (List Nat)
  | .int k => match resolveIdx n k with
      | .error e => .error e
      | .ok i => .ok [i]
  | .slice start stop step =>
      let st := step.getD 1
      if st = 0 then .error .valueError
      else
        let b := sliceBounds n start stop st
        .ok (rangeFrom b.2 st n b.1)
  | .list ks => resolveAll n (ks.filterMap KeyElem.toInt?)
  | .other => .error .valueError

/-- The argument checks of `__getitem__`, dmdbase.py L514-530: element types first, then
repetitions. -/
def checkKey : Key → Except PyErr Unit
  | .int _ => .ok ()
  | .slice _ _ _ => .ok ()
  | .list ks =>
      if ks.any (fun k => decide (k = .nonInt)) then .error .valueError
      else if ks.Nodup then .ok ()
      else .error .valueError
  | .other => .error .valueError

/-- `mask = np.full(n, False); mask[idxs] = True`, dmdbase.py L532-533. -/
def setTrue (n : Nat) (idxs : List Nat) : List Bool :=
  idxs.foldl (fun m i => m.set i true) (List.replicate n false)

/-- `DMDBase.__getitem__`, dmdbase.py L493-539. Returns the outcome (the shallow copy) and
the state of the original instance, whose proxy may have been allocated by the mask getter
at L532. The copy and the original share the operator and amplitude arrays: the writes
that setting the mask of the copy performs on them are part of `copy.op`, `copy.b`
(theorem `C05_getitem` shows that they leave the shared arrays as they were). -/
def Obj.getItem (o : Obj M E A) (key : Key) : Except PyErr (Obj M E A) × Obj M E A :=
  match checkKey key with
  | .error e => (.error e, o)
  | .ok () =>
    match o.getMask with
    | .error e => (.error e, o)
    | .ok (cur, o) =>
      match resolveKey cur.length key with
      | .error e => (.error e, o)
      | .ok idxs =>
        match o.allocate with
        | .error e => (.error e, o)
        | .ok c =>
          match c.setMask (.bool1 (setTrue cur.length idxs)) with
          | (.error e, _) => (.error e, o)
          | (.ok (), c) => (.ok c, o)

end Verif.Bitmask
