import Verif.Model.MrDMD

/-!
# Model of the arrays that an instance shares with its caller

Source: `/repo/pydmd/snapshots.py` L43-67, `/repo/pydmd/mrdmd.py` L471-522, `/repo/pydmd/bopdmd.py` L1407 and L1497,
`/repo/pydmd/havok.py` L366 and L437, `/repo/pydmd/varprodmd.py` L702-708.

A memory holds buffers, each a list of columns (of numbers, for a vector of times). An array is a range of columns of a buffer:
slicing and `np.array_split` give arrays of the same buffer. Simplified: arrays are shared column by column, which is how
all the code below slices; strides inside a column are not modelled.
-/

set_option autoImplicit false

namespace Verif.Alias

open Verif

variable {V : Type}

/-- The memory: contents of the buffers, and the first unused one. -/
structure Mem (V : Type) where
  cells : ℕ → List V
  next : ℕ

/-- An array: `len` columns of a buffer from `start` on. -/
structure View where
  buf : ℕ
  start : ℕ
  len : ℕ
  deriving DecidableEq, Repr

/-- The columns of an array. -/
def View.read (v : View) (mem : Mem V) : List V := ((mem.cells v.buf).drop v.start).take v.len

/-- A new array. -/
def Mem.alloc (mem : Mem V) (xs : List V) : Mem V × View :=
  (⟨Function.update mem.cells mem.next xs, mem.next + 1⟩, ⟨mem.next, 0, xs.length⟩)

/-- Assignment to all columns of an array in place (`X[:] = xs`, `X -= ..`). -/
def Mem.store (mem : Mem V) (v : View) (xs : List V) : Mem V :=
  ⟨Function.update mem.cells v.buf
    ((mem.cells v.buf).take v.start ++ xs ++ (mem.cells v.buf).drop (v.start + v.len)), mem.next⟩

/-- The argument `X` of `fit`: a two-dimensional array, an array of more dimensions (contiguous or not) seen as columns, or a
list of snapshots. -/
inductive Given
  | array2 (v : View)
  | arrayN (v : View) (contiguous : Bool)
  | list (vs : List View)

/-- The arrays of the caller in it. -/
def Given.views : Given → List View
  | .array2 v => [v]
  | .arrayN v _ => [v]
  | .list vs => vs

/-- The columns in it. -/
def Given.read (g : Given) (mem : Mem V) : List V := g.views.flatMap fun v => v.read mem

/-- `Snapshots._unroll_space_dimensions`, snapshots.py L43-67, as far as memory is concerned: `reshape` of a matrix to its own
shape, and of a contiguous array, is the same memory; of another array it is a copy. `np.stack` makes a new array. -/
def holder (mem : Mem V) : Given → Mem V × View
  | .array2 v => (mem, v)
  | .arrayN v true => (mem, v)
  | .arrayN v false => mem.alloc (v.read mem)
  | .list vs => mem.alloc (vs.flatMap fun v => v.read mem)

/-! ### `MrDMD` -/

/-- Arrays of given lengths, one after the other. -/
def cut (buf : ℕ) : ℕ → List ℕ → List View
  | _, [] => []
  | start, s :: ss => ⟨buf, start, s⟩ :: cut buf (start + s) ss

/-- `np.array_split(X, k, axis=1)`, mrdmd.py L499: the pieces share the memory of `X`. -/
def splitViews (X : View) (k : ℕ) : List View := cut X.buf X.start (MrDMD.sizes X.len k)

variable [AddCommGroup V]

/-- The loop of `MrDMD.fit` over the levels, mrdmd.py L497-516, on the array `X`: the arrays kept as `snapshots` by the leaves
of each level (`current_dmd.fit(x)` stores `Snapshots(x)`), the contributions of the levels, and the memory at the end.
`rec` and `cast` as in `MrDMD.fitLevels`. -/
def fitHeap (rec : ℕ → ℕ → List V → List V) (cast : V → V) (X : View) :
    List ℕ → Mem V → Except PyErr (List (List View) × List (List V) × Mem V)
  | [], mem => .ok ([], [], mem)
  | level :: ls, mem => do
      let xs := splitViews X (2 ^ level)
      let kept := xs.map fun x => (holder mem (.array2 x)).2
      let newX := (kept.mapIdx fun leaf x => rec level leaf (x.read mem)).flatten
      if newX.length ≠ X.len then .error .valueError
      else do
        let (ks, cs, r) ← fitHeap rec cast X ls
          (mem.store X (List.zipWith (fun x y => x - cast y) (X.read mem) newX))
        pure (kept :: ks, newX :: cs, r)

/-- `MrDMD.fit`, mrdmd.py L479 and L496-516: `snapshots` of the instance, and the result of the loop on a copy of it. -/
def fitMr (rec : ℕ → ℕ → List V → List V) (cast : V → V) (levels : List ℕ) (mem : Mem V) (g : Given) :
    View × Except PyErr (List (List View) × List (List V) × Mem V) :=
  let (mem, snapshots) := holder mem g
  let (mem, X) := mem.alloc (snapshots.read mem)
  (snapshots, fitHeap rec cast X levels mem)

/-! ### Times -/

/-- The methods that keep a vector of times given as an array of floats. -/
inductive TimeOf
  | bopFit
  | bopEcon
  | havok
  | varpro
  deriving DecidableEq, Repr

omit [AddCommGroup V] in
/-- What they keep: `BOPDMD.fit` (bopdmd.py L1407) and `HAVOK.fit` (havok.py L366) a copy, `np.array(t).squeeze()`;
`BOPDMD.fit_econ` (bopdmd.py L1497, `np.asarray(t).squeeze()`) and `VarProDMD.fit` (varprodmd.py L706) the array itself. -/
def keepTime (c : TimeOf) (mem : Mem V) (t : View) : Mem V × View :=
  match c with
  | .bopFit => mem.alloc (t.read mem)
  | .havok => mem.alloc (t.read mem)
  | .bopEcon => (mem, t)
  | .varpro => (mem, t)

end Verif.Alias
