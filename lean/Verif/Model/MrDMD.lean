import Verif.Model.Time
import Mathlib.Algebra.Order.Floor.Ring
import Mathlib.Data.Nat.Log
import Mathlib.Analysis.SpecialFunctions.Log.Base

/-!
# Model of multi-resolution DMD

Source: `/repo/pydmd/mrdmd.py`.
-/

set_option autoImplicit false

namespace Verif.MrDMD

open Verif

/-- `BinaryTree`, mrdmd.py L20-58: `None` is `none`. -/
structure Tree (α : Type) where
  depth : ℕ
  tree : List (Option α)
  deriving DecidableEq

variable {α : Type}

/-- `BinaryTree.__init__` and `__len__`, mrdmd.py L23-28. -/
def Tree.new (depth : ℕ) : Tree α := ⟨depth, List.replicate (2 ^ (depth + 1) - 1) none⟩

/-- The list index of a node, mrdmd.py L45 and L49 (the level is a natural number, the leaf any
integer). -/
def nodeIndex (level : ℕ) (bin : ℤ) : ℤ := 2 ^ level + bin - 1

/-- Python's resolution of a possibly negative list index. -/
def pyIndex (len : ℕ) (i : ℤ) : Option ℕ :=
  if 0 ≤ i then (if i < len then some i.toNat else none)
  else if 0 ≤ i + len then some (i + len).toNat else none

/-- `BinaryTree.__getitem__`, mrdmd.py L30-45. -/
def Tree.get (t : Tree α) (level : ℕ) (bin : ℤ) : Except PyErr (Option α) :=
  if t.depth < level then .error .valueError
  else if (2 ^ level : ℤ) ≤ bin then .error .valueError
  else match pyIndex t.tree.length (nodeIndex level bin) with
    | some i => .ok (t.tree.getD i none)
    | none => .error .indexError

/-- `BinaryTree.__setitem__`, mrdmd.py L47-49. -/
def Tree.set (t : Tree α) (level : ℕ) (bin : ℤ) (a : α) : Except PyErr (Tree α) :=
  match pyIndex t.tree.length (nodeIndex level bin) with
  | some i => .ok { t with tree := t.tree.set i (some a) }
  | none => .error .indexError

/-- `np.array_split` on a list of columns, used in mrdmd.py L494: the first `n % k` pieces have
`n // k + 1` columns, the others `n // k`. -/
def sizes (n k : ℕ) : List ℕ :=
  List.replicate (n % k) (n / k + 1) ++ List.replicate (k - n % k) (n / k)

/-- Cutting a list in pieces of given sizes. -/
def pieces {V : Type} : List ℕ → List V → List (List V)
  | [], _ => []
  | s :: ss, X => X.take s :: pieces ss (X.drop s)

/-- `np.array_split(X, k, axis=1)`. -/
def arraySplit {V : Type} (X : List V) (k : ℕ) : List (List V) := pieces (sizes X.length k) X

/-- Python's `int` on a real number: rounding towards zero. -/
noncomputable def pyInt (x : ℝ) : ℤ := if 0 ≤ x then ⌊x⌋ else ⌈x⌉

/-- The limit on the level for `n` snapshots, mrdmd.py L480-482:
`int(np.log(n / 4.0) / np.log(2.0)) + 1`. It is not negative for `n ≥ 2` (fewer snapshots are
rejected before). Rounding errors of the floating-point logarithms are not modelled. -/
noncomputable def levelThreshold (n : ℕ) : ℕ :=
  (pyInt (Real.log ((n : ℝ) / 4) / Real.log 2) + 1).toNat

/-- The kinds of the argument `dmd`: a function or a single instance, or a sequence with the
given number of items, mrdmd.py L199-226. -/
inductive Builder
  | function
  | sequence (len : ℕ)
  deriving DecidableEq

/-- `_dmd_builder`, mrdmd.py L199-226: only the length check can fail. -/
def Builder.check (b : Builder) (maxLevel : ℕ) : Except PyErr Unit :=
  match b with
  | .function => .ok ()
  | .sequence len => if len ≠ maxLevel + 1 then .error .valueError else .ok ()

/-- The adjustment of `max_level` at the start of `fit`, mrdmd.py L479-489: the outcome and the
attribute `max_level` afterwards (it is assigned before the tree is rebuilt). -/
noncomputable def clampLevel (b : Builder) (maxLevel n : ℕ) : Except PyErr Unit × ℕ :=
  if levelThreshold n < maxLevel then (b.check (levelThreshold n), levelThreshold n)
  else (.ok (), maxLevel)

variable {V : Type} [AddCommGroup V]

/-- `np.hstack` of the leaves' reconstructions of one level, mrdmd.py L505-510; `rec level leaf x`
is the reconstruction of the DMD of that node fitted on `x` with the slow modes selected. -/
def levelRec (rec : ℕ → ℕ → List V → List V) (level : ℕ) (X : List V) : List V :=
  ((arraySplit X (2 ^ level)).mapIdx fun leaf x => rec level leaf x).flatten

/-- The loop of `fit` over the levels, mrdmd.py L492-511; returns the contributions of the levels
and the final residual. `cast` is `astype(X.dtype)` on a column. A contribution with another
number of columns than `X` raises `ValueError` (numpy would broadcast a single column; leaves'
reconstructions have as many columns as their data, so this does not arise). -/
def fitLevels (rec : ℕ → ℕ → List V → List V) (cast : V → V) :
    List ℕ → List V → Except PyErr (List (List V) × List V)
  | [], X => .ok ([], X)
  | level :: ls, X => do
      let newX := levelRec rec level X
      if newX.length ≠ X.length then .error .valueError
      else do
        let (cs, r) ← fitLevels rec cast ls (List.zipWith (fun x y => x - cast y) X newX)
        pure (newX :: cs, r)

/-- `reconstructed_data`, mrdmd.py L127-148: the sum over the levels, for `n` columns. -/
def reconstructed (contributions : List (List V)) (n : ℕ) : List V :=
  (List.range n).map fun i => (contributions.map fun c => c.getD i 0).sum

/-- `partial_time_interval`, mrdmd.py L429-453: `(t0, tend)`. -/
def interval (orig : Time.Window) (maxLevel : ℕ) (level : ℕ) (leaf : ℤ) : Except PyErr (ℚ × ℚ) :=
  if maxLevel < level then .error .valueError
  else if (2 ^ level : ℤ) ≤ leaf then .error .valueError
  else
    let period := (orig.tend - orig.t0) / 2 ^ level
    .ok (orig.t0 + period * leaf, orig.t0 + period * leaf + period)

/-- The test in `time_window_bins`, mrdmd.py L259-263. -/
def seen (t0 tend : ℚ) (l : ℚ × ℚ) : Bool :=
  (l.1 ≤ t0 && t0 < l.2) || (l.1 < tend && tend ≤ l.2) || (t0 ≤ l.1 && tend ≥ l.2)

/-- `time_window_bins`, mrdmd.py L246-268. `np.unique(..., axis=0)` sorts and removes duplicates;
the list is built sorted and without duplicates. -/
def timeWindowBins (orig : Time.Window) (maxLevel : ℕ) (t0 tend : ℚ) : List (ℕ × ℕ) :=
  (List.range (maxLevel + 1)).flatMap fun level =>
    ((List.range (2 ^ level)).filter fun leaf : ℕ =>
      match interval orig maxLevel level leaf with
      | .ok l => seen t0 tend l
      | .error _ => false).map fun leaf => (level, leaf)

/-- The time dictionary set by `MrDMD.fit` on `n` snapshots, mrdmd.py L513-515. -/
def fitWindow (n : ℕ) : Time.Window := ⟨0, n, 1⟩

end Verif.MrDMD
