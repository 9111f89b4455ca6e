import Verif.Model.MrDMD
import Mathlib.Analysis.SpecialFunctions.Complex.Log

/-!
# Model of the accessors and the mode selection of `MrDMD`

Source: `/repo/pydmd/mrdmd.py`.
-/

set_option autoImplicit false

namespace Verif.MrDMD

open Verif

variable {K ι : Type}

/-- The attributes of a fitted DMD in a node that the accessors of `MrDMD` read: modes by columns,
dynamics by rows, `width` the number of snapshots. -/
structure Leaf (K ι : Type) where
  eigs : List K
  amplitudes : List K
  modes : List (ι → K)
  dynamics : List (List K)
  width : ℕ

/-- `self.dmd_tree[level, leaf]`; reading an attribute of `None` raises `AttributeError` (it does not
occur, `_build_tree` fills the tree). -/
def node (t : Tree (Leaf K ι)) (level : ℕ) (leaf : ℤ) : Except PyErr (Leaf K ι) :=
  match t.get level leaf with
  | .error e => .error e
  | .ok none => .error .attributeError
  | .ok (some a) => .ok a

/-- `leaves` in the `partial_*` methods, mrdmd.py L341, L360, L384, L404, and the nodes they address. -/
def leaves (t : Tree (Leaf K ι)) (level : ℕ) (leaf : Option ℤ) : Except PyErr (List (Leaf K ι)) :=
  match leaf with
  | none => (List.range (2 ^ level)).mapM fun b : ℕ => node t level b
  | some b => [b].mapM fun b => node t level b

/-- `partial_modes`, mrdmd.py L326-342. -/
def partialModes (t : Tree (Leaf K ι)) (level : ℕ) (leaf : Option ℤ) : Except PyErr (List (ι → K)) := do
  let ls ← leaves t level leaf
  pure (ls.flatMap Leaf.modes)

/-- `partial_eigs`, mrdmd.py L369-387. -/
def partialEigs (t : Tree (Leaf K ι)) (level : ℕ) (leaf : Option ℤ) : Except PyErr (List K) := do
  let ls ← leaves t level leaf
  pure (ls.flatMap Leaf.eigs)

/-- `partial_amplitudes`, mrdmd.py L389-407. -/
def partialAmplitudes (t : Tree (Leaf K ι)) (level : ℕ) (leaf : Option ℤ) : Except PyErr (List K) := do
  let ls ← leaves t level leaf
  pure (ls.flatMap Leaf.amplitudes)

section

variable [CommRing K]

/-- `scipy.linalg.block_diag` of the dynamics, as list of rows; a leaf without modes contributes
its columns. -/
def blockDiag : List (Leaf K ι) → List (List K)
  | [] => []
  | a :: ls =>
    (a.dynamics.map fun row => row ++ List.replicate (ls.map Leaf.width).sum 0) ++
      (blockDiag ls).map fun row => List.replicate a.width 0 ++ row

/-- `partial_dynamics`, mrdmd.py L344-367. -/
def partialDynamics (t : Tree (Leaf K ι)) (level : ℕ) (leaf : Option ℤ) : Except PyErr (List (List K)) := do
  let ls ← leaves t level leaf
  pure (blockDiag ls)

/-- `modes.dot(dynamics)` with `n` columns. -/
def product (modes : List (ι → K)) (dynamics : List (List K)) (n : ℕ) : List (ι → K) :=
  (List.range n).map fun t x => (List.zipWith (fun m row => m x * row.getD t 0) modes dynamics).sum

/-- `partial_reconstructed_data`, mrdmd.py L409-427: the columns are those of the dynamics. -/
def partialReconstructed (t : Tree (Leaf K ι)) (level : ℕ) (leaf : Option ℤ) :
    Except PyErr (List (ι → K)) := do
  let ls ← leaves t level leaf
  let ms ← partialModes t level leaf
  let ds ← partialDynamics t level leaf
  pure (product ms ds (ls.map Leaf.width).sum)

/-- `modes`, mrdmd.py L84-94 (`max_level` is the depth of the tree). -/
def modes (t : Tree (Leaf K ι)) : Except PyErr (List (ι → K)) := do
  let l ← (List.range (t.depth + 1)).mapM fun level => partialModes t level none
  pure l.flatten

/-- `dynamics`, mrdmd.py L96-107. -/
def dynamics (t : Tree (Leaf K ι)) : Except PyErr (List (List K)) := do
  let l ← (List.range (t.depth + 1)).mapM fun level => partialDynamics t level none
  pure l.flatten

/-- `eigs`, mrdmd.py L109-117: iteration over the list of the tree, L50-51. -/
def eigs (t : Tree (Leaf K ι)) : Except PyErr (List K) := do
  let l ← t.tree.mapM fun
    | none => .error .attributeError
    | some a => .ok a.eigs
  pure l.flatten

/-- The reconstruction of one leaf, dmdbase.py L327-334. -/
def Leaf.reconstructed (a : Leaf K ι) : List (ι → K) := product a.modes a.dynamics a.width

/-- `reconstructed_data`, mrdmd.py L127-148, for `n` snapshots. -/
def reconstructedData (t : Tree (Leaf K ι)) (n : ℕ) : Except PyErr (List (ι → K)) := do
  let cs ← (List.range (t.depth + 1)).mapM fun level => do
    let ls ← leaves t level none
    pure (ls.flatMap Leaf.reconstructed)
  pure (reconstructed cs n)

end

/-- `time_window_eigs`, mrdmd.py L270-281: `np.concatenate` of no arrays raises `ValueError`. -/
def timeWindowEigs (t : Tree (Leaf K ι)) (orig : Time.Window) (t0 tend : ℚ) : Except PyErr (List K) := do
  let l ← (timeWindowBins orig t.depth t0 tend).mapM fun p => node t p.1 p.2
  if l.isEmpty then .error .valueError else pure (l.flatMap Leaf.eigs)

/-! ### Selection of the slow modes -/

open Classical in
/-- `slow_modes`, mrdmd.py L493-494, for one eigenvalue; the logarithm of 0 is infinite. -/
noncomputable def slow (rho : ℝ) (lam : ℂ) : Bool :=
  if lam = 0 then false else decide (‖Complex.log lam‖ < rho * 2 * Real.pi)

/-- The mask of the modes kept in a node with `n` snapshots, mrdmd.py L505-508. -/
noncomputable def slowMask (maxCycles n : ℕ) (eigs : List ℂ) : List Bool :=
  eigs.map (slow ((maxCycles : ℝ) / n))

end Verif.MrDMD
