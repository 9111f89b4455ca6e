import Verif.Model.Havok
import Mathlib.Tactic

/-!
# Model of `BOPDMD.plot_mode_uq` and of `HAVOK.plot_summary`

Sources: `/repo/pydmd/bopdmd.py` L1631-1780, `/repo/pydmd/havok.py` L605-778. Modelled is which entries are
drawn where; colours, titles as text and files are not.
-/

set_option autoImplicit false

namespace Verif.UqPlot

open Verif

/-- `l[::2]`. -/
def everyOther {α : Type} : List α → List α
  | [] => []
  | [a] => [a]
  | a :: _ :: l => a :: everyOther l

/-- The argument `plot_modes`: `None`, a Python `int`, or indices. -/
inductive Modes
  | all
  | num (k : ℤ)
  | indices (l : List ℤ)

/-- `l[:k]`. -/
def upTo {α : Type} (l : List α) (k : ℤ) : List α :=
  if 0 ≤ k then l.take k.toNat else l.take (l.length - (-k).toNat)

/-- `mode_indices`, bopdmd.py L1687-1702: positions in the order of decreasing amplitude. -/
def modeIndices (r : ℕ) (plot : Modes) (pairs : Bool) : List ℤ :=
  let all := (List.range r).map fun i : ℕ => (i : ℤ)
  let base := if pairs then all else
    if r % 2 = 0 then everyOther all else 0 :: everyOther (all.drop 1)
  match plot with
  | .all => base
  | .num k => upTo base k
  | .indices l => l

/-- The modes named in the title of the `i`-th picture, which shows the mode `idx`, bopdmd.py L1748-1751. The
condition refers to `plot_conjugate_pairs` after L1702. -/
def title (r : ℕ) (plot : Modes) (pairs : Bool) (i : ℕ) (idx : ℤ) : List ℤ :=
  let pairs := match plot with
    | .indices _ => true
    | _ => pairs
  if pairs || (decide (r % 2 = 1) && decide (i = 0)) then [idx] else [idx, idx + 1]

/-- The number of rows, L1727: twice the quotient rounded up. -/
def rows (n cols : ℕ) : ℕ := 2 * ((n + cols - 1) / cols)

/-- `all_inds`, L1730. -/
def allInds (n cols : ℕ) : List (List ℕ) :=
  (List.range (rows n cols)).map fun a => (List.range cols).map fun b => a * cols + b

/-- `avg_inds`, L1734. -/
def avgInds (n cols : ℕ) : List ℕ := (everyOther (allInds n cols)).flatten

/-- `std_inds`, L1738. -/
def stdInds (n cols : ℕ) : List ℕ := (everyOther ((allInds n cols).drop 1)).flatten

/-- Where the `i`-th mode and its standard deviation are drawn (without the `+ 1` that matplotlib asks
for), L1747 and L1770. Outside of the grid `IndexError`. -/
def places (n cols i : ℕ) : Except PyErr (ℕ × ℕ) :=
  match (avgInds n cols)[i]?, (stdInds n cols)[i]? with
  | some a, some s => .ok (a, s)
  | _, _ => .error .indexError

/-- The average over the delays, L1720-1722: `reshape(d, nd // d, r)` and the mean over the first axis, for
one column. `ValueError` if the number of rows is not a multiple of `d`. -/
noncomputable def collapse (d nd : ℕ) (v : ℕ → ℂ) : Except PyErr (ℕ → ℂ) :=
  if d ≤ 1 then .ok v
  else if d * (nd / d) ≠ nd then .error .valueError
  else .ok fun k => (∑ j ∈ Finset.range d, v (j * (nd / d) + k)) / d

end Verif.UqPlot

namespace Verif.HavokPlot

open Verif

/-- `active_indices`, havok.py L673-676. A mask of another length than `np.arange(num_plot)` raises
`IndexError`. -/
noncomputable def active (forcing : List ℝ) (thr : ℝ) (numPlot : ℕ) : Except PyErr (List ℤ) :=
  if (forcing.take numPlot).length ≠ numPlot then .error .indexError
  else .ok (((List.range numPlot).filter fun i => decide (thr < |forcing.getD i 0|)).map
    fun i : ℕ => (i : ℤ))

/-- The indexes drawn in red, `for ind1, ind2 in active_slices: plot(time[ind1:ind2], ...)`, L734-735 (and
L758-762 for the embedded attractor): slices exclude their end. -/
def red (slices : List (ℤ × ℤ)) (i : ℤ) : Prop := ∃ s ∈ slices, s.1 ≤ i ∧ i < s.2

/-- `true_switch_indices`, L737-741: an array is cut at the first index outside. `none` stands for a list
or tuple: `>=` raises `TypeError`. -/
def switches (arr : Option (List ℤ)) (numPlot : ℤ) : Except PyErr (List ℤ) :=
  match arr with
  | none => .error .typeError
  | some l => .ok (match l.findIdx? (fun k => decide (numPlot ≤ k)) with
    | none => l
    | some j => l.take j)

end Verif.HavokPlot
