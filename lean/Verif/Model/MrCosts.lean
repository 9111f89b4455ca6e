import Verif.Model.Costs
import Mathlib.Algebra.Order.Field.Rat
import Mathlib.Data.List.Dedup

/-!
# Model of mrCOSTS: global frequency bands and reconstruction

Source: `/repo/pydmd/mrcosts.py` L271-358 (the levels), L360-410 (`interp_fill`), L412-470
(`multi_res_interp`), L472-514 (`multi_res_deterp`), L778-846 (`_global_cluster`), L1010-1143
(reconstruction).

Eigenvalues are opaque (`α`), a missing one (`NaN`) is `none`. The clustering is a function from an
eigenvalue to its band: equal values get equal bands (k-means labels by the nearest centre). Times
of window centres are rational.
-/

set_option autoImplicit false

namespace Verif.MrCosts

open Verif Verif.Costs

/-- One decomposition level: the mean time of each window, the rank, and for window `k` and mode `l`
the eigenvalue and whether its local class is larger than 0 (`omega_classes > 0`). -/
structure Level (α : Type) where
  centers : List ℚ
  rank : ℕ
  omega : ℕ → ℕ → α
  high : ℕ → ℕ → Bool

variable {α : Type}

/-- `omega.where(omega_classes > 0, drop=True)` (mrcosts.py L425-427, L442): windows without any
kept eigenvalue are dropped, -/
def Level.keptWindows (L : Level α) : List ℕ :=
  (List.range L.centers.length).filter fun k => (List.range L.rank).any fun l => L.high k l

/-- and so are the modes that are kept in no window. -/
def Level.keptRanks (L : Level α) : List ℕ :=
  (List.range L.rank).filter fun l => (List.range L.centers.length).any fun k => L.high k l

/-- The row of window `k` after that; other modes are missing. -/
def Level.row (L : Level α) (k l : ℕ) : Option α :=
  if l ∈ L.keptRanks ∧ L.high k l = true then some (L.omega k l) else none

/-- The times of the kept windows. -/
def Level.keptCenters (L : Level α) : List ℚ := L.keptWindows.map fun k => L.centers.getD k 0

/-- The number of midpoints of neighbours below `x`. -/
def midCount : List ℚ → ℚ → ℕ
  | a :: b :: rest, x => (if (a + b) / 2 < x then 1 else 0) + midCount (b :: rest) x
  | _, _ => 0

/-- `interp(method="nearest")` without extrapolation: the index of the nearest of the ascending
points (the lower one of two), `none` outside (`scipy.interpolate.interp1d`). -/
def nearestIdx (xs : List ℚ) (x : ℚ) : Option ℕ :=
  if xs.getD 0 0 ≤ x ∧ x ≤ xs.getD (xs.length - 1) 0 then some (midCount xs x) else none

/-- A row without any value among the modes `ranks` (`dropna(how="all")`). -/
def allMissing (ranks : List ℕ) (r : ℕ → Option α) : Bool := ranks.all fun l => (r l).isNone

/-- `da.interp(window_time_means=grid)`, L443-452. -/
def Level.interp (L : Level α) (grid : List ℚ) : List (ℚ × (ℕ → Option α)) :=
  grid.map fun x => (x, fun l =>
    (nearestIdx L.keptCenters x).bind fun i => L.row (L.keptWindows.getD i 0) l)

/-- `interp_fill(da_interp, da)`, L360-410. `window_delta` needs two windows and the first and last
windows one row with a value, else `IndexError`. -/
def interpFill (ranks : List ℕ) (xs : List ℚ) (rows : List (ℚ × (ℕ → Option α))) :
    Except PyErr (List (ℚ × (ℕ → Option α))) :=
  match xs with
  | a :: b :: _ =>
    let delta := b - a
    let last := xs.getD (xs.length - 1) 0
    match rows.find? fun r => !allMissing ranks r.2 with
    | none => .error .indexError
    | some first =>
      let rows1 := rows.map fun r => if r.1 > a - delta / 2 ∧ r.1 < a then (r.1, first.2) else r
      match rows1.reverse.find? fun r => !allMissing ranks r.2 with
      | none => .error .indexError
      | some fin =>
        .ok (rows1.map fun r =>
          if r.1 < last + delta / 2 ∧ r.1 > last then (r.1, fin.2) else r)
  | _ => .error .indexError

/-- The rows of one level on the common grid: the first level as it is, without the dropped windows,
the others interpolated and filled (L425-465). -/
def Level.gridRows (L : Level α) (grid : List ℚ) : Except PyErr (List (ℚ × (ℕ → Option α))) :=
  interpFill L.keptRanks L.keptCenters (L.interp grid)

/-- The common grid of `xr.concat` with its outer join: with more than one level all the windows of
the first level (the others are interpolated to them), with one level only its kept windows. -/
def grid (first : Level α) (rest : List (Level α)) : List ℚ :=
  if rest.isEmpty then first.keptCenters else first.centers

/-- The rows of the first level on the common grid: dropped windows are missing again. -/
def firstRows (first : Level α) (rest : List (Level α)) : List (ℚ × (ℕ → Option α)) :=
  if rest.isEmpty then
    first.keptWindows.map fun k => (first.centers.getD k 0, first.row k)
  else
    (List.range first.centers.length).map fun k => (first.centers.getD k 0, first.row k)

/-- `multi_res_interp`, L412-470: `da_omega`, level by level. -/
def multiResInterp (first : Level α) (rest : List (Level α)) :
    Except PyErr (List (List (ℚ × (ℕ → Option α)))) := do
  let rows ← rest.mapM fun L => L.gridRows (grid first rest)
  .ok (firstRows first rest :: rows)

/-- The mode labels of `da_omega`: the sorted union over the levels (outer join of `xr.concat`). -/
def ranksUnion (levels : List (Level α)) : List ℕ :=
  (List.range (levels.foldl (fun m L => max m L.rank) 0)).filter fun l =>
    levels.any fun L => l ∈ L.keptRanks

/-- `sel(window_time_means=x, method="nearest")`, L504-511: the position of the nearest grid point,
the larger one of two (pandas). -/
def selNearest (g : List ℚ) (x : ℚ) : ℕ :=
  let left := (g.filter fun y => y ≤ x).length
  if g.any (fun y => y == x) then left - 1
  else if left = 0 then 0
  else if left = g.length then left - 1
  else if x - g.getD (left - 1) 0 < g.getD left 0 - x then left - 1 else left

/-- The classes `multi_res_deterp` (L472-514) gives to the modes of the window at time `x` of a level
whose rows of `da_omega` are `rows`: the bands of the eigenvalues at the nearest grid point, `none`
(-1 in the code) for a missing one. One entry for each label in `ranks`. -/
def deterpWindow (label : α → ℕ) (ranks : List ℕ) (g : List ℚ) (rows : List (ℚ × (ℕ → Option α)))
    (x : ℚ) : List (Option ℕ) :=
  ranks.map fun l => ((rows.getD (selNearest g x) (0, fun _ => none)).2 l).map label

/-- The classes used for the modes of one level by `global_scale_reconstruction`, L1044-1063 and
L1093-1098: cut to the rank of the level if that is below the largest of `svd_rank_array`, then used
as a boolean index of the modes, which must have the same length. -/
def levelClasses (label : α → ℕ) (maxRank : ℤ) (ranks : List ℕ) (g : List ℚ) (L : Level α)
    (rows : List (ℚ × (ℕ → Option α))) : Except PyErr (List (List (Option ℕ))) :=
  L.centers.mapM fun x =>
    let c := deterpWindow label ranks g rows x
    let c := if (L.rank : ℤ) < maxRank then c.take L.rank else c
    if c.length = L.rank then .ok c else .error .indexError

/-- All the classes: for each level, window and mode. `svdRankArray` is the argument of the
constructor. -/
def globalClasses (label : α → ℕ) (svdRankArray : List ℤ) (first : Level α)
    (rest : List (Level α)) : Except PyErr (List (List (List (Option ℕ)))) := do
  let rows ← multiResInterp first rest
  let maxRank := svdRankArray.foldl max (svdRankArray.headD 0)
  ((first :: rest).zip rows).mapM fun p =>
    levelClasses label maxRank (ranksUnion (first :: rest)) (grid first rest) p.1 p.2

/-! ## Reconstruction -/

/-- A fitted level as the reconstruction sees it: window length, rank, number of local bands, local
centroids, and the windows with their first index. -/
structure Fitted where
  length : ℕ
  rank : ℕ
  nComponents : ℕ
  centroids : List ℝ
  wins : List (ℕ × WindowFit)

/-- `scale_separation` of a level, first component. -/
noncomputable def Fitted.low (F : Fitted) (includeMeans : Bool) (s t : ℕ) : ℝ :=
  (scaleSeparation F.length F.rank F.nComponents F.centroids includeMeans F.wins).1 s t

/-- `scale_separation` of a level, second component. -/
noncomputable def Fitted.high (F : Fitted) (includeMeans : Bool) (s t : ℕ) : ℝ :=
  (scaleSeparation F.length F.rank F.nComponents F.centroids includeMeans F.wins).2 s t

/-- `global_scale_reconstruction` for one level, L1044-1118: band `j`. `cls k` are the global classes
of the modes of window `k`, `none` for -1. Storing a complex array into a real one keeps the real
part. -/
noncomputable def Fitted.globalBand (F : Fitted) (cls : ℕ → ℕ → Option ℕ) (j s t : ℕ) : ℝ :=
  let acc := F.wins.zipIdx.foldl
    (fun a w => addWindow F.length
      (fun j s i => (w.1.2.sumOver F.rank (fun l => cls w.2 l == some j) s i).re) w.1.1 a)
    ⟨fun _ _ _ => 0, fun _ => 0⟩
  acc.sep j s t / acc.xn t

/-- `get_background`, L1120-1130: the lowest band of the last level (with the default arguments of
`scale_reconstruction`). -/
noncomputable def background (levels : List Fitted) (s t : ℕ) : ℝ :=
  match levels.getLast? with
  | none => 0
  | some F => scaleReconstruction F.length F.rank F.centroids true F.wins 0 s t

/-- `global_reconstruction`, L1132-1143: the sum over levels and bands, and the background. -/
noncomputable def globalReconstruction (nGlobal : ℕ) (levels : List Fitted)
    (cls : ℕ → ℕ → ℕ → Option ℕ) (s t : ℕ) : ℝ :=
  (levels.zipIdx.map fun F => ((List.range nGlobal).map fun j =>
    F.1.globalBand (cls F.2) j s t).sum).sum + background levels s t

/-- The input of each level in `fit`, L308-356: the data for the first, then the low frequency
component of the level before (`includeMeans`: `costs_recon_kwargs`). -/
noncomputable def inputs (includeMeans : Bool) : (ℕ → ℕ → ℝ) → List Fitted → List (ℕ → ℕ → ℝ)
  | _, [] => []
  | x, F :: rest => x :: inputs includeMeans (F.low includeMeans) rest

end Verif.MrCosts
