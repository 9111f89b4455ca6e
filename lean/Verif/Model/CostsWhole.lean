import Verif.Model.CostsInit
import Verif.Model.CostsKern
import Verif.Model.CostsPad
import Verif.Model.CostsRank

/-!
# Model of COSTS from the data to the bands

Source: `/repo/pydmd/costs.py`: `fit` (L429-613), `cluster_omega` (L632-670) and `scale_reconstruction` (L944-1016),
composed of the models of their parts. `BOPDMD` on a window, the SVD of the data and k-means are parameters.
Arithmetic is exact.
-/

set_option autoImplicit false

namespace Verif.CostsWhole

open Verif Verif.Costs Verif.CostsInit Verif.Refit Verif.Rank

/-- What `optdmd.fit` is given for a window, costs.py L590. -/
structure Win (n wl : ℕ) where
  data : Fin n → Fin wl → ℝ
  time : Fin wl → ℝ

/-- What is read off `optdmd` after a fit, L593-597: the number of eigenvalues, and arrays of which the first `rank`
columns matter. -/
structure Out where
  rank : ℕ
  modes : ℕ → ℕ → ℂ
  omega : ℕ → ℂ
  amplitudes : ℕ → ℂ

/-- Entry `k` of `_modes_array`, `_omega_array`, `_amplitudes_array`, `_window_means_array` and `_time_array`, with the
first index of the window. -/
structure Row where
  start : ℕ
  modes : ℕ → ℕ → ℂ
  omega : ℕ → ℂ
  amplitudes : ℕ → ℂ
  mean : ℕ → ℝ
  time : ℕ → ℝ

/-- The options of a `COSTS` object and of `fit` (L75-136, L429-437). `loop.basis` is `pydmd_kwargs["proj_basis"]`,
`loop.initAlpha` the result of `_build_initialization` (L537, C105). -/
structure Opts (n wl : ℕ) (B Al : Type) where
  loop : Loop (Win n wl) ℝ B Al Out
  svdRank : SvdRank ℝ
  maxRank : Option ℕ
  forceEven : Bool
  sharpness : Option ℝ

/-- The numerical routines: `BOPDMD` on windows, singular values and leading left singular vectors of the data. -/
structure Num (n nT wl : ℕ) (B Al : Type) where
  bop : BopNum (Win n wl) ℝ B Al Out
  sing : (Fin n → Fin nT → ℝ) → List ℝ
  basis : (Fin n → Fin nT → ℝ) → ℕ → B

variable {n nT wl : ℕ} {B Al : Type}

/-- L558-571: the data and times of the window that begins at `start`. -/
noncomputable def window (n wl : ℕ) (c : Option ℝ) (x : ℕ → ℕ → ℝ) (time : ℕ → ℝ) (start : ℕ) : Win n wl :=
  ⟨fun a i => CostsKern.prepared wl c (fun a i => x a (start + i)) a i, fun i => time (start + i) - time start⟩

open Classical in
/-- L491-520: `_svd_rank_pre_allocate`, the rank `optdmd` is built with, and `pydmd_kwargs["proj_basis"]`. -/
noncomputable def prepare (o : Opts n wl B Al) (N : Num n nT wl B Al) (X : Fin n → Fin nT → ℝ) :
    Except PyErr (ℕ × SvdRank ℝ × Option B) :=
  let M : CostsRank.Mat ℝ := ⟨N.sing X, n, nT⟩
  if o.loop.globalSvd then
    let r := CostsRank.computeRankTyped M o.svdRank
    .ok (computeRank M.sigma n nT r, CostsRank.computeRankTyped M r, some (N.basis X (computeRank M.sigma n nT o.svdRank)))
  else if 0 < o.svdRank.val then
    if o.forceEven = true ∧ CostsRank.IsOdd o.svdRank then .error .valueError
    else if (n : ℝ) < o.svdRank.val then .error .valueError
    else .ok (computeRank M.sigma n nT o.svdRank, o.svdRank, o.loop.basis)
  else .ok (o.maxRank.getD n, o.svdRank, o.loop.basis)

/-- L593-599: the entries of the arrays for one window. More modes than places: `ValueError`. -/
noncomputable def row (alloc : ℕ) (wl : ℕ) (x : ℕ → ℕ → ℝ) (time : ℕ → ℝ) (start : ℕ) (r : Out) : Except PyErr Row :=
  if alloc < r.rank then .error .valueError
  else .ok
    { start := start
      modes := fun s l => if l < r.rank then r.modes s l else 0
      omega := fun l => if l < r.rank then r.omega l else 0
      amplitudes := fun l => if l < r.rank then r.amplitudes l else 0
      mean := fun s => (∑ i ∈ Finset.range wl, x s (start + i)) / wl
      time := fun i => time (start + i) }

/-- The state `fit` leaves: `_svd_rank_pre_allocate` and the arrays. -/
structure Fitted where
  alloc : ℕ
  rows : List Row

/-- `fit`, L429-613, for data `x` (variable, time step) with `n` variables and `nT` time steps; `nSteps` as in
`Costs.buildWindows`. Simplified: the arrays are filled after the loop over the windows, so that the exception may be
another one if two windows raise. -/
noncomputable def fit (o : Opts n wl B Al) (N : Num n nT wl B Al) (step nSteps : ℤ) (x : ℕ → ℕ → ℝ) (time : ℕ → ℝ) :
    Except PyErr Fitted := do
  let w ← fitWindows nT nT wl step nSteps
  let (alloc, rank, basis) ← prepare o N fun a t => x a t
  let starts := (List.range w.nSlides.toNat).map fun k : ℕ => (w.indices k).1.toNat
  let outs ← ({ o.loop with basis := basis } : Loop (Win n wl) ℝ B Al Out).fit N.bop rank
    (starts.map (window n wl o.sharpness x time))
  let rows ← (starts.zip outs).mapM fun p => row alloc wl x time p.1 p.2
  .ok ⟨alloc, rows⟩

/-- `t.min()`, L987. -/
noncomputable def minTime (wl : ℕ) (t : ℕ → ℝ) : ℝ := ((List.range wl).map t).foldl min (t 0)

/-- What `scale_reconstruction` reads for one window, L978-988. -/
noncomputable def Row.toFit (wl : ℕ) (r : Row) (classes : List ℕ) : WindowFit :=
  ⟨r.modes, r.amplitudes, r.omega, fun l => classes.getD l 0, r.mean, fun i => r.time i - minTime wl r.time⟩

/-- `_omega_array` for the clustering, L718-721. -/
def Fitted.omegas (F : Fitted) : List (List ℂ) := F.rows.map fun r => (List.range F.alloc).map r.omega

/-- `cluster_omega` L632-670, then `scale_reconstruction(include_means)` L944-1016: band, variable, time step. -/
noncomputable def Fitted.bands (kmeans : ℕ → List ℝ → Except PyErr (List ℕ × List ℝ)) (argsort : List ℝ → List ℕ)
    (wl nC : ℕ) (m : Transform) (includeMeans : Bool) (F : Fitted) : Except PyErr (ℕ → ℕ → ℕ → ℝ) := do
  let (cen, cls) ← CostsPad.cluster true kmeans argsort nC F.alloc m F.omegas
  .ok fun j s t => scaleReconstruction wl F.alloc cen includeMeans
    ((F.rows.zip cls).map fun p => (p.1.start, p.1.toFit wl p.2)) j s t

end Verif.CostsWhole
