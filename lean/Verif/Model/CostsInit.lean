import Verif.Model.Refit
import Mathlib.Analysis.SpecialFunctions.Pow.Real

/-!
# The starting points of the fits of COSTS

Source: `/repo/pydmd/costs.py`, `COSTS.fit` L431-620 and `COSTS._build_initialization` L389-428. The
`BOPDMD` object that is fitted on all windows is the state `Refit.Bop` (bopdmd.py L1395-1476).
-/

set_option autoImplicit false

namespace Verif.CostsInit

open Verif Verif.Refit

section loop

variable {D K B Al R : Type} [Field K] [LinearOrder K]

/-- What the loop over the windows reads: `_global_svd`, `_use_last_freq`, `_reset_alpha_init`,
`_init_alpha` (after L537), `_pydmd_kwargs["proj_basis"]`, the rank L575-585 gives to `optdmd` for a
window with a local SVD (its choice is the subject of C100), and `optdmd.eigs` of a fit. -/
structure Loop (D K B Al R : Type) where
  globalSvd : Bool
  useLastFreq : Bool
  resetAlphaInit : Bool
  initAlpha : Option Al
  basis : Option B
  localRank : D → Rank.SvdRank K
  eigs : R → Al

/-- L571-589: before the fit of a window. -/
def Loop.before (o : Loop D K B Al R) (w : D) (st : Bop D K B Al R) : Bop D K B Al R :=
  if o.globalSvd then st else { st with rank := o.localRank w, basis := o.basis }

/-- L604-617: after the fit of a window with the result `r`. -/
def Loop.after (o : Loop D K B Al R) (r : R) (st : Bop D K B Al R) : Bop D K B Al R :=
  if o.globalSvd then st
  else if !o.useLastFreq && !o.resetAlphaInit then { st with alpha := o.initAlpha }
  else if o.useLastFreq then { st with alpha := some (o.eigs r) }
  else { st with alpha := none }

/-- The loop L552-617: the results of the windows, in order. A fit without exception has a result. -/
def Loop.run (o : Loop D K B Al R) (N : BopNum D K B Al R) :
    Bop D K B Al R → List D → Except PyErr (List R)
  | _, [] => .ok []
  | st, w :: ws =>
    match (o.before w st).fit N w with
    | (.error e, _) => .error e
    | (.ok (), st') =>
      match st'.out with
      | none => .error .attributeError
      | some r =>
        match o.run N (o.after r st') ws with
        | .error e => .error e
        | .ok rs => .ok (r :: rs)

/-- L539-544 and the loop, for `svd_rank = rank`. -/
def Loop.fit (o : Loop D K B Al R) (N : BopNum D K B Al R) (rank : Rank.SvdRank K) (ws : List D) :
    Except PyErr (List R) :=
  o.run N (Bop.new rank o.basis o.initAlpha) ws

end loop

/-! ### `_build_initialization` -/

/-- The attributes it reads. -/
structure Obj where
  artificial : Bool
  initAlpha : Option (List ℂ)
  centroids : Option (List ℝ)
  rank : ℕ
  nComponents : Option ℕ

/-- `COSTS.__init__`, L75-118: `cluster_centroids` is stored at L98 and overwritten with `None` at
L113. (`svd_rank` is taken to be the rank of the fit.) -/
def Obj.new (artificial : Bool) (initAlpha : Option (List ℂ)) (_clusterCentroids : Option (List ℝ))
    (rank : ℕ) (nComponents : Option ℕ) : Obj :=
  ⟨artificial, initAlpha, none, rank, nComponents⟩

/-- `np.repeat(x, q)`. -/
def repeatEach {α : Type} (x : List α) (q : ℕ) : List α := x.flatMap fun a => List.replicate q a

/-- `np.tile([1, -1], q)`. -/
def signs (q : ℕ) : List ℂ := (List.replicate q [1, -1]).flatten

/-- Product of two one-dimensional arrays with broadcasting. -/
def times (x y : List ℂ) : Except PyErr (List ℂ) :=
  if x.length = y.length then .ok (List.zipWith (· * ·) x y)
  else match x, y with
    | [a], y => .ok (y.map (a * ·))
    | x, [b] => .ok (x.map (· * b))
    | _, _ => .error .valueError

/-- `_build_initialization`, L389-428. `int(svd_rank / n_components)` is floor division; dividing by
`None` raises `TypeError`, by 0 `ZeroDivisionError` (not in the model: clustering into 0 bands is
refused earlier; here `q = 0`). -/
noncomputable def Obj.build (o : Obj) : Except PyErr (Option (List ℂ)) :=
  if o.artificial then
    match o.initAlpha with
    | some a => .ok (some a)
    | none => match o.centroids with
      | none => .ok none
      | some c => match o.nComponents with
        | none => .error .typeError
        | some n =>
          let q := o.rank / n
          match times (repeatEach (c.map fun x => (Real.sqrt x : ℂ) * Complex.I) q) (signs q) with
          | .error e => .error e
          | .ok a => .ok (some a)
  else .ok none

/-- L537 in `fit`, as far as the initial guess is concerned: returns the new object. -/
noncomputable def Obj.fit (o : Obj) : Except PyErr Obj :=
  match o.build with
  | .error e => .error e
  | .ok a => .ok { o with initAlpha := a }

/-- `cluster_omega`, L672-676: centroids `c`, one per band. -/
def Obj.cluster (o : Obj) (c : List ℝ) : Obj :=
  { o with centroids := some c, nComponents := some c.length }

end Verif.CostsInit
