import Verif.Model.Costs
import Mathlib.Data.List.Sort
import Mathlib.Analysis.SpecialFunctions.Trigonometric.Basic

/-!
# Model of the mrCOSTS object: fit, global clustering, files

Source: `/repo/pydmd/mrcosts.py` L49-111, L271-358, L412-470, L514-618, L778-976 and
`/repo/pydmd/costs.py` L254-265, L785-855.

What a single level does (COSTS, modelled in `Model/Costs.lean`, `Model/CostsInit.lean`, …) is a
parameter here: `Ops`. The types: `X` data, `L` fitted COSTS objects, `Ω` the array `_da_omega`, `C` the
classes of a global clustering with its centroids.
-/

set_option autoImplicit false

namespace Verif.MrCostsState

open Verif
open Verif.Costs (Transform)

/-- What mrCOSTS uses of COSTS, scikit-learn and xarray. -/
structure Ops (X L Ω C : Type) where
  /-- `COSTS(svd_rank, global_svd, pydmd_kwargs).fit(data, time, window, step)`: arguments data, window,
  step, rank, global_svd -/
  fit : X → ℤ → ℤ → ℤ → Bool → Except PyErr L
  /-- `cluster_hyperparameter_sweep` after `transform_omega` has accepted the method -/
  sweep : Transform → L → Except PyErr ℕ
  /-- `cluster_omega(n, transform)` after `transform_omega` has accepted the method -/
  cluster : ℕ → Transform → L → Except PyErr L
  /-- `scale_separation(costs_recon_kwargs)[0]` -/
  low : L → X
  /-- the array built by `multi_res_interp` from the levels -/
  interp : List L → Ω
  /-- the clustering of the values of `_da_omega` with a number of bands and an accepted method -/
  globalCluster : ℕ → Transform → Ω → Except PyErr C

/-- The attributes of an mrCOSTS object. `nComponents` is `_n_components_array`, with `none` for `NaN`. -/
structure State (L Ω C : Type) where
  windows : List ℤ
  steps : List ℤ
  ranks : List ℤ
  globalSvd : Option (List Bool)
  nComponents : Option (List (Option ℕ))
  clusterSweep : Bool
  transform : Transform
  levels : Option (List L)
  daOmega : Option Ω
  classes : Option C
  nGlobal : Option ℕ

variable {X L Ω C : Type}

/-- `__init__`, mrcosts.py L49-111. -/
def State.init (windows steps ranks : List ℤ) (globalSvd : Option (List Bool))
    (nComponents : Option (List (Option ℕ))) (clusterSweep : Bool) (transform : Transform) :
    Except PyErr (State L Ω C) :=
  if ∃ a, nComponents = some a ∧ a.length ≠ steps.length then .error .valueError
  else .ok ⟨windows, steps, ranks, globalSvd, nComponents, clusterSweep, transform, none, none, none, none⟩

/-- `COSTS.transform_omega` (costs.py L741-783) accepts four names; `None` is not one of them. -/
def costsAccepts : Transform → Bool
  | .none => false
  | .other => false
  | _ => true

/-- `COSTS.cluster_omega(n, transform)`. -/
def Ops.clusterOmega (ops : Ops X L Ω C) (n : ℕ) (t : Transform) (l : L) : Except PyErr L :=
  if costsAccepts t then ops.cluster n t l else .error .valueError

/-- `COSTS.cluster_hyperparameter_sweep(transform)`. -/
def Ops.clusterSweep (ops : Ops X L Ω C) (t : Transform) (l : L) : Except PyErr ℕ :=
  if costsAccepts t then ops.sweep t l else .error .valueError

/-- `if self._cluster_sweep or np.isnan(self._n_components_array[n_decomp])`, mrcosts.py L326-335: the
number of bands of level `k` and the new `_n_components_array`. (A list passed by the caller is changed
in place; only the attribute is modelled.) -/
def components (ops : Ops X L Ω C) (st : State L Ω C) (k : ℕ) (l : L) :
    Except PyErr (ℕ × Option (List (Option ℕ))) :=
  let sweep : Except PyErr (ℕ × Option (List (Option ℕ))) :=
    (ops.clusterSweep st.transform l).map fun n => (n, st.nComponents.map fun a => a.set k (some n))
  if st.clusterSweep then sweep
  else match st.nComponents with
    | none => .error .typeError
    | some a => match a[k]? with
      | none => .error .indexError
      | some none => sweep
      | some (some n) => .ok (n, st.nComponents)

/-- One pass of the loop of `fit`, mrcosts.py L309-358, on the data `x` as level `k`: the new attribute
`_n_components_array` and the level (the reconstruction printed with `verbose` is left out). The first
component is set even when the clustering fails afterwards. -/
def fitLevel (ops : Ops X L Ω C) (st : State L Ω C) (k : ℕ) (x : X) (a : ℤ × ℤ × ℤ) :
    Option (List (Option ℕ)) × Except PyErr L :=
  match (st.globalSvd.getD [])[k]? with
  | none => (st.nComponents, .error .indexError)
  | some g =>
    match ops.fit x a.1 a.2.1 a.2.2 g with
    | .error e => (st.nComponents, .error e)
    | .ok l =>
      match components ops st k l with
      | .error e => (st.nComponents, .error e)
      | .ok (n, arr) => (arr, ops.clusterOmega n st.transform l)

/-- The loop of `fit`, mrcosts.py L309-358. -/
def fitLoop (ops : Ops X L Ω C) : ℕ → X → List (ℤ × ℤ × ℤ) → State L Ω C →
    State L Ω C × Except PyErr Unit
  | _, _, [], st => (st, .ok ())
  | k, x, a :: rest, st =>
    let r := fitLevel ops st k x a
    let st := { st with nComponents := r.1 }
    match r.2 with
    | .error e => (st, .error e)
    | .ok l => fitLoop ops (k + 1) (ops.low l) rest { st with levels := st.levels.map (· ++ [l]) }

/-- `fit`, mrcosts.py L271-358. -/
def fit (ops : Ops X L Ω C) (st : State L Ω C) (x : X) : State L Ω C × Except PyErr Unit :=
  if st.clusterSweep ∧ st.nComponents.isSome then (st, .error .valueError)
  else
    let st := if st.clusterSweep then
      { st with nComponents := some (List.replicate st.windows.length none) } else st
    let st := { st with globalSvd := some (st.globalSvd.getD (List.replicate st.windows.length true)) }
    fitLoop ops 0 x (st.windows.zip (st.steps.zip st.ranks)) { st with levels := some [] }

/-- `multi_res_interp`, mrcosts.py L412-470, where the number of levels must agree with
`_window_length_array` (L464). -/
def interp (ops : Ops X L Ω C) (st : State L Ω C) : Except PyErr Ω :=
  match st.levels with
  | none => .error .typeError
  | some [] => .error .indexError
  | some ls => if ls.length = st.windows.length then .ok (ops.interp ls) else .error .valueError

/-- `_global_cluster`, mrcosts.py L778-846; the resolution of the method is that of L808-809 and of
`mrCOSTS.transform_omega`, L996-1013. -/
def globalCluster' (ops : Ops X L Ω C) (st : State L Ω C) (n : ℕ) (t : Transform) :
    State L Ω C × Except PyErr C :=
  let cached : Except PyErr Ω := match st.daOmega with
    | some o => .ok o
    | none => interp ops st
  match cached with
  | .error e => (st, .error e)
  | .ok o =>
    let st := { st with daOmega := some o }
    let t := if t = .none then st.transform else t
    match t with
    | .other => (st, .error .valueError)
    | .none => (st, ops.globalCluster n .absolute o)
    | t => (st, ops.globalCluster n t o)

/-- `global_cluster_omega(n_components, transform_method)`, mrcosts.py L914-976. -/
def globalClusterOmega (ops : Ops X L Ω C) (st : State L Ω C) (n : Option ℕ) (t : Transform) :
    State L Ω C × Except PyErr C :=
  match n.or st.nGlobal with
  | none => (st, .error .valueError)
  | some m =>
    match globalCluster' ops { st with nGlobal := some m } m t with
    | (st, .error e) => (st, .error e)
    | (st, .ok c) => ({ st with classes := some c }, .ok c)

/-- `omega_classes_interpolated`, mrcosts.py L197-207. -/
def State.omegaClasses (st : State L Ω C) : Except PyErr C :=
  match st.classes with
  | none => .error .valueError
  | some c => .ok c

/-! ## Hyperparameter sweeps -/

/-- `np.argmax`: the first index of the largest value (of a non-empty array). -/
def argmax : List ℚ → ℕ
  | [] => 0
  | x :: xs => if ∀ y ∈ xs, y ≤ x then 0 else argmax xs + 1

/-- The choice at the end of both sweeps (costs.py L855, mrcosts.py L910-912): `np.argmax` of no scores
raises. -/
def choose (range : List ℤ) (scores : List ℚ) : Except PyErr ℤ :=
  if scores = [] then .error .valueError
  else match range[argmax scores]? with
    | none => .error .indexError
    | some n => .ok n

/-- The default of `n_components_range` in `COSTS.cluster_hyperparameter_sweep`, costs.py L820-824, for an
integer `svd_rank`: `np.arange(max(svd_rank // 4, 2), svd_rank // 2 + 1)`. -/
def defaultRange (svdRank : ℤ) : List ℤ :=
  (List.range ((svdRank / 2 + 1) - max (svdRank / 4) 2).toNat).map fun i : ℕ => max (svdRank / 4) 2 + i

/-- `COSTS.cluster_hyperparameter_sweep`, costs.py L785-855: `score n` clusters into `n` bands and
returns the silhouette score (which raises for fewer than two labels). The clustering found is not
stored. -/
def costsSweep (svdRank : ℤ) (range : Option (List ℤ)) (t : Transform) (score : ℤ → Except PyErr ℚ) :
    Except PyErr ℤ := do
  let range := range.getD (defaultRange svdRank)
  if !costsAccepts t then .error .valueError
  else choose range (← range.mapM score)

/-- The argument `score_method` of the sweep of mrCOSTS. -/
inductive Score
  | none
  | silhouette
  | calinskiHarabasz
  | other
  deriving DecidableEq

/-- `global_cluster_hyperparameter_sweep`, mrcosts.py L848-912, for a given clustering: `silhouette n` and
`ch n` are the scores of the clustering into `n` bands. A name that is neither leaves the score 0. The
value is also stored in `_n_components_global`. -/
def globalSweep (range : List ℤ) (m : Score) (silhouette ch : ℤ → Except PyErr ℚ) :
    Except PyErr (List ℚ × ℤ) := do
  let scores ← range.mapM fun n => match m with
    | .none => silhouette n
    | .silhouette => silhouette n
    | .calinskiHarabasz => ch n
    | .other => .ok 0
  return (scores, ← choose range scores)

/-! ## Files -/

/-- The files of one name and folder, by the window length in their names. -/
abbrev Files (D : Type) := ℤ → Option D

/-- `to_netcdf`, mrcosts.py L563-590: one file for each level, named after its window length; a file that
exists is overwritten. `save` is `to_xarray` and the writing of it. -/
def toNetcdf {D : Type} (window : L → ℤ) (save : L → Except PyErr D) : List L → Files D →
    Except PyErr (Files D)
  | [], f => .ok f
  | l :: rest, f => do
    let d ← save l
    toNetcdf window save rest fun w => if w = window l then some d else f w

/-- `xr.load_dataset` behind the test `os.path.isfile`, mrcosts.py L522-526. -/
def openFile {D : Type} (f : Files D) (w : ℤ) : Except PyErr D :=
  match f w with
  | some d => .ok d
  | none => .error .valueError

/-- The reading part of `from_netcdf`, mrcosts.py L514-531: the files are sorted by window length. -/
def readFiles {D : Type} (dWindow : D → ℤ) (f : Files D) (names : List ℤ) : Except PyErr (List D) := do
  let ds ← names.mapM (openFile f)
  return ds.insertionSort fun a b => dWindow a ≤ dWindow b

/-- The properties of a fitted COSTS object that `from_netcdf` reads. -/
structure Attrs (L : Type) where
  window : L → ℤ
  step : L → ℤ
  rank : L → ℤ
  globalSvd : L → Bool
  components : L → ℕ

/-- `from_netcdf`, mrcosts.py L514-561; `load` is `COSTS().from_xarray`. No files: IndexError (L534). -/
def fromNetcdf {D : Type} (at' : Attrs L) (dWindow : D → ℤ) (load : D → L) (f : Files D)
    (names : List ℤ) : Except PyErr (State L Ω C) := do
  let ds ← readFiles dWindow f names
  if ds = [] then .error .indexError
  else
    let ls := ds.map load
    let st : State L Ω C ← State.init (ls.map at'.window) (ls.map at'.step) (ls.map at'.rank)
      (some (ls.map at'.globalSvd)) (some (ls.map fun l => some (at'.components l))) false .none
    return { st with levels := some ls }

/-! ## Data for the plots of one level -/

/-- `_plot_helper_data_check`, mrcosts.py L592-618, without the check of the shape: the data shown as
input of level `level`. `lowDefault` is `scale_separation()[0]` with default arguments. -/
def plotInput (lowDefault : L → X) (levels : List L) (level : ℤ) : Option X → Except PyErr X
  | some x => .ok x
  | none =>
    if level = 0 then .error .valueError
    else if 0 < level then
      match levels[(level - 1).toNat]? with
      | none => .error .indexError
      | some l => .ok (lowDefault l)
    else .error .unboundLocalError

/-- `COSTS.periods`, costs.py L254-265: `none` is what no fit or no clustering has set; the comparison
`None > 0` raises `TypeError`. Frequencies are imaginary parts of eigenvalues with their classes; a
frequency 0 gives `inf`, here `none`. -/
noncomputable def periods (omega : Option (List ℝ)) (classes : Option (List ℕ)) :
    Except PyErr (List (Option ℝ)) :=
  match omega, classes with
  | none, _ => .error .valueError
  | some _, none => .error .typeError
  | some ws, some cs => .ok (((ws.zip cs).filter fun p => decide (0 < p.2)).map fun p =>
      if p.1 = 0 then none else some (2 * Real.pi / |p.1|))

end Verif.MrCostsState
