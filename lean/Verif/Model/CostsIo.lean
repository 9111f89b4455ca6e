import Verif.Model.Py
import Mathlib.Data.Finset.Insert
import Mathlib.Data.List.Basic

/-!
# Model of the conversion of COSTS to a dataset and back, and of the sharing of `pydmd_kwargs`

Source: `/repo/pydmd/costs.py` L75-134, L490-500, L541-545, L719-729, L961-1016, L1434-1591 and
`/repo/pydmd/mrcosts.py` L85-105, L311-358.

Arrays are opaque contents together with a shape: `to_xarray` only looks at the shapes. An xarray
dataset is the record of what is put into it; that `xr.Dataset` keeps every array and attribute
unchanged, and that it refuses a dimension given with two sizes (`ValueError`), is assumed. The
file formats (`to_netcdf`, `from_netcdf`) are not modelled.
-/

set_option autoImplicit false

namespace Verif.CostsIo

open Verif

/-- An array: its shape and its contents (`α`). -/
structure Arr (α : Type) where
  shape : List ℕ
  data : α
  deriving DecidableEq

/-- The values found among the keyword arguments of BOPDMD: `None`, a boolean, a string, a set or a
list of strings, a function, or anything else (arrays, numbers; `α`). -/
inductive Val (α : Type)
  | none
  | bool (b : Bool)
  | str (s : String)
  | set (s : Finset String)
  | list (l : List String)
  | callable (name : String)
  | other (a : α)
  deriving DecidableEq

/-- A Python dict with string keys, in order of insertion. -/
abbrev Dict (α : Type) := List (String × Val α)

/-- `d[k] = v`: replaces the value of an existing key, else appends. -/
def Dict.insert {α : Type} (d : Dict α) (k : String) (v : Val α) : Dict α :=
  if d.any (fun p => p.1 == k) then d.map fun p => if p.1 == k then (k, v) else p
  else d ++ [(k, v)]

/-- `d.get(k)`. -/
def Dict.get? {α : Type} (d : Dict α) (k : String) : Option (Val α) :=
  (d.find? fun p => p.1 == k).map (·.2)

/-- The attributes of a COSTS object (`__init__`, L75-118), `none` for `None`. The attributes used
only for plotting are left out; `svd_rank` is an integer (no energy fraction). -/
structure Obj (α : Type) where
  svdRank : Option ℤ
  globalSvd : Bool
  initializeArtificially : Bool
  useLastFreq : Bool
  initAlpha : Option (Arr α)
  resetAlphaInit : Bool
  forceEvenEigs : Bool
  maxRank : Option ℕ
  nComponents : Option ℕ
  nDataVars : Option ℕ
  nTimeSteps : Option ℕ
  windowLength : Option ℕ
  stepSize : Option ℕ
  nSlides : Option ℕ
  timeArray : Option (Arr α)
  modesArray : Option (Arr α)
  omegaArray : Option (Arr α)
  amplitudesArray : Option (Arr α)
  clusterCentroids : Option (Arr α)
  omegaClasses : Option (Arr α)
  transformMethod : Option String
  windowMeansArray : Option (Arr α)
  nonIntegerNSlide : Option Bool
  svdRankPreAllocate : Option ℕ
  kwargs : Dict α

/-- `COSTS()`, L75-125. -/
def Obj.init {α : Type} : Obj α where
  svdRank := none
  globalSvd := true
  initializeArtificially := false
  useLastFreq := false
  initAlpha := none
  resetAlphaInit := false
  forceEvenEigs := true
  maxRank := none
  nComponents := none
  nDataVars := none
  nTimeSteps := none
  windowLength := none
  stepSize := none
  nSlides := none
  timeArray := none
  modesArray := none
  omegaArray := none
  amplitudesArray := none
  clusterCentroids := none
  omegaClasses := none
  transformMethod := none
  windowMeansArray := none
  nonIntegerNSlide := none
  svdRankPreAllocate := none
  kwargs := [("eig_sort", .str "imag"), ("proj_basis", .none), ("use_proj", .bool false)]

/-- `_xarray_sanitize`, L1551-1568; `listOf` is `list(value)` of a set. -/
def sanitize {α : Type} (listOf : Finset String → List String) : Val α → Val α
  | .none => .str "None"
  | .set s => .list (listOf s)
  | .callable n => .str ("Custom function " ++ n)
  | v => v

/-- `_xarray_unsanitize`, L1570-1591. -/
def unsanitize {α : Type} : Val α → Val α
  | .str s => if s = "None" then .none else .str s
  | v => v

/-- `_transform_method` is `None` or a string: `_xarray_sanitize` of it. -/
def sanitizeName : Option String → String
  | none => "None"
  | some s => s

/-- `_xarray_unsanitize` of it. -/
def unsanitizeName (s : String) : Option String := if s = "None" then none else some s

/-- The dataset built by `to_xarray`: data variables, the coordinate `time`, attributes. The
attributes of `pydmd_kwargs` are stored under `"pydmd_kwargs__" + key`; here they are a separate
list of the keys without the prefix. -/
structure Dataset (α : Type) where
  omega : Arr α
  omegaClasses : Arr α
  amplitudes : Arr α
  modes : Arr α
  windowMeans : Arr α
  clusterCentroids : Arr α
  time : Arr α
  svdRank : ℤ
  omegaTransformation : String
  nSlides : ℕ
  windowLength : ℕ
  numFrequencyBands : ℕ
  nDataVars : ℕ
  nTimeSteps : ℕ
  stepSize : ℕ
  nonIntegerNSlide : Bool
  globalSvd : Bool
  kwargs : Dict α

/-- `np.arange(x)` of a possibly missing number. -/
def arange : Option ℤ → Except PyErr ℕ
  | none => .error .typeError
  | some k => .ok k.toNat

/-- A data variable of `xr.Dataset` that may be missing: `None` becomes an array without dimensions,
which does not fit the dimension names given with it. -/
def dataVar {α : Type} : Option (Arr α) → Except PyErr (Arr α)
  | none => .error .valueError
  | some a => .ok a

/-- `to_xarray`, L1434-1510. In the order of evaluation: the coordinates, then the dataset, in which
every dimension must have one size. Attributes that `fit` sets together with `n_slides` are taken
with a default when missing (not reachable). -/
def Obj.toXarray {α : Type} (listOf : Finset String → List String) (o : Obj α) :
    Except PyErr (Dataset α) := do
  let time ← dataVar o.timeArray
  let slide ← arange (o.nSlides.map (↑))
  let rank ← arange o.svdRank
  let space ← arange (o.nDataVars.map (↑))
  let bands ← arange (o.nComponents.map (↑))
  let index ← arange (o.windowLength.map (↑))
  let omega ← dataVar o.omegaArray
  let classes ← dataVar o.omegaClasses
  let amplitudes ← dataVar o.amplitudesArray
  let modes ← dataVar o.modesArray
  let means ← dataVar o.windowMeansArray
  let centroids ← dataVar o.clusterCentroids
  if time.shape = [slide, index] ∧ omega.shape = [slide, rank] ∧ classes.shape = [slide, rank] ∧
      amplitudes.shape = [slide, rank] ∧ modes.shape = [slide, space, rank] ∧
      means.shape = [slide, space] ∧ centroids.shape = [bands] then
    .ok
      { omega := omega, omegaClasses := classes, amplitudes := amplitudes, modes := modes
        windowMeans := means, clusterCentroids := centroids, time := time
        svdRank := o.svdRank.getD 0
        omegaTransformation := sanitizeName o.transformMethod
        nSlides := o.nSlides.getD 0
        windowLength := o.windowLength.getD 0
        numFrequencyBands := o.nComponents.getD 0
        nDataVars := o.nDataVars.getD 0
        nTimeSteps := o.nTimeSteps.getD 0
        stepSize := o.stepSize.getD 0
        nonIntegerNSlide := o.nonIntegerNSlide.getD false
        globalSvd := o.globalSvd
        kwargs := o.kwargs.map fun p => (p.1, sanitize listOf p.2) }
  else .error .valueError

/-- The value of one restored keyword argument, `from_xarray` L1540-1548. -/
def restore {α : Type} (k : String) (v : Val α) : Val α :=
  match k == "eig_constraints", unsanitize v with
  | true, .list l => .set l.toFinset
  | _, u => u

/-- `from_xarray`, L1512-1552, called on the object `o`. -/
def Obj.fromXarray {α : Type} (o : Obj α) (ds : Dataset α) : Obj α :=
  { o with
    omegaArray := some ds.omega
    omegaClasses := some ds.omegaClasses
    amplitudesArray := some ds.amplitudes
    modesArray := some ds.modes
    windowMeansArray := some ds.windowMeans
    clusterCentroids := some ds.clusterCentroids
    timeArray := some ds.time
    nSlides := some ds.nSlides
    svdRank := some ds.svdRank
    nDataVars := some ds.nDataVars
    nTimeSteps := some ds.nTimeSteps
    nComponents := some ds.numFrequencyBands
    nonIntegerNSlide := some ds.nonIntegerNSlide
    stepSize := some ds.stepSize
    windowLength := some ds.windowLength
    globalSvd := ds.globalSvd
    transformMethod := unsanitizeName ds.omegaTransformation
    kwargs := ds.kwargs.map fun p => (p.1, restore p.1 p.2) }

/-- What one call of `fit` computes: the sizes and the contents of the arrays. -/
structure FitData (α : Type) where
  nDataVars : ℕ
  nTimeSteps : ℕ
  windowLength : ℕ
  stepSize : ℕ
  nSlides : ℕ
  nonInteger : Bool
  time : α
  modes : α
  omega : α
  amplitudes : α
  means : α
  basis : α

/-- The part of `fit` that chooses the rank, L490-520. `rank` is `compute_rank` of the data, and
`rankTwice` is `compute_rank` of its result (L383 and L498; see `Verif.CostsRank`). Returns the new
`_svd_rank` and the number of columns that are allocated. -/
def Obj.chooseRank {α : Type} (o : Obj α) (nDataVars : ℕ) (rank rankTwice : ℤ → ℕ) :
    Except PyErr (ℤ × ℕ) :=
  match o.svdRank with
  | none => .error .typeError
  | some r =>
    if o.globalSvd then
      .ok (rankTwice r, rankTwice r)
    else if r > 0 then
      if o.forceEvenEigs ∧ r % 2 = 1 then .error .valueError
      else if r > nDataVars then .error .valueError
      else .ok (r, rank r)
    else match o.maxRank with
      | some m => .ok (r, m)
      | none => .ok (r, nDataVars)

/-- `fit`, L456-612, as far as the attributes are concerned: sizes, ranks, the shapes of the arrays
(L522-534) and the entries `proj_basis` and `use_proj` of the keyword arguments (L492-496). The
fits of the windows are assumed to succeed. -/
def Obj.fit {α : Type} (o : Obj α) (d : FitData α) (rank rankTwice : ℤ → ℕ) :
    Except PyErr (Obj α) := do
  let (r, pre) ← o.chooseRank d.nDataVars rank rankTwice
  .ok
    { o with
      svdRank := some r
      svdRankPreAllocate := some pre
      nDataVars := some d.nDataVars
      nTimeSteps := some d.nTimeSteps
      windowLength := some d.windowLength
      stepSize := some d.stepSize
      nSlides := some d.nSlides
      nonIntegerNSlide := some d.nonInteger
      timeArray := some ⟨[d.nSlides, d.windowLength], d.time⟩
      modesArray := some ⟨[d.nSlides, d.nDataVars, pre], d.modes⟩
      omegaArray := some ⟨[d.nSlides, pre], d.omega⟩
      amplitudesArray := some ⟨[d.nSlides, pre], d.amplitudes⟩
      windowMeansArray := some ⟨[d.nSlides, d.nDataVars], d.means⟩
      kwargs := if o.globalSvd then
          let k := o.kwargs.insert "proj_basis" (.other d.basis)
          k.insert "use_proj" ((k.get? "use_proj").getD (.bool false))
        else o.kwargs }

/-- `cluster_omega(n_components, transform_method)`, L632-739, as far as shapes and attributes are
concerned: `omega_array.reshape(n_slides * pre_allocate)` raises when the second factor is `None`.
`labels` and `centres` are the results of the clustering, which may depend on the frequencies, on
their arrangement and on the arguments. -/
def Obj.clusterOmega {α : Type} (labels centres : Arr α → ℕ → Option String → α) (o : Obj α)
    (nComponents : ℕ) (transform : Option String) : Except PyErr (Obj α) :=
  match o.omegaArray, o.nSlides with
  | some om, some n =>
    match o.svdRankPreAllocate with
    | none => .error .typeError
    | some pre =>
      if om.shape = [n, pre] then
        .ok { o with
          clusterCentroids := some ⟨[nComponents], centres om nComponents transform⟩
          omegaClasses := some ⟨[n, pre], labels om nComponents transform⟩
          transformMethod := transform
          nComponents := some nComponents }
      else .error .valueError
  | _, _ => .error .attributeError

/-! ## The dictionary shared by the levels of mrCOSTS -/

/-- The constructors of COSTS and mrCOSTS with a dictionary (costs.py L120-134, mrcosts.py L85-105):
the caller's dictionary is kept and three entries are filled in. -/
def fillDefaults {α : Type} (d : Dict α) : Dict α :=
  let d1 := d.insert "eig_sort" ((d.get? "eig_sort").getD (.str "imag"))
  let d2 := d1.insert "proj_basis" ((d1.get? "proj_basis").getD .none)
  d2.insert "use_proj" ((d2.get? "use_proj").getD (.bool false))

/-- One level of `mrCOSTS.fit` (mrcosts.py L313-331 and costs.py L490-545, L567-589) on the shared
dictionary: `global_svd` of the level and the basis computed from its data. Returns the dictionary
after the level and the basis the windows of this level are fitted with. -/
def levelStep {α : Type} (d : Dict α) (globalSvd : Bool) (basis : α) : Dict α × Val α :=
  let d := fillDefaults d
  let d := if globalSvd then
      let k := d.insert "proj_basis" (.other basis)
      k.insert "use_proj" ((k.get? "use_proj").getD (.bool false))
    else d
  (d, (d.get? "proj_basis").getD .none)

/-- The loop of `mrCOSTS.fit` over the levels (mrcosts.py L311-358), for the given flags and bases:
the dictionary at the end, which is the one of every element of `costs_array` (`copy.copy` does not
copy it) and of the caller, and the bases used by the levels. -/
def mrFit {α : Type} : Dict α → List (Bool × α) → Dict α × List (Val α)
  | d, [] => (d, [])
  | d, (g, b) :: rest =>
    let (d', used) := levelStep d g b
    let (d'', more) := mrFit d' rest
    (d'', used :: more)

end Verif.CostsIo
