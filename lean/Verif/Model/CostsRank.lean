import Verif.Model.Rank

/-!
# Model of the choice of the rank in `COSTS.fit`

Source: `/repo/pydmd/costs.py` L370-384, L490-545, L557-612, `/repo/pydmd/bopdmd.py` L1422-1447 and
`/repo/pydmd/utils.py` L40-91.

What is modelled: which rank every window is fitted with, and which checks fail. `compute_rank`
tells a Python integer from a numpy integer (`isinstance(svd_rank, int)`), so the type of the value
it returns is part of the model.
-/

set_option autoImplicit false

namespace Verif.CostsRank

open Verif Verif.Rank

variable {K : Type} [Field K] [LinearOrder K]

/-- A data matrix: its shape and its singular values. -/
structure Mat (K : Type) where
  sigma : List K
  rows : ℕ
  cols : ℕ

/-- `compute_rank(X, svd_rank)` (utils.py L94-116) with the type of the returned number:
`np.sum(...)` (L41) and `np.searchsorted(...) + 1` (L83) are numpy integers, the 1 of L49 and the
minima of L85 and L87 are Python integers. -/
def computeRankTyped (m : Mat K) (r : SvdRank K) : SvdRank K :=
  if r.val = 0 then
    let tau := median m.sigma * omega (beta m.rows m.cols)
    let rank := m.sigma.countP fun s => tau < s
    if rank = 0 then .int 1 else .npInt rank
  else if 0 < r.val ∧ r.val < 1 then .npInt (computeRank m.sigma m.rows m.cols r)
  else .int (computeRank m.sigma m.rows m.cols r)

/-- The attributes of the BOPDMD object that `COSTS.fit` reads and writes: the rank, the number of
columns of `proj_basis` (`none`: `None`), `use_proj`, the number of entries of `init_alpha`. -/
structure Bop (K : Type) where
  svdRank : SvdRank K
  basis : Option ℕ
  useProj : Bool
  initAlpha : Option ℕ

/-- `BOPDMD.fit` on a window (bopdmd.py L1422-1447): the rank, the two checks. Returns the object
after the fit and the number of eigenvalues and modes. The numerical part is assumed to succeed
with one eigenvalue for each entry of `init_alpha`, and `_initialize_alpha` to return `svd_rank`
values. -/
def Bop.fit (b : Bop K) (w : Mat K) : Except PyErr (Bop K × ℕ) :=
  let r := computeRank w.sigma w.rows w.cols b.svdRank
  let basis : Except PyErr ℕ :=
    match b.basis with
    | none =>
      if b.useProj then .ok (computeRank w.sigma w.rows w.cols (.int r : SvdRank K))
      else .ok (min w.rows w.cols)
    | some c => if c ≠ r then .error .valueError else .ok c
  match basis with
  | .error e => .error e
  | .ok c =>
    match b.initAlpha with
    | none => .ok ({ b with svdRank := .int r, basis := some c, initAlpha := some r }, r)
    | some n =>
      if n ≠ r then .error .valueError
      else .ok ({ b with svdRank := .int r, basis := some c, initAlpha := some n }, r)

/-- The options of the COSTS object that the choice of the rank depends on. `basis` is
`pydmd_kwargs["proj_basis"]` before the fit, `initAlpha` the result of `_build_initialization`. -/
structure Opts (K : Type) where
  svdRank : SvdRank K
  globalSvd : Bool
  forceEven : Bool
  maxRank : Option ℕ
  useLastFreq : Bool
  resetAlphaInit : Bool
  useProj : Bool
  basis : Option ℕ
  initAlpha : Option ℕ

/-- `svd_rank % 2` is not 0. -/
def IsOdd (r : SvdRank K) : Prop := ¬ ∃ n : ℤ, r.val = 2 * n

open Classical in
/-- `_svd_rank += 1` when forced to be even, L576-577; the type of the number stays. -/
noncomputable def forceEven (force : Bool) (r : SvdRank K) : SvdRank K :=
  if force = true ∧ IsOdd r then
    match r with
    | .int k => .int (k + 1)
    | .npInt k => .npInt (k + 1)
    | .float q => .float (q + 1)
  else r

/-- `min(_svd_rank, self._max_rank)`, L579-582: the first of the two unless the second is smaller. -/
def capRank (m : Option ℕ) (r : SvdRank K) : SvdRank K :=
  match m with
  | none => r
  | some m => if (m : K) < r.val then .int m else r

/-- `self._modes_array[k, :, : m] = optdmd.modes`, L589-593, into an axis with `pre` entries: a
single column may be repeated, else the numbers must agree. -/
def assign (pre m : ℕ) : Except PyErr Unit :=
  if m ≤ pre ∨ m = 1 then .ok () else .error .valueError

/-- The loop over the windows with `global_svd=True`, L557-612. Returns the number of modes of each
window. -/
def globalLoop (pre : ℕ) : Bop K → List (Mat K) → Except PyErr (List ℕ)
  | _, [] => .ok []
  | b, w :: ws => do
    let (b, m) ← b.fit w
    assign pre m
    let rest ← globalLoop pre b ws
    .ok (m :: rest)

/-- The loop over the windows with `global_svd=False`, L557-612. -/
noncomputable def localLoop (o : Opts K) (pre : ℕ) : Bop K → List (Mat K) → Except PyErr (List ℕ)
  | _, [] => .ok []
  | b, w :: ws => do
    let r := capRank o.maxRank (forceEven o.forceEven (computeRankTyped w o.svdRank))
    let (b, m) ← ({ b with svdRank := r, basis := o.basis } : Bop K).fit w
    assign pre m
    let b := if o.useLastFreq = false ∧ o.resetAlphaInit = false then
        { b with initAlpha := o.initAlpha }
      else if o.useLastFreq then { b with initAlpha := some m }
      else { b with initAlpha := none }
    let rest ← localLoop o pre b ws
    .ok (m :: rest)

open Classical in
/-- The ranks of `COSTS.fit`, L490-612, for the data and its windows: the number of modes each window
is fitted with. -/
noncomputable def fitRanks (o : Opts K) (data : Mat K) (windows : List (Mat K)) :
    Except PyErr (List ℕ) :=
  if o.globalSvd then
    -- `_build_proj_basis`, L383-384: the rank, and as many columns of the SVD
    let basis := min (computeRank data.sigma data.rows data.cols o.svdRank) data.sigma.length
    let r := computeRankTyped data (computeRankTyped data o.svdRank)
    let pre := computeRank data.sigma data.rows data.cols (computeRankTyped data o.svdRank)
    globalLoop pre ⟨r, some basis, o.useProj, o.initAlpha⟩ windows
  else if 0 < o.svdRank.val then
    if o.forceEven = true ∧ IsOdd o.svdRank then .error .valueError
    else if (data.rows : K) < o.svdRank.val then .error .valueError
    else
      localLoop o (computeRank data.sigma data.rows data.cols o.svdRank)
        ⟨o.svdRank, o.basis, o.useProj, o.initAlpha⟩ windows
  else
    localLoop o (o.maxRank.getD data.rows) ⟨o.svdRank, o.basis, o.useProj, o.initAlpha⟩ windows

end Verif.CostsRank
