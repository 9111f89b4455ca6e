import Verif.Model.Py
import Mathlib.Data.Nat.Basic

/-!
# Model of parametric DMD

Source: `/repo/pydmd/paramdmd.py`.

An array is its shape together with its entries as a function of the indexes; entries outside the
shape have no meaning. The DMD class, the POD and the interpolator are parameters.
-/

set_option autoImplicit false

namespace Verif.Param

open Verif

/-- A two-dimensional array. -/
structure T2 (K : Type) where
  rows : ℕ
  cols : ℕ
  get : ℕ → ℕ → K

/-- A three-dimensional array. -/
structure T3 (K : Type) where
  d0 : ℕ
  d1 : ℕ
  d2 : ℕ
  get : ℕ → ℕ → ℕ → K

variable {K : Type}

/-- `np.swapaxes(X, 0, 1)`. -/
def T3.swap01 (X : T3 K) : T3 K := ⟨X.d1, X.d0, X.d2, fun i j k => X.get j i k⟩

/-- `np.swapaxes(X, 1, 2)`. -/
def T3.swap12 (X : T3 K) : T3 K := ⟨X.d0, X.d2, X.d1, fun i j k => X.get i k j⟩

/-- `np.swapaxes(X, 0, 2)`. -/
def T3.swap02 (X : T3 K) : T3 K := ⟨X.d2, X.d1, X.d0, fun i j k => X.get k j i⟩

/-- `back_roll_shape`, L17-22. -/
def backRollShape (X : T3 K) : T3 K := X.swap01.swap12

/-- `roll_shape`, L25-30. -/
def rollShape (X : T3 K) : T3 K := X.swap02.swap12

/-- `X.reshape((X.shape[0], -1), order="C")`: in C order entry `(i, j, k)` goes to column
`j * d2 + k`. (For an empty first axis numpy raises; not modelled.) -/
def T3.flattenTail (X : T3 K) : T2 K :=
  ⟨X.d0, X.d1 * X.d2, fun i c => X.get i (c / X.d2) (c % X.d2)⟩

/-- `M.reshape((n, -1, M.shape[1]))` in C order: row `i` goes to `(i / r, i % r)` with
`r = rows / n`. A size that cannot be inferred raises `ValueError`. -/
def T2.reshape3 (M : T2 K) (n : ℕ) : Except PyErr (T3 K) :=
  if n = 0 ∨ M.cols = 0 ∨ M.rows % n ≠ 0 then .error .valueError
  else .ok ⟨n, M.rows / n, M.cols, fun p s t => M.get (p * (M.rows / n) + s) t⟩

/-- `np.split(M, n, axis=1)`: `n` equal blocks of columns, or `ValueError` (for `n = 0`
`ZeroDivisionError`; here `ValueError` as well). -/
def T2.splitCols (M : T2 K) (n : ℕ) : Except PyErr (List (T2 K)) :=
  if n = 0 ∨ M.cols % n ≠ 0 then .error .valueError
  else .ok ((List.range n).map fun p =>
    ⟨M.rows, M.cols / n, fun i j => M.get i (p * (M.cols / n) + j)⟩)

/-- Two arrays one above the other. -/
def T2.above (A B : T2 K) : T2 K :=
  ⟨A.rows + B.rows, A.cols, fun i j => if i < A.rows then A.get i j else B.get (i - A.rows) j⟩

/-- `np.vstack`: `ValueError` for no arrays or different numbers of columns. -/
def vstack : List (T2 K) → Except PyErr (T2 K)
  | [] => .error .valueError
  | [A] => .ok A
  | A :: B :: Ms =>
    match vstack (B :: Ms) with
    | .error e => .error e
    | .ok C => if A.cols = C.cols then .ok (A.above C) else .error .valueError

/-- `_arrange_parametric_snapshots`, L282-284. -/
def arrange (X : T3 K) : T2 K := X.swap01.flattenTail

/-- What parametric DMD uses of a DMD instance `D` with time dictionaries `W`. -/
structure DmdClass (D W K : Type) where
  fit : T2 K → D → Except PyErr D
  getTime : D → Except PyErr W
  setTime : W → D → D
  reconstructed : D → Except PyErr (T2 K)

/-- A fitted POD: `reduce` on matrices, `expand` on one vector of coefficients. -/
structure Pod (K : Type) where
  reduce : T2 K → T2 K
  expand : List K → List K

/-- An array of parameters: one-, two- or higher-dimensional. -/
inductive Params (V : Type)
  | one (l : List V)
  | two (l : List (List V))
  | more
  deriving DecidableEq

/-- `_set_training_parameters`, L191-197, and the setter of `parameters`, L239-246: parameters as
a two-dimensional array. -/
def Params.normalise {V : Type} : Params V → Except PyErr (List (List V))
  | .one l => .ok (l.map fun x => [x])
  | .two l => .ok l
  | .more => .error .valueError

/-- `len(params)`; higher-dimensional arrays are given by their length only. -/
def Params.len {V : Type} : Params V → ℕ → ℕ
  | .one l, _ => l.length
  | .two l, _ => l.length
  | .more, n => n

/-- The attribute `_dmd`: an instance or a list of (distinct) instances, L74. -/
inductive Dmds (D : Type)
  | mono (d : D)
  | part (ds : List D)

/-- A `ParametricDMD` instance, L74-97. `pod` is the fitted POD. -/
structure PDmd (D V K : Type) where
  dmd : Dmds D
  light : Bool
  trainingParameters : Option (List (List V))
  parameters : Option (List (List V))
  ntrain : Option ℕ
  pod : Option (Pod K)
  coefficients : Option (List (T2 K))

variable {D W V : Type}

/-- `for dmd, data in zip(self._dmd, coefficients): dmd.fit(data)`, L399-401. -/
def fitZip (cls : DmdClass D W K) : List D → List (T2 K) → Except PyErr (List D)
  | d :: ds, M :: Ms =>
    match cls.fit M d with
    | .error e => .error e
    | .ok d' => (fitZip cls ds Ms).map (d' :: ·)
  | ds, _ => .ok ds

/-- `fit`, L344-410. `podFit` is `spatial_pod.fit`. If a DMD of a partition raises, the DMDs
before it stay fitted in the code; here the whole list is left as it was
(`Verif.ParamShared` has the loop as it is). -/
def PDmd.fit (cls : DmdClass D W K) (podFit : T2 K → Pod K) (o : PDmd D V K) (X : T3 K)
    (params : Params V) (len : ℕ) : Except PyErr Unit × PDmd D V K :=
  if X.d0 ≠ params.len len then (.error .valueError, o)
  else
    let o := { o with ntrain := some X.d0 }
    let mismatch := match o.dmd with
      | .mono _ => false
      | .part ds => X.d0 != ds.length
    if mismatch then (.error .valueError, o)
    else match params.normalise with
      | .error e => (.error e, o)
      | .ok ps =>
        let o := { o with trainingParameters := some ps }
        let spaceTimemu := arrange X
        let pod := podFit spaceTimemu
        let o := { o with pod := some pod }
        match (pod.reduce spaceTimemu).splitCols X.d0 with
        | .error e => (.error e, o)
        | .ok coeffs =>
          let o := if o.light then o else { o with coefficients := some coeffs }
          match o.dmd with
          | .part ds =>
            match fitZip cls ds coeffs with
            | .error e => (.error e, o)
            | .ok ds' => (.ok (), { o with dmd := .part ds' })
          | .mono d =>
            match vstack coeffs with
            | .error e => (.error e, o)
            | .ok M =>
              match cls.fit M d with
              | .error e => (.error e, o)
              | .ok d' => (.ok (), { o with dmd := .mono d' })

/-- The setter of `parameters`, L239-246. -/
def PDmd.setParameters (o : PDmd D V K) (p : Params V) : Except PyErr Unit × PDmd D V K :=
  match p.normalise with
  | .error e => (.error e, o)
  | .ok ps => (.ok (), { o with parameters := some ps })

/-- The setter of `dmd_time`, L137-139: only the reference DMD (L115-118) is changed. An empty
list has no reference. -/
def PDmd.setTime (cls : DmdClass D W K) (o : PDmd D V K) (w : W) : Except PyErr Unit × PDmd D V K :=
  match o.dmd with
  | .mono d => (.ok (), { o with dmd := .mono (cls.setTime w d) })
  | .part [] => (.error .indexError, o)
  | .part (d :: ds) => (.ok (), { o with dmd := .part (cls.setTime w d :: ds) })

/-- The getter of `dmd_time`, L135. -/
def PDmd.getTime (cls : DmdClass D W K) (o : PDmd D V K) : Except PyErr W :=
  match o.dmd with
  | .mono d => cls.getTime d
  | .part [] => .error .indexError
  | .part (d :: _) => cls.getTime d

/-- `_predict_modal_coefficients`, L473-490. (The time of the reference is read again in every
iteration; the first one assigns its own value to it.) -/
def PDmd.predictCoefficients (cls : DmdClass D W K) (o : PDmd D V K) :
    Except PyErr (T2 K) × PDmd D V K :=
  match o.dmd with
  | .mono d => (cls.reconstructed d, o)
  | .part [] => (.error .valueError, o)
  | .part (d :: ds) =>
    match cls.getTime d with
    | .error e => (.error e, o)
    | .ok w =>
      let ds' := (d :: ds).map (cls.setTime w)
      ((do vstack (← ds'.mapM cls.reconstructed)), { o with dmd := .part ds' })

/-- `forecasted_modal_coefficients`, L440-453. -/
def PDmd.forecasted (cls : DmdClass D W K) (o : PDmd D V K) : Except PyErr (T3 K) × PDmd D V K :=
  match o.predictCoefficients cls with
  | (.error e, o) => (.error e, o)
  | (.ok M, o) => (M.reshape3 (o.ntrain.getD 0), o)

/-- `np.dstack` of one two-dimensional array per instant, each given a third axis of length one,
L529-535; the arrays have equal shapes (not checked here), none at all raises `ValueError`. -/
def dstack : List (T2 K) → Except PyErr (T3 K)
  | [] => .error .valueError
  | A :: As => .ok ⟨A.rows, A.cols, (A :: As).length, fun p s t => ((A :: As).getD t A).get p s⟩

/-- `_interpolate_missing_modal_coefficients`, L492-535. `interp train slice new` is
`approx.fit(train, slice)` followed by `approx.predict(new)`. -/
def PDmd.interpolate (interp : List (List V) → T2 K → List (List V) → Except PyErr (T2 K))
    (o : PDmd D V K) (forecasted : T2 K) : Except PyErr (T3 K) :=
  match o.parameters with
  | none => .error .valueError
  | some [] => .error .valueError
  | some (q :: qs) => do
    let F ← forecasted.reshape3 (o.ntrain.getD 0)
    let R := rollShape F
    let slices := (List.range R.d0).map fun t => (⟨R.d1, R.d2, R.get t⟩ : T2 K)
    dstack (← slices.mapM fun s => interp (o.trainingParameters.getD []) s (q :: qs))

/-- The vector along axis 1 of a three-dimensional array. -/
def T3.along1 (X : T3 K) (p t : ℕ) : List K := (List.range X.d1).map fun s => X.get p s t

/-- `reconstructed_data`, L537-562. `np.apply_along_axis(expand, 1, C)` replaces every vector along
axis 1 by its image; the length of the images is that of the first one. -/
def PDmd.reconstructedData [Inhabited K] (cls : DmdClass D W K)
    (interp : List (List V) → T2 K → List (List V) → Except PyErr (T2 K)) (o : PDmd D V K) :
    Except PyErr (T3 K) × PDmd D V K :=
  match o.predictCoefficients cls with
  | (.error e, o) => (.error e, o)
  | (.ok M, o) =>
    match o.interpolate interp M, o.pod with
    | .error e, _ => (.error e, o)
    | .ok _, none => (.error .attributeError, o)
    | .ok C, some pod =>
      (.ok ⟨C.d0, (pod.expand (C.along1 0 0)).length, C.d2,
        fun p s t => (pod.expand (C.along1 p t)).getD s default⟩, o)

end Verif.Param
