import Verif.Model.Param
import Mathlib.Logic.Function.Basic

/-!
# Parametric DMD and the objects it is given

Source: `/repo/pydmd/paramdmd.py`. `ParametricDMD.__init__` stores references to the DMD instance(s), to the POD and to the
interpolator (L74-76); nothing is copied. Here a `ParametricDMD` holds references, and the DMD instances and PODs live in a
memory that several instances may share. (The interpolator is fitted anew in every use, L522-524, so that sharing it has no
effect; it is a function here.)
-/

set_option autoImplicit false

namespace Verif.ParamShared

open Verif Verif.Param

/-- The memory: DMD instances and PODs (`none`: not fitted). -/
structure World (D K : Type) where
  dmd : ℕ → D
  pod : ℕ → Option (Pod K)

/-- The attribute `_dmd`, L74: a reference or a list of references, which may repeat. -/
inductive Refs
  | mono (a : ℕ)
  | part (as : List ℕ)

/-- A `ParametricDMD` instance, L74-94. -/
structure Obj (V K : Type) where
  refs : Refs
  podRef : ℕ
  light : Bool
  trainingParameters : Option (List (List V))
  parameters : Option (List (List V))
  ntrain : Option ℕ
  coefficients : Option (List (T2 K))

variable {D W V K : Type}

/-- L399-401: `for dmd, data in zip(self._dmd, coefficients): dmd.fit(data)`. An instance whose `fit` raises is taken to be
unchanged. -/
def fitLoop (cls : DmdClass D W K) : (ℕ → D) → List ℕ → List (T2 K) → Except PyErr Unit × (ℕ → D)
  | mem, a :: as, M :: Ms =>
    match cls.fit M (mem a) with
    | .error e => (.error e, mem)
    | .ok d => fitLoop cls (Function.update mem a d) as Ms
  | mem, _, _ => (.ok (), mem)

/-- `fit`, L344-410. -/
def Obj.fit (cls : DmdClass D W K) (podFit : T2 K → Pod K) (o : Obj V K) (m : World D K) (X : T3 K) (params : Params V)
    (len : ℕ) : Except PyErr Unit × Obj V K × World D K :=
  if X.d0 ≠ params.len len then (.error .valueError, o, m)
  else
    let o := { o with ntrain := some X.d0 }
    let mismatch := match o.refs with
      | .mono _ => false
      | .part as => X.d0 != as.length
    if mismatch then (.error .valueError, o, m)
    else match params.normalise with
      | .error e => (.error e, o, m)
      | .ok ps =>
        let o := { o with trainingParameters := some ps }
        let spaceTimemu := arrange X
        let pod := podFit spaceTimemu
        let m := { m with pod := Function.update m.pod o.podRef (some pod) }
        match (pod.reduce spaceTimemu).splitCols X.d0 with
        | .error e => (.error e, o, m)
        | .ok coeffs =>
          let o := if o.light then o else { o with coefficients := some coeffs }
          match o.refs with
          | .part as =>
            let r := fitLoop cls m.dmd as coeffs
            (r.1, o, { m with dmd := r.2 })
          | .mono a =>
            match vstack coeffs with
            | .error e => (.error e, o, m)
            | .ok M =>
              match cls.fit M (m.dmd a) with
              | .error e => (.error e, o, m)
              | .ok d => (.ok (), o, { m with dmd := Function.update m.dmd a d })

/-- L482-484: every DMD gets the time of the reference DMD, which is read again in every iteration. -/
def bindTimes (cls : DmdClass D W K) (a0 : ℕ) : (ℕ → D) → List ℕ → Except PyErr Unit × (ℕ → D)
  | mem, a :: as =>
    match cls.getTime (mem a0) with
    | .error e => (.error e, mem)
    | .ok w => bindTimes cls a0 (Function.update mem a (cls.setTime w (mem a))) as
  | mem, [] => (.ok (), mem)

/-- `_predict_modal_coefficients`, L471-488. -/
def Obj.predictCoefficients (cls : DmdClass D W K) (o : Obj V K) (m : World D K) : Except PyErr (T2 K) × World D K :=
  match o.refs with
  | .mono a => (cls.reconstructed (m.dmd a), m)
  | .part [] => (.error .valueError, m)
  | .part (a :: as) =>
    match bindTimes cls a m.dmd (a :: as) with
    | (.error e, mem) => (.error e, { m with dmd := mem })
    | (.ok (), mem) => ((do vstack (← (a :: as).mapM fun b => cls.reconstructed (mem b))), { m with dmd := mem })

/-- The object with the objects it refers to, as the instance of `Verif.Param`. -/
def Obj.view (o : Obj V K) (m : World D K) : PDmd D V K where
  dmd := match o.refs with
    | .mono a => .mono (m.dmd a)
    | .part as => .part (as.map m.dmd)
  light := o.light
  trainingParameters := o.trainingParameters
  parameters := o.parameters
  ntrain := o.ntrain
  pod := m.pod o.podRef
  coefficients := o.coefficients

/-- `reconstructed_data`, L535-560: what follows `_predict_modal_coefficients` changes nothing and is that of
`Verif.Param`. -/
def Obj.reconstructedData [Inhabited K] (cls : DmdClass D W K)
    (interp : List (List V) → T2 K → List (List V) → Except PyErr (T2 K)) (o : Obj V K) (m : World D K) :
    Except PyErr (T3 K) × World D K :=
  match o.predictCoefficients cls m with
  | (.error e, m) => (.error e, m)
  | (.ok M, m) =>
    match (o.view m).interpolate interp M, m.pod o.podRef with
    | .error e, _ => (.error e, m)
    | .ok _, none => (.error .attributeError, m)
    | .ok C, some pod =>
      (.ok ⟨C.d0, (pod.expand (C.along1 0 0)).length, C.d2,
        fun p s t => (pod.expand (C.along1 p t)).getD s default⟩, m)

/-- `training_modal_coefficients`, L416-440. -/
def Obj.trainingModalCoefficients (o : Obj V K) : Except PyErr (List (T2 K)) :=
  if o.light then .error .runtimeError
  else match o.coefficients with
    | none => .error .runtimeError
    | some cs => .ok cs

end Verif.ParamShared
