import Verif.Model.Refit
import Verif.Model.Time

/-!
# Model of what a `fit` that raises leaves behind, for the classes not in `Verif.Model.Refit`

Sources: `/repo/pydmd/hankeldmd.py`, `/repo/pydmd/preprocessing/pre_post_processing.py`,
`/repo/pydmd/dmdc.py`. As in `Verif.Model.Refit` the numerical routines are parameters and what is modelled is which
attributes are written, in which order.
-/

set_option autoImplicit false

namespace Verif.FailedFit

open Verif Verif.Bitmask

/-! ## HankelDMD -/

/-- The attributes of a `HankelDMD` instance that `fit` writes: its snapshots, its time dictionaries
(`original_time`, `dmd_time`) and the state of `_sub_dmd`, from which `modes`, `eigs`, `amplitudes` and the
reconstruction are read (hankeldmd.py L150-200). -/
structure Hankel (D T Sub : Type) where
  snaps : Option D
  time : Option T
  sub : Sub
  deriving DecidableEq

/-- `HankelDMD.fit`, hankeldmd.py L208-234. `snapshots`: `Snapshots(X)`; `cols`: the number of snapshots; `subFit`:
`_sub_dmd.fit`. -/
def Hankel.fit {D T Sub : Type} (snapshots : D → Except PyErr Unit) (cols : D → ℕ) (time : D → T)
    (subFit : D → Sub → Except PyErr Unit × Sub) (d : ℕ) (x : D) (st : Hankel D T Sub) :
    Except PyErr Unit × Hankel D T Sub :=
  -- L215: `_reset`
  let st := { st with snaps := none }
  -- L217
  match snapshots x with
  | .error e => (.error e, st)
  | .ok () =>
    let st := { st with snaps := some x }
    -- L219-223
    if cols x < d then (.error .valueError, st)
    else
      -- L225
      match subFit x st.sub with
      | (.error e, s) => (.error e, { st with sub := s })
      -- L228-230
      | (.ok (), s) => (.ok (), { st with sub := s, time := some (time x) })

/-! ## PrePostProcessingDMD -/

/-- The attributes of a `PrePostProcessingDMD` instance: `_pre_processing_output` (`None` at construction,
pre_post_processing.py L51-53) and the decorated instance. -/
structure Wrapped (P Sub : Type) where
  out : Option P
  sub : Sub
  deriving DecidableEq

/-- `PrePostProcessingDMD._pre_processing_fit`, pre_post_processing.py L93-101. -/
def Wrapped.fit {D D' P Sub : Type} (pre : D → Except PyErr (P × D'))
    (subFit : D' → Sub → Except PyErr Unit × Sub) (x : D) (st : Wrapped P Sub) : Except PyErr Unit × Wrapped P Sub :=
  match pre x with
  | .error e => (.error e, st)
  | .ok (p, x') => ((subFit x' st.sub).1, ⟨some p, (subFit x' st.sub).2⟩)

/-- `PrePostProcessingDMD._reconstructed_data_with_post_processing`, pre_post_processing.py L103-110, for a decorated
instance whose `reconstructed_data` is an array. -/
def Wrapped.recon {P Sub R R' : Type} (post : Option P → R → Except PyErr R') (recon : Sub → Except PyErr R)
    (st : Wrapped P Sub) : Except PyErr R' :=
  match recon st.sub with
  | .error e => .error e
  | .ok r => post st.out r

/-! ## DMDc -/

/-- The attributes of a `DMDc` instance that `fit` writes. `obj` holds the arrays of the operator (absent as long as the
operator is a new one or `None`), `_b` and the proxy; `bm`: `_B`; `basis`: `_basis`; `ctl`: `_controlin`. -/
structure Dmdc (D I T Bm Bs M E A : Type) where
  obj : Obj M E A
  snaps : Option D
  ctl : Option I
  time : Option T
  bm : Option Bm
  basis : Option Bs

/-- `DMDc.__init__`, dmdc.py L196-220. -/
def Dmdc.new {D I T Bm Bs M E A : Type} : Dmdc D I T Bm Bs M E A := ⟨⟨none, none, none⟩, none, none, none, none, none⟩

/-- The computation of the operator in `DMDc.fit`, dmdc.py L323-333. -/
def Dmdc.operator {D I Bm Bs M E : Type} (unknown : D → I → Except PyErr (List M × List E × Bs × Bm))
    (known : D → I → Bm → Except PyErr (List M × List E × Bs)) (x : D) (i : I) :
    Option Bm → Except PyErr (List M × List E × Bs × Bm)
  | none => unknown x i
  | some b => match known x i b with
    | .error e => .error e
    | .ok (ms, es, bs) => .ok (ms, es, bs, b)

/-- `DMDc.fit`, dmdc.py L292-337 (with a positive lag). `snapshots`: `Snapshots(X)`; `unknown`:
`DMDBUnknownOperator.compute_operator`, L102-148, returning the modes and eigenvalues it stores with the basis and `B`;
`known`: `DMDBKnownOperator.compute_operator`, L74-93; `amps`: `_compute_amplitudes`. Simplification: an operator whose
`compute_operator` raises has no modes (they are the last thing written). -/
def Dmdc.fit {D I T Bm Bs M E A : Type} (snapshots : D → Except PyErr Unit) (time : D → T)
    (unknown : D → I → Except PyErr (List M × List E × Bs × Bm)) (known : D → I → Bm → Except PyErr (List M × List E × Bs))
    (amps : List M → List E → D → Except PyErr (List A)) (x : D) (i : I) (b : Option Bm)
    (st : Dmdc D I T Bm Bs M E A) : Except PyErr Unit × Dmdc D I T Bm Bs M E A :=
  -- L307-308
  let st := { st with obj := { st.obj with b := none, view := none }, snaps := none, ctl := some i }
  -- L310
  match snapshots x with
  | .error e => (.error e, st)
  | .ok () =>
    -- L319-329: the operator is replaced before it is computed
    let st := { st with snaps := some x, time := some (time x), obj := { st.obj with op := none } }
    match Dmdc.operator unknown known x i b with
    | .error e => (.error e, st)
    | .ok (ms, es, bs, bm) =>
      let st := { st with obj := { st.obj with op := some (ms, es) }, basis := some bs, bm := some bm }
      -- L335
      match amps ms es x with
      | .error e => (.error e, st)
      | .ok a => (.ok (), { st with obj := { st.obj with b := some a } })

end Verif.FailedFit
