import Verif.Model.Havok

/-!
# Model of the control flow and of the state of `HAVOK.fit`

Source: `/repo/pydmd/havok.py`, L333-450, and the accessors L140-275. The numbers (singular vectors,
operator) are one value of a free type; only when they are stored is modelled.
-/

set_option autoImplicit false

namespace Verif.HavokFit

open Verif

/-- The argument `t` of `fit`: a Python `int` or `float` (`np.float64` is a subclass of `float`), or
anything else, which becomes an array: its shape and its entries. A NumPy integer is an array of shape
`[]`. -/
inductive TimeArg
  | number (t : ℝ)
  | array (shape : List ℕ) (vals : List ℝ)

/-- The parameters of the constructor; `none` is a value that is not an `int`. -/
structure Params where
  delays : Option ℤ
  lag : Option ℤ
  numChaos : Option ℤ
  structured : Bool

/-- The state of the object: `r` and the rest (`_snapshots`, `_ho_snapshots`, `_time`, the singular
vectors and values, the embeddings, the operator and its eigenvalues), which is stored together at the
end of `fit`, L434-448. -/
structure State (D : Type) where
  r : Option ℕ
  data : Option D

/-- `HAVOK.__init__`, L61-92. -/
def State.new (D : Type) : State D := ⟨none, none⟩

/-- The check of L344-348. -/
def posInt (x : Option ℤ) : Bool :=
  match x with
  | none => false
  | some i => decide (1 ≤ i)

/-- The data after L351-356: `np.squeeze`, at most two dimensions, a row for a vector. The result is
`(n_features, n_samples)`; `X.shape[-1]` of an array without dimensions raises `IndexError`. -/
def dataShape (shape : List ℕ) : Except PyErr (ℕ × ℕ) :=
  match shape.filter (· ≠ 1) with
  | [] => .error .indexError
  | [m] => .ok (1, m)
  | [n, m] => .ok (n, m)
  | _ => .error .valueError

/-- The check of `hankel`, L296-300, on the number of snapshots. -/
def hankelCheck (delays lag : ℤ) (m : ℕ) : Except PyErr Unit :=
  if (m : ℤ) < lag * (delays - 1) + 1 then .error .valueError else .ok ()

/-- The time vector, L361-381. With fewer than two times `time[1]` raises `IndexError`: in the array
branch at L378, with a number at L381. -/
noncomputable def timeVector (m : ℕ) (t : TimeArg) : Except PyErr (List ℝ) :=
  let time : Except PyErr (List ℝ) :=
    match t with
    | .number t => .ok ((List.range m).map fun (i : ℕ) => (i : ℝ) * t)
    | .array shape vals =>
      if (shape.filter (· ≠ 1)) ≠ [m] then .error .valueError else .ok vals
  match time with
  | .error e => .error e
  | .ok l => if l.length < 2 then .error .indexError else .ok l

/-- `fit`, L333-450. `rank` is `len(s)` of the truncated SVD; `regress` is the regression or the fit of
the user's `dmd` (L405-428), which may raise; its result is stored with the time vector. -/
noncomputable def fit {D : Type} (P : Params) (st : State D) (shape : List ℕ) (t : TimeArg)
    (rank : ℕ × ℕ → ℕ) (regress : ℕ × ℕ → List ℝ → Except PyErr D) :
    State D × Except PyErr Unit :=
  if ¬(posInt P.delays && posInt P.lag && posInt P.numChaos) then (st, .error .valueError)
  else
    match dataShape shape with
    | .error e => (st, .error e)
    | .ok nm =>
      match hankelCheck (P.delays.getD 0) (P.lag.getD 0) nm.2 with
      | .error e => (st, .error e)
      | .ok () =>
        match timeVector nm.2 t with
        | .error e => (st, .error e)
        | .ok time =>
          let st := { st with r := some (rank nm) }
          if (rank nm : ℤ) < P.numChaos.getD 0 + 1 then (st, .error .valueError)
          else
            match regress nm time with
            | .error e => (st, .error e)
            | .ok d => ({ st with data := some d }, .ok ())

/-- The accessors other than `r`, for example `operator`, L215-226. -/
def State.read {D : Type} (st : State D) : Except PyErr D :=
  match st.data with
  | none => .error .valueError
  | some d => .ok d

/-- `r`, L267-277. -/
def State.rank {D : Type} (st : State D) : Except PyErr ℕ :=
  match st.r with
  | none => .error .valueError
  | some r => .ok r

end Verif.HavokFit
