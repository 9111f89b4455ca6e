import Verif.Model.Bitmask
import Verif.Model.Rank
import Verif.Model.MrDMD

/-!
# Model of what `fit` keeps from one call to the next

Sources: `/repo/pydmd/dmdbase.py`, `dmd.py`, `dmdoperator.py`, `rdmd.py`, `utils.py`, `bopdmd.py`,
`varprodmd.py`, `mrdmd.py`.

The numerical routines are deterministic functions (parameters of the model, collected in one
structure per class); the argument list of each of them is the list of the attributes the code
reads at that place. What is modelled is the data flow: which attributes a `fit` reads, which it
writes, in which order, and in which state it leaves the instance when it raises.

Not modelled: `_eigenvectors`, `_Lambda`, `_svd_modes` (written by every fit before they are read),
random number generation without a seed.
-/

set_option autoImplicit false

namespace Verif.Refit

open Verif Verif.Bitmask

/-! ## DMD -/

/-- The attribute `_rescale_mode` of the operator (dmdoperator.py L93-94, L184-211): `None`, the
string `"auto"`, an array, anything else. -/
inductive Rescale (K : Type)
  | none
  | auto
  | factors (l : List K)
  | invalid
  deriving DecidableEq

/-- Result of the least-squares and eigenvalue stages. -/
structure Eigs (E W : Type) where
  vals : List E
  vecs : W

/-- The numerical routines called by `DMD.fit` (dmd.py L49-82) for a fixed choice of the
constructor arguments other than `rescale_mode`. `D`: a snapshot argument, `S`: a matrix, `U`: an
SVD, `At`: a reduced operator, `W`: its eigenvectors, `T`: a time dictionary. -/
structure DmdNum (D S U At W T K M E A : Type) where
  /-- `Snapshots(X)`, dmd.py L60 -/
  snapshots : D → Except PyErr Unit
  /-- `_compare_data_shapes`, dmd.py L67 -/
  sameShape : D → D → Bool
  /-- the pair of matrices after `compute_tlsq`, dmd.py L63-72 -/
  split : D → Option D → Except PyErr (S × S)
  /-- `compute_svd(X, self._svd_rank)`, dmdoperator.py L77 -/
  svd : S → U
  /-- the singular values it returns -/
  sing : U → List K
  /-- `self._tikhonov_regularization is not None` -/
  tikhonov : Bool
  /-- `np.linalg.norm(X)`, dmdoperator.py L80 -/
  norm : S → K
  /-- dmdoperator.py L81-91; reads `_norm_X` -/
  lsq : Option K → U → S → S → Except PyErr At
  /-- `shape[0]` of the reduced operator -/
  size : At → ℕ
  /-- `np.linalg.eig` of the scaled operator, dmdoperator.py L195-213 -/
  eig : Option (List K) → At → Except PyErr (Eigs E W)
  /-- dmdoperator.py L215-244 -/
  sort : Eigs E W → Except PyErr (Eigs E W)
  /-- `_compute_modes`, dmdoperator.py L246-281; reads `_rescale_mode` and `_norm_X` -/
  modes : Option (List K) → Option K → U → S → Eigs E W → List M
  /-- the time dictionary of dmd.py L76-78 -/
  time : D → T
  /-- `_compute_amplitudes`, dmdbase.py L712-745; reads modes, eigenvalues, snapshots, `dmd_time` -/
  amps : List M → Eigs E W → D → Option D → T → Except PyErr (List A)

/-- The attributes of a `DMD` instance that survive a call: `obj` holds the operator's arrays,
`_b` and the proxy. -/
structure Dmd (D T K At M E A : Type) where
  rescale : Rescale K
  normX : Option K
  atilde : Option At
  obj : Obj M E A
  snaps : Option D
  snapsY : Option D
  origTime : Option T
  dmdTime : Option T

section dmd

variable {D S U At W T K M E A : Type}

/-- A `DMD` instance as constructed, dmdbase.py L139-190. -/
def Dmd.new (r : Rescale K) : Dmd D T K At M E A :=
  ⟨r, none, none, ⟨none, none, none⟩, none, none, none, none⟩

/-- `DMDBase._reset`, dmdbase.py L630-637. -/
def Dmd.reset (st : Dmd D T K At M E A) : Dmd D T K At M E A :=
  { st with obj := { st.obj with b := none, view := none }, snaps := none, snapsY := none }

/-- `DMDOperator._compute_eigenquantities`, dmdoperator.py L178-244: the scaling factors used, or
the exception raised for an array of the wrong length or another value. -/
def scaling (r : Rescale K) (n : ℕ) : Except PyErr (Option (List K)) :=
  match r with
  | .none => .ok none
  | .factors l => if l.length ≠ n then .error .valueError else .ok (some l)
  | .auto => .error .valueError
  | .invalid => .error .valueError

/-- `_rescale_mode` after dmdoperator.py L93-94: the string `"auto"` is replaced by the singular
values. -/
def autoScale (r : Rescale K) (s : List K) : Rescale K :=
  match r with
  | .auto => .factors s
  | r => r

/-- `DMDOperator.compute_operator`, dmdoperator.py L62-100, on the matrices `X`, `Y`. The
eigenvectors are returned for the computation of the amplitudes. -/
def computeOperator (N : DmdNum D S U At W T K M E A) (X Y : S) (st : Dmd D T K At M E A) :
    Except PyErr (Eigs E W × List M) × Dmd D T K At M E A :=
  let u := N.svd X
  -- L79-80
  let st := if N.tikhonov then { st with normX := some (N.norm X) } else st
  -- L81-91
  match N.lsq st.normX u X Y with
  | .error e => (.error e, st)
  | .ok at' =>
    -- L93-94
    let r := autoScale st.rescale (N.sing u)
    -- L96
    let st := { st with rescale := r, atilde := some at' }
    -- L97: L184-211
    match scaling r (N.size at') with
    | .error e => (.error e, st)
    | .ok f =>
      -- L213
      match N.eig f at' with
      | .error e => (.error e, st)
      | .ok es =>
        let st1 := { st with obj := { st.obj with op := st.obj.op.map fun p => (p.1, es.vals) } }
        -- L215-244
        match N.sort es with
        | .error e => (.error e, st1)
        | .ok es =>
          -- L98
          let ms := N.modes f st.normX u Y es
          (.ok (es, ms), { st with obj := { st.obj with op := some (ms, es.vals) } })

/-- The checks of the second argument, dmd.py L63-68. -/
def checkY (N : DmdNum D S U At W T K M E A) (x : D) (y : Option D) : Except PyErr (Option D) :=
  match y with
  | none => .ok none
  | some y' => match N.snapshots y' with
    | .error e => .error e
    | .ok () => if N.sameShape x y' then .ok (some y') else .error .valueError

/-- `DMD.fit`, dmd.py L49-82. -/
def Dmd.fit (N : DmdNum D S U At W T K M E A) (x : D) (y : Option D)
    (st : Dmd D T K At M E A) : Except PyErr Unit × Dmd D T K At M E A :=
  let st := st.reset
  -- L60
  match N.snapshots x with
  | .error e => (.error e, st)
  | .ok () =>
    let st := { st with snaps := some x }
    -- L63-70
    match checkY N x y with
    | .error e => (.error e, st)
    | .ok y' =>
      let st := { st with snapsY := y' }
      -- L72
      match N.split x y' with
      | .error e => (.error e, st)
      | .ok (X, Y) =>
        -- L73
        match computeOperator N X Y st with
        | (.error e, st) => (.error e, st)
        | (.ok (es, ms), st) =>
          -- L76-78
          let st := { st with origTime := some (N.time x), dmdTime := some (N.time x) }
          -- L80
          match N.amps ms es x y' (N.time x) with
          | .error e => (.error e, st)
          | .ok b => (.ok (), { st with obj := { st.obj with b := some b } })

/-- What a user can do with a DMD instance between fits: another fit, an assignment to the mask
or an in-place write on the arrays returned by the getters (`Bitmask.Op`, which also covers the
allocation of the proxy by a read), an assignment to the time dictionaries. -/
inductive DmdEvent (D T M E A : Type)
  | fit (x : D) (y : Option D)
  | touch (op : Op M E A)
  | times (o d : Option T)

/-- One event; exceptions are caught by the caller and the instance is used further. -/
def Dmd.step (N : DmdNum D S U At W T K M E A) (st : Dmd D T K At M E A) :
    DmdEvent D T M E A → Dmd D T K At M E A
  | .fit x y => (st.fit N x y).2
  | .touch op => { st with obj := (st.obj.step op).2 }
  | .times o d => { st with origTime := o, dmdTime := d }

/-- A history of events. -/
def Dmd.run (N : DmdNum D S U At W T K M E A) (st : Dmd D T K At M E A) :
    List (DmdEvent D T M E A) → Dmd D T K At M E A
  | [] => st
  | e :: es => Dmd.run N (st.step N e) es

end dmd

/-! ## RDMD -/

/-- The numerical routines called by `RDMD.fit` (rdmd.py, cdmd.py L219-245). `Q`: a test matrix,
`B`: compressed snapshots, `R`: everything the rest of `fit` computes (operator arrays, amplitudes,
time dictionaries, compression matrix). -/
structure RdmdNum (D Q B R : Type) where
  /-- `Snapshots(X)`, cdmd.py L228 -/
  snapshots : D → Except PyErr Unit
  /-- `X.shape[-1]` -/
  cols : D → ℕ
  /-- `compute_rank(X, svd_rank)`, utils.py L249 -/
  rank : D → ℕ
  /-- `oversampling` -/
  oversampling : ℕ
  /-- `np.random.default_rng(seed).standard_normal((m, k))` with the seed of the instance -/
  gen : ℕ → ℕ → Q
  /-- `test_matrix.shape[0]` -/
  rows : Q → ℕ
  /-- utils.py L254-266 for matching shapes -/
  qb : D → Q → Except PyErr B
  /-- cdmd.py L231-243 on the compressed snapshots -/
  finish : B → D → Except PyErr R

/-- The attributes of an `RDMD` instance that survive a call. -/
structure Rdmd (D Q R : Type) where
  test : Option Q
  snaps : Option D
  out : Option R
  deriving DecidableEq

/-- `RDMD._compress_snapshots` with `compute_rqb`, rdmd.py L65-85, utils.py L246-268: the
compressed snapshots and the test matrix to store. -/
def compress {D Q B R : Type} (N : RdmdNum D Q B R) (x : D) (test : Option Q) :
    Except PyErr (B × Q) :=
  let q := test.getD (N.gen (N.cols x) (N.rank x + N.oversampling))
  -- `X.dot(test_matrix)`, utils.py L254
  if N.rows q ≠ N.cols x then .error .valueError
  else match N.qb x q with
    | .error e => .error e
    | .ok b => .ok (b, q)

/-- `RDMD.fit`, i.e. `CDMD.fit` (cdmd.py L219-245) with `RDMD._compress_snapshots`. The results of
an earlier fit are dropped by `_reset` (the operator's arrays stay until they are overwritten;
here the record of results counts as absent until the fit completes). -/
def Rdmd.fit {D Q B R : Type} (N : RdmdNum D Q B R) (x : D) (st : Rdmd D Q R) :
    Except PyErr Unit × Rdmd D Q R :=
  let st := { st with snaps := none, out := none }
  match N.snapshots x with
  | .error e => (.error e, st)
  | .ok () =>
    let st := { st with snaps := some x }
    match compress N x st.test with
    | .error e => (.error e, st)
    | .ok (b, q) =>
      let st := { st with test := some q }
      match N.finish b x with
      | .error e => (.error e, st)
      | .ok r => (.ok (), { st with out := some r })

/-- A sequence of fits, going on after exceptions. -/
def Rdmd.run {D Q B R : Type} (N : RdmdNum D Q B R) (st : Rdmd D Q R) : List D → Rdmd D Q R
  | [] => st
  | x :: xs => Rdmd.run N (st.fit N x).2 xs

/-! ## BOP-DMD -/

/-- The numerical routines called by `BOPDMD.fit` (bopdmd.py L1395-1476) for fixed constructor
arguments other than `svd_rank`, `proj_basis`, `init_alpha`. `B`: a projection basis, `Al`: a
vector of eigenvalue guesses, `R`: the fitted operator with the amplitudes. The random subsets of
the bagging are part of the (deterministic) routine. -/
structure BopNum (D K B Al R : Type) where
  /-- L1406-1420: conversion of the snapshots and checks of the time vector -/
  check : D → Except PyErr Unit
  /-- the singular values of the snapshot matrix -/
  sing : D → List K
  rows : D → ℕ
  cols : D → ℕ
  /-- `compute_svd(self.snapshots, r)[0]` for a truncation at `r` columns -/
  basis : D → ℕ → B
  /-- `proj_basis.shape[1]` -/
  bcols : B → ℕ
  /-- `_initialize_alpha`, L1354-1393; reads `_svd_rank`, `_proj_basis` -/
  alpha : D → B → ℕ → Al
  /-- `len(init_alpha)` -/
  alen : Al → ℕ
  /-- `self._use_proj` -/
  useProj : Bool
  /-- L1451-1474: the fit proper -/
  solve : D → B → Al → Except PyErr R

/-- The attributes of a `BOPDMD` instance that survive a call. -/
structure Bop (D K B Al R : Type) where
  rank : Rank.SvdRank K
  basis : Option B
  alpha : Option Al
  snaps : Option D
  out : Option R

section bop

variable {D K B Al R : Type} [Field K] [LinearOrder K]

/-- `compute_rank(self.snapshots, self._svd_rank)`, bopdmd.py L1423. -/
def BopNum.rankOf (N : BopNum D K B Al R) (x : D) (r : Rank.SvdRank K) : ℕ :=
  Rank.computeRank (N.sing x) (N.rows x) (N.cols x) r

/-- Choice or check of the projection basis, bopdmd.py L1426-1436. -/
def BopNum.pickBasis (N : BopNum D K B Al R) (x : D) (r : ℕ) (b : Option B) : Except PyErr B :=
  match b with
  | none => if N.useProj then .ok (N.basis x (N.rankOf x (.int r)))
      else .ok (N.basis x (N.rankOf x (.int (-1))))
  | some b => if N.bcols b ≠ r then .error .valueError else .ok b

/-- Choice or check of the initial eigenvalues, bopdmd.py L1439-1447. -/
def BopNum.pickAlpha (N : BopNum D K B Al R) (x : D) (b : B) (r : ℕ) (a : Option Al) :
    Except PyErr Al :=
  match a with
  | none => .ok (N.alpha x b r)
  | some a => if N.alen a ≠ r then .error .valueError else .ok a

/-- `BOPDMD.fit`, bopdmd.py L1395-1476. -/
def Bop.fit (N : BopNum D K B Al R) (x : D) (st : Bop D K B Al R) :
    Except PyErr Unit × Bop D K B Al R :=
  -- L1405-1406
  let st := { st with snaps := none, out := none }
  match N.check x with
  | .error e => (.error e, st)
  | .ok () =>
    let st := { st with snaps := some x }
    -- L1423
    let r := N.rankOf x st.rank
    let st := { st with rank := .int r }
    -- L1426-1436
    match N.pickBasis x r st.basis with
    | .error e => (.error e, st)
    | .ok b =>
      let st := { st with basis := some b }
      -- L1439-1447
      match N.pickAlpha x b r st.alpha with
      | .error e => (.error e, st)
      | .ok a =>
        let st := { st with alpha := some a }
        -- L1451-1474
        match N.solve x b a with
        | .error e => (.error e, st)
        | .ok o => (.ok (), { st with out := some o })

/-- A `BOPDMD` instance as constructed. -/
def Bop.new (r : Rank.SvdRank K) (b : Option B) (a : Option Al) : Bop D K B Al R :=
  ⟨r, b, a, none, none⟩

/-- A sequence of fits, going on after exceptions. -/
def Bop.run (N : BopNum D K B Al R) (st : Bop D K B Al R) : List D → Bop D K B Al R
  | [] => st
  | x :: xs => Bop.run N (st.fit N x).2 xs

end bop

/-! ## VarProDMD -/

/-- The attributes of a `VarProDMD` instance that survive a call. `cur`: the arrays of the operator
and `_b`; `proxy`: the arrays the proxy was built on and its visible part; `idx`: `_indices`. -/
structure VarPro (D I M E A : Type) where
  cur : Option (Arrays M E A)
  proxy : Option (Arrays M E A × View M E A)
  snaps : Option D
  idx : Option I

section varpro

variable {D I M E A : Type}

/-- A `VarProDMD` instance as constructed, varprodmd.py L680-686. -/
def VarPro.new : VarPro D I M E A := ⟨none, none, none, none⟩

/-- `VarProDMD.fit`, varprodmd.py L688-709; `solve` is `VarProOperator.compute_operator` with
`Snapshots(X)`. There is no call of `_reset`. -/
def VarPro.fit (solve : D → Except PyErr (Arrays M E A × I)) (x : D) (st : VarPro D I M E A) :
    Except PyErr Unit × VarPro D I M E A :=
  match solve x with
  | .error e => (.error e, { st with snaps := some x })
  | .ok (a, i) => (.ok (), { st with cur := some a, snaps := some x, idx := some i })

/-- The allocation of the proxy on a read of `modes`, `eigs` or `amplitudes`,
dmdbase.py L227-242, L482-491. -/
def VarPro.read (st : VarPro D I M E A) : VarPro D I M E A :=
  match st.proxy, st.cur with
  | none, some a => match newProxy a with
    | .ok p => { st with proxy := some p }
    | .error _ => st
  | _, _ => st

/-- Assignment of a boolean vector to `modes_activation_bitmask`, dmdbase.py L460-480. The arrays
written back are those the proxy was built on. -/
def VarPro.setMask (l : List Bool) (st : VarPro D I M E A) : Except PyErr Unit × VarPro D I M E A :=
  match st.cur with
  | none => (.error .runtimeError, st)
  | some _ =>
    let st := st.read
    match st.proxy with
    | none => (.error .attributeError, st)
    | some (o, v) =>
      if l.length ≠ v.mask.length then (.error .valueError, st)
      else match changeBitmask o (some v) l with
        | .error e => (.error e, st)
        | .ok p => (.ok (), { st with proxy := some p })

/-- The values of the getters `modes`, `eigs`, `amplitudes` (dmdbase.py L227-242, L254-269,
L392-405). -/
def VarPro.getters (st : VarPro D I M E A) : Option (List M × List E × List A) :=
  match st.cur with
  | none => none
  | some _ => match st.read.proxy with
    | some (_, v) => some (v.modes, v.eigs, v.amps)
    | none => none

/-- The arrays read by `forecast`, varprodmd.py L722-727. -/
def VarPro.forecastArgs (st : VarPro D I M E A) : Except PyErr (Arrays M E A) :=
  match st.cur with
  | none => .error .valueError
  | some a => .ok a

/-- What a user does with a `VarProDMD` instance. -/
inductive VarEvent (D : Type)
  | fit (x : D)
  | read
  | mask (l : List Bool)

/-- One event. -/
def VarPro.step (solve : D → Except PyErr (Arrays M E A × I)) (st : VarPro D I M E A) :
    VarEvent D → VarPro D I M E A
  | .fit x => (st.fit solve x).2
  | .read => st.read
  | .mask l => (st.setMask l).2

/-- A history of events. -/
def VarPro.run (solve : D → Except PyErr (Arrays M E A × I)) (st : VarPro D I M E A) :
    List (VarEvent D) → VarPro D I M E A
  | [] => st
  | e :: es => VarPro.run solve (st.step solve e) es

end varpro

/-! ## MrDMD -/

/-- The attribute `max_level` after a sequence of fits on data with the given numbers of snapshots
(`clampLevel`, mrdmd.py L481-491), going on after exceptions. -/
noncomputable def levelAfter (b : MrDMD.Builder) (maxLevel : ℕ) : List ℕ → ℕ
  | [] => maxLevel
  | n :: ns => levelAfter b (MrDMD.clampLevel b maxLevel n).2 ns

end Verif.Refit
