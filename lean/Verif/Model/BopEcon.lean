import Verif.Model.Refit
import Mathlib.Data.Matrix.Mul
import Mathlib.LinearAlgebra.Matrix.ConjTranspose
import Mathlib.Data.Complex.Basic

/-!
# `BOPDMD.fit_econ`

Model of pydmd/bopdmd.py L1478-1575, on the state of an instance of `Verif.Model.Refit`, next to
`fit` on the full snapshots. Exact complex arithmetic.
-/

set_option autoImplicit false

namespace Verif.BopEcon

open Verif.Refit Verif.Rank

/-- A projection basis with `m` rows. -/
abbrev Basis (m : ℕ) := (q : ℕ) × Matrix (Fin m) (Fin q) ℂ

/-- The routines called on the projected snapshots `ux` (`q` rows, `n` columns) and the times:
`init` is `_initialize_alpha`, L1377-1393, `compute` the construction of the operator and
`compute_operator`, L1451-1474 and L1543-1569. The singular values of full snapshots are `sing`. -/
structure Routines (m : ℕ) (Al R : Type) where
  init : (q n : ℕ) → Matrix (Fin q) (Fin n) ℂ → List ℝ → SvdRank ℝ → Al
  alen : Al → ℕ
  compute : (q n : ℕ) → Matrix (Fin q) (Fin n) ℂ → List ℝ → Basis m → Al → Except PyErr R
  sing : (n : ℕ) → Matrix (Fin m) (Fin n) ℂ → List ℝ
  basis : (n : ℕ) → Matrix (Fin m) (Fin n) ℂ → ℕ → Basis m

/-- Full snapshots with their times. -/
abbrev Data (m : ℕ) := ((n : ℕ) × Matrix (Fin m) (Fin n) ℂ) × List ℝ

/-- `fit` with `use_proj=True` as an instance of `Refit.Bop.fit`: the snapshots are projected on
the basis, L1376 and L1467-1468. A single time is squeezed to an array without length, L1407-1415. -/
noncomputable def full {m : ℕ} {Al R : Type} (N : Routines m Al R) :
    BopNum (Data m) ℝ (Basis m) Al R where
  check x := if x.2.length = 1 then .error .typeError
    else if x.1.1 ≠ x.2.length then .error .valueError else .ok ()
  sing x := N.sing x.1.1 x.1.2
  rows _ := m
  cols x := x.1.1
  basis x r := N.basis x.1.1 x.1.2 r
  bcols b := b.1
  alpha x b r := N.init b.1 x.1.1 (b.2.conjTranspose * x.1.2) x.2 (.int r)
  alen := N.alen
  useProj := true
  solve x b a := N.compute b.1 x.1.1 (b.2.conjTranspose * x.1.2) x.2 b a

/-- `self._svd_rank` after L1437: an instance fitted before holds an `int`. -/
abbrev Inst (m : ℕ) (Al R : Type) := Bop (Data m) ℝ (Basis m) Al R

/-- The arguments of `fit_econ`: a one-dimensional array `s`, a two-dimensional array `V`, a
one-dimensional array `t` (other shapes are not modelled). -/
structure Args where
  s : List ℝ
  a : ℕ
  n : ℕ
  V : Matrix (Fin a) (Fin n) ℂ
  t : List ℝ

/-- `np.diag(s).dot(V)`, L1566, L1373. -/
noncomputable def Args.ux (x : Args) : Matrix (Fin x.a) (Fin x.n) ℂ :=
  fun i j => ((x.s.getD i 0 : ℝ) : ℂ) * x.V i j

/-- The checks of `fit_econ`, L1502-1540: `shape[1] != self._svd_rank` compares numbers. A single
singular value is squeezed to an array of no dimensions, L1500. -/
noncomputable def econCheck {m : ℕ} {Al R : Type} (useProj : Bool) (st : Inst m Al R)
    (x : Args) : Except PyErr (Basis m) :=
  match st.basis with
  | none => .error .valueError
  | some b =>
    if useProj = false then .error .valueError
    else if (b.1 : ℝ) ≠ st.rank.val then .error .valueError
    else if x.s.length = 1 ∨ (x.s.length : ℝ) ≠ st.rank.val then .error .valueError
    else if (x.a : ℝ) ≠ st.rank.val then .error .valueError
    else if x.t.length = 1 then .error .typeError
    else if x.n ≠ x.t.length then .error .valueError
    else .ok b

/-- `fit_econ`, L1478-1575. -/
noncomputable def fitEcon {m : ℕ} {Al R : Type} (N : Routines m Al R) (useProj : Bool)
    (x : Args) (st : Inst m Al R) : Except PyErr Unit × Inst m Al R :=
  -- L1498
  let st := { st with snaps := none, out := none }
  match econCheck useProj st x with
  | .error e => (.error e, st)
  | .ok b =>
    -- L1541-1550
    let a : Except PyErr Al := match st.alpha with
      | none => .ok (N.init x.a x.n x.ux x.t st.rank)
      | some a => if (N.alen a : ℝ) ≠ st.rank.val then .error .valueError else .ok a
    match a with
    | .error e => (.error e, st)
    | .ok a =>
      let st := { st with alpha := some a }
      match N.compute x.a x.n x.ux x.t b a with
      | .error e => (.error e, st)
      | .ok o => (.ok (), { st with out := some o })

end Verif.BopEcon
