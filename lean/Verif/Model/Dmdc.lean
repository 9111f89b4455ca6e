import Verif.Model.Operator
import Verif.Model.Time

/-!
# Model of DMD with control

Source: `/repo/pydmd/dmdc.py`. Snapshots and controls are lists of columns.
-/

set_option autoImplicit false

namespace Verif.Dmdc

open Verif Verif.LinAlg Matrix

variable {m n k r : Type} [Fintype m] [Fintype n] [Fintype k] [Fintype r] [DecidableEq r]
  [DecidableEq k] [DecidableEq n]

/-- `X` and `Y` of `fit`, L313-317: `[:, :-lag]` and `[:, lag:]`. -/
def splitLag {α : Type} (lag : ℤ) (snapshots : List α) : Except PyErr (List α × List α) :=
  if lag < 1 then .error .valueError
  else .ok (snapshots.take (snapshots.length - lag.toNat), snapshots.drop lag.toNat)

/-- `DMDBKnownOperator.compute_operator`, L73-91, after `compute_tlsq`: the reduced operator;
`U, s, V` is the SVD of `X`. -/
noncomputable def knownOperator {q : ℕ} (U : Matrix m r ℂ) (s : r → ℝ) (V : Matrix n r ℂ)
    (Y : Matrix m n ℂ) (B : Matrix m (Fin q) ℂ) (I : Matrix (Fin q) n ℂ) : Matrix r r ℂ :=
  Operator.leastSquareOperator none U s V (Y - B * I)

/-- The modes for known `B`: `exact=True`, L38-45, dmdoperator.py L246-281. `W` are the
eigenvectors of the reduced operator. -/
noncomputable def knownModes {q : ℕ} (U : Matrix m r ℂ) (s : r → ℝ) (V : Matrix n r ℂ)
    (Y : Matrix m n ℂ) (B : Matrix m (Fin q) ℂ) (I : Matrix (Fin q) n ℂ) (W : Matrix r r ℂ) :
    Matrix m r ℂ :=
  Operator.computeModes true none (Y - B * I) U s V W

/-- `omega = np.vstack([X, controlin])`, L130. -/
def omega {q : ℕ} (X : Matrix m n ℂ) (I : Matrix (Fin q) n ℂ) : Matrix (m ⊕ Fin q) n ℂ :=
  of fun p j => Sum.elim (fun a => X a j) (fun b => I b j) p

/-- `Up[:snapshots_rows, :]`, L134. -/
def upper {q : ℕ} (Up : Matrix (m ⊕ Fin q) k ℂ) : Matrix m k ℂ := Up.submatrix Sum.inl id

/-- `Up[snapshots_rows:, :]`, L135. -/
def lower {q : ℕ} (Up : Matrix (m ⊕ Fin q) k ℂ) : Matrix (Fin q) k ℂ := Up.submatrix Sum.inr id

/-- `self._Atilde` of `DMDBUnknownOperator`, L139-141. `Up, sp, Vp` is the SVD of `omega`, `Ur`
the left singular vectors of `Y`. (`tlsq_rank` is not used by the code here.) -/
noncomputable def unknownOperator {q : ℕ} (Y : Matrix m n ℂ) (Up : Matrix (m ⊕ Fin q) k ℂ)
    (sp : k → ℝ) (Vp : Matrix n k ℂ) (Ur : Matrix m r ℂ) : Matrix r r ℂ :=
  Urᴴ * Y * Vp * rdiag (fun i => (sp i)⁻¹) * (upper Up)ᴴ * Ur

/-- `_compute_modes` of `DMDBUnknownOperator`, L151-167. -/
noncomputable def unknownModes {q : ℕ} (Y : Matrix m n ℂ) (Up : Matrix (m ⊕ Fin q) k ℂ)
    (sp : k → ℝ) (Vp : Matrix n k ℂ) (Ur : Matrix m r ℂ) (W : Matrix r r ℂ) : Matrix m r ℂ :=
  Y * Vp * rdiag (fun i => (sp i)⁻¹) * (upper Up)ᴴ * Ur * W

/-- The matrix `B` returned, L145-149. -/
noncomputable def unknownB {q : ℕ} (Y : Matrix m n ℂ) (Up : Matrix (m ⊕ Fin q) k ℂ) (sp : k → ℝ)
    (Vp : Matrix n k ℂ) (Ur : Matrix m r ℂ) : Matrix m (Fin q) ℂ :=
  Ur * (Urᴴ * Y * Vp * rdiag (fun i => (sp i)⁻¹) * (lower Up)ᴴ)

/-- A control input: two-dimensional, by columns, or one-dimensional. -/
inductive Control
  | two (cols : List (List ℂ))
  | one (l : List ℂ)

/-- `controlin.shape[-1]`. -/
def Control.len : Control → ℕ
  | .two cols => cols.length
  | .one l => l.length

/-- `np.atleast_2d`, L308: a one-dimensional array becomes one row. -/
def Control.atleast2d : Control → Control
  | .two cols => .two cols
  | .one l => .two (l.map fun x => [x])

/-- The loop L281-287 over the columns of a two-dimensional control, from iteration `i` on.
`A.dot(data[i]) + B.dot(u)`; a column of the wrong length raises `ValueError`. -/
def controlLoop {q : ℕ} (A : Matrix m m ℂ) (B : Matrix m (Fin q) ℂ) :
    ℕ → List (m → ℂ) → List (List ℂ) → Except PyErr (List (m → ℂ))
  | _, data, [] => .ok data
  | i, data, u :: us =>
    if u.length ≠ q then .error .valueError
    else match data[i]? with
      | none => .error .indexError
      | some x => controlLoop A B (i + 1)
          (data ++ [A *ᵥ x + B *ᵥ fun j => u.getD j 0]) us

/-- `reconstructed_data`, L247-290. `P` is `pinv(modes)`, `orig` and `dmd` the two time windows,
`controlin` the control of `fit`. The columns of a one-dimensional control are scalars: `B.dot(u)`
is then a matrix and the shape test L283-286 (or the sum before it) raises `ValueError`. -/
noncomputable def reconstructedData {q : ℕ} (modes : Matrix m r ℂ) (eigs : r → ℂ)
    (P : Matrix r m ℂ) (B : Matrix m (Fin q) ℂ) (snapshots : List (m → ℂ)) (lag : ℕ)
    (orig dmd : Time.Window) (controlin : Control) (controlInput : Option Control) :
    Except PyErr (List (m → ℂ)) :=
  let c := controlInput.getD controlin
  match dmd.timesteps with
  | .error e => .error e
  | .ok ts =>
    if (c.len : ℤ) ≠ (ts.length : ℤ) - lag then .error .runtimeError
    else
      let ratio := ⌊dmd.dt / orig.dt⌋
      let A := modes * diagonal (fun i => eigs i ^ ratio) * P
      if snapshots.length < lag then .error .indexError
      else match c with
        | .two cols => controlLoop A B 0 (snapshots.take lag) cols
        | .one [] => .ok (snapshots.take lag)
        | .one (_ :: _) => .error .valueError

end Verif.Dmdc
