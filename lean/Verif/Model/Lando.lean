import Verif.Model.Py
import Mathlib.LinearAlgebra.Matrix.ConjTranspose
import Mathlib.Analysis.SpecialFunctions.Exp
import Mathlib.Data.Real.Sqrt
import Mathlib.Data.Matrix.ColumnRowPartitioned

/-!
# Model of LANDO: kernels, model, fixed-point analysis, dictionary and online learning

Source: `/repo/pydmd/lando.py`. Real data (sklearn's `pairwise_kernels` rejects complex data), exact
arithmetic. Snapshots are flattened: a snapshot is a function on the finite index type `n`.
-/

set_option autoImplicit false

namespace Verif.Lando

open Matrix Verif

section Kernel

variable {n j : Type} [Fintype n] [Fintype j]

/-- Supported kernels with their parameters (`_supported_kernels` L473; the defaults of sklearn,
`gamma = 1/n_features`, `coef0 = 1`, `degree = 3`, are particular values). The degree is restricted
to natural numbers. -/
inductive Kernel
  | linear
  | poly (gamma coef0 : ℝ) (degree : ℕ)
  | rbf (gamma : ℝ)

/-- One entry of `sklearn.metrics.pairwise_kernels` as documented: `<x, y>`,
`(gamma <x, y> + coef0)^degree`, `exp(-gamma |x - y|^2)`; called in `kernel_function` L530-532. -/
noncomputable def Kernel.eval : Kernel → (n → ℝ) → (n → ℝ) → ℝ
  | .linear, x, y => x ⬝ᵥ y
  | .poly g c d, x, y => (g * (x ⬝ᵥ y) + c) ^ d
  | .rbf g, x, y => Real.exp (-g * ∑ i, (x i - y i) ^ 2)

/-- `kernel_gradient(X, y)`, row for the column `x` of `X`, L560-588. -/
noncomputable def Kernel.grad : Kernel → (n → ℝ) → (n → ℝ) → n → ℝ
  | .linear, x, _ => x
  | .poly g c d, x, y => fun i => g * d * (c + g * (x ⬝ᵥ y)) ^ (d - 1) * x i
  | .rbf g, x, y => fun i => -2 * g * Real.exp (-g * ∑ l, (x l - y l) ^ 2) * (x i - y i)

/-- `_rescale`, L958-967; a scalar `x_rescale` is a constant function. -/
def rescale (rho x : n → ℝ) : n → ℝ := fun i => x i * rho i

/-- `f` for one column, L635-660; `D` is the (rescaled) dictionary, `W` the weights. -/
noncomputable def f (k : Kernel) (rho : n → ℝ) (D : j → n → ℝ) (W : Matrix n j ℝ) (x : n → ℝ) :
    n → ℝ := W *ᵥ fun a => k.eval (D a) (rescale rho x)

/-- The rescaled gradient matrix, L271-272 and L736-742. -/
noncomputable def kernelGrad (k : Kernel) (rho : n → ℝ) (D : j → n → ℝ) (xbar : n → ℝ) :
    Matrix j n ℝ := Matrix.of fun a i => k.grad (D a) (rescale rho xbar) i * rho i

/-- `_bias`, L825. -/
noncomputable def bias (k : Kernel) (rho : n → ℝ) (D : j → n → ℝ) (W : Matrix n j ℝ)
    (xbar : n → ℝ) : n → ℝ := f k rho D W xbar

/-- `linear` with `compute_A`, L275 and L707. -/
noncomputable def linear (k : Kernel) (rho : n → ℝ) (D : j → n → ℝ) (W : Matrix n j ℝ)
    (xbar : n → ℝ) : Matrix n n ℝ := W * kernelGrad k rho D xbar

/-- `nonlinear` for one column, L744-757. -/
noncomputable def nonlinear (k : Kernel) (rho : n → ℝ) (D : j → n → ℝ) (W : Matrix n j ℝ)
    (xbar x : n → ℝ) : n → ℝ :=
  f k rho D W (x + xbar) - bias k rho D W xbar - (W * kernelGrad k rho D xbar) *ᵥ x

end Kernel

/-! ### Dictionary -/

/-- The state of the Cholesky routine: the dictionary and its factor. `ι` numbers the columns; a
column is appended by passing to `ι ⊕ Unit`. -/
structure Dict (X : Type) where
  ι : Type
  fin : Fintype ι
  dec : DecidableEq ι
  item : ι → X
  chol : Matrix ι ι ℝ

attribute [instance] Dict.fin Dict.dec

/-- `np.linalg.lstsq(A, b)[0]` for square matrices of any size. -/
abbrev Solver := (ι : Type) → [Fintype ι] → [DecidableEq ι] → Matrix ι ι ℝ → (ι → ℝ) → ι → ℝ

section Dictionary

variable {X : Type} (k : X → X → ℝ) (sv : Solver) (tol : ℝ)

/-- The initial dictionary and factor, L187-193. -/
noncomputable def init (x0 : X) : Dict X :=
  ⟨Unit, inferInstance, inferInstance, fun _ => x0, Matrix.of fun _ _ => Real.sqrt (k x0 x0)⟩

/-- `k_tilde`, L329. -/
def kTilde (st : Dict X) (x : X) : st.ι → ℝ := fun a => k (st.item a) x

/-- `s`, L333. -/
def sVec (st : Dict X) (x : X) : st.ι → ℝ := sv st.ι st.chol (kTilde k st x)

/-- `pi`, L334. -/
def piVec (st : Dict X) (x : X) : st.ι → ℝ := sv st.ι st.cholᵀ (sVec k sv st x)

/-- `delta`, L338-339. -/
def delta (st : Dict X) (x : X) : ℝ := k x x - kTilde k st x ⬝ᵥ piVec k sv st x

/-- Appending `x`, L216-231 and `_update_cholesky` L304-319. `np.sqrt` of a negative number is
`NaN`, `max(0, NaN)` is 0, as is `Real.sqrt`. -/
noncomputable def push (st : Dict X) (x : X) : Dict X :=
  ⟨st.ι ⊕ Unit, inferInstance, inferInstance, Sum.elim st.item fun _ => x,
    Matrix.fromBlocks st.chol 0 (Matrix.of fun _ a => sVec k sv st x a)
      (Matrix.of fun _ _ => max 0 |Real.sqrt (k x x - ∑ a, sVec k sv st x a ^ 2)|)⟩

/-- One iteration of the loop of `compute_operator` without online learning, L201-244. -/
noncomputable def step (st : Dict X) (x : X) : Dict X :=
  if tol < |delta k sv st x| then push k sv st x else st

/-- The loop, L185-244, over the snapshots in the order in which they are parsed. -/
noncomputable def learn (x0 : X) (xs : List X) : Dict X := xs.foldl (step k sv tol) (init k x0)

end Dictionary

/-! ### Online learning -/

/-- State of online learning: dictionary and factor, `P` and the weights (outputs indexed by
`o`). -/
structure Online (X o : Type) where
  d : Dict X
  P : Matrix d.ι d.ι ℝ
  W : Matrix o d.ι ℝ

section OnlineLearning

variable {X o : Type} (k : X → X → ℝ) (sv : Solver) (tol : ℝ)

/-- L196-199. -/
noncomputable def oInit (x0 : X) (y0 : o → ℝ) : Online X o :=
  ⟨init k x0, (1 : Matrix Unit Unit ℝ), Matrix.of fun r _ => y0 r / Real.sqrt (k x0 x0) ^ 2⟩

/-- The row vector `y - weights . k_tilde`, L360 and L375. -/
def innov (st : Online X o) (x : X) (y : o → ℝ) : o → ℝ := y - st.W *ᵥ kTilde k st.d x

/-- `_update_online` after the dictionary was extended, L353-366. -/
noncomputable def oPush (st : Online X o) (x : X) (y : o → ℝ) : Online X o :=
  let wu : o → ℝ := fun r => innov k st x y r / delta k sv st.d x
  ⟨push k sv st.d x, Matrix.fromBlocks st.P 0 0 (1 : Matrix Unit Unit ℝ),
    Matrix.fromCols (st.W - vecMulVec wu (piVec k sv st.d x)) (Matrix.of fun r _ => wu r)⟩

/-- `h`, L369-371. -/
noncomputable def hVec (st : Online X o) (x : X) : st.d.ι → ℝ :=
  fun a => (piVec k sv st.d x ᵥ* st.P) a /
    (1 + piVec k sv st.d x ⬝ᵥ (st.P *ᵥ piVec k sv st.d x))

/-- `_update_online` in the almost linearly dependent case, L367-378. -/
noncomputable def oKeep (st : Online X o) (x : X) (y : o → ℝ) : Online X o :=
  ⟨st.d, st.P * (1 - vecMulVec (piVec k sv st.d x) (hVec k sv st x)),
    st.W + Matrix.of fun r => sv st.d.ι (st.d.chol * st.d.cholᵀ)ᵀ
      fun a => innov k st x y r * hVec k sv st x a⟩

/-- One iteration of the loop with online learning, L201-244. -/
noncomputable def oStep (st : Online X o) (p : X × (o → ℝ)) : Online X o :=
  if tol < |delta k sv st.d p.1| then oPush k sv st p.1 p.2 else oKeep k sv st p.1 p.2

/-- `fit` followed by any number of `update`s: the loop over all snapshot pairs in the order in
which they are parsed. -/
noncomputable def oLearn (p0 : X × (o → ℝ)) (ps : List (X × (o → ℝ))) : Online X o :=
  ps.foldl (oStep k sv tol) (oInit k p0.1 p0.2)

end OnlineLearning

/-! ### Rescaling and prediction with multi-dimensional snapshots -/

/-- The attribute `_x_rescale`: a number, or an array of which only the shape matters here. -/
inductive XRescale
  | scalar
  | array (shape : List ℕ)
  | other
  deriving DecidableEq

/-- `_check_x_rescale`, L969-984, called by every `fit` (L772): the new attribute. -/
def checkXRescale (a : XRescale) (snapshotsShape : List ℕ) : Except PyErr XRescale :=
  match a with
  | .other => .error .typeError
  | .scalar => .ok .scalar
  | .array s => if s = snapshotsShape then .ok (.array [s.prod]) else .error .valueError

/-- The shape check at the head of `f`, L649-652, on a flat state with `len` entries passed as
`x[..., None]`. -/
def fChecked {S : Type} (g : S → S) (snapshotsShape : List ℕ) (len : ℕ) (x : S) : Except PyErr S :=
  if [len] = snapshotsShape then .ok (g x) else .error .valueError

/-- The loop L940-942: the columns of `Y` from the current one on. -/
def orbit {S : Type} (h : S → Except PyErr S) : ℕ → S → Except PyErr (List S)
  | 0, x => .ok [x]
  | t + 1, x =>
    match h x with
    | .error e => .error e
    | .ok y =>
      match orbit h t y with
      | .error e => .error e
      | .ok l => .ok (x :: l)

/-- `predict` with `continuous=False`, L909-944, of a fitted model `g` on flat states; `x0Shape` is
the shape of the initial condition. The initial condition is flattened (L916) before `f` compares
its shape with that of the snapshots. With `tend = 0` the assignment L940 is out of bounds. -/
def predict {S : Type} (g : S → S) (snapshotsShape x0Shape : List ℕ) (x0 : S) (tend : ℕ) :
    Except PyErr (List S) :=
  if x0Shape ≠ snapshotsShape then .error .valueError
  else match tend with
    | 0 => .error .indexError
    | t + 1 => orbit (fChecked g snapshotsShape x0Shape.prod) t x0

end Verif.Lando
