import Verif.Model.Havok
import Verif.Model.MrDMD
import Mathlib.Analysis.Normed.Algebra.MatrixExponential
import Mathlib.Algebra.BigOperators.Group.List.Basic

/-!
# Model of the simulation, the prediction and the threshold of HAVOK

Source: `/repo/pydmd/havok.py`, L452-603, L780-812. Arithmetic is exact. `scipy.signal.lsim`,
`np.histogram` and `norm.fit` are external; what is assumed of them is stated at the definitions and
in DESIGN.md, section 3.
-/

set_option autoImplicit false

namespace Verif.HavokSim

open Verif Matrix Verif.Havok

variable {p q : ℕ}

/-- `expm(A * t)`. -/
noncomputable def flow (A : Matrix (Fin p) (Fin p) ℂ) (t : ℝ) : Matrix (Fin p) (Fin p) ℂ :=
  NormedSpace.exp ((t : ℂ) • A)

/-- The matrices by which `lsim` advances the state over a step `dt`: the state, the input at the
beginning and the input at the end (linear interpolation of the input). The last two are blocks of an
exponential in SciPy; they are free here. -/
structure Gains (p q : ℕ) where
  in0 : ℝ → Matrix (Fin p) (Fin q) ℂ
  in1 : ℝ → Matrix (Fin p) (Fin q) ℂ

/-- The loop of `lsim`: the states after `x`, for the remaining inputs. `u` is the input at the time
of `x`. -/
noncomputable def steps (A : Matrix (Fin p) (Fin p) ℂ) (G : Gains p q) (dt : ℝ) :
    (Fin p → ℂ) → (Fin q → ℂ) → List (Fin q → ℂ) → List (Fin p → ℂ)
  | _, _, [] => []
  | x, u, u' :: us =>
    let x' := flow A dt *ᵥ x + G.in0 dt *ᵥ u + G.in1 dt *ᵥ u'
    x' :: steps A G dt x' u' us

open Classical in
/-- `scipy.signal.lsim(StateSpace(A, B, I, 0), U, T, X0)[1]` before `squeeze` (assumed). The first
time decides: at 0 the first state is `X0`; after 0 the state is first carried from time 0 to `T[0]`
without input; before 0 is a `ValueError`. Then a single time ends the call; unequal steps raise
`ValueError` (`np.allclose` is taken as equality); an input that is not all zero must have the length
of `T`; an input of zeros may have any length. -/
noncomputable def lsim (A : Matrix (Fin p) (Fin p) ℂ) (G : Gains p q)
    (U : List (Fin q → ℂ)) (T : List ℝ) (X0 : Fin p → ℂ) : Except PyErr (List (Fin p → ℂ)) :=
  match T with
  | [] => .error .indexError
  | t0 :: ts =>
    if t0 < 0 then .error .valueError
    else
      let x0 := if t0 = 0 then X0 else flow A t0 *ᵥ X0
      match ts with
      | [] => .ok [x0]
      | t1 :: _ =>
        let dt := t1 - t0
        if ¬ ∀ pr ∈ (t0 :: ts).zip ts, pr.2 - pr.1 = dt then .error .valueError
        else if ∀ u ∈ U, u = 0 then
          .ok (x0 :: steps A G dt x0 0 (ts.map fun _ => 0))
        else if U.length ≠ ts.length + 1 then .error .valueError
        else .ok (x0 :: steps A G dt x0 (U.headD 0) U.tail)

/-- The array that `lsim` returns after `squeeze`: the number of dimensions is what remains of
`(len(T), p)`. -/
inductive Arr (p : ℕ)
  | zeroDim
  | oneDim
  | twoDim (rows : List (Fin p → ℂ))

/-- `squeeze` of a `(len, p)` array. The entries of arrays with fewer than two dimensions are not
recorded: no use of them below succeeds. -/
def squeeze (rows : List (Fin p → ℂ)) : Arr p :=
  if rows.length = 1 ∧ p = 1 then .zeroDim
  else if rows.length = 1 ∨ p = 1 then .oneDim
  else .twoDim rows

/-- The parts of a fitted `HAVOK` object that simulations use. `embed` is `_delay_embeddings`, with
`p` linear coordinates and `q = num_chaos` forcing terms; `U`, `s` are the singular vectors
(`rows` of them) and values. -/
structure Fitted (p q : ℕ) where
  delays : ℕ
  lag : ℕ
  rows : ℕ
  U : ℕ → Fin (p + q) → ℂ
  s : Fin (p + q) → ℝ
  embed : List (Fin (p + q) → ℂ)
  time : List ℝ
  A : Matrix (Fin p) (Fin p) ℂ
  B : Matrix (Fin p) (Fin q) ℂ

namespace Fitted

variable (M : Fitted p q)

/-- `linear_dynamics`, L189-200, by rows. -/
def linear : List (Fin p → ℂ) := M.embed.map fun v i => v (Fin.castAdd q i)

/-- `forcing`, L202-213, by rows. -/
def forcing : List (Fin q → ℂ) := M.embed.map fun v i => v (Fin.natAdd p i)

/-- `_compute_embeddings`, L780-801. -/
noncomputable def computeEmbeddings (G : Gains p q) (U : List (Fin q → ℂ)) (T : List ℝ)
    (V0 : Fin p → ℂ) : Except PyErr (Arr p) :=
  (lsim M.A G U T V0).map squeeze

/-- `H` of `_embeddings_to_original`, L808-810: `U[:, :p] diag(s[:p]) V^H`; `dehankel` stores it in
an array of floats, which drops imaginary parts. -/
noncomputable def hankelOf (V : List (Fin p → ℂ)) : Mat where
  rows := M.rows
  cols := V.length
  get := fun a c => some (∑ j : Fin p, M.U a (Fin.castAdd q j) * (M.s (Fin.castAdd q j) : ℂ) *
    star (V.getD c 0 j)).re

/-- `_embeddings_to_original`, L803-811. An array without dimensions has no `shape[-1]`
(`IndexError`). With one dimension the product is either not defined or one-dimensional, which
`dehankel` rejects (L320-321); both are `ValueError`s. -/
noncomputable def toOriginal : Arr p → Except PyErr (List ℕ × Mat)
  | .zeroDim => .error .indexError
  | .oneDim => .error .valueError
  | .twoDim V => .ok (dehankel M.delays M.lag (M.hankelOf V))

/-- The argument `V0` of `predict`. -/
inductive Init (p : ℕ)
  | index (i : ℤ)
  | array (x : Fin p → ℂ)

/-- `V0` as an array, L474-477. -/
def initial : Init p → Except PyErr (Fin p → ℂ)
  | .index i =>
    match (MrDMD.pyIndex M.linear.length i).bind fun k => M.linear[k]? with
    | some x => .ok x
    | none => .error .indexError
  | .array x => .ok x

/-- `predict`, L452-483: shape and entries. The outer `np.squeeze` changes nothing, `dehankel` has
squeezed already. -/
noncomputable def predict (G : Gains p q) (U : List (Fin q → ℂ)) (T : List ℝ) (V0 : Init p) :
    Except PyErr (List ℕ × Mat) := do
  let x ← M.initial V0
  let V ← M.computeEmbeddings G U T x
  M.toOriginal V

/-- `reconstructed_embeddings`, L485-497. -/
noncomputable def reconstructedEmbeddings (G : Gains p q) : Except PyErr (Arr p) := do
  match M.linear with
  | [] => .error .indexError
  | x :: _ => M.computeEmbeddings G M.forcing (M.time.take M.forcing.length) x

/-- `reconstructed_data`, L499-509. -/
noncomputable def reconstructedData (G : Gains p q) : Except PyErr (List ℕ × Mat) := do
  let V ← M.reconstructedEmbeddings G
  M.toOriginal V

end Fitted

/-! ## The threshold -/

/-- The argument `p` of `compute_threshold` (`True` and `False` are integers). -/
inductive Prob
  | int (i : ℤ)
  | float (x : ℚ)

/-- `np.cumsum`. -/
def cumsum (l : List ℚ) : List ℚ := (List.range l.length).map fun i => (l.take (i + 1)).sum

/-- `np.where(c)[0][0]`: the first index at which the condition holds. -/
def firstIndex (l : List ℚ) (c : ℚ → Bool) : Except PyErr ℕ :=
  match l.findIdx? c with
  | some i => .ok i
  | none => .error .indexError

/-- `np.histogram(..., density=True)[0]` (assumed): the counts over the widths of the bins and the
number of samples in the bins. -/
def density (counts edges : List ℚ) : List ℚ :=
  List.zipWith (fun c w => c / (w * counts.sum)) counts
    (List.zipWith (fun a b => b - a) edges.dropLast edges.tail)

/-- The centres of the bins, L554. -/
def centres (edges : List ℚ) : List ℚ :=
  List.zipWith (fun a b => (1 / 2 : ℚ) * (a + b)) edges.dropLast edges.tail

/-- `compute_threshold` without plot, L551-577, from the counts and the edges of the histogram of the
forcing. The fitted Gaussian is used only by integer `p` and by plots; with an integer `p` the name
`sgn` is bound to an array and then called (L565-566), a `TypeError`. -/
def threshold (counts edges : List ℚ) (p : Prob) : Except PyErr ℚ := do
  let hx := centres edges
  let dens := density counts edges
  let hy := dens.map (· / dens.sum)
  match p with
  | .int _ => .error .typeError
  | .float p =>
    let i1 ← firstIndex (cumsum hy) fun c => decide ((1 / 2 : ℚ) * p < c)
    let i2 ← firstIndex (cumsum hy) fun c => decide (1 - c < (1 / 2 : ℚ) * p)
    .ok ((1 / 2 : ℚ) * (|hx.getD i1 0| + |hx.getD i2 0|))

end Verif.HavokSim
