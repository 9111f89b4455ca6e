import Verif.Model.Py
import Mathlib.Analysis.Complex.Basic
import Mathlib.Data.List.Sort
import Mathlib.Analysis.SpecialFunctions.Pow.Real

/-!
# Model of BOP-DMD: bagging, statistics, variable projection, normalisation

Source: `/repo/pydmd/bopdmd.py`. The eigenvalue constraints are in `Verif.Model.BopEigs`.
Arithmetic is exact, except that errors may be `NaN` (`none`).
-/

set_option autoImplicit false

namespace Verif.Bop

open Verif

/-! ## Bagging -/

/-- The argument `trial_size`: a Python `int`, a Python `float`, or something else that compares
with numbers (such as a NumPy integer, which is no `int`). -/
inductive Size
  | int (n : ℤ)
  | float (x : ℚ)
  | other (x : ℚ)

/-- The batch size of `_bag`, L470-479. `int(x)` truncates; here `x * m` is positive. Exact
arithmetic. -/
def batchSize (m : ℕ) : Size → Except PyErr ℕ
  | .int n => if 1 ≤ n then .ok n.toNat else .error .valueError
  | .float x => if 0 < x ∧ x < 1 then .ok ⌊x * m⌋.toNat else .error .valueError
  | .other x => if 0 < x ∧ x < 1 then .ok ⌊x * m⌋.toNat else .error .valueError

/-- `_bag` on a matrix given by its rows (snapshots), L447-501. `choice all size` stands for
`np.random.choice(all_inds, size=batch_size, replace=False)`. -/
def bag {R : Type} (H : List R) (size : Size) (choice : List ℕ → ℕ → List ℕ) :
    Except PyErr (List R × List ℕ) := do
  let b ← batchSize H.length size
  if b > H.length then throw .valueError
  if b = 0 then throw .valueError
  let inds := (choice (List.range H.length) b).insertionSort (· ≤ ·)
  pure (inds.filterMap fun i => H[i]?, inds)

/-! ## The bagging loop -/

/-- One trial: whether the variable projection converged, and the entries of the modes, eigenvalues
and amplitudes after sorting (L864-874), indexed by `ι`. -/
structure Trial (ι : Type) where
  converged : Bool
  val : ι → ℂ

/-- The parameters of the loop. -/
structure Cfg where
  numTrials : ℕ
  removeBadBags : Bool
  bagMaxfail : ℤ

/-- The variables of the loop, L837-848; the sums of all arrays are one function of `ι`. The
warning of L885-895 is not modelled. -/
structure St (ι : Type) where
  succ : ℕ
  fails : ℕ
  sum : ι → ℂ
  sum2 : ι → ℂ

/-- How the loop stands. -/
inductive Status (ι : Type)
  | running (s : St ι)
  | done (s : St ι)
  | raised

/-- The loop body from L862 to L902, for the trial `o`. -/
noncomputable def advance {ι : Type} (c : Cfg) (s : St ι) (o : Trial ι) : Status ι :=
  let s' : St ι :=
    if o.converged || !c.removeBadBags then
      ⟨s.succ + 1, 0, fun i => s.sum i + o.val i, fun i => s.sum2 i + ((‖o.val i‖ ^ 2 : ℝ) : ℂ)⟩
    else { s with fails := s.fails + 1 }
  if (s'.fails : ℤ) = c.bagMaxfail then .raised
  else if s'.succ < c.numTrials then .running s' else .done s'

/-- The state after `k` trials of the loop `while num_successful_trials < num_trials`, L850-902,
when the trials have the results `o 0, o 1, ...`. -/
noncomputable def loop {ι : Type} (c : Cfg) (o : ℕ → Trial ι) : ℕ → Status ι
  | 0 => if 0 < c.numTrials then .running ⟨0, 0, fun _ => 0, fun _ => 0⟩
         else .done ⟨0, 0, fun _ => 0, fun _ => 0⟩
  | k + 1 => match loop c o k with
    | .running s => advance c s (o k)
    | .done s => .done s
    | .raised => .raised

/-- `w_mu`, `e_mu`, `b_mu`, L905-907. -/
noncomputable def mean {ι : Type} (c : Cfg) (s : St ι) (i : ι) : ℂ := s.sum i / c.numTrials

/-- `w_std`, `e_std`, `b_std`, L908-910. -/
noncomputable def std {ι : Type} (c : Cfg) (s : St ι) (i : ι) : ℝ :=
  Real.sqrt ‖s.sum2 i / c.numTrials - ((‖mean c s i‖ ^ 2 : ℝ) : ℂ)‖

/-! ## Variable projection -/

/-- A float that is a number or `NaN`. -/
abbrev Flt := Option ℝ

/-- `a < b`, false with `NaN`. -/
noncomputable def flt (a b : Flt) : Bool :=
  match a, b with
  | some x, some y => decide (x < y)
  | _, _ => false

/-- `a >= b`, false with `NaN`. -/
noncomputable def fge (a b : Flt) : Bool :=
  match a, b with
  | some x, some y => decide (y ≤ x)
  | _, _ => false

/-- `compute_error`, L556-564, from the norms of the residual and of `H` (a quotient of a positive
number and 0 is infinite in Python; it does not occur, because the best fit of `H = 0` has residual
0). -/
noncomputable def relError (res h : ℝ) : Flt := if h = 0 then none else some (res / h)

/-- The options used by the loop. -/
structure Opts where
  initLambda : ℝ
  maxlam : ℕ
  lamup : ℝ
  maxiter : ℕ
  tol : ℝ
  epsStall : ℝ

/-- The numerical part of the routine, as functions of the vector `alpha` (the matrix `B`, the
residual, the Jacobian and the singular value decomposition are all recomputed from `alpha`):
`err` is the relative error after `compute_B`, `step alpha lambda` the updated and constrained
vector (L636-650), `rescale` the new value of `_lambda` after a good step (L669), all arbitrary. -/
structure Prob (α : Type) where
  err : α → Flt
  step : α → ℝ → α
  rescale : α → α → ℝ → ℝ

/-- The loop increasing lambda, L674-683: starts with the rejected candidate `c`. -/
noncomputable def search {α : Type} (p : Prob α) (o : Opts) (a : α) : ℕ → ℝ → α → ℝ × α
  | 0, lam, c => (lam, c)
  | k + 1, lam, _ =>
    let lam' := lam * o.lamup
    let c := p.step a lam'
    if flt (p.err c) (p.err a) then (lam', c) else search p o a k lam' c

/-- What the routine returns: `alpha`, the flag, and (for the statements) all the accepted
vectors, newest first. `B` is `compute_B alpha`. -/
structure Res (α : Type) where
  alpha : α
  converged : Bool
  trace : List α

/-- `error_reduction < eps_stall * all_error[itr - 1]`, L713-715. -/
noncomputable def stall (o : Opts) (prev cur : Flt) : Bool :=
  match prev, cur with
  | some x, some y => decide (x - y < o.epsStall * x)
  | _, _ => false

/-- `stalled`, L714-716: only after the first iteration. -/
noncomputable def stalledNow (o : Opts) (last : Option Flt) (cur : Flt) : Bool :=
  match last with
  | none => false
  | some e => stall o e cur

/-- The main loop L598-742 with `k` iterations left. `last` is the accepted error of the previous
iteration (`none` in the outer option: there was none, `itr = 0`). -/
noncomputable def iterate {α : Type} (p : Prob α) (o : Opts) :
    ℕ → Option Flt → ℝ → α → Bool → List α → Res α
  | 0, _, _, a, conv, tr => ⟨a, conv, tr⟩
  | k + 1, last, lam, a, conv, tr =>
    let c0 := p.step a lam
    let cand : Option (ℝ × α) :=
      if flt (p.err c0) (p.err a) then some (p.rescale a c0 lam, c0)
      else
        let r := search p o a o.maxlam lam c0
        if fge (p.err r.2) (p.err a) then none else some r
    match cand with
    | none => ⟨a, conv, tr⟩
    | some (lam', c) =>
      let conv' := flt (p.err c) (some o.tol)
      if conv' then ⟨c, conv', c :: tr⟩
      else if stalledNow o last (p.err c) then ⟨c, conv', c :: tr⟩
      else iterate p o k (some (p.err c)) lam' c conv' (c :: tr)

/-- `_variable_projection`, L503-742, from the constrained initial guess. -/
noncomputable def varpro {α : Type} (p : Prob α) (o : Opts) (init : α) : Res α :=
  iterate p o o.maxiter none o.initLambda init false [init]

/-! ## Normalisation -/

/-- `inds_small`, L760, for the amplitudes `b`; `c` is `10 * eps`, `mx` the largest amplitude. -/
noncomputable def small (c mx b : ℝ) : Bool := decide (|b| < c * mx)

/-- The amplitude and the mode of one row of `B`, L756-764; `mx` is the largest amplitude. A division
by zero gives `none` (`NaN`). -/
noncomputable def normalise {ι : Type} [Fintype ι] (c mx : ℝ) (w : ι → ℂ) :
    ℝ × (ι → Option ℂ) :=
  let b := Real.sqrt (∑ i, ‖w i‖ ^ 2)
  if small c mx b then (0, fun _ => some 0)
  else (b, fun i => if b = 0 then none else some (w i / b))

/-- `forecast` without variance information, L1622-1629: entry `i` at time `t`. -/
noncomputable def forecast {r ι : Type} [Fintype r] (modes : r → ι → ℂ) (b : r → ℝ) (eigs : r → ℂ)
    (t : ℝ) (i : ι) : ℂ :=
  ∑ k, modes k i * b k * Complex.exp (eigs k * t)

/-- Entry `(t, i)` of `Phi(alpha, t) B`, the data fitted by the variable projection
(`_exp_function` L358-369, and the residual L560); `w k` is row `k` of `B`. -/
noncomputable def fitted {r ι : Type} [Fintype r] (w : r → ι → ℂ) (eigs : r → ℂ) (t : ℝ) (i : ι) :
    ℂ :=
  ∑ k, Complex.exp (t * eigs k) * w k i

end Verif.Bop
