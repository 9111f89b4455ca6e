import Verif.Model.Bop
import Mathlib.Data.Prod.Lex
import Mathlib.Analysis.Complex.Exponential
import Mathlib.LinearAlgebra.Matrix.Defs

/-!
# Sorted eigenvalues of the bags and the ensemble forecast of BOP-DMD

Model of `_argsort_eigenvalues` (pydmd/bopdmd.py L415-445), of its use in the loop of
`compute_operator` (L850-902) and of `BOPDMD.forecast` (L1577-1630). Exact complex arithmetic.
-/

set_option autoImplicit false

namespace Verif.BopSort

open Verif.Bop

/-- The three orders of L437-443. -/
inductive Key
  | real
  | imag
  | abs
  deriving DecidableEq

/-- The attribute `_eig_sort`; `other` is a string with no meaning. -/
inductive EigSort
  | auto
  | key (k : Key)
  | other
  deriving DecidableEq

/-- What `np.argsort` compares, L437-443: complex numbers lexicographically by real and imaginary
part. -/
noncomputable def keyOf : Key → ℂ → ℝ ×ₗ ℝ
  | .real, z => toLex (z.re, z.im)
  | .imag, z => toLex (z.im, z.re)
  | .abs, z => toLex (‖z‖, 0)

/-- `np.var`. -/
noncomputable def var {r : ℕ} (f : Fin r → ℝ) : ℝ :=
  (∑ i, (f i - (∑ j, f j) / r) ^ 2) / r

/-- L429-434: the order of the largest variance, the first of equal ones. -/
noncomputable def chosen {r : ℕ} (e : Fin r → ℂ) : Key :=
  let a := var fun i => (e i).re
  let b := var fun i => (e i).im
  let c := var fun i => ‖e i‖
  if b ≤ a ∧ c ≤ a then .real else if c ≤ b then .imag else .abs

/-- The attribute `_eig_sort` after L429-434. -/
noncomputable def resolve {r : ℕ} (s : EigSort) (e : Fin r → ℂ) : EigSort :=
  match s with
  | .auto => .key (chosen e)
  | s => s

/-- `_argsort_eigenvalues`, L415-445, with the new value of `_eig_sort`. `argsort` is
`np.argsort`. -/
noncomputable def argsortEigs {r : ℕ} (argsort : (Fin r → ℝ ×ₗ ℝ) → Equiv.Perm (Fin r))
    (s : EigSort) (e : Fin r → ℂ) : Except PyErr (Equiv.Perm (Fin r) × EigSort) :=
  match resolve s e with
  | .key k => .ok (argsort fun i => keyOf k (e i), .key k)
  | _ => .error .valueError

/-- One trial before sorting: `w_i`, `e_i`, `b_i`, `converged` of L857. -/
structure Raw (n r : ℕ) where
  converged : Bool
  w : Matrix (Fin n) (Fin r) ℂ
  e : Fin r → ℂ
  b : Fin r → ℂ

/-- The entries of the arrays summed: modes, eigenvalues, amplitudes. -/
inductive Ix (n r : ℕ)
  | w (i : Fin n) (j : Fin r)
  | e (j : Fin r)
  | b (j : Fin r)

/-- `w_i[:, sorted_inds]`, `e_i[sorted_inds]`, `b_i[sorted_inds]`, L868-870. -/
def sorted {n r : ℕ} (o : Raw n r) (p : Equiv.Perm (Fin r)) : Trial (Ix n r) :=
  ⟨o.converged, fun
    | .w i j => o.w i (p j)
    | .e j => o.e (p j)
    | .b j => o.b (p j)⟩

/-- One pass of the loop, L850-902, with the attribute `_eig_sort`: only trials that are used are
sorted. -/
noncomputable def pass {n r : ℕ} (c : Cfg)
    (argsort : (Fin r → ℝ ×ₗ ℝ) → Equiv.Perm (Fin r)) (st : St (Ix n r)) (s : EigSort)
    (o : Raw n r) : Except PyErr (Status (Ix n r) × EigSort) :=
  if o.converged || !c.removeBadBags then
    match argsortEigs argsort s o.e with
    | .ok (p, s') => .ok (advance c st (sorted o p), s')
    | .error e => .error e
  else .ok (advance c st (sorted o 1), s)

/-- The loop of L850-902 after `k` trials with the results `o 0, o 1, ...`. -/
noncomputable def sortLoop {n r : ℕ} (c : Cfg)
    (argsort : (Fin r → ℝ ×ₗ ℝ) → Equiv.Perm (Fin r)) (s : EigSort) (o : ℕ → Raw n r) :
    ℕ → Except PyErr (Status (Ix n r) × EigSort)
  | 0 => .ok (loop c (fun i => sorted (o i) 1) 0, s)
  | k + 1 => match sortLoop c argsort s o k with
    | .ok (.running st, s') => pass c argsort st s' (o k)
    | r => r

/-! ## Forecast -/

/-- What `forecast` reads of a fitted instance. `rows`: `self.snapshots.shape[0]`, absent if
there are no snapshots (`fit_econ`); `std`: the deviations of eigenvalues and amplitudes, absent
without bagging. -/
structure Fitted (n r : ℕ) where
  modes : Matrix (Fin n) (Fin r) ℂ
  eigs : Fin r → ℂ
  amps : Fin r → ℂ
  std : Option ((Fin r → ℝ) × (Fin r → ℝ))
  numTrials : ℕ
  rows : Option ℕ

/-- The result of `forecast`: an array with one column per time, or the mean and the variance. -/
inductive Fc (n : ℕ)
  | plain (x : List (Fin n → ℂ))
  | ens (mean : List (Fin n → ℂ)) (var : List (Fin n → ℝ))

/-- `modes @ diag(b) @ exp(outer(eigs, t))`, one column. -/
noncomputable def column {n r : ℕ} (w : Matrix (Fin n) (Fin r) ℂ) (e b : Fin r → ℂ) (t : ℝ) :
    Fin n → ℂ :=
  fun i => ∑ j, w i j * b j * Complex.exp (e j * t)

/-- The draws of L1605-1612: real standard normal numbers times the deviations; `z` are the numbers
drawn. -/
noncomputable def drawn {r : ℕ} (x : Fin r → ℂ) (sd z : Fin r → ℝ) : Fin r → ℂ :=
  fun j => x j + ((z j * sd j : ℝ) : ℂ)

/-- One row of `np.mean(all_x, axis=0)`, L1619. -/
noncomputable def ensMean {n : ℕ} (N : ℕ) (x : ℕ → Fin n → ℂ) : Fin n → ℂ :=
  fun i => (∑ k ∈ Finset.range N, x k i) / N

/-- `np.var(all_x, axis=0)`, L1619. -/
noncomputable def ensVar {n : ℕ} (N : ℕ) (x : ℕ → Fin n → ℂ) : Fin n → ℝ :=
  fun i => (∑ k ∈ Finset.range N, ‖x k i - ensMean N x i‖ ^ 2) / N

/-- `np.array(t).squeeze()`, L1589: the shape without the ones. -/
def squeeze (shape : List ℕ) : List ℕ := shape.filter (· ≠ 1)

/-- `forecast`, L1577-1630, for times of the given shape and (flattened) entries. `z`, `y`: the
numbers drawn for the eigenvalues and the amplitudes in trial `k`. -/
noncomputable def forecast {n r : ℕ} (f : Fitted n r) (z y : ℕ → Fin r → ℝ) (shape : List ℕ)
    (t : List ℝ) : Except PyErr (Fc n) :=
  -- L1592
  if 1 < (squeeze shape).length then .error .valueError
  else match f.std with
  | some (se, sb) =>
    -- L1599: `self.snapshots` is None; `len` of an array without dimensions
    match f.rows with
    | none => .error .attributeError
    | some m =>
      if (squeeze shape).length = 0 then .error .typeError
      -- L1614: the assignment of an array of `n` rows
      else if m ≠ n then .error .valueError
      else
        let x : ℝ → ℕ → Fin n → ℂ := fun τ k =>
          column f.modes (drawn f.eigs se (z k)) (drawn f.amps sb (y k)) τ
        .ok (.ens (t.map fun τ => ensMean f.numTrials (x τ))
          (t.map fun τ => ensVar f.numTrials (x τ)))
  | none => .ok (.plain (t.map fun τ => column f.modes f.eigs f.amps τ))

end Verif.BopSort
