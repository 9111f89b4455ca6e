import Verif.Model.Py
import Verif.Spec.LinAlg
import Mathlib.Analysis.SpecialFunctions.Exp

/-!
# Model of `VarProDMD`

Source: `/repo/pydmd/varprodmd.py`; the matrix of exponentials and the Jacobian of
`/repo/pydmd/bopdmd.py` L358-369 and L600-613 as well.

Exact complex arithmetic. `np.linalg.svd`, `compute_svd`, `eigvals`, `scipy.linalg.qr`,
`np.argsort` and `scipy.optimize.least_squares` are represented by their results. Vectors of
length `2 l` (`2 m n`), which hold real parts and then imaginary parts, are indexed by a sum type.
-/

set_option autoImplicit false

namespace Verif.VarPro

open Verif Verif.LinAlg Matrix

section

variable {m l n q k : ℕ}

/-- `np.exp(np.outer(time, alphas))`, varprodmd.py L128; `_exp_function`, bopdmd.py L358-369. -/
noncomputable def phi (time : Fin m → ℝ) (α : Fin l → ℂ) : Matrix (Fin m) (Fin l) ℂ :=
  Matrix.of fun i j => Complex.exp (time i * α j)

/-- `_alphas` from the real parameters, L124-126 and L183-185. -/
def complexAlphas (a : Fin l ⊕ Fin l → ℝ) : Fin l → ℂ := fun j => ⟨a (.inl j), a (.inr j)⟩

/-- What `np.linalg.svd(phi, full_matrices=False)` returns, L129 (`V` by columns). -/
structure Svd (M : Matrix (Fin m) (Fin l) ℂ) where
  U : Matrix (Fin m) (Fin (min m l)) ℂ
  s : Fin (min m l) → ℝ
  V : Matrix (Fin l) (Fin (min m l)) ℂ
  isSVD : IsSVD M U s V

/-- `_OptimizeHelper`, L80-93. -/
structure Helper (m l n : ℕ) where
  phi : Matrix (Fin m) (Fin l) ℂ
  u : Matrix (Fin m) (Fin (min m l)) ℂ
  sInv : Fin (min m l) → ℝ
  v : Matrix (Fin l) (Fin (min m l)) ℂ
  b : Matrix (Fin l) (Fin n) ℂ
  rho : Matrix (Fin m) (Fin n) ℂ

open Classical in
/-- `s_phi_inv`, L130-132. -/
noncomputable def sPhiInv (s : Fin k → ℝ) : Fin k → ℝ := fun i => if s i ≠ 0 then (s i)⁻¹ else 0

/-- What `_compute_dmd_rho` stores in the helper, L128-151. -/
noncomputable def helper (time : Fin m → ℝ) (data : Matrix (Fin m) (Fin n) ℂ) (α : Fin l → ℂ)
    (d : Svd (phi time α)) : Helper m l n where
  phi := phi time α
  u := d.U
  sInv := sPhiInv d.s
  v := d.V
  b := d.V * rdiag (sPhiInv d.s) * d.Uᴴ * data
  rho := data - d.U * d.Uᴴ * data

/-- Real parts, then imaginary parts of the entries, L135-138. -/
def flat (R : Matrix (Fin m) (Fin n) ℂ) : (Fin m × Fin n) ⊕ (Fin m × Fin n) → ℝ
  | .inl p => (R p.1 p.2).re
  | .inr p => (R p.1 p.2).im

/-- `_compute_dmd_rho`, L96-152; `lib` is the library's SVD of every matrix of exponentials. -/
noncomputable def residual (time : Fin m → ℝ) (data : Matrix (Fin m) (Fin n) ℂ)
    (lib : ∀ α : Fin l → ℂ, Svd (phi time α)) (a : Fin l ⊕ Fin l → ℝ) :
    (Fin m × Fin n) ⊕ (Fin m × Fin n) → ℝ :=
  flat (helper time data (complexAlphas a) (lib (complexAlphas a))).rho

/-- `d_phi_j`, L189. -/
def dPhi (time : Fin m → ℝ) (h : Helper m l n) (j : Fin l) : Fin m → ℂ := fun i => time i * h.phi i j

/-- `a_j`, L190-193. -/
noncomputable def jacA (time : Fin m → ℝ) (h : Helper m l n) (j : Fin l) : Matrix (Fin m) (Fin n) ℂ :=
  let outer := vecMulVec (dPhi time h j) (h.b j)
  outer - h.u * h.uᴴ * outer

/-- `g_j`, L194-201. -/
noncomputable def jacG (time : Fin m → ℝ) (h : Helper m l n) (j : Fin l) : Matrix (Fin m) (Fin n) ℂ :=
  h.u * rdiag h.sInv * vecMulVec (star (h.v j)) (star (dPhi time h j) ᵥ* h.rho)

/-- `jac`, L203. -/
noncomputable def jacC (time : Fin m → ℝ) (h : Helper m l n) (j : Fin l) : Matrix (Fin m) (Fin n) ℂ :=
  -jacA time h j - jacG time h j

/-- Column `c` of the result of `_compute_dmd_jac`, L206-218: column `j` holds real and imaginary
parts of `jac`, column `l + j` those of `-Im + i Re`, that is of `i jac`. -/
noncomputable def jacobian (time : Fin m → ℝ) (h : Helper m l n) (c : Fin l ⊕ Fin l) :
    (Fin m × Fin n) ⊕ (Fin m × Fin n) → ℝ :=
  match c with
  | .inl j => fun
    | .inl p => (jacC time h j p.1 p.2).re
    | .inr p => (jacC time h j p.1 p.2).im
  | .inr j => fun
    | .inl p => -(jacC time h j p.1 p.2).im
    | .inr p => (jacC time h j p.1 p.2).re

/-! ### Preprocessing and initial guess -/

/-- `data_out`, L259: with projection `V^H * s[:, None]`. -/
noncomputable def projected {t r : ℕ} (s : Fin r → ℝ) (V : Matrix (Fin t) (Fin r) ℂ) :
    Matrix (Fin r) (Fin t) ℂ :=
  rdiag s * Vᴴ

/-- `y_out`, L262. -/
noncomputable def means {t : ℕ} (D : Matrix (Fin q) (Fin (t + 1)) ℂ) : Matrix (Fin q) (Fin t) ℂ :=
  Matrix.of fun i j => (D i j.castSucc + D i j.succ) / 2

/-- `z_out`, L263-264. -/
noncomputable def slopes {t : ℕ} (time : Fin (t + 1) → ℝ) (D : Matrix (Fin q) (Fin (t + 1)) ℂ) :
    Matrix (Fin q) (Fin t) ℂ :=
  Matrix.of fun i j => (D i j.succ - D i j.castSucc) / (time j.succ - time j.castSucc)

/-- `_varpro_preprocessing`, L221-266: the first two results. -/
noncomputable def preprocessing {t : ℕ} (time : Fin (t + 1) → ℝ) (D : Matrix (Fin q) (Fin (t + 1)) ℂ) :
    Matrix (Fin q) (Fin t) ℂ × Matrix (Fin q) (Fin t) ℂ :=
  (slopes time D, means D)

/-- The matrix `a_approx` of `_compute_dmd_ev(x_current, x_next, ..)`, L68-77; `U, s, V` is the
result of `compute_svd(x_current, rank)`. -/
noncomputable def aApprox {t r : ℕ} (U : Matrix (Fin q) (Fin r) ℂ) (s : Fin r → ℝ)
    (V : Matrix (Fin t) (Fin r) ℂ) (xNext : Matrix (Fin q) (Fin t) ℂ) : Matrix (Fin r) (Fin r) ℂ :=
  Uᴴ * xNext * (V * rdiag fun i => (s i)⁻¹)

/-- The call of `_compute_dmd_ev` in `compute_varprodmd_any`, L389: `U, s, V` is the SVD of the
first result of `_varpro_preprocessing`, the second is `x_next`. -/
noncomputable def initialMatrix {t r : ℕ} (time : Fin (t + 1) → ℝ) (D : Matrix (Fin q) (Fin (t + 1)) ℂ)
    (U : Matrix (Fin q) (Fin r) ℂ) (s : Fin r → ℝ) (V : Matrix (Fin t) (Fin r) ℂ) :
    Matrix (Fin r) (Fin r) ℂ :=
  aApprox U s V (preprocessing time D).2

/-- The matrix whose SVD that is, L68 with L389. -/
noncomputable def initialSvdOf {t : ℕ} (time : Fin (t + 1) → ℝ) (D : Matrix (Fin q) (Fin (t + 1)) ℂ) :
    Matrix (Fin q) (Fin t) ℂ :=
  (preprocessing time D).1

/-! ### Sample selection -/

/-- `select_best_samples_fast` for a matrix with `m` columns, L303-330; `perm` are the column
indices of `qr(.., pivoting=True)`. Exact arithmetic in `int(m * (1.0 - comp))`. -/
def selectBestSamples (m : ℕ) (comp : ℚ) (perm : List ℕ) : Except PyErr (List ℕ) :=
  if ¬(0 < comp ∧ comp < 1) then .error .valueError
  else .ok (perm.take ⌊(m : ℚ) * (1 - comp)⌋₊)

/-- `indices` in `compute_varprodmd_any`, L391-398. `np.arange` of a matrix raises `TypeError`. -/
def indices (m : ℕ) (comp : ℚ) (perm : List ℕ) : Except PyErr (List ℕ) :=
  if 0 < comp then
    match selectBestSamples m comp perm with
    | .error e => .error e
    | .ok l => if l.length ≤ 1 then .error .typeError else .ok l
  else .ok (List.range m)

/-! ### The result of the fit -/

/-- A run of `least_squares`, L294-300: the points at which `_compute_dmd_rho` was evaluated, in
order (the last one determines the helper), and the returned `opt.x`. -/
structure Run (l : ℕ) where
  evals : List (Fin l ⊕ Fin l → ℝ)
  nonempty : evals ≠ []
  x : Fin l ⊕ Fin l → ℝ
  mem : x ∈ evals

/-- `opthelper.b_matrix` after the optimisation, L145-151. -/
noncomputable def finalB (time : Fin m → ℝ) (data : Matrix (Fin m) (Fin n) ℂ)
    (lib : ∀ α : Fin l → ℂ, Svd (phi time α)) (run : Run l) : Matrix (Fin l) (Fin n) ℂ :=
  let α := complexAlphas (run.evals.getLast run.nonempty)
  (helper time data α (lib α)).b

/-- `omegas`, L418-419. -/
def omegas (run : Run l) : Fin l → ℂ := complexAlphas run.x

/-- `xi`, L420. `W` is `u_r` with projection and the identity (`q = n`) without. -/
def xi (W : Matrix (Fin n) (Fin q) ℂ) (b : Matrix (Fin l) (Fin q) ℂ) : Matrix (Fin n) (Fin l) ℂ :=
  W * bᵀ

/-- `eigenf`, L421. -/
noncomputable def eigenf (X : Matrix (Fin n) (Fin l) ℂ) : Fin l → ℝ := fun j => √(normSq (X.col j))

open Classical in
/-- The modes `xi / eigenf[None]`, L422; `none` is NaN (`0 / 0`). -/
noncomputable def modes (X : Matrix (Fin n) (Fin l) ℂ) : Fin n → Fin l → Option ℂ := fun i j =>
  if eigenf X j = 0 then none else some (X i j / eigenf X j)

/-- A finite sum in floating point: NaN if a term is. -/
def nanSum (f : Fin l → Option ℂ) : Option ℂ :=
  if ∃ j, f j = none then none else some (∑ j, (f j).getD 0)

/-- `varprodmd_predict` at one time, L425-452. -/
noncomputable def predict (modes : Fin n → Fin l → Option ℂ) (om : Fin l → ℂ) (ef : Fin l → ℝ) (t : ℝ) :
    Fin n → Option ℂ := fun i =>
  nanSum fun j => (modes i j).map fun z => z * (Complex.exp (om j * t) * ef j)

/-! ### Sorting -/

/-- The argument `sorted_eigs` after L568-570 (`True` becomes `'auto'`); `off` is `False`. -/
inductive SortedEigs
  | off
  | auto
  | real
  | imag
  | abs
  | other
  deriving DecidableEq

/-- `np.var`. -/
noncomputable def variance (x : Fin l → ℝ) : ℝ :=
  (∑ i, (x i - (∑ j, x j) / l) ^ 2) / l

/-- `eigs_abs` with `'auto'`, L573-581: `np.argmax` returns the first of the largest. -/
noncomputable def autoKey (om : Fin l → ℂ) : Fin l → ℝ :=
  let re := fun j => (om j).re
  let im := fun j => (om j).im
  let ab := fun j => ‖om j‖
  if variance im ≤ variance re ∧ variance ab ≤ variance re then re
  else if variance ab ≤ variance im then im
  else ab

/-- `eigs_abs`, L572-592; `none` is the `ValueError` of L592. -/
noncomputable def sortKey (st : SortedEigs) (om : Fin l → ℂ) : Option (Fin l → ℝ) :=
  match st with
  | .auto => some (autoKey om)
  | .real => some fun j => |(om j).re|
  | .imag => some fun j => |(om j).im|
  | .abs => some fun j => ‖om j‖
  | .off => none
  | .other => none

/-- What is assumed of `np.argsort`: a permutation putting the key in ascending order. -/
def IsArgsort (key : Fin l → ℝ) (p : Equiv.Perm (Fin l)) : Prop := Monotone (key ∘ p)

/-- The end of `compute_operator`, L567-599: eigenvalues, modes and amplitudes. `argsort` is
`np.argsort`; `[::-1]` is `Fin.rev`. -/
noncomputable def sortResults (st : SortedEigs) (argsort : (Fin l → ℝ) → Equiv.Perm (Fin l))
    (om : Fin l → ℂ) (M : Fin n → Fin l → Option ℂ) (ef : Fin l → ℝ) :
    Except PyErr ((Fin l → ℂ) × (Fin n → Fin l → Option ℂ) × (Fin l → ℝ)) :=
  if st = .off then .ok (om, M, ef)
  else match sortKey st om with
    | none => .error .valueError
    | some key =>
      let idx : Fin l → Fin l := fun j => argsort key j.rev
      .ok (om ∘ idx, fun i j => M i (idx j), ef ∘ idx)

/-! ### Properties of the fitted instance -/

/-- `ssr`, L729-762: `res` is `opt.fun` of length `2 N` (`N` residuals), so `jac.shape[0] // 2` is
`N` and `jac.shape[1] // 2` is `l`; `size` is the number of the original times. -/
noncomputable def ssr {N : ℕ} (l size : ℕ) (res : Fin N ⊕ Fin N → ℝ) : ℝ :=
  let sigma := √(normSq fun i => (⟨res (.inl i), res (.inr i)⟩ : ℂ))
  let denom : ℤ := max ((size : ℤ) - N - l) 1
  sigma / √(denom : ℝ)

/-- `dynamics`, L802-812. -/
noncomputable def dynamics (om : Fin l → ℂ) (ef : Fin l → ℝ) (time : Fin m → ℝ) :
    Matrix (Fin l) (Fin m) ℂ :=
  Matrix.of fun j i => ef j * Complex.exp (om j * time i)

/-- `reconstructed_data`, dmdbase.py L327-334: `modes.dot(dynamics)`. -/
noncomputable def reconstructed (M : Fin n → Fin l → Option ℂ) (dyn : Matrix (Fin l) (Fin m) ℂ) :
    Fin n → Fin m → Option ℂ := fun i t =>
  nanSum fun j => (M i j).map fun z => z * dyn j t

/-! ### The Jacobian of `BOPDMD` -/

/-- Column `i` of `djac_matrix` as a matrix, bopdmd.py L600-613 (`use_fulljac` adds the second
term). `U, s, V` is the result of `_compute_irank_svd` (`V` by columns), `B` and `res` the current
coefficients and residual. -/
noncomputable def bopJac (fulljac : Bool) (time : Fin m → ℝ) (α : Fin l → ℂ) (U : Matrix (Fin m) (Fin k) ℂ)
    (s : Fin k → ℝ) (V : Matrix (Fin l) (Fin k) ℂ) (B : Matrix (Fin l) (Fin n) ℂ)
    (res : Matrix (Fin m) (Fin n) ℂ) (j : Fin l) : Matrix (Fin m) (Fin n) ℂ :=
  let dphi : Matrix (Fin m) (Fin l) ℂ :=
    Matrix.of fun i j' => if j' = j then time i * Complex.exp (α j * time i) else 0
  let a := (dphi - U * (Uᴴ * dphi)) * B
  if fulljac then a + U * (rdiag fun i => (s i)⁻¹) * Vᴴ * (dphiᴴ * res) else a

end

end Verif.VarPro
