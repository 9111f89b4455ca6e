import Verif.Model.Py
import Verif.Model.Rank
import Mathlib.LinearAlgebra.Matrix.NonsingularInverse
import Mathlib.Analysis.SpecialFunctions.Pow.Real

/-!
# Model of `EDMD`

Source: `/repo/pydmd/edmd.py`, `/repo/pydmd/dmd.py` L48-82. Snapshots are real (sklearn's
`pairwise_kernels` refuses complex data), one column per instant; the kernel is a parameter.
Total least squares (`tlsq_rank`) is not applied. `np.linalg.eig` and `np.argsort` are represented by
what they may return (`Svd`, `Fit`).
-/

set_option autoImplicit false

namespace Verif.Edmd

open Verif Matrix

variable {n : Type}

/-- `pairwise_kernels(Y.T, X.T, ...)`, edmd.py L90-95. -/
def pairwise {a b : ℕ} (k : (n → ℝ) → (n → ℝ) → ℝ) (Y : Matrix n (Fin a) ℝ) (X : Matrix n (Fin b) ℝ) :
    Matrix (Fin a) (Fin b) ℝ :=
  Matrix.of fun i j => k (Y.col i) (X.col j)

/-- `np.linalg.pinv(np.diag(s))` for nonnegative `s`: entries not larger than `1e-15` times the
largest are replaced by zero (numpy's default `rcond`). -/
noncomputable def pinvDiag {r : ℕ} (s : Fin r → ℝ) : Matrix (Fin r) (Fin r) ℝ :=
  open Classical in diagonal fun i => if ∀ j, 1e-15 * s j < s i then (s i)⁻¹ else 0

/-- `_compute_rank_from_svals`, edmd.py L169-184; the slices `[:, :r]` cut at the length. -/
noncomputable def rankFromSvals (s : List ℝ) (svdRank : Rank.SvdRank ℝ) : ℕ :=
  if 0 < svdRank.val ∧ svdRank.val < 1 then
    min (Rank.searchsorted (Rank.cumulativeEnergy s) svdRank.val + 1) s.length
  else match svdRank with
    | .int k => if 1 ≤ k then min k.toNat s.length else s.length
    | _ => s.length

theorem rankFromSvals_le (s : List ℝ) (svdRank : Rank.SvdRank ℝ) :
    rankFromSvals s svdRank ≤ s.length := by
  unfold rankFromSvals
  cases svdRank <;> simp only <;> split_ifs <;> omega

variable {m : ℕ}

/-- `s_vals` from the eigenvalues of the Gramian, edmd.py L150-153. -/
noncomputable def svals (g : Fin m → ℝ) (i : Fin m) : ℝ := Real.sqrt (if g i < 0 then g i * -1 else g i)

/-- The eigenvectors after edmd.py L152. -/
noncomputable def flipped (g : Fin m → ℝ) (E : Matrix (Fin m) (Fin m) ℝ) : Matrix (Fin m) (Fin m) ℝ :=
  Matrix.of fun a i => if g i < 0 then E a i * -1 else E a i

/-- The sorted singular values as list, edmd.py L159. -/
noncomputable def sortedVals (g : Fin m → ℝ) (p : Equiv.Perm (Fin m)) : List ℝ :=
  List.ofFn fun i => svals g (p i)

/-- `r`, edmd.py L160. -/
noncomputable def rank (g : Fin m → ℝ) (p : Equiv.Perm (Fin m)) (svdRank : Rank.SvdRank ℝ) : ℕ :=
  rankFromSvals (sortedVals g p) svdRank

theorem rank_le (g : Fin m → ℝ) (p : Equiv.Perm (Fin m)) (svdRank : Rank.SvdRank ℝ) :
    rank g p svdRank ≤ m := by
  have := rankFromSvals_le (sortedVals g p) svdRank
  rwa [sortedVals, List.length_ofFn] at this

/-- What `_compute_feature_matrix_svd` may return for the Gramian `G`, edmd.py L130-164: `Q` and the
diagonal of `Sigma`. `ortho` is assumed of the eigenvectors of a real symmetric matrix returned by
`np.linalg.eig` (numpy guarantees unit length only). `sorted` is what `np.argsort(-s_vals)`
guarantees. -/
structure Svd (G : Matrix (Fin m) (Fin m) ℝ) (svdRank : Rank.SvdRank ℝ) where
  g : Fin m → ℝ
  E : Matrix (Fin m) (Fin m) ℝ
  eig : G * E = E * diagonal g
  ortho : Eᵀ * E = 1
  p : Equiv.Perm (Fin m)
  sorted : ∀ i j, i ≤ j → svals g (p j) ≤ svals g (p i)

namespace Svd

variable {G : Matrix (Fin m) (Fin m) ℝ} {svdRank : Rank.SvdRank ℝ}

/-- The number of retained columns. -/
noncomputable abbrev r (d : Svd G svdRank) : ℕ := rank d.g d.p svdRank

/-- `Q`, edmd.py L158 and L161. -/
noncomputable def Q (d : Svd G svdRank) : Matrix (Fin m) (Fin d.r) ℝ :=
  (flipped d.g d.E).submatrix id fun i => d.p (Fin.castLE (rank_le _ _ _) i)

/-- The diagonal of `Sigma`, edmd.py L159 and L162. -/
noncomputable def s (d : Svd G svdRank) (i : Fin d.r) : ℝ :=
  svals d.g (d.p (Fin.castLE (rank_le _ _ _) i))

end Svd

/-- `K_hat`, edmd.py L102-104. -/
noncomputable def kHat {r : ℕ} (Q : Matrix (Fin m) (Fin r) ℝ) (s : Fin r → ℝ)
    (A : Matrix (Fin m) (Fin m) ℝ) : Matrix (Fin r) (Fin r) ℝ :=
  pinvDiag s * Qᵀ * A * Q * pinvDiag s

/-- Real matrices as complex ones. -/
noncomputable def toC {a b : Type} (M : Matrix a b ℝ) : Matrix a b ℂ := M.map fun x => (x : ℂ)

/-- `modes` before the selection, edmd.py L110-112. -/
noncomputable def modes {r : ℕ} (X : Matrix n (Fin m) ℝ) (Q : Matrix (Fin m) (Fin r) ℝ) (s : Fin r → ℝ)
    (V : Matrix (Fin r) (Fin r) ℂ) : Matrix n (Fin r) ℂ :=
  toC X * toC Q * toC (pinvDiag s) * (V⁻¹)ᵀ

/-- `nonzero_inds`, edmd.py L115: the indices of the eigenvalues and modes that are stored. -/
def Kept {r : ℕ} (eigs : Fin r → ℂ) (i : Fin r) : Prop := 1e-16 < ‖eigs i‖

/-- What `fit(X, Y)` may leave, edmd.py L89-127 and dmd.py L48-82. Storing the eigenvalues and modes
with `Kept` is left to the statements. `inv` is assumed: otherwise `np.linalg.inv` raises
`LinAlgError` (L111). -/
structure Fit (k : (n → ℝ) → (n → ℝ) → ℝ) (svdRank : Rank.SvdRank ℝ) (X Y : Matrix n (Fin m) ℝ) where
  svd : Svd (pairwise k X X) svdRank
  eigs : Fin svd.r → ℂ
  V : Matrix (Fin svd.r) (Fin svd.r) ℂ
  eig : toC (kHat svd.Q svd.s (pairwise k Y X)) * V = V * diagonal eigs
  inv : IsUnit V

/-- The modes of a fit, before the selection. -/
noncomputable def Fit.modes {k : (n → ℝ) → (n → ℝ) → ℝ} {svdRank : Rank.SvdRank ℝ}
    {X Y : Matrix n (Fin m) ℝ} (f : Fit k svdRank X Y) : Matrix n (Fin f.svd.r) ℂ :=
  Edmd.modes X f.svd.Q f.svd.s f.V

/-- `eigenfunctions(x)` for a 1-D array `x`, edmd.py L262-280. `snapshots` are those of the object, `Q`,
`s` and `V` those of the operator; `multi_dot` raises `ValueError` when the shapes differ. The result
has one entry for each column of `V`. -/
noncomputable def eigenfunctions {N r : ℕ} (k : (n → ℝ) → (n → ℝ) → ℝ) (snapshots : Matrix n (Fin N) ℝ)
    (Q : Matrix (Fin m) (Fin r) ℝ) (s : Fin r → ℝ) (V : Matrix (Fin r) (Fin r) ℂ) (x : n → ℝ) :
    Except PyErr (Fin r → ℂ) :=
  if h : N = m then
    .ok fun i => (toC ((Matrix.of fun (_ : Fin 1) (j : Fin m) => k x (snapshots.col (Fin.cast h.symm j))) * Q *
      pinvDiag s) * V) 0 i
  else .error .valueError

/-- The argument `kernel_params` of the constructor: `None`, a dictionary (accepted by
`pairwise_kernels` with the metric or not), or anything else. -/
inductive Params
  | none
  | dict (accepted : Bool)
  | other

/-- The checks of the constructor, edmd.py L226-234 and L282-303; `metricOk` says if the metric is
accepted without parameters. -/
def init (svdRank : Rank.SvdRank ℝ) [Decidable (svdRank.val = 0)] (metricOk : Bool) (params : Params) :
    Except PyErr Unit :=
  if svdRank.val = 0 then .error .valueError
  else match params with
    | .other => .error .typeError
    | .none => if metricOk then .ok () else .error .valueError
    | .dict accepted => if accepted then .ok () else .error .valueError

/-- The data `fit` passes to the operator, dmd.py L60-70: all snapshots with `Y`, otherwise all but
the last. -/
def inputs {N : ℕ} (X : Matrix n (Fin (N + 1)) ℝ) : Matrix n (Fin N) ℝ × Matrix n (Fin N) ℝ :=
  (X.submatrix id Fin.castSucc, X.submatrix id Fin.succ)

end Verif.Edmd
